import Verif.JsGen.Rel

/-!
# Operations on related values
-/

namespace Verif.JsGen

open Verif.ErlGen (Pattern Const Expr Stmt Clause varsAll M Out Match Op)
open Verif.Strings.Spec (Piece)

variable {single : Text → Bool} {g : List (Text × Nat)} {S : Store}

theorem literal_eq (ps : List Piece) : literal ps = ErlGen.Gleam.literal ps := by
  induction ps with
  | nil => rfl
  | cons p ps ih =>
    simp only [literal, ErlGen.Gleam.literal, ih]
    cases p.value? <;> cases ErlGen.Gleam.literal ps <;> rfl

/-! ### Booleans -/

theorem construct_true : construct tagTrue [] = .bool true := rfl
theorem construct_false : construct tagFalse [] = .bool false := by
  rw [construct, if_neg (by decide), if_pos rfl]
theorem construct_nil : construct tagNil [] = .undefined := by
  rw [construct, if_neg (by decide), if_neg (by decide), if_pos rfl]

theorem VRel.bool (b : Bool) : VRel single g S (ErlGen.Gleam.Value.bool b) (.bool b) := by
  cases b with
  | true => exact VRel.record (tag := tagTrue) .nil
  | false =>
    have := VRel.record (single := single) (g := g) (S := S) (tag := tagFalse) .nil
    rw [construct_false] at this
    exact this

theorem VRel.isTrue {v : GValue} {v' : Value} (h : VRel single g S v v') {b : Bool} (hb : v.isTrue = some b) :
    v = ErlGen.Gleam.Value.bool b ∧ v' = .bool b := by
  cases h with
  | record h =>
    rename_i tag vs vs'
    cases h with
    | nil =>
      simp only [ErlGen.Gleam.Value.isTrue] at hb
      by_cases h1 : tag = "True".toList
      · rw [if_pos h1] at hb
        cases hb
        subst h1
        exact ⟨rfl, rfl⟩
      · rw [if_neg h1] at hb
        by_cases h2 : tag = "False".toList
        · rw [if_pos h2] at hb
          cases hb
          subst h2
          exact ⟨rfl, construct_false⟩
        · rw [if_neg h2] at hb
          cases hb
    | cons _ _ => simp [ErlGen.Gleam.Value.isTrue] at hb
  | _ => simp [ErlGen.Gleam.Value.isTrue] at hb

theorem isTrue_bool (b : Bool) : (ErlGen.Gleam.Value.bool b).isTrue = some b := by cases b <;> decide +kernel

/-! ### Equality -/

theorem both_some {a b : Option Bool} {r : Bool} (h : ErlGen.Gleam.both a b = some r) :
    ∃ x y, a = some x ∧ b = some y ∧ r = (x && y) := by
  cases a <;> cases b <;> simp [ErlGen.Gleam.both] at h
  exact ⟨_, _, rfl, rfl, h.symm⟩

theorem construct_cases (t : Text) : (t = tagTrue ∧ construct t [] = .bool true) ∨ (t = tagFalse ∧ construct t [] = .bool false) ∨
    (t = tagNil ∧ construct t [] = .undefined) ∨ construct t [] = .record t [] := by
  by_cases h1 : t = tagTrue
  · exact .inl ⟨h1, by rw [h1]; rfl⟩
  · by_cases h2 : t = tagFalse
    · exact .inr (.inl ⟨h2, by rw [h2, construct_false]⟩)
    · by_cases h3 : t = tagNil
      · exact .inr (.inr (.inl ⟨h3, by rw [h3, construct_nil]⟩))
      · exact .inr (.inr (.inr (by rw [construct, if_neg h1, if_neg h2, if_neg h3])))

theorem eq_nullary_ne {t u : Text} (h : t ≠ u) : (construct t []).eq (construct u []) = some false := by
  rcases construct_cases t with ⟨h1, e1⟩ | ⟨h1, e1⟩ | ⟨h1, e1⟩ | e1 <;>
    rcases construct_cases u with ⟨h2, e2⟩ | ⟨h2, e2⟩ | ⟨h2, e2⟩ | e2 <;>
    first
    | (exact absurd (h1.trans h2.symm) h)
    | (rw [e1, e2]; simp [Value.eq, h])

theorem eq_nullary_self (t : Text) : (construct t []).eq (construct t []) = some true := by
  simp only [construct]
  by_cases h1 : t = tagTrue
  · simp [h1, Value.eq]
  · by_cases h2 : t = tagFalse
    · rw [if_neg h1, if_pos h2]
      simp [Value.eq]
    · by_cases h3 : t = tagNil
      · rw [if_neg h1, if_neg h2, if_pos h3]
        simp [Value.eq]
      · rw [if_neg h1, if_neg h2, if_neg h3]
        simp [Value.eq, eqAll]

theorem eq_nullary_record (t u : Text) (v : Value) (vs : List Value) (h : t ≠ u) :
    (construct t []).eq (.record u (v :: vs)) = some false ∧ (Value.record u (v :: vs)).eq (construct t []) = some false := by
  simp only [construct]
  by_cases h1 : t = tagTrue
  · simp [h1, Value.eq]
  · by_cases h2 : t = tagFalse
    · rw [if_neg h1, if_pos h2]
      simp [Value.eq]
    · by_cases h3 : t = tagNil
      · rw [if_neg h1, if_neg h2, if_pos h3]
        simp [Value.eq]
      · rw [if_neg h1, if_neg h2, if_neg h3]
        simp [Value.eq, h, Ne.symm h]

mutual

theorem VRel.eq : ∀ {v v' w w' : _} {b : Bool}, VRel single g S v v' → VRel single g S w w' →
    ErlGen.Gleam.Value.eq v w = some b → Value.eq v' w' = some b
  | _, _, _, _, _, .int _, hw, h => by
    cases hw <;> simp only [ErlGen.Gleam.Value.eq, reduceCtorEq] at h
    simpa [Value.eq] using h
  | _, _, _, _, _, .str _, hw, h => by
    cases hw <;> simp only [ErlGen.Gleam.Value.eq, reduceCtorEq] at h
    simpa [Value.eq] using h
  | _, _, _, _, _, .tuple hv, hw, h => by
    cases hw <;> simp only [ErlGen.Gleam.Value.eq, reduceCtorEq] at h
    rename_i hw
    simp only [Value.eq]
    exact VsRel.eq hv hw h
  | _, _, _, _, _, .nil, hw, h => by
    cases hw <;> simp only [ErlGen.Gleam.Value.eq, reduceCtorEq] at h <;> simpa [Value.eq] using h
  | _, _, _, _, _, .cons h1 h2, hw, h => by
    cases hw <;> simp only [ErlGen.Gleam.Value.eq, reduceCtorEq] at h
    · simpa [Value.eq] using h
    · rename_i h3 h4
      obtain ⟨x, y, e1, e2, rfl⟩ := both_some h
      simp only [Value.eq]
      rw [VRel.eq h1 h3 e1, VRel.eq h2 h4 e2]
      rfl
  | _, _, _, _, _, .record (tag := t) hv, hw, h => by
    cases hw <;> simp only [ErlGen.Gleam.Value.eq, reduceCtorEq] at h
    rename_i u _ _ hw
    by_cases ht : t = u
    · subst ht
      rw [if_pos rfl] at h
      cases hv with
      | nil =>
        cases hw with
        | nil =>
          simp only [ErlGen.Gleam.eqAll, Option.some.injEq] at h
          rw [eq_nullary_self, h]
        | cons _ _ => simp [ErlGen.Gleam.eqAll] at h
      | cons h1 h2 =>
        cases hw with
        | nil => simp [ErlGen.Gleam.eqAll] at h
        | cons h3 h4 =>
          simp only [construct, Value.eq, if_true]
          exact VsRel.eq (.cons h1 h2) (.cons h3 h4) h
    · rw [if_neg ht] at h
      cases h
      cases hv with
      | nil =>
        cases hw with
        | nil => exact eq_nullary_ne ht
        | cons _ _ => exact (eq_nullary_record _ _ _ _ ht).1
      | cons _ _ =>
        cases hw with
        | nil => exact (eq_nullary_record _ _ _ _ (Ne.symm ht)).2
        | cons _ _ => simp [construct, Value.eq, ht]
  | _, _, _, _, _, .ctor _ _, _, h => by simp [ErlGen.Gleam.Value.eq] at h
  | _, _, _, _, _, .fn _ _, _, h => by simp [ErlGen.Gleam.Value.eq] at h
  | _, _, _, _, _, .ext _ _ _, _, h => by simp [ErlGen.Gleam.Value.eq] at h
  | _, _, _, _, _, .closure .., _, h => by simp [ErlGen.Gleam.Value.eq] at h

theorem VsRel.eq : ∀ {vs vs' ws ws' : _} {b : Bool}, VsRel single g S vs vs' → VsRel single g S ws ws' →
    ErlGen.Gleam.eqAll vs ws = some b → eqAll vs' ws' = some b
  | _, _, _, _, _, .nil, hw, h => by
    cases hw <;> simp only [ErlGen.Gleam.eqAll, reduceCtorEq] at h
    simpa [eqAll] using h
  | _, _, _, _, _, .cons h1 h2, hw, h => by
    cases hw <;> simp only [ErlGen.Gleam.eqAll, reduceCtorEq] at h
    rename_i h3 h4
    obtain ⟨x, y, e1, e2, rfl⟩ := both_some h
    simp only [eqAll]
    rw [VRel.eq h1 h3 e1, VsRel.eq h2 h4 e2]
    rfl

end

/-! ### Operators -/

theorem binary_rel {op : Op} {v w r : GValue} {v' w' : Value} (hv : VRel single g S v v') (hw : VRel single g S w w')
    (h : ErlGen.Gleam.binary op v w = some r) : ∃ r', (jsOp op).run v' w' = some r' ∧ VRel single g S r r' := by
  cases op with
  | and => simp [ErlGen.Gleam.binary] at h
  | or => simp [ErlGen.Gleam.binary] at h
  | eq =>
    simp only [ErlGen.Gleam.binary, Option.map_eq_some_iff] at h
    obtain ⟨b, h1, rfl⟩ := h
    refine ⟨.bool b, ?_, .bool b⟩
    simp [jsOp, BinOp.run, VRel.eq hv hw h1]
  | notEq =>
    simp only [ErlGen.Gleam.binary, Option.map_eq_some_iff] at h
    obtain ⟨b, h1, rfl⟩ := h
    refine ⟨.bool !b, ?_, .bool _⟩
    simp [jsOp, BinOp.run, VRel.eq hv hw h1]
  | concat =>
    cases hv <;> cases hw <;> simp only [ErlGen.Gleam.binary, reduceCtorEq, Option.some.injEq] at h
    subst h
    exact ⟨_, rfl, .str _⟩
  | lt | le | gt | ge =>
    cases hv <;> cases hw <;> simp only [ErlGen.Gleam.binary, reduceCtorEq, Option.some.injEq] at h
    subst h
    exact ⟨_, rfl, .bool _⟩
  | _ =>
    cases hv <;> cases hw <;> simp only [ErlGen.Gleam.binary, reduceCtorEq, Option.some.injEq] at h
    subst h
    exact ⟨_, rfl, .int _⟩

/-! ### Constants -/

mutual

theorem constant_rel : ∀ (c : Const) {v : GValue}, ErlGen.Gleam.constant c = some v →
    ∃ v', constant c = some v' ∧ VRel single g S v v'
  | .int n, v, h => by
    simp only [ErlGen.Gleam.constant, Option.some.injEq] at h
    subst h
    exact ⟨_, by simp only [constant], .int n⟩
  | .string ps, v, h => by
    simp only [ErlGen.Gleam.constant, Option.map_eq_some_iff] at h
    obtain ⟨s, h1, rfl⟩ := h
    exact ⟨.str s, by simp [constant, literal_eq, h1], .str s⟩
  | .tuple cs, v, h => by
    simp only [ErlGen.Gleam.constant, Option.map_eq_some_iff] at h
    obtain ⟨vs, h1, rfl⟩ := h
    obtain ⟨vs', h2, h3⟩ := constants_rel cs h1
    exact ⟨.array vs', by simp [constant, h2], .tuple h3⟩
  | .nil, v, h => by
    simp only [ErlGen.Gleam.constant, Option.some.injEq] at h
    subst h
    exact ⟨_, by simp only [constant], .nil⟩
  | .cons c d, v, h => by
    simp only [ErlGen.Gleam.constant] at h
    cases h1 : ErlGen.Gleam.constant c with
    | none => simp [h1] at h
    | some a =>
      cases h2 : ErlGen.Gleam.constant d with
      | none => simp [h1, h2] at h
      | some b =>
        simp only [h1, h2, Option.some.injEq] at h
        subst h
        obtain ⟨a', e1, r1⟩ := constant_rel c h1
        obtain ⟨b', e2, r2⟩ := constant_rel d h2
        exact ⟨.nonEmpty a' b', by simp [constant, e1, e2], .cons r1 r2⟩
  | .record tag cs, v, h => by
    simp only [ErlGen.Gleam.constant, Option.map_eq_some_iff] at h
    obtain ⟨vs, h1, rfl⟩ := h
    obtain ⟨vs', h2, h3⟩ := constants_rel cs h1
    exact ⟨construct tag vs', by simp [constant, h2], .record h3⟩

theorem constants_rel : ∀ (cs : List Const) {vs : List GValue}, ErlGen.Gleam.constants cs = some vs →
    ∃ vs', constants cs = some vs' ∧ VsRel single g S vs vs'
  | [], vs, h => by
    simp only [ErlGen.Gleam.constants, Option.some.injEq] at h
    subst h
    exact ⟨[], by simp only [constants], .nil⟩
  | c :: cs, v, h => by
    simp only [ErlGen.Gleam.constants] at h
    cases h1 : ErlGen.Gleam.constant c with
    | none => simp [h1] at h
    | some a =>
      cases h2 : ErlGen.Gleam.constants cs with
      | none => simp [h1, h2] at h
      | some b =>
        simp only [h1, h2, Option.some.injEq] at h
        subst h
        obtain ⟨a', e1, r1⟩ := constant_rel c h1
        obtain ⟨b', e2, r2⟩ := constants_rel cs h2
        exact ⟨a' :: b', by simp [constants, e1, e2], .cons r1 r2⟩

end

/-! ### Patterns -/

/-- The variables of a pattern and their values. -/
inductive BRel (single : Text → Bool) (g : List (Text × Nat)) (S : Store) : List (Text × GValue) → List (Text × Value) → Prop
  | nil : BRel single g S [] []
  | cons {x v v' b b'} : VRel single g S v v' → BRel single g S b b' → BRel single g S ((x, v) :: b) ((x, v') :: b')

theorem BRel.append {a a' b b' : _} (h : BRel single g S a a') (h' : BRel single g S b b') : BRel single g S (a ++ b) (a' ++ b') := by
  induction h with
  | nil => exact h'
  | cons hv _ ih => exact .cons hv ih

theorem BRel.keep {S' : Store} (hk : Keep S S') {b b' : _} (h : BRel single g S b b') : BRel single g S' b b' := by
  induction h with
  | nil => exact .nil
  | cons hv _ ih => exact .cons (hv.keep hk) ih

theorem BRel.lookup {b b' : _} (h : BRel single g S b b') {x : Text} {v : GValue} (hv : b.lookup x = some v) :
    ∃ v', b'.lookup x = some v' ∧ VRel single g S v v' := by
  induction h with
  | nil => simp at hv
  | cons hr _ ih =>
    rename_i y _ _ _ _ _
    simp only [List.lookup_cons] at hv ⊢
    by_cases hxy : x = y
    · subst hxy
      simp only [beq_self_eq_true, Option.some.injEq] at hv ⊢
      subst hv
      exact ⟨_, rfl, hr⟩
    · have : (x == y) = false := by simp [hxy]
      simp only [this] at hv ⊢
      exact ih hv

/-- The outcomes of a match. -/
def MatchRel (single : Text → Bool) (g : List (Text × Nat)) (S : Store) : Match GValue → Match Value → Prop
  | .bad, _ => True
  | .no, r => r = .no
  | .yes b, r => ∃ b', r = .yes b' ∧ BRel single g S b b'

theorem afterPrefix_eq (a b : List Char) : afterPrefix a b = ErlGen.Gleam.stripPrefix a b := by
  induction a generalizing b with
  | nil => cases b <;> rfl
  | cons c a ih =>
    cases b with
    | nil => rfl
    | cons d b => simp only [afterPrefix, ErlGen.Gleam.stripPrefix, ih]

theorem bindOption_rel (x : Option (Text × Nat)) {v : GValue} {v' : Value} (h : VRel single g S v v') :
    BRel single g S (ErlGen.Gleam.bindOption x v) (bindOption x v') := by
  cases x with
  | none => exact .nil
  | some x => exact .cons h .nil

theorem check_ctor_nullary (tag t : Text) (ps : List Pattern) :
    check (.ctor tag ps) (construct t []) = if tag = t then checkAll ps [] else .no := by
  simp only [construct]
  by_cases h1 : t = tagTrue
  · simp [h1, check, boolTag]
  · by_cases h2 : t = tagFalse
    · rw [if_neg h1, if_pos h2]
      simp [check, boolTag, h2]
    · by_cases h3 : t = tagNil
      · rw [if_neg h1, if_neg h2, if_pos h3]
        simp [check, h3]
      · rw [if_neg h1, if_neg h2, if_neg h3]
        simp [check]

/-- One match after another. -/
def seqMatch {β : Type} : Match β → Match β → Match β
  | .yes b, .yes c => .yes (b ++ c)
  | .yes _, r => r
  | .no, _ => .no
  | .bad, _ => .bad

theorem run_cons (p q : Pattern) (v w : GValue) : ErlGen.Gleam.Pattern.run (.cons p q) (.cons v w) =
    seqMatch (ErlGen.Gleam.Pattern.run p v) (ErlGen.Gleam.Pattern.run q w) := by
  simp only [ErlGen.Gleam.Pattern.run]
  cases ErlGen.Gleam.Pattern.run p v <;> cases ErlGen.Gleam.Pattern.run q w <;> rfl

theorem runAll_cons (p : Pattern) (ps : List Pattern) (v : GValue) (vs : List GValue) :
    ErlGen.Gleam.Pattern.runAll (p :: ps) (v :: vs) =
      seqMatch (ErlGen.Gleam.Pattern.run p v) (ErlGen.Gleam.Pattern.runAll ps vs) := by
  simp only [ErlGen.Gleam.Pattern.runAll]
  cases ErlGen.Gleam.Pattern.run p v <;> cases ErlGen.Gleam.Pattern.runAll ps vs <;> rfl

theorem check_cons (p q : Pattern) (v w : Value) : check (.cons p q) (.nonEmpty v w) = seqMatch (check p v) (check q w) := by
  simp only [check]
  cases check p v <;> cases check q w <;> rfl

theorem checkAll_cons (p : Pattern) (ps : List Pattern) (v : Value) (vs : List Value) :
    checkAll (p :: ps) (v :: vs) = seqMatch (check p v) (checkAll ps vs) := by
  simp only [checkAll]
  cases check p v <;> cases checkAll ps vs <;> rfl

theorem matchRel_seq {r : Match GValue} {r' : Match Value} {q : Match GValue} {q' : Match Value}
    (h : MatchRel single g S r r') (h' : MatchRel single g S q q') : MatchRel single g S (seqMatch r q) (seqMatch r' q') := by
  cases r with
  | bad => trivial
  | no =>
    have e : r' = .no := h
    subst e
    rfl
  | yes b =>
    obtain ⟨b', rfl, hb⟩ := h
    cases q with
    | bad => trivial
    | no =>
      have e : q' = .no := h'
      subst e
      rfl
    | yes c =>
      obtain ⟨c', rfl, hc⟩ := h'
      exact ⟨_, rfl, hb.append hc⟩

mutual

theorem check_rel : ∀ (p : Pattern) {v : GValue} {v' : Value}, VRel single g S v v' →
    MatchRel single g S (ErlGen.Gleam.Pattern.run p v) (check p v')
  | .discard, _, _, _ => by
    simp only [ErlGen.Gleam.Pattern.run, check]
    exact ⟨_, rfl, .nil⟩
  | .int n, _, _, h => by
    cases h <;> simp only [ErlGen.Gleam.Pattern.run, check] <;> try trivial
    split
    · exact ⟨_, rfl, .nil⟩
    · rfl
  | .string ps, _, _, h => by
    cases h <;> simp only [ErlGen.Gleam.Pattern.run] <;> try trivial
    simp only [check, literal_eq]
    cases ErlGen.Gleam.literal ps with
    | none => trivial
    | some t =>
      simp only
      split
      · exact ⟨_, rfl, .nil⟩
      · rfl
  | .var x _, _, _, h => by
    simp only [ErlGen.Gleam.Pattern.run, check]
    exact ⟨_, rfl, .cons h .nil⟩
  | .assign p x _, v, v', h => by
    have h1 := check_rel p h
    simp only [ErlGen.Gleam.Pattern.run, check]
    cases hr : ErlGen.Gleam.Pattern.run p v with
    | bad => trivial
    | no =>
      rw [hr] at h1
      have e : check p v' = .no := h1
      rw [e]
      rfl
    | yes b =>
      rw [hr] at h1
      obtain ⟨b', e, hb⟩ := h1
      rw [e]
      exact ⟨_, rfl, hb.append (.cons h .nil)⟩
  | .tuple ps, _, _, h => by
    cases h <;> simp only [ErlGen.Gleam.Pattern.run] <;> try trivial
    rename_i h
    simp only [check]
    exact checkAll_rel ps h
  | .nil, _, _, h => by
    cases h <;> simp only [ErlGen.Gleam.Pattern.run, check] <;> try trivial
    exact ⟨_, rfl, .nil⟩
  | .cons p q, _, _, h => by
    cases h <;> try (simp only [ErlGen.Gleam.Pattern.run, check]; trivial)
    rename_i h1 h2
    rw [run_cons, check_cons]
    exact matchRel_seq (check_rel p h1) (check_rel q h2)
  | .ctor tag ps, _, _, h => by
    cases h <;> simp only [ErlGen.Gleam.Pattern.run] <;> try trivial
    rename_i t vs vs' h
    cases h with
    | nil =>
      rw [check_ctor_nullary]
      by_cases ht : tag = t
      · rw [if_pos ht, if_pos ht]
        exact checkAll_rel ps .nil
      · rw [if_neg ht, if_neg ht]
        rfl
    | cons h1 h2 =>
      simp only [construct, check]
      by_cases ht : tag = t
      · rw [if_pos ht, if_pos ht]
        exact checkAll_rel ps (.cons h1 h2)
      · rw [if_neg ht, if_neg ht]
        rfl
  | .prefix ps left right, _, _, h => by
    cases h <;> simp only [ErlGen.Gleam.Pattern.run] <;> try trivial
    rename_i s
    simp only [check, literal_eq, afterPrefix_eq]
    cases ErlGen.Gleam.literal ps with
    | none => trivial
    | some t =>
      simp only
      cases ErlGen.Gleam.stripPrefix t s with
      | none => rfl
      | some rest => exact ⟨_, rfl, (bindOption_rel left (.str t)).append (bindOption_rel right (.str rest))⟩

theorem checkAll_rel : ∀ (ps : List Pattern) {vs : List GValue} {vs' : List Value}, VsRel single g S vs vs' →
    MatchRel single g S (ErlGen.Gleam.Pattern.runAll ps vs) (checkAll ps vs')
  | [], _, _, h => by
    cases h with
    | nil =>
      simp only [ErlGen.Gleam.Pattern.runAll, checkAll]
      exact ⟨_, rfl, .nil⟩
    | cons _ _ => simp only [ErlGen.Gleam.Pattern.runAll]; trivial
  | p :: ps, _, _, h => by
    cases h with
    | nil => simp only [ErlGen.Gleam.Pattern.runAll]; trivial
    | cons h1 h2 =>
      rw [runAll_cons, checkAll_cons]
      exact matchRel_seq (check_rel p h1) (checkAll_rel ps h2)

end

theorem choose_rel {env : GEnv} {alts : List (List Pattern)} {vs : List GValue} {vs' : List Value} (h : VsRel single g S vs vs') :
    MatchRel single g S (ErlGen.Gleam.choose env none alts vs) (checkAny alts vs') := by
  induction alts with
  | nil => rfl
  | cons ps alts ih =>
    simp only [ErlGen.Gleam.choose, checkAny, h.length]
    by_cases hl : ps.length = vs'.length
    · rw [if_pos hl, if_pos hl]
      have h1 := checkAll_rel ps h
      cases hr : ErlGen.Gleam.Pattern.runAll ps vs with
      | bad => trivial
      | no =>
        rw [hr] at h1
        have e : checkAll ps vs' = .no := h1
        rw [e]
        exact ih
      | yes b =>
        rw [hr] at h1
        obtain ⟨b', e, hb⟩ := h1
        rw [e]
        exact ⟨_, rfl, hb⟩
    · rw [if_neg hl, if_neg hl]
      trivial

end Verif.JsGen
