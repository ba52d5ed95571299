import Verif.ErlGen.Basic

/-!
# Patterns match the same values
-/

namespace Verif.ErlGen

open Verif.ErlText (Text Term astAll chain)
open Verif.Strings.Spec (Piece text UpperCamel)

/-- The names that variables get. -/
def namesOf (s : State) (vs : List (Text × Loc)) : List Text := vs.map fun v => nameOf v.1 (s.count v.1)

theorem namesOf_append (s : State) (vs ws : List (Text × Loc)) : namesOf s (vs ++ ws) = namesOf s vs ++ namesOf s ws := by
  simp [namesOf]

/-- Different variables with names that variables can have. -/
def Vars (vs : List (Text × Loc)) : Prop := (vs.map Prod.fst).Nodup ∧ ∀ x ∈ vs.map Prod.fst, VariableName x

theorem Vars.left {vs ws : List (Text × Loc)} (h : Vars (vs ++ ws)) : Vars vs := by
  unfold Vars at *
  rw [List.map_append] at h
  exact ⟨(List.nodup_append.1 h.1).1, fun x hx => h.2 x (List.mem_append_left _ hx)⟩

theorem Vars.right {vs ws : List (Text × Loc)} (h : Vars (vs ++ ws)) : Vars ws := by
  unfold Vars at *
  rw [List.map_append] at h
  exact ⟨(List.nodup_append.1 h.1).2.1, fun x hx => h.2 x (List.mem_append_right _ hx)⟩

theorem Vars.perm {vs ws : List (Text × Loc)} (h : Vars vs) (hp : vs.Perm ws) : Vars ws :=
  ⟨(hp.map Prod.fst).nodup_iff.1 h.1, fun x hx => h.2 x ((hp.map Prod.fst).mem_iff.2 hx)⟩

theorem Vars.now {p : Pattern} (h : Vars p.vars) : Vars p.now := (h.perm (vars_perm p)).left

theorem Vars.nowAll {ps : List Pattern} (h : Vars (varsAll ps)) : Vars (nowAll ps) := (h.perm (varsAll_perm ps)).left

theorem count_defineAll (s : State) {vs : List (Text × Loc)} {x : Text} (hx : VariableName x) (h : x ∉ vs.map Prod.fst) :
    (defineAll s vs).count x = s.count x := by
  have hr : x ≠ reserved := hx.2
  simp only [State.count, if_neg hr, (defineAll_step s vs).taken, List.count_eq_zero.2 h]
  omega

theorem namesOf_defineAll (s : State) {vs ws : List (Text × Loc)} (h : Vars (vs ++ ws)) :
    namesOf (defineAll s vs) ws = namesOf s ws := by
  unfold namesOf
  apply List.map_congr_left
  intro v hv
  have hm : v.1 ∈ ws.map Prod.fst := List.mem_map.2 ⟨v, hv, rfl⟩
  have hx := h.right.2 v.1 hm
  have h1 := h.1
  rw [List.map_append] at h1
  rw [count_defineAll s hx fun hc => (List.nodup_append.1 h1).2.2 _ hc _ hm rfl]

theorem namesOf_nodup (s : State) {vs : List (Text × Loc)} (h : Vars vs) : (namesOf s vs).Nodup := by
  induction vs with
  | nil => simp [namesOf]
  | cons v vs ih =>
    have h' : Vars vs := by
      have : Vars ([v] ++ vs) := h
      exact this.right
    simp only [namesOf, List.map_cons, List.nodup_cons]
    refine ⟨?_, ih h'⟩
    intro hc
    obtain ⟨w, hw, he⟩ := List.mem_map.1 hc
    have h1 := h.1
    simp only [List.map_cons, List.nodup_cons] at h1
    have hwm : w.1 ∈ vs.map Prod.fst := List.mem_map.2 ⟨w, hw, rfl⟩
    have := nameOf_inj (h'.2 _ hwm).1 (h.2 v.1 (by simp)).1 he
    rw [this.1] at hwm
    exact h1.1 hwm

mutual

/-- The state after a pattern. -/
theorem tPattern_now (s : State) (later : Later) : ∀ p : Pattern, (tPattern s later p).2.1 = defineAll s p.now
  | .discard => rfl
  | .int _ => rfl
  | .string _ => rfl
  | .var _ _ => rfl
  | .assign p x l => by simp only [tPattern, Pattern.now, defineAll_append, tPattern_now s later p, defineAll]
  | .tuple ps => by simp only [tPattern, Pattern.now, tPatterns_now s later ps]
  | .nil => rfl
  | .cons p q => by
    simp only [tPattern, Pattern.now, defineAll_append, tPattern_now s later p, tPattern_now _ _ q]
  | .ctor _ [] => rfl
  | .ctor _ (p :: ps) => by
    simp only [tPattern, Pattern.now, nowAll, defineAll_append, tPattern_now s later p, tPatterns_now _ _ ps]
  | .prefix _ _ right => by cases right <;> rfl

theorem tPatterns_now (s : State) (later : Later) : ∀ ps : List Pattern,
    (tPatterns s later ps).2.1 = defineAll s (nowAll ps)
  | [] => rfl
  | p :: ps => by
    simp only [tPatterns, nowAll, defineAll_append, tPattern_now s later p, tPatterns_now _ _ ps]

end

/-! ### Matching -/

/-- What a match of Gleam says about a match of Erlang. -/
def Bound (as : List (Text × Loc × List Piece)) (now : List (Text × Loc)) (s : State) (b : Gleam.Env) (b' : Erlang.Env) :
    Prop :=
  (Erlang.keys b').Perm (namesOf s now) ∧
  ∀ x w, (x, w) ∈ b →
    (∃ l ps t, (x, l, ps) ∈ as ∧ Gleam.literal ps = some t ∧ w = .str t) ∨
    ∃ w', (nameOf x (s.count x), w') ∈ b' ∧ VRel w w' ∧ x ∈ now.map Prod.fst

def MatchRel (as : List (Text × Loc × List Piece)) (now : List (Text × Loc)) (s : State) :
    Match Gleam.Value → Match Erlang.Value → Prop
  | .bad, _ => True
  | .no, r => r = .no
  | .yes b, r => ∃ b', r = .yes b' ∧ Bound as now s b b'

theorem stripPrefix_eq : ∀ a b, Gleam.stripPrefix a b = Erlang.stripPrefix a b
  | [], _ => by simp [Gleam.stripPrefix, Erlang.stripPrefix]
  | _ :: _, [] => by simp [Gleam.stripPrefix, Erlang.stripPrefix]
  | c :: cs, d :: ds => by simp [Gleam.stripPrefix, Erlang.stripPrefix, stripPrefix_eq cs ds]

theorem Bound.join {as as2 : List (Text × Loc × List Piece)} {now now2 : List (Text × Loc)} {s : State}
    {b c : Gleam.Env} {b' c' : Erlang.Env} (hv : Vars (now ++ now2)) (hb : Bound as now s b b')
    (hc : Bound as2 now2 (defineAll s now) c c') :
    Erlang.join b' c' = some (b' ++ c') ∧ Bound (as ++ as2) (now ++ now2) s (b ++ c) (b' ++ c') := by
  obtain ⟨hb1, hb2⟩ := hb
  obtain ⟨hc1, hc2⟩ := hc
  rw [namesOf_defineAll s hv] at hc1
  have hn := namesOf_nodup s hv
  rw [namesOf_append] at hn
  refine ⟨?_, ?_, ?_⟩
  · apply join_disjoint
    intro n h1 h2
    exact (List.nodup_append.1 hn).2.2 n (hb1.mem_iff.1 h1) n (hc1.mem_iff.1 h2) rfl
  · rw [keys_append, namesOf_append]
    exact hb1.append hc1
  · intro x w hx
    rcases List.mem_append.1 hx with hx | hx
    · rcases hb2 x w hx with ⟨l, ps, t, h1, h2⟩ | ⟨w', h1, h2, h3⟩
      · exact Or.inl ⟨l, ps, t, List.mem_append_left _ h1, h2⟩
      · refine Or.inr ⟨w', List.mem_append_left _ h1, h2, ?_⟩
        rw [List.map_append]
        exact List.mem_append_left _ h3
    · rcases hc2 x w hx with ⟨l, ps, t, h1, h2⟩ | ⟨w', h1, h2, h3⟩
      · exact Or.inl ⟨l, ps, t, List.mem_append_right _ h1, h2⟩
      · have hxv := hv.right.2 x h3
        have hnd := hv.1
        rw [List.map_append] at hnd
        rw [count_defineAll s hxv fun hc => (List.nodup_append.1 hnd).2.2 _ hc _ h3 rfl] at h1
        refine Or.inr ⟨w', List.mem_append_right _ h1, h2, ?_⟩
        rw [List.map_append]
        exact List.mem_append_right _ h3

theorem chain_simple (s : State) (later : Later) {p : Pattern} (h : p.isAssign = false) (c : ErlText.Read.Ast) :
    chain ((tPattern s later p).1.ast false) c = .binary .bind ((tPattern s later p).1.ast false) c := by
  match p with
  | .discard => rfl
  | .int (.ofNat _) => rfl
  | .int (.negSucc _) => rfl
  | .string _ => rfl
  | .var _ _ => rfl
  | .assign _ _ _ => simp [Pattern.isAssign] at h
  | .tuple _ => rfl
  | .nil => rfl
  | .cons _ _ => rfl
  | .ctor _ [] => rfl
  | .ctor _ (_ :: _) => rfl
  | .prefix _ _ _ => rfl

theorem bound_empty (as : List (Text × Loc × List Piece)) (s : State) : Bound as [] s [] [] :=
  ⟨List.Perm.refl _, by intro x w h; simp at h⟩

theorem bound_one (as : List (Text × Loc × List Piece)) (s : State) (x : Text) (l : Loc) {v : Gleam.Value}
    {v' : Erlang.Value} (h : VRel v v') : Bound as [(x, l)] s [(x, v)] [(nameOf x (s.count x), v')] := by
  refine ⟨List.Perm.refl _, ?_⟩
  intro y w hy
  simp only [List.mem_singleton, Prod.mk.injEq] at hy
  obtain ⟨rfl, rfl⟩ := hy
  exact Or.inr ⟨v', by simp, h, by simp⟩

theorem bindVar_new {s : State} {x : Text} (hx : VariableName x) (l : Loc) (v : Erlang.Value) :
    Erlang.bindVar (s.newVar x l).1 v = .yes [(nameOf x (s.count x), v)] := by
  unfold Erlang.bindVar
  rw [newVar_name s hx l, if_neg (nameOf_underscore hx.1 _)]

theorem match_int {n : Int} {v : Gleam.Value} {v' : Erlang.Value} (h : VRel v v') (s : State) :
    MatchRel [] [] s (Gleam.Pattern.run (.int n) v) (Erlang.pattern (Term.ast false (.int n)) v') := by
  cases h with
  | int m =>
    simp only [Gleam.Pattern.run]
    have he : Erlang.pattern (Term.ast false (.int n)) (.int m) = if n = m then .yes [] else .no := by
      cases n with
      | ofNat k => simp only [Term.ast, Erlang.pattern]; rfl
      | negSucc k => simp only [Term.ast, Erlang.pattern]; rfl
    rw [he]
    split
    · exact ⟨[], rfl, bound_empty _ _⟩
    · rfl
  | _ => simp [Gleam.Pattern.run, MatchRel]

theorem match_string {ps : List Piece} {v : Gleam.Value} {v' : Erlang.Value} (h : VRel v v') (s : State) :
    MatchRel [] [] s (Gleam.Pattern.run (.string ps) v) (Erlang.pattern (Term.ast false (.string (text ps))) v') := by
  cases h with
  | str m =>
    simp only [Gleam.Pattern.run]
    cases hl : Gleam.literal ps with
    | none => trivial
    | some t =>
      simp only [Term.ast, Bool.false_eq_true, if_false, Erlang.pattern, string_literal hl]
      split
      · exact ⟨[], rfl, bound_empty _ _⟩
      · rfl
  | _ => simp [Gleam.Pattern.run, MatchRel]

theorem pattern_prefix (s : State) (ps : List Piece) (left right : Option (Text × Loc))
    (hv : Vars (Pattern.prefix ps left right).vars) {v : Gleam.Value} {v' : Erlang.Value} (h : VRel v v') (later : Later) :
    MatchRel (Pattern.prefix ps left right).aliases (Pattern.prefix ps left right).now s
      (Gleam.Pattern.run (.prefix ps left right) v)
      (Erlang.pattern ((tPattern s later (.prefix ps left right)).1.ast false) v') := by
  cases h with
  | str m =>
    simp only [Gleam.Pattern.run]
    cases hl : Gleam.literal ps with
    | none => trivial
    | some t =>
      have he : ∀ x, (tRight s right).1.ast true = .var x →
          Erlang.pattern ((tPattern s later (.prefix ps left right)).1.ast false) (.str m) =
            match Erlang.stripPrefix t m with
            | some rest => Erlang.bindVar x (.str rest)
            | none => .no := by
        intro x hx
        simp only [tPattern, Term.ast, ErlText.segmentAst, if_true, hx,
          show ErlText.specTypes [.utf8] = [(['u', 't', 'f', '8'], none)] from rfl,
          show ErlText.specTypes [.binary] = [(['b', 'i', 'n', 'a', 'r', 'y'], none)] from rfl,
          Erlang.pattern, string_literal hl]
        rfl
      simp only [stripPrefix_eq]
      have hal : ∀ x w, (x, w) ∈ Gleam.bindOption left (.str t) →
          ∃ l ps' t', (x, l, ps') ∈ (Pattern.prefix ps left right).aliases ∧ Gleam.literal ps' = some t' ∧ w = .str t' := by
        intro x w hx
        cases left with
        | none => simp [Gleam.bindOption] at hx
        | some y =>
          simp only [Gleam.bindOption, List.mem_singleton, Prod.mk.injEq] at hx
          exact ⟨y.2, ps, t, by simp [Pattern.aliases, hx.1], hl, hx.2⟩
      cases right with
      | none =>
        rw [he ['_'] rfl]
        cases Erlang.stripPrefix t m with
        | none => rfl
        | some rest =>
          refine ⟨[], rfl, List.Perm.refl _, ?_⟩
          intro x w hx
          simp only [Gleam.bindOption, List.append_nil] at hx
          exact Or.inl (hal x w hx)
      | some y =>
        obtain ⟨y, l⟩ := y
        have hy : VariableName y := hv.2 y (by simp [Pattern.vars])
        rw [he (s.newVar y l).1 rfl]
        cases Erlang.stripPrefix t m with
        | none => rfl
        | some rest =>
          refine ⟨_, bindVar_new hy l _, List.Perm.refl _, ?_⟩
          intro x w hx
          rcases List.mem_append.1 hx with hx | hx
          · exact Or.inl (hal x w hx)
          · simp only [Gleam.bindOption, List.mem_singleton, Prod.mk.injEq] at hx
            obtain ⟨rfl, rfl⟩ := hx
            exact Or.inr ⟨_, List.mem_singleton.2 rfl, VRel.str rest, by simp [Pattern.now]⟩
  | _ => simp [Gleam.Pattern.run, MatchRel]

/-- Both parts have to match. -/
def gBoth : Match Gleam.Value → Match Gleam.Value → Match Gleam.Value
  | .yes b, .yes c => .yes (b ++ c)
  | .yes _, r => r
  | r, _ => r

theorem run_cons (p q : Pattern) (v w : Gleam.Value) :
    Gleam.Pattern.run (.cons p q) (.cons v w) = gBoth (Gleam.Pattern.run p v) (Gleam.Pattern.run q w) := by
  rw [Gleam.Pattern.run]
  cases Gleam.Pattern.run p v <;> cases Gleam.Pattern.run q w <;> rfl

theorem runAll_cons (p : Pattern) (ps : List Pattern) (v : Gleam.Value) (vs : List Gleam.Value) :
    Gleam.Pattern.runAll (p :: ps) (v :: vs) = gBoth (Gleam.Pattern.run p v) (Gleam.Pattern.runAll ps vs) := by
  rw [Gleam.Pattern.runAll]
  cases Gleam.Pattern.run p v <;> cases Gleam.Pattern.runAll ps vs <;> rfl

/-- Both parts. -/
theorem MatchRel.both {as as2 : List (Text × Loc × List Piece)} {now now2 : List (Text × Loc)} {s : State}
    {m m2 : Match Gleam.Value} {n n2 : Match Erlang.Value} (hv : Vars (now ++ now2)) (h : MatchRel as now s m n)
    (h2 : MatchRel as2 now2 (defineAll s now) m2 n2) :
    MatchRel (as ++ as2) (now ++ now2) s
      (gBoth m m2) (Erlang.both n n2) := by
  cases m with
  | bad => trivial
  | no =>
    simp only [MatchRel] at h ⊢
    subst h
    rfl
  | yes b =>
    obtain ⟨b', rfl, hb⟩ := h
    cases m2 with
    | bad => trivial
    | no =>
      simp only [MatchRel] at h2 ⊢
      subst h2
      rfl
    | yes c =>
      obtain ⟨c', rfl, hc⟩ := h2
      obtain ⟨h1, h2⟩ := hb.join hv hc
      exact ⟨b' ++ c', by simp [Erlang.both, h1], h2⟩

theorem both_empty (r : Match Erlang.Value) : Erlang.both (.yes []) r = r := by
  cases r <;> simp [Erlang.both, Erlang.join, Erlang.keys]

mutual

theorem tPattern_sim (s : State) (later : Later) : ∀ p : Pattern, p.Parts → Vars p.vars →
    ∀ {v : Gleam.Value} {v' : Erlang.Value}, VRel v v' →
    MatchRel p.aliases p.now s (Gleam.Pattern.run p v) (Erlang.pattern ((tPattern s later p).1.ast false) v')
  | .discard, _, _, v, v', _ => by
    simp only [Gleam.Pattern.run, tPattern, Term.ast, Erlang.pattern]
    exact ⟨[], rfl, bound_empty _ _⟩
  | .int n, _, _, v, v', h => match_int h s
  | .string ps, _, _, v, v', h => match_string h s
  | .var x l, _, hv, v, v', h => by
    simp only [Gleam.Pattern.run, tPattern, Term.ast, Erlang.pattern]
    exact ⟨_, bindVar_new (hv.2 x (by simp [Pattern.vars])) l v', bound_one _ _ x l h⟩
  | .assign p x l, hp, hv, v, v', h => by
    simp only [Pattern.Parts] at hp
    simp only [Pattern.vars] at hv
    have ih := tPattern_sim s later p hp.2 hv.left h
    have hx : VariableName x := hv.2 x (by simp)
    have hnow : Vars (p.now ++ [(x, l)]) := by
      have : Vars ((Pattern.assign p x l).now) := Vars.now (p := .assign p x l) hv
      exact this
    simp only [Gleam.Pattern.run, tPattern, Term.ast]
    rw [chain_simple s later hp.1]
    simp only [Erlang.pattern, tPattern_now, bindVar_new hx]
    cases hr : Gleam.Pattern.run p v with
    | bad => trivial
    | no =>
      rw [hr] at ih
      simp only [MatchRel] at ih ⊢
      rw [ih]
      rfl
    | yes b =>
      rw [hr] at ih
      obtain ⟨b', h1, h2⟩ := ih
      obtain ⟨-, h4⟩ := h2.join (as2 := []) hnow (bound_one [] (defineAll s p.now) x l h)
      have hperm : (Erlang.keys ([(nameOf x ((defineAll s p.now).count x), v')] ++ b')).Perm
          (Erlang.keys (b' ++ [(nameOf x ((defineAll s p.now).count x), v')])) := by
        rw [keys_append, keys_append]
        exact List.perm_append_comm
      have hn := (h4.1.nodup_iff.2 (namesOf_nodup s hnow))
      have hn' := hperm.nodup_iff.2 hn
      rw [keys_append] at hn'
      refine ⟨[(nameOf x ((defineAll s p.now).count x), v')] ++ b', ?_, hperm.trans h4.1, ?_⟩
      · rw [h1]
        simp only [Erlang.both]
        rw [join_disjoint fun n h5 h6 => (List.nodup_append.1 hn').2.2 n h5 n h6 rfl]
      · intro y w hy
        rcases h4.2 y w hy with ⟨l', ps, t, h5, h6⟩ | ⟨w', h5, h6⟩
        · exact Or.inl ⟨l', ps, t, by simpa [Pattern.aliases] using h5, h6⟩
        · exact Or.inr ⟨w', (List.perm_append_comm (l₁ := b')).mem_iff.1 h5, h6⟩
  | .tuple ps, hp, hv, v, v', h => by
    simp only [Pattern.Parts] at hp
    simp only [Pattern.vars] at hv
    cases h with
    | tuple h1 =>
      simp only [Gleam.Pattern.run, tPattern, Term.ast, Erlang.pattern]
      exact tPatterns_sim s later ps hp hv h1
    | _ => simp [Gleam.Pattern.run, MatchRel]
  | .nil, _, _, v, v', h => by
    cases h with
    | nil => exact ⟨[], rfl, bound_empty _ _⟩
    | cons _ _ => simp [Gleam.Pattern.run, MatchRel, tPattern, Term.ast, Erlang.pattern]
    | _ => simp [Gleam.Pattern.run, MatchRel]
  | .cons p q, hp, hv, v, v', h => by
    simp only [Pattern.Parts] at hp
    have hnow : Vars (p.now ++ q.now) := Vars.now (p := .cons p q) hv
    simp only [Pattern.vars] at hv
    cases h with
    | nil => simp [Gleam.Pattern.run, MatchRel, tPattern, Term.ast, Erlang.pattern]
    | cons h1 h2 =>
      simp only [tPattern, Term.ast, Erlang.pattern]
      have e1 := tPattern_sim s later p hp.1 hv.left h1
      have e2 := tPattern_sim (defineAll s p.now) (tPattern s later p).2.2 q hp.2 hv.right h2
      have := MatchRel.both hnow e1 e2
      rw [run_cons, tPattern_now]
      exact this
    | _ => simp [Gleam.Pattern.run, MatchRel]
  | .ctor tag [], hp, hv, v, v', h => by
    simp only [Pattern.Parts] at hp
    cases h with
    | enum u =>
      simp only [Gleam.Pattern.run, tPattern, Term.ast, Erlang.pattern]
      split
      · rename_i he
        rw [if_pos (by rw [he])]
        exact ⟨[], rfl, bound_empty _ _⟩
      · rename_i he
        rw [if_neg fun hc => he (snake_inj hp.1 u hc)]
        rfl
    | record u _ _ =>
      simp only [Gleam.Pattern.run, tPattern, Term.ast, Erlang.pattern]
      split
      · simp [Gleam.Pattern.runAll, MatchRel]
      · rfl
    | _ => simp [Gleam.Pattern.run, MatchRel]
  | .ctor tag (p :: ps), hp, hv, v, v', h => by
    simp only [Pattern.Parts, partsAll] at hp
    have hnow : Vars (p.now ++ nowAll ps) := Vars.now (p := .ctor tag (p :: ps)) hv
    simp only [Pattern.vars, varsAll] at hv
    cases h with
    | enum u =>
      simp only [Gleam.Pattern.run, tPattern, Term.ast, Erlang.pattern]
      split
      · simp [Gleam.Pattern.runAll, MatchRel]
      · rfl
    | record u h1 h2 =>
      simp only [Gleam.Pattern.run, tPattern, Term.ast, Erlang.pattern, ErlText.astAll, Erlang.patterns]
      split
      · rename_i he
        rw [if_pos (by rw [he]), both_empty]
        have e1 := tPattern_sim s later p hp.2.1 hv.left h1
        have e2 := tPatterns_sim (defineAll s p.now) (tPattern s later p).2.2 ps hp.2.2 hv.right h2
        have := MatchRel.both hnow e1 e2
        rw [runAll_cons, tPattern_now]
        exact this
      · rename_i he
        rw [if_neg fun hc => he (snake_inj hp.1 u hc)]
        rfl
    | _ => simp [Gleam.Pattern.run, MatchRel]
  | .prefix ps left right, _, hv, v, v', h => pattern_prefix s ps left right hv h later

theorem tPatterns_sim (s : State) (later : Later) : ∀ ps : List Pattern, partsAll ps → Vars (varsAll ps) →
    ∀ {vs : List Gleam.Value} {vs' : List Erlang.Value}, VsRel vs vs' →
    MatchRel (aliasesAll ps) (nowAll ps) s (Gleam.Pattern.runAll ps vs)
      (Erlang.patterns (astAll (tPatterns s later ps).1) vs')
  | [], _, _, vs, vs', h => by
    cases h with
    | nil => exact ⟨[], rfl, bound_empty _ _⟩
    | cons _ _ => simp [Gleam.Pattern.runAll, MatchRel]
  | p :: ps, hp, hv, vs, vs', h => by
    simp only [partsAll] at hp
    have hnow : Vars (p.now ++ nowAll ps) := Vars.nowAll (ps := p :: ps) hv
    simp only [varsAll] at hv
    cases h with
    | nil => simp [Gleam.Pattern.runAll, MatchRel]
    | cons h1 h2 =>
      have e1 := tPattern_sim s later p hp.1 hv.left h1
      have e2 := tPatterns_sim (defineAll s p.now) (tPattern s later p).2.2 ps hp.2 hv.right h2
      have := MatchRel.both hnow e1 e2
      simp only [tPatterns, ErlText.astAll, Erlang.patterns]
      rw [runAll_cons, tPattern_now]
      exact this

end

/-- One value for several subjects: the value itself, or a tuple. -/
def Subject (vs : List Gleam.Value) (v' : Erlang.Value) : Prop :=
  ∃ vs', VsRel vs vs' ∧ v' = match vs' with
    | [w] => w
    | ws => .tuple ws

/-- The patterns of a clause. -/
theorem tSubjectPatterns_sim (s : State) {ps : List Pattern} (h : PatternsWf ps) {vs : List Gleam.Value}
    {v' : Erlang.Value} (hl : ps.length = vs.length) (hv : Subject vs v') :
    MatchRel (aliasesAll ps) (nowAll ps) s (Gleam.Pattern.runAll ps vs)
      (Erlang.pattern ((tSubjectPatterns s [] ps).1.ast false) v') := by
  obtain ⟨vs', h1, h2⟩ := hv
  have hlen := h1.length
  match ps, h with
  | [], h =>
    cases vs with
    | cons _ _ => simp at hl
    | nil =>
      cases h1
      subst h2
      simp only [tSubjectPatterns, Term.ast, Erlang.pattern]
      exact tPatterns_sim s [] [] h.1 ⟨h.2.1, h.2.2⟩ .nil
  | [p], h =>
    match vs, hl with
    | [v], _ =>
      cases h1 with
      | cons h3 h4 =>
        cases h4
        subst h2
        have := tPattern_sim s [] p h.1.1 ⟨by simpa [varsAll] using h.2.1, by simpa [varsAll] using h.2.2⟩ h3
        simp only [tSubjectPatterns, aliasesAll, nowAll, List.append_nil, Gleam.Pattern.runAll]
        revert this
        cases Gleam.Pattern.run p v <;> simp
  | p :: q :: ps, h =>
    have hw : v' = .tuple vs' := by
      rw [h2]
      match vs', hlen with
      | [], _ => rfl
      | [w], hlen => simp [← hl] at hlen
      | _ :: _ :: _, _ => rfl
    subst hw
    simp only [tSubjectPatterns, Term.ast, Erlang.pattern]
    exact tPatterns_sim s [] (p :: q :: ps) h.1 ⟨h.2.1, h.2.2⟩ h1

end Verif.ErlGen
