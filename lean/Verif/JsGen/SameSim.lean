import Verif.JsGen.StmtSim

/-!
# Clauses that return what they match
-/

namespace Verif.JsGen

open Verif.ErlGen (Pattern Const Expr Stmt Clause varsAll M Out Match Op)
open Verif.ErlGen.Gleam (Panic)
open Verif.Strings.Spec (Piece)

section

variable {W : Type} {ap : GValue → List GValue → GRun W GValue} {env : GEnv}

theorem expr_unblock : ∀ e : Expr, ErlGen.Gleam.expr ap env (unblock e) = ErlGen.Gleam.expr ap env e
  | .block [.expr e] => by
    rw [unblock, expr_unblock e]
    simp only [ErlGen.Gleam.expr, ErlGen.Gleam.stmts]
  | .int _ => rfl
  | .string _ => rfl
  | .var _ _ => rfl
  | .ctor _ _ => rfl
  | .fnRef _ _ _ => rfl
  | .const _ => rfl
  | .block [] => rfl
  | .block [.let_ _ _] => rfl
  | .block [.letAssert _ _ _ _] => rfl
  | .block (_ :: _ :: _) => by simp [unblock]
  | .not _ => rfl
  | .neg _ => rfl
  | .bin _ _ _ => rfl
  | .nil => rfl
  | .cons _ _ => rfl
  | .tuple _ => rfl
  | .index _ _ => rfl
  | .field _ _ => rfl
  | .update _ _ _ _ => rfl
  | .fn _ _ => rfl
  | .call _ _ => rfl
  | .pipe _ _ _ _ => rfl
  | .fail _ _ _ => rfl
  | .case_ _ _ => rfl

theorem sameVar_eq {x : Text} {e : Expr} (h : sameVar x e = true) : ∃ l, e = .var x l := by
  cases e <;> simp [sameVar] at h
  subst h
  exact ⟨_, rfl⟩

theorem samePieces_eq : ∀ {ps qs : List Piece}, samePieces ps qs = true → ps = qs := by
  intro ps
  induction ps with
  | nil => intro qs h; cases qs <;> simp_all [samePieces]
  | cons p ps ih =>
    intro qs h
    cases qs with
    | nil => cases p <;> simp [samePieces] at h
    | cons q qs =>
      cases p <;> cases q <;> simp only [samePieces, Bool.false_eq_true, Bool.and_eq_true, decide_eq_true_eq] at h <;>
        first
        | (rw [h.1, ih h.2])
        | (rw [ih h])

theorem stripPrefix_eq : ∀ {t s r : List Char}, ErlGen.Gleam.stripPrefix t s = some r → s = t ++ r := by
  intro t
  induction t with
  | nil => intro s r h; simp only [ErlGen.Gleam.stripPrefix, Option.some.injEq] at h; simp [h]
  | cons a t ih =>
    intro s r h
    cases s with
    | nil => simp [ErlGen.Gleam.stripPrefix] at h
    | cons d s =>
      simp only [ErlGen.Gleam.stripPrefix] at h
      split at h
      · rename_i e
        rw [e, ih h]
        rfl
      · cases h

theorem expr_var {x : Text} {l : Nat} {v : GValue} (h : env.lookup x = some v) : ErlGen.Gleam.expr ap env (.var x l) = M.pure v := by
  simp only [ErlGen.Gleam.expr, h]
  rfl

/-- Where the variables of the pattern have the values they were given. -/
def Given (env : GEnv) (b : List (Text × GValue)) : Prop := ∀ p ∈ b, env.lookup p.1 = some p.2

theorem Given.left {b b' : List (Text × GValue)} (h : Given env (b ++ b')) : Given env b := fun p hp => h p (by simp [hp])
theorem Given.right {b b' : List (Text × GValue)} (h : Given env (b ++ b')) : Given env b' := fun p hp => h p (by simp [hp])

theorem seqMatch_yes {β : Type} {r q : Match β} {b : List (Text × β)} (h : seqMatch r q = .yes b) :
    ∃ b1 b2, r = .yes b1 ∧ q = .yes b2 ∧ b = b1 ++ b2 := by
  cases r <;> cases q <;> simp [seqMatch] at h
  exact ⟨_, _, rfl, rfl, h.symm⟩

theorem same_prefix {ps : List Piece} {left right : Option (Text × Nat)} {e : Expr} {v : GValue} {b : List (Text × GValue)}
    (hs : same (.prefix ps left right) e = true) (hr : ErlGen.Gleam.Pattern.run (.prefix ps left right) v = .yes b) (hb : Given env b) :
    ErlGen.Gleam.expr ap env e = M.pure v := by
  rw [← expr_unblock]
  unfold same at hs
  split at hs
  · rename_i l r he
    rw [he]
    cases v with
    | str s =>
      simp only [ErlGen.Gleam.Pattern.run] at hr
      cases ht : ErlGen.Gleam.literal ps with
      | none => simp [ht] at hr
      | some t =>
        simp only [ht] at hr
        cases hp : ErlGen.Gleam.stripPrefix t s with
        | none => simp [hp] at hr
        | some rest =>
          simp only [hp, Match.yes.injEq] at hr
          subst hr
          rw [Bool.and_eq_true] at hs
          obtain ⟨h1, h2⟩ := hs
          have hR : ErlGen.Gleam.expr ap env r = M.pure (.str rest) := by
            cases right with
            | none => simp at h2
            | some x =>
              obtain ⟨l', rfl⟩ := sameVar_eq h2
              exact expr_var (hb.right (x.1, .str rest) (by simp [ErlGen.Gleam.bindOption]))
          have hL : ErlGen.Gleam.expr ap env l = M.pure (.str t) := by
            split at h1
            · rename_i qs
              have := samePieces_eq h1
              subst this
              simp only [ErlGen.Gleam.expr, ht]
              rfl
            · cases left with
              | none => simp at h1
              | some x =>
                obtain ⟨l', rfl⟩ := sameVar_eq h1
                exact expr_var (hb.left (x.1, .str t) (by simp [ErlGen.Gleam.bindOption]))
          rw [expr_bin (by simp) (by simp), hL, hR, stripPrefix_eq hp]
          rfl
    | _ => simp [ErlGen.Gleam.Pattern.run] at hr
  · cases hs

mutual

theorem same_expr : ∀ (p : Pattern) {e : Expr} {v : GValue} {b : List (Text × GValue)}, same p e = true →
    ErlGen.Gleam.Pattern.run p v = .yes b → Given env b → ErlGen.Gleam.expr ap env e = M.pure v
  | .var x l, e, v, b, hs, hr, hb => by
    simp only [same] at hs
    obtain ⟨l', h⟩ := sameVar_eq hs
    rw [← expr_unblock, h]
    simp only [ErlGen.Gleam.Pattern.run, Match.yes.injEq] at hr
    subst hr
    exact expr_var (hb (x, v) (by simp))
  | .int n, e, v, b, hs, hr, hb => by
    rw [← expr_unblock]
    unfold same at hs
    split at hs
    · rename_i m he
      simp only [decide_eq_true_eq] at hs
      subst hs
      rw [he]
      cases v with
      | int k =>
        simp only [ErlGen.Gleam.Pattern.run] at hr
        split at hr
        · rename_i hk
          rw [hk]
          simp only [ErlGen.Gleam.expr]
        · cases hr
      | _ => simp [ErlGen.Gleam.Pattern.run] at hr
    · cases hs
  | .string ps, e, v, b, hs, hr, hb => by
    rw [← expr_unblock]
    unfold same at hs
    split at hs
    · rename_i qs he
      have := samePieces_eq hs
      subst this
      rw [he]
      cases v with
      | str s =>
        simp only [ErlGen.Gleam.Pattern.run] at hr
        cases ht : ErlGen.Gleam.literal ps with
        | none => simp [ht] at hr
        | some t =>
          simp only [ht] at hr
          split at hr
          · rename_i hk
            rw [hk]
            simp only [ErlGen.Gleam.expr, ht]
            rfl
          · cases hr
      | _ => simp [ErlGen.Gleam.Pattern.run] at hr
    · cases hs
  | .prefix ps left right, e, v, b, hs, hr, hb => same_prefix hs hr hb
  | .tuple ps, e, v, b, hs, hr, hb => by
    rw [← expr_unblock]
    unfold same at hs
    split at hs
    · rename_i es he
      rw [he]
      cases v with
      | tuple vs =>
        simp only [ErlGen.Gleam.Pattern.run] at hr
        simp only [ErlGen.Gleam.expr, same_args ps hs hr hb]
        rfl
      | _ => simp [ErlGen.Gleam.Pattern.run] at hr
    · cases hs
  | .nil, e, v, b, hs, hr, hb => by
    rw [← expr_unblock]
    unfold same at hs
    split at hs
    · rename_i he
      rw [he]
      cases v with
      | nil => simp only [ErlGen.Gleam.expr]
      | _ => simp [ErlGen.Gleam.Pattern.run] at hr
    · cases hs
  | .cons p q, e, v, b, hs, hr, hb => by
    rw [← expr_unblock]
    unfold same at hs
    split at hs
    · rename_i h t he
      rw [he]
      rw [Bool.and_eq_true] at hs
      cases v with
      | cons v w =>
        rw [run_cons] at hr
        obtain ⟨b1, b2, h1, h2, rfl⟩ := seqMatch_yes hr
        simp only [ErlGen.Gleam.expr]
        rw [same_expr p hs.1 h1 hb.left, same_expr q hs.2 h2 hb.right]
        rfl
      | _ => simp [ErlGen.Gleam.Pattern.run] at hr
    · cases hs
  | .ctor tag ps, e, v, b, hs, hr, hb => by
    rw [← expr_unblock]
    unfold same at hs
    cases v with
    | record tag2 vs =>
      simp only [ErlGen.Gleam.Pattern.run] at hr
      split at hr
      · rename_i htag
        subst htag
        split at hs
        · rename_i tag' a es he
          rw [Bool.and_eq_true, decide_eq_true_eq] at hs
          obtain ⟨h1, h2⟩ := hs
          subst h1
          rw [he]
          simp only [ErlGen.Gleam.expr, same_args ps h2 hr hb]
          rfl
        · rename_i tag' he
          rw [Bool.and_eq_true, decide_eq_true_eq, List.isEmpty_iff] at hs
          obtain ⟨h1, h2⟩ := hs
          subst h1 h2
          rw [he]
          cases vs with
          | nil => simp only [ErlGen.Gleam.expr]
          | cons _ _ => simp [ErlGen.Gleam.Pattern.runAll] at hr
        · cases hs
      · cases hr
    | _ => simp [ErlGen.Gleam.Pattern.run] at hr
  | .assign p x l, e, v, b, hs, hr, hb => by
    unfold same at hs
    simp only [ErlGen.Gleam.Pattern.run] at hr
    cases hp : ErlGen.Gleam.Pattern.run p v with
    | yes b1 =>
      simp only [hp, Match.yes.injEq] at hr
      subst hr
      split at hs
      · rename_i y l' he
        simp only [decide_eq_true_eq] at hs
        subst hs
        rw [← expr_unblock, he]
        exact expr_var (hb.right (x, v) (by simp))
      · rename_i he
        rw [← expr_unblock]
        exact same_expr p hs hp hb.left
    | no => simp [hp] at hr
    | bad => simp [hp] at hr
  | .discard, e, v, b, hs, hr, hb => by simp [same] at hs

theorem same_args : ∀ (ps : List Pattern) {es : List Expr} {vs : List GValue} {b : List (Text × GValue)}, sameAll ps es = true →
    ErlGen.Gleam.Pattern.runAll ps vs = .yes b → Given env b → ErlGen.Gleam.args ap env es = M.pure vs
  | [], es, vs, b, hs, hr, hb => by
    cases es with
    | nil =>
      cases vs with
      | nil => simp only [ErlGen.Gleam.args]
      | cons _ _ => simp [ErlGen.Gleam.Pattern.runAll] at hr
    | cons _ _ => simp [sameAll] at hs
  | p :: ps, es, vs, b, hs, hr, hb => by
    cases es with
    | nil => simp [sameAll] at hs
    | cons e es =>
      simp only [sameAll, Bool.and_eq_true] at hs
      cases vs with
      | nil => simp [ErlGen.Gleam.Pattern.runAll] at hr
      | cons v vs =>
        rw [runAll_cons] at hr
        obtain ⟨b1, b2, h1, h2, rfl⟩ := seqMatch_yes hr
        simp only [ErlGen.Gleam.args]
        rw [same_expr p hs.1 h1 hb.left, same_args ps hs.2 h2 hb.right]
        rfl

end

/-- The bindings of a pattern with different variables. -/
theorem given_of_nodup {b : List (Text × GValue)} (h : (b.map Prod.fst).Nodup) : Given (b ++ env) b := by
  intro p hp
  induction b with
  | nil => simp at hp
  | cons q b ih =>
    obtain ⟨x, v⟩ := q
    simp only [List.map_cons, List.nodup_cons] at h
    rcases List.mem_cons.1 hp with rfl | hp1
    · simp [List.lookup_cons]
    · have hne : p.1 ≠ x := by
        rintro rfl
        exact h.1 (List.mem_map_of_mem hp1)
      have : (p.1 == x) = false := by simp [hne]
      rw [List.cons_append, List.lookup_cons, this]
      exact ih h.2 hp1

theorem findSame_expr {body : Expr} {R : Name → GValue → Prop} : ∀ {ps : List Pattern} {names : List Name} {vs : List GValue}
    {b : List (Text × GValue)} {n : Name}, findSame body ps names = some n → List.Forall₂ R names vs →
    ErlGen.Gleam.Pattern.runAll ps vs = .yes b → Given env b → ∃ v, R n v ∧ ErlGen.Gleam.expr ap env body = M.pure v := by
  intro ps
  induction ps with
  | nil => intro names vs b n h; simp [findSame] at h
  | cons p ps ih =>
    intro names vs b n h hR hr hb
    cases hR with
    | nil => simp [findSame] at h
    | cons h1 h2 =>
      rw [runAll_cons] at hr
      obtain ⟨b1, b2, h3, h4, rfl⟩ := seqMatch_yes hr
      simp only [findSame] at h
      split at h
      · rename_i hs
        cases h
        exact ⟨_, h1, same_expr p hs h3 hb.left⟩
      · exact ih h h2 h4 hb.right

end

end Verif.JsGen
