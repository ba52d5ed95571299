import Verif.JsCase.Units

/-! # The variables of the code generator -/

namespace Verif.JsCase

open Verif.Case

variable {B : BitSys}

/-! ### Expressions -/

/-- More variables. -/
def JEnv.Le (ρ ρ' : JEnv B) : Prop := ∀ k x, ρ.lookup k = some x → ρ'.lookup k = some x

theorem eval_mono {ρ ρ' : JEnv B} (h : ρ.Le ρ') : ∀ (e : JExpr B) {x}, e.eval ρ = some x →
    e.eval ρ' = some x
  | .name n, x, he => h n x he
  | .const c, x, he => he
  | .index e i, x, he => by
    simp only [JExpr.eval] at he ⊢
    cases h1 : e.eval ρ with
    | none => simp [h1] at he
    | some y => rw [h1] at he; rw [eval_mono h e h1]; exact he
  | .head e, x, he => by
    simp only [JExpr.eval] at he ⊢
    cases h1 : e.eval ρ with
    | none => simp [h1] at he
    | some y => rw [h1] at he; rw [eval_mono h e h1]; exact he
  | .tail e, x, he => by
    simp only [JExpr.eval] at he ⊢
    cases h1 : e.eval ρ with
    | none => simp [h1] at he
    | some y => rw [h1] at he; rw [eval_mono h e h1]; exact he
  | .slice e n, x, he => by
    simp only [JExpr.eval] at he ⊢
    cases h1 : e.eval ρ with
    | none => simp [h1] at he
    | some y => rw [h1] at he; rw [eval_mono h e h1]; exact he
  | .read r e, x, he => by
    simp only [JExpr.eval] at he ⊢
    cases h1 : e.eval ρ with
    | none => simp [h1] at he
    | some y => rw [h1] at he; rw [eval_mono h e h1]; exact he
  | .charCode e, x, he => by
    simp only [JExpr.eval] at he ⊢
    cases h1 : e.eval ρ with
    | none => simp [h1] at he
    | some y => rw [h1] at he; rw [eval_mono h e h1]; exact he
  | .missing, x, he => he

theorem JEnv.le_cons {ρ : JEnv B} {n : Nat} (y : Val B.Bits)
    (h : ρ.lookup (.made n) = none) : ρ.Le ((.made n, y) :: ρ) := by
  intro k x hk
  rw [List.lookup_cons]
  by_cases e : k = .made n
  · subst e; rw [h] at hk; cases hk
  · simpa [beq_eq_false_iff_ne.2 e] using hk

/-! ### How the variables change -/

/-- Only the values of `ids` can change. -/
structure Keeps (s s' : S B) (ids : List Nat) : Prop where
  next : s.next ≤ s'.next
  values : ∀ id, id ∉ ids → s'.values.lookup id = s.values.lookup id

theorem Keeps.refl (s : S B) (ids) : Keeps s s ids := ⟨Nat.le_refl _, fun _ _ => rfl⟩

theorem Keeps.trans {s s' s'' : S B} {ids : List Nat} (h : Keeps s s' ids)
    (h' : Keeps s' s'' ids) : Keeps s s'' ids :=
  ⟨Nat.le_trans h.next h'.next, fun id hi => (h'.values id hi).trans (h.values id hi)⟩

theorem Keeps.mono {s s' : S B} {l ids : List Nat} (h : Keeps s s' l)
    (hl : ∀ i ∈ l, i ∈ ids) : Keeps s s' ids :=
  ⟨h.next, fun id hi => h.values id fun h2 => hi (hl id h2)⟩

theorem Keeps.leave {s s' t : S B} {ids} (h : Keeps s s' ids) : Keeps s (t.leave s') ids :=
  ⟨h.next, h.values⟩

theorem setFields_next (e : JExpr B) : ∀ (vs : List Var) (s : S B) i,
    (s.setFields e i vs).next = s.next
  | [], _, _ => rfl
  | v :: vs, s, i => by rw [S.setFields, setFields_next]; rfl

theorem setFields_names (e : JExpr B) : ∀ (vs : List Var) (s : S B) i,
    (s.setFields e i vs).names = s.names
  | [], _, _ => rfl
  | v :: vs, s, i => by rw [S.setFields, setFields_names]; rfl

theorem setValue_lookup (s : S B) (v : Var) (e : JExpr B) (id : Nat) (h : id ≠ v.id) :
    (s.setValue v e).values.lookup id = s.values.lookup id := by
  have : (id == v.id) = false := beq_eq_false_iff_ne.2 h
  simp [S.setValue, List.lookup_cons, this]

theorem setFields_values (e : JExpr B) : ∀ (vs : List Var) (s : S B) i id,
    id ∉ vs.map Var.id → (s.setFields e i vs).values.lookup id = s.values.lookup id
  | [], _, _, _, _ => rfl
  | v :: vs, s, i, id, h => by
    simp only [List.map_cons, List.mem_cons, not_or] at h
    rw [S.setFields, setFields_values e vs _ _ id h.2, setValue_lookup _ _ _ _ h.1]

theorem record_next (s : S B) (v : Var) (c : Check B) : (s.record v c).next = s.next := by
  cases c <;> simp [S.record, S.setValue, setFields_next]

theorem record_names (s : S B) (v : Var) (c : Check B) : (s.record v c).names = s.names := by
  cases c <;> simp [S.record, S.setValue, setFields_names]

theorem record_values (s : S B) (v : Var) (c : Check B) (id : Nat)
    (h : id ∉ (checkVars c).map Var.id) :
    (s.record v c).values.lookup id = s.values.lookup id := by
  cases c with
  | tuple vs => exact setFields_values _ vs _ _ id h
  | variant e i vs => exact setFields_values _ vs _ _ id h
  | strPrefix p rest =>
    simp only [checkVars, List.map_cons, List.map_nil, List.mem_singleton] at h
    exact setValue_lookup _ _ _ _ h
  | cons first rest =>
    simp only [checkVars, List.map_cons, List.map_nil, List.mem_cons, List.not_mem_nil, or_false,
      not_or] at h
    rw [S.record, setValue_lookup _ _ _ _ h.2, setValue_lookup _ _ _ _ h.1]
  | _ => rfl

theorem record_keeps (s : S B) (v : Var) (c : Check B) :
    Keeps s (s.record v c) ((checkVars c).map Var.id) :=
  ⟨Nat.le_of_eq (record_next s v c).symm, record_values s v c⟩

theorem recordFallback_next (s : S B) (v : Var) (f : Fallback B) :
    (s.recordFallback v f).next = s.next := by
  cases f <;> simp [S.recordFallback, record_next]

theorem recordFallback_names (s : S B) (v : Var) (f : Fallback B) :
    (s.recordFallback v f).names = s.names := by
  cases f <;> simp [S.recordFallback, record_names]

theorem recordFallback_keeps (s : S B) (v : Var) (f : Fallback B) :
    Keeps s (s.recordFallback v f) ((fallbackVars f).map Var.id) := by
  cases f with
  | check c => exact record_keeps s v c
  | _ => exact Keeps.refl _ _

theorem bindValue_keeps (s : S B) (v : Var) (t : Bool) (ids) : Keeps s (s.bindValue v t).1 ids := by
  unfold S.bindValue
  split
  · exact ⟨Nat.le_succ _, fun _ _ => rfl⟩
  · exact Keeps.refl _ _

theorem bindChar_keeps (s : S B) (v : Var) (t : Bool) (ids) : Keeps s (s.bindChar v t).1 ids := by
  unfold S.bindChar
  split
  · exact ⟨Nat.le_succ _, fun _ _ => rfl⟩
  · exact Keeps.refl _ _

section
variable [DecidableEq B.Bits] [DecidableEq B.Test] [DecidableEq B.Read]

mutual
theorem gen_keeps (ctx : Ctx) : ∀ (d : Decision B) (s : S B),
    Keeps s (gen ctx s d).2 ((varsOf d).map Var.id)
  | .fail, s => by rw [gen]; exact Keeps.refl _ _
  | .run b, s => by rw [gen]; exact Keeps.refl _ _
  | .guard g b d, s => by
    rw [gen, varsOf]
    exact (gen_keeps ctx d s).leave
  | .switch v .nil d f, s => by
    rw [gen, varsOf]
    exact (((recordFallback_keeps s v f).mono (by simp +contextual)).trans
      ((gen_keeps ctx d _).mono (by simp +contextual))).leave
  | .switch v (.cons c e cs) d f, s => by
    rw [gen, varsOf]
    refine Keeps.leave ?_
    have hb := bindValue_keeps s v (usedTwice ctx v (.cons c e cs) d f)
    generalize (s.bindValue v (usedTwice ctx v (.cons c e cs) d f)).1 = s1 at hb ⊢
    have hk := bindChar_keeps s1 v (multipleChars false (.cons c e cs))
    generalize s1.bindChar v (multipleChars false (.cons c e cs)) = k at hk ⊢
    refine (hb _).trans ((hk _).trans ?_)
    refine ((genChoices_keeps ctx v k.2.1 d (.cons c e cs) k.1).1.mono (by simp +contextual)).trans ?_
    exact ((recordFallback_keeps _ v f).mono (by simp +contextual)).trans
      ((gen_keeps ctx d _).mono (by simp +contextual))
theorem genChoices_keeps (ctx : Ctx) (v : Var) (first : Option JName) (fb : Decision B) :
    ∀ (cs : Choices B) (s : S B),
    Keeps s (genChoices ctx v first fb s cs).2 ((varsOfChoices cs).map Var.id) ∧
      (genChoices ctx v first fb s cs).2.names = s.names
  | .nil, s => by rw [genChoices]; exact ⟨Keeps.refl _ _, rfl⟩
  | .cons c d cs, s => by
    rw [genChoices, varsOfChoices]
    have h1 := gen_keeps ctx d (s.record v c)
    have h2 := genChoices_keeps ctx v first fb cs ((s.record v c).leave (gen ctx (s.record v c) d).2)
    refine ⟨?_, ?_⟩
    · exact ((record_keeps s v c).mono (by simp +contextual)).trans
        ((h1.leave.mono (by simp +contextual)).trans (h2.1.mono (by simp +contextual)))
    · rw [h2.2]; exact record_names s v c
end

end

end Verif.JsCase
