import Verif.JsGen.Fragment

/-!
# How the numbers of names grow
-/

namespace Verif.JsGen

open Verif.ErlGen (Pattern Expr Stmt Clause varsAll)

/-- Names with a number that was given before. -/
def Old (σ : Scope) : Name → Prop
  | .var x k => k < σ.fresh x
  | .loop _ => True

/-- Between two scopes, names were declared that are new. -/
structure Grow (σ : Scope) (D : List Name) (σ' : Scope) : Prop where
  fresh : ∀ x, σ.fresh x ≤ σ'.fresh x
  high : ∀ x, succ (σ.high x) ≤ succ (σ'.high x)
  user : ∀ x, synthetic x = false → σ'.counter x = σ.counter x ∨ succ (σ'.counter x) ≤ succ (σ'.high x)
  nodup : D.Nodup
  new : ∀ d ∈ D, ¬Old σ d ∧ Old σ' d

/-- The variables in scope have the numbers they had. -/
def Same (σ σ' : Scope) : Prop :=
  ∀ x, synthetic x = false → (σ.counter x).isSome = true → σ'.counter x = σ.counter x

theorem Same.refl (σ : Scope) : Same σ σ := fun _ _ _ => rfl

theorem Same.trans {σ σ' σ'' : Scope} (h : Same σ σ') (h' : Same σ' σ'') : Same σ σ'' := by
  intro x hx hs
  have h1 := h x hx hs
  rw [h' x hx (by rw [h1]; exact hs), h1]

theorem Old.mono {σ σ' : Scope} (h : ∀ x, σ.fresh x ≤ σ'.fresh x) {n : Name} (hn : Old σ n) : Old σ' n := by
  cases n with
  | var x k => exact Nat.lt_of_lt_of_le hn (h x)
  | loop x => trivial

theorem Grow.refl (σ : Scope) : Grow σ [] σ :=
  ⟨fun _ => Nat.le_refl _, fun _ => Nat.le_refl _, fun _ _ => .inl rfl, List.nodup_nil, fun _ h => by simp at h⟩

theorem Grow.old {σ σ' : Scope} {D : List Name} (h : Grow σ D σ') {n : Name} (hn : Old σ n) : Old σ' n :=
  hn.mono h.fresh

theorem Grow.trans {σ σ' σ'' : Scope} {D E : List Name} (h : Grow σ D σ') (h' : Grow σ' E σ'') : Grow σ (D ++ E) σ'' where
  fresh x := Nat.le_trans (h.fresh x) (h'.fresh x)
  high x := Nat.le_trans (h.high x) (h'.high x)
  user x hx := by
    rcases h'.user x hx with h1 | h1
    · rcases h.user x hx with h2 | h2
      · exact .inl (h1.trans h2)
      · rw [h1]
        exact .inr (Nat.le_trans h2 (h'.high x))
    · exact .inr h1
  nodup := by
    rw [List.nodup_append]
    refine ⟨h.nodup, h'.nodup, ?_⟩
    intro a ha b hb e
    exact (h'.new b hb).1 (e ▸ (h.new a ha).2)
  new d hd := by
    rcases List.mem_append.1 hd with hd | hd
    · exact ⟨(h.new d hd).1, h'.old (h.new d hd).2⟩
    · exact ⟨fun ho => (h'.new d hd).1 (h.old ho), (h'.new d hd).2⟩

theorem Grow.weaken {σ σ' : Scope} {D E : List Name} (h : Grow σ D σ') (hn : E.Nodup) (hs : ∀ d ∈ E, d ∈ D) : Grow σ E σ' :=
  ⟨h.fresh, h.high, h.user, hn, fun d hd => h.new d (hs d hd)⟩

theorem Grow.forget {σ σ' : Scope} {D : List Name} (h : Grow σ D σ') : Grow σ [] σ' :=
  h.weaken List.nodup_nil fun _ h => by simp at h

theorem Grow.perm {σ σ' : Scope} {D E : List Name} (h : Grow σ D σ') (hp : D.Perm E) : Grow σ E σ' :=
  h.weaken (hp.nodup_iff.1 h.nodup) fun _ hd => hp.mem_iff.2 hd

theorem Scope.fresh_next_self (σ : Scope) (x : Text) : (σ.next x).fresh x = σ.fresh x + 1 := by
  unfold Scope.next Scope.fresh setAt
  by_cases hs : synthetic x = true
  · simp [hs, succ]
    omega
  · simp [hs, succ, Scope.fresh]

theorem Scope.fresh_next_of_ne (σ : Scope) {x y : Text} (h : y ≠ x) : (σ.next x).fresh y = σ.fresh y := by
  unfold Scope.next Scope.fresh setAt
  by_cases hs : synthetic x = true <;> simp [hs, h]

theorem Scope.counter_next_self (σ : Scope) (x : Text) : (σ.next x).counter x = some (σ.fresh x) := by simp [Scope.next, setAt]

theorem Scope.counter_next_of_ne (σ : Scope) {x y : Text} (h : y ≠ x) : (σ.next x).counter y = σ.counter y := by
  simp [Scope.next, setAt, h]

theorem Grow.next (σ : Scope) (x : Text) : Grow σ [.var x (σ.fresh x)] (σ.next x) where
  fresh y := by
    by_cases h : y = x
    · subst h
      rw [σ.fresh_next_self]
      omega
    · exact Nat.le_of_eq (σ.fresh_next_of_ne h).symm
  high y := by
    unfold Scope.next setAt
    by_cases hs : synthetic x = true
    · simp [hs]
    · by_cases h : y = x
      · subst h
        simp [hs, succ, Scope.fresh]
        omega
      · simp [hs, h]
  user y hy := by
    by_cases h : y = x
    · subst h
      right
      simp [Scope.next, setAt, hy]
    · exact .inl (σ.counter_next_of_ne h)
  nodup := by simp
  new d hd := by
    simp only [List.mem_singleton] at hd
    subst hd
    simp only [Old, σ.fresh_next_self]
    omega

theorem Same.next (σ : Scope) {x : Text} (hx : synthetic x = true) : Same σ (σ.next x) := by
  intro y hy _
  exact σ.counter_next_of_ne (fun h => by rw [h, hx] at hy; cases hy)

theorem Scope.fresh_restore {σ σ' : Scope} {D : List Name} (h : Grow σ D σ') (x : Text) :
    σ'.fresh x ≤ (σ'.restore σ).fresh x ∨ (synthetic x = false ∧ σ'.counter x = σ.counter x) := by
  by_cases hs : synthetic x = true
  · left
    simp [Scope.restore, Scope.fresh, hs]
  · simp only [Bool.not_eq_true] at hs
    rcases h.user x hs with h1 | h1
    · exact .inr ⟨hs, h1⟩
    · left
      have e : (σ'.restore σ).high = σ'.high := rfl
      have : σ'.fresh x = succ (σ'.high x) := by
        simp only [Scope.fresh]
        omega
      rw [this]
      unfold Scope.fresh
      rw [e]
      omega

theorem Scope.le_restore {σ σ' : Scope} {D : List Name} (h : Grow σ D σ') (x : Text) : σ'.fresh x ≤ (σ'.restore σ).fresh x := by
  rcases Scope.fresh_restore h x with h1 | ⟨h1, h2⟩
  · exact h1
  · unfold Scope.fresh Scope.restore
    simp only [h1, Bool.false_eq_true, if_false]
    cases hc : σ.counter x with
    | none =>
      rw [h2, hc]
      simp
    | some n =>
      rw [h2, hc]
      simp

theorem Grow.restore {σ σ' : Scope} {D : List Name} (h : Grow σ D σ') : Grow σ D (σ'.restore σ) where
  fresh x := Nat.le_trans (h.fresh x) (Scope.le_restore h x)
  high := h.high
  user x hx := by
    have e : (σ'.restore σ).counter x = (σ.counter x).orElse fun _ => σ'.counter x := by simp [Scope.restore, hx]
    cases hc : σ.counter x with
    | some n =>
      left
      rw [e, hc]
      rfl
    | none =>
      rcases h.user x hx with h1 | h1
      · left
        rw [e, hc, h1, hc]
        rfl
      · right
        rw [e, hc]
        exact h1
  nodup := h.nodup
  new d hd := ⟨(h.new d hd).1, (h.new d hd).2.mono (Scope.le_restore h)⟩

theorem Same.restore (σ σ' : Scope) : Same σ (σ'.restore σ) := by
  intro x hx hs
  simp only [Scope.restore, hx, Bool.false_eq_true, if_false]
  cases hc : σ.counter x with
  | none => simp [hc] at hs
  | some n => rfl

/-! ### Variables of patterns -/

theorem Scope.binds_texts (σ : Scope) (vs : List (Text × Nat)) : (σ.binds vs).1.map (·.1) = texts vs := by
  induction vs generalizing σ with
  | nil => rfl
  | cons v vs ih =>
    obtain ⟨x, l⟩ := v
    simp only [Scope.binds, List.map_cons, texts, List.cons.injEq, true_and]
    exact ih (σ.next x)

theorem Grow.binds (σ : Scope) (vs : List (Text × Nat)) : Grow σ ((σ.binds vs).1.map (·.2)) (σ.binds vs).2 := by
  induction vs generalizing σ with
  | nil => exact .refl σ
  | cons v vs ih =>
    obtain ⟨x, l⟩ := v
    exact (Grow.next σ x).trans (ih (σ.next x))

theorem Scope.counter_binds_of_not_mem (σ : Scope) (vs : List (Text × Nat)) {x : Text} (h : x ∉ texts vs) :
    (σ.binds vs).2.counter x = σ.counter x := by
  induction vs generalizing σ with
  | nil => rfl
  | cons v vs ih =>
    obtain ⟨y, l⟩ := v
    simp only [texts, List.map_cons, List.mem_cons, not_or] at h
    simp only [Scope.binds]
    rw [ih (σ.next y) h.2, σ.counter_next_of_ne h.1]

/-- The variables of a pattern that have the numbers of the scope after it. -/
theorem Scope.binds_spec (σ : Scope) (vs : List (Text × Nat)) (hn : (texts vs).Nodup) {x : Text} {n : Name}
    (h : (x, n) ∈ (σ.binds vs).1) : ∃ k, n = .var x k ∧ (σ.binds vs).2.counter x = some k ∧ σ.fresh x = k := by
  induction vs generalizing σ with
  | nil => simp [Scope.binds] at h
  | cons v vs ih =>
    obtain ⟨y, l⟩ := v
    simp only [texts, List.map_cons, List.nodup_cons] at hn
    simp only [Scope.binds, List.mem_cons, Prod.mk.injEq] at h
    rcases h with ⟨rfl, rfl⟩ | h
    · refine ⟨σ.fresh x, rfl, ?_, rfl⟩
      simp only [Scope.binds]
      rw [(σ.next x).counter_binds_of_not_mem vs hn.1, σ.counter_next_self]
    · obtain ⟨k, rfl, h2, h3⟩ := ih (σ.next y) hn.2 h
      refine ⟨k, rfl, h2, ?_⟩
      by_cases hxy : x = y
      · subst hxy
        exfalso
        apply hn.1
        have := List.mem_map_of_mem (f := (·.1)) h
        rw [(σ.next x).binds_texts] at this
        exact this
      · rw [σ.fresh_next_of_ne hxy] at h3
        exact h3

/-! ### Declarations -/

theorem declared_append (as bs : List Stm) : declared (as ++ bs) = declared as ++ declared bs := by
  induction as with
  | nil => rfl
  | cons a as ih => cases a <;> simp [declared, ih]

theorem declared_give (pos : Pos) (e : Exp) : declared (pos.give e) = [] := by cases pos <;> rfl

theorem declared_giveName (pos : Pos) (x : Name) : declared (pos.giveName x) = [] := by cases pos <;> rfl

theorem declared_uninit (vs : List (Text × Name)) : declared (vs.map fun v => .letUninit v.2) = vs.map (·.2) := by
  induction vs with
  | nil => rfl
  | cons v vs ih => simp [declared, ih]

theorem declared_loopAssignments (es : List Exp) (ps : List (Option (Text × Nat))) : declared (loopAssignments es ps) = [] := by
  induction es generalizing ps with
  | nil => simp [loopAssignments, declared]
  | cons e es ih =>
    cases ps with
    | nil => simp [loopAssignments, declared]
    | cons p ps =>
      cases p with
      | none => simp [loopAssignments, declared, ih]
      | some p => simp [loopAssignments, declared, ih]

end Verif.JsGen
