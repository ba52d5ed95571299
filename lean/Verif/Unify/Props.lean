import Verif.Unify.Acyclic

/-
C23, C24, C25: unification.
-/
namespace Verif.Unify

/-- C23. When two types unify they stand for the same type afterwards, and what every variable stands for is what it stood for before with
some of the unbound variables replaced. -/
theorem unify_makes_equal (n : Nat) (s s' : Heap) (t1 t2 : Ty Cell) (ρ ρ' : Cell → Tree) (hs : Acyclic s) (hu : UniqueIds s)
    (h : unify n [] s t1 t2 = some (.ok, s')) (hρ : Reading s ρ) (hρ' : Reading s' ρ') :
    t1.sub ρ' = t2.sub ρ' ∧ ∃ σ : Assignment, ∀ c, ρ' c = σ.on (ρ c) := by
  have g : Good s ρ := ⟨hρ, hu, acyclic_chains s hs⟩
  obtain ⟨σ, st, _, ok, _⟩ := unify_sound n [] s t1 t2 .ok s' ρ h g (by simp)
  have e := reading_unique st.good.acyclic hρ' st.good.reading
  subst e
  refine ⟨?_, σ, fun c => rfl⟩
  have := (ok rfl).1
  unfold Same at this
  rw [sub_on, sub_on, this]

/-- The same for unifications that fail: they too only replace unbound variables. -/
theorem earlier_substitutions_kept (n : Nat) (s s' : Heap) (o : Outcome) (t1 t2 : Ty Cell) (ρ ρ' : Cell → Tree) (hs : Acyclic s)
    (hu : UniqueIds s) (h : unify n [] s t1 t2 = some (o, s')) (hρ : Reading s ρ) (hρ' : Reading s' ρ') :
    ∃ σ : Assignment, ∀ c, ρ' c = σ.on (ρ c) := by
  have g : Good s ρ := ⟨hρ, hu, acyclic_chains s hs⟩
  obtain ⟨σ, st, _⟩ := unify_sound n [] s t1 t2 o s' ρ h g (by simp)
  have e := reading_unique st.good.acyclic hρ' st.good.reading
  subst e
  exact ⟨σ, fun c => rfl⟩

/-- The heaps any series of unifications leads to, including those that fail. -/
inductive After : Heap → Heap → Prop where
  | start (s : Heap) : After s s
  | unify {s s' s'' : Heap} (n : Nat) (t1 t2 : Ty Cell) (o : Outcome) (before : After s s') (run : unify n [] s' t1 t2 = some (o, s'')) : After s s''

theorem after_good (s s' : Heap) (hs : Acyclic s) (hu : UniqueIds s) (h : After s s') : Acyclic s' ∧ UniqueIds s' := by
  induction h with
  | start => exact ⟨hs, hu⟩
  | unify n t1 t2 o _ run ih =>
    obtain ⟨a, b⟩ := ih
    obtain ⟨ρ, g⟩ := a.good b
    obtain ⟨σ, st, _⟩ := unify_sound n [] _ t1 t2 o _ ρ run g (by simp)
    exact ⟨st.good.acyclic, st.good.unique⟩

/-- C24. However many types are unified one after the other, no variable ever comes to refer to itself, directly or through other
variables. -/
theorem no_infinite_types (s s' : Heap) (hs : Acyclic s) (hu : UniqueIds s) (h : After s s') :
    Acyclic s' ∧ ∀ c, ¬ Relation.TransGen (Refers s') c c := by
  have ha := (after_good s s' hs hu h).1
  refine ⟨ha, ?_⟩
  have wf : WellFounded (Relation.TransGen fun d c => Refers s' c d) := ha.transGen
  intro c hc
  have : Relation.TransGen (fun d c => Refers s' c d) c c := Relation.transGen_swap.2 hc
  exact wf.induction (C := fun c => ¬ Relation.TransGen (fun d c => Refers s' c d) c c) c (fun x ih h => ih x h h) this

/-- C25. If some assignment makes the two types equal then unification comes to an end, succeeds, and what it records is at least as
general: the assignment still tells the same of every variable. -/
theorem unify_complete (s : Heap) (t1 t2 : Ty Cell) (ρ : Cell → Tree) (θ : Assignment) (hs : Acyclic s) (hu : UniqueIds s)
    (hf : FinitelyMany s) (hρ : Reading s ρ) (hθ : θ.on (t1.sub ρ) = θ.on (t2.sub ρ)) :
    ∃ n s', unify n [] s t1 t2 = some (.ok, s') ∧ ∀ ρ', Reading s' ρ' → ∀ c, θ.on (ρ' c) = θ.on (ρ c) := by
  have g : Good s ρ := ⟨hρ, hu, acyclic_chains s hs⟩
  obtain ⟨N, hN⟩ := hf
  obtain ⟨n, ⟨o, s'⟩, h⟩ := unify_ends N (count N s) _ [] s ρ t1 t2 g hN (by simp) (Nat.le_refl _) (Nat.lt_succ_self _)
  obtain ⟨σ, st, np, ok, fail⟩ := unify_sound n [] s t1 t2 o s' ρ h g (by simp)
  cases o with
  | panic => exact (np rfl).elim
  | fail => exact (fail rfl θ hθ).elim
  | ok =>
    refine ⟨n, s', h, ?_⟩
    intro ρ' hρ' c
    have e := reading_unique st.good.acyclic hρ' st.good.reading
    subst e
    exact ((ok rfl).2 θ hθ).on (ρ c)

/-- Unification always comes to an end and never panics (no cell is borrowed twice); if it fails there is no assignment making the types
equal. -/
theorem unify_decides (s : Heap) (t1 t2 : Ty Cell) (ρ : Cell → Tree) (hs : Acyclic s) (hu : UniqueIds s) (hf : FinitelyMany s)
    (hρ : Reading s ρ) : ∃ n o s', unify n [] s t1 t2 = some (o, s') ∧ o ≠ .panic ∧
      (o = .ok ↔ ∃ θ : Assignment, θ.on (t1.sub ρ) = θ.on (t2.sub ρ)) := by
  have g : Good s ρ := ⟨hρ, hu, acyclic_chains s hs⟩
  obtain ⟨N, hN⟩ := hf
  obtain ⟨n, ⟨o, s'⟩, h⟩ := unify_ends N (count N s) _ [] s ρ t1 t2 g hN (by simp) (Nat.le_refl _) (Nat.lt_succ_self _)
  obtain ⟨σ, st, np, ok, fail⟩ := unify_sound n [] s t1 t2 o s' ρ h g (by simp)
  refine ⟨n, o, s', h, np, ?_⟩
  constructor
  · intro ho; exact ⟨σ, (ok ho).1⟩
  · rintro ⟨θ, hθ⟩
    cases o with
    | panic => exact (np rfl).elim
    | fail => exact (fail rfl θ hθ).elim
    | ok => rfl

/-! ### Concrete cases -/

/-- Variables 0 and 1 are unbound, 2 is linked to `List(0)`; everything else is generic. -/
def sample : Heap
  | 0 => .unbound 10
  | 1 => .unbound 11
  | 2 => .link (.named "gleam" "List" (.cons (.var 0) .nil))
  | _ => .generic 7

theorem sample_acyclic : Acyclic sample := by
  refine Subrelation.wf ?_ (measure (fun c : Cell => if c = 2 then 1 else 0)).wf
  rintro d c ⟨t, hc, hd⟩
  match c, hc with
  | 0, hc => simp [sample] at hc
  | 1, hc => simp [sample] at hc
  | 2, hc =>
    simp only [sample, TypeVar.link.injEq] at hc
    subst hc
    simp only [Ty.Has, Tys.Has, or_false] at hd
    subst hd
    show (if (0 : Nat) = 2 then 1 else 0) < (if (2 : Nat) = 2 then 1 else 0)
    decide
  | n + 3, hc => simp [sample] at hc

theorem sample_unique : UniqueIds sample := by
  intro c d id hc hd
  match c, d, hc, hd with
  | 0, 0, _, _ => rfl
  | 1, 1, _, _ => rfl
  | 0, 1, hc, hd => simp [sample] at hc hd; omega
  | 1, 0, hc, hd => simp [sample] at hc hd; omega
  | 2, _, hc, _ => simp [sample] at hc
  | _, 2, _, hd => simp [sample] at hd
  | n + 3, _, hc, _ => simp [sample] at hc
  | _, n + 3, _, hd => simp [sample] at hd

theorem sample_finite : FinitelyMany sample := by
  refine ⟨2, fun c id hc => ?_⟩
  match c, hc with
  | 0, _ => decide
  | 1, _ => decide
  | 2, hc => simp [sample] at hc
  | n + 3, hc => simp [sample] at hc

def list (t : Ty Cell) : Ty Cell := .named "gleam" "List" (.cons t .nil)

/-- The hypotheses are met, with both outcomes: `List(1)` unifies with variable 2 and a variable does not unify with a list of itself. -/
example : Acyclic sample ∧ UniqueIds sample ∧ FinitelyMany sample := ⟨sample_acyclic, sample_unique, sample_finite⟩
example : (unify 20 [] sample (list (.var 1)) (.var 2)).map (fun r => (match r.1 with | .ok => true | _ => false, match r.2 1 with | .link (.var 0) => true | _ => false)) =
    some (true, true) := by decide +kernel
example : (unify 20 [] sample (.var 0) (.var 2)).map (fun r => match r.1 with | .fail => true | _ => false) = some true := by
  decide +kernel

end Verif.Unify
