import Verif.Unify.Total

namespace Verif.Unify

theorem Good.acyclic {s : Heap} {ρ : Cell → Tree} (g : Good s ρ) : Acyclic s := by
  obtain ⟨rank, hr⟩ := g.chains
  refine Subrelation.wf ?_ (InvImage.wf (fun c => ((ρ c).size, rank c)) (Prod.lex Nat.lt_wfRel Nat.lt_wfRel).wf)
  intro d c h
  obtain ⟨t, hc, hd⟩ := h
  have e := g.reading.link c t hc
  show Prod.Lex (· < ·) (· < ·) ((ρ d).size, rank d) ((ρ c).size, rank c)
  by_cases hv : t.IsVar
  · cases t with
    | var d' =>
      simp only [Ty.Has] at hd
      subst hd
      simp only [Ty.sub] at e
      rw [e]
      exact Prod.Lex.right _ (hr c d' hc)
    | named | fn | tuple => exact hv.elim
  · apply Prod.Lex.left
    rw [e]
    exact Ty.size_sub_lt ρ d t hd hv

open Classical in
noncomputable def readCell (s : Heap) (hs : WellFounded fun d c => Refers s c d) : Cell → Tree :=
  hs.fix fun c rec =>
    match s c with
    | .link t => t.sub fun v => if h : Refers s c v then rec v h else .var (.generic 0)
    | .unbound id => .var (.unbound id)
    | .generic id => .var (.generic id)

theorem reading_readCell (s : Heap) (hs : WellFounded fun d c => Refers s c d) : Reading s (readCell s hs) := by
  refine ⟨?_, ?_, ?_⟩
  · intro c t hc
    rw [readCell, WellFounded.fix_eq]
    simp only [hc]
    refine Ty.sub_congr _ _ t fun v hv => ?_
    rw [dif_pos ⟨t, hc, hv⟩]
  · intro c id hc
    rw [readCell, WellFounded.fix_eq]
    simp only [hc]
  · intro c id hc
    rw [readCell, WellFounded.fix_eq]
    simp only [hc]

open Classical in
noncomputable def chainLength (s : Heap) (hs : WellFounded fun d c => Refers s c d) : Cell → Nat :=
  hs.fix fun c rec =>
    match s c with
    | .link (.var d) => if h : Refers s c d then rec d h + 1 else 0
    | _ => 0

theorem acyclic_chains (s : Heap) (hs : Acyclic s) : Chains s := by
  have hs : WellFounded fun d c => Refers s c d := hs
  refine ⟨chainLength s hs, ?_⟩
  intro c d hc
  have hr : Refers s c d := ⟨_, hc, rfl⟩
  have : chainLength s hs c = chainLength s hs d + 1 := by
    conv => lhs; rw [chainLength, WellFounded.fix_eq]
    simp only [hc]
    rw [dif_pos hr]
    rfl
  omega

theorem Acyclic.good {s : Heap} (hs : Acyclic s) (hu : UniqueIds s) : ∃ ρ, Good s ρ :=
  ⟨readCell s hs, reading_readCell s hs, hu, acyclic_chains s hs⟩

theorem reading_unique {s : Heap} (hs : Acyclic s) {ρ ρ' : Cell → Tree} (h : Reading s ρ) (h' : Reading s ρ') : ρ = ρ' := by
  have hs : WellFounded fun d c => Refers s c d := hs
  funext c
  induction c using hs.induction with
  | _ c ih =>
    cases hc : s c with
    | link t =>
      rw [h.link c t hc, h'.link c t hc]
      exact Ty.sub_congr _ _ t fun v hv => ih v ⟨t, hc, hv⟩
    | unbound id => rw [h.unbound c id hc, h'.unbound c id hc]
    | generic id => rw [h.generic c id hc, h'.generic c id hc]

end Verif.Unify
