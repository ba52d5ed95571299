import Verif.DepTree.Model
import Verif.DepTree.Spec
import Mathlib.Logic.Relation
import Mathlib.Data.List.Nodup

/-
The model of `petgraph::algo::toposort` orders the nodes or finds a node on a cycle.
-/
namespace Verif.DepTree
open Relation

/-- There is an edge from `a` to `b`. -/
def Edge (g : Graph) (a b : Nat) : Prop := (a, b) ∈ g.edges

/-- All edges are between nodes. -/
def Graph.Ok (g : Graph) : Prop := ∀ a b, Edge g a b → a < g.size ∧ b < g.size

theorem mem_successors (g : Graph) (a b : Nat) : b ∈ g.successors a ↔ Edge g a b := by
  simp only [Graph.successors, List.mem_reverse, List.mem_map, List.mem_filter, Edge, beq_iff_eq]
  constructor
  · rintro ⟨⟨x, y⟩, ⟨h, rfl⟩, rfl⟩; exact h
  · intro h; exact ⟨(a, b), ⟨h, rfl⟩, rfl⟩

theorem mem_predecessors (g : Graph) (a b : Nat) : b ∈ g.predecessors a ↔ Edge g b a := by
  simp only [Graph.predecessors, List.mem_reverse, List.mem_map, List.mem_filter, Edge, beq_iff_eq]
  constructor
  · rintro ⟨⟨x, y⟩, ⟨h, rfl⟩, rfl⟩; exact h
  · intro h; exact ⟨(b, a), ⟨h, rfl⟩, rfl⟩

/-- What holds at each step of the depth first search. -/
structure Inv (g : Graph) (stack white fin : List Nat) : Prop where
  whiteNodup : white.Nodup
  finNodup : fin.Nodup
  finWhite : ∀ x ∈ fin, x ∉ white
  finSize : ∀ x ∈ fin, x < g.size
  stackSize : ∀ x ∈ stack, x < g.size
  grey : ∀ x, x < g.size → x ∉ white → x ∉ fin → x ∈ stack
  above : ∀ l x r, stack = l ++ x :: r → x ∉ white → x ∉ fin → x ∉ l →
    (∀ y ∈ l, ReflTransGen (Edge g) x y) ∧ ∀ s, Edge g x s → s ∈ l ∨ s ∉ white
  order : ∀ l j e, fin = l ++ j :: e → ∀ s, Edge g j s → s ∈ e ∨ ReflTransGen (Edge g) s j
  loops : ∀ x, x < g.size → x ∉ white → ¬ Edge g x x

theorem inv_discover {g : Graph} (hg : g.Ok) {nx : Nat} {rest white fin : List Nat} (h : Inv g (nx :: rest) white fin)
    (hw : nx ∈ white) (hs : nx ∉ g.successors nx) :
    Inv g (((g.successors nx).filter fun s => s ∈ white.erase nx).reverse ++ nx :: rest) (white.erase nx) fin := by
  have hne : ∀ x, x ∈ white.erase nx ↔ x ≠ nx ∧ x ∈ white := fun x => h.whiteNodup.mem_erase_iff
  have hnf : nx ∉ fin := fun hf => h.finWhite _ hf hw
  refine ⟨h.whiteNodup.erase _, h.finNodup, ?_, h.finSize, ?_, ?_, ?_, h.order, ?_⟩
  · intro x hx; rw [hne]; exact fun hc => h.finWhite _ hx hc.2
  · intro x hx
    rcases List.mem_append.mp hx with hx | hx
    · simp only [List.mem_reverse, List.mem_filter, mem_successors] at hx
      exact (hg _ _ hx.1).2
    · exact h.stackSize _ hx
  · intro x hx hxw hxf
    rw [hne] at hxw
    rw [List.mem_append]; right
    by_cases hxn : x = nx
    · subst hxn; simp
    · exact h.grey x hx (fun hc => hxw ⟨hxn, hc⟩) hxf
  · intro l x r hsplit hxw hxf hxl
    rw [hne] at hxw
    by_cases hxn : x = nx
    · subst hxn
      have hx' : x ∉ ((g.successors x).filter fun s => s ∈ white.erase x).reverse := by
        simp [hs]
      have hl : l = ((g.successors x).filter fun s => s ∈ white.erase x).reverse := by
        have := List.append_eq_append_iff.mp hsplit
        rcases this with ⟨a, h1, h2⟩ | ⟨a, h1, h2⟩
        · cases a with
          | nil => simpa using h1
          | cons b a =>
            simp only [List.cons_append, List.cons.injEq] at h2
            exact absurd (by rw [h1, ← h2.1]; simp) hxl
        · cases a with
          | nil => simpa using h1.symm
          | cons b a =>
            simp only [List.cons_append, List.cons.injEq] at h2
            exact absurd (by rw [h1, ← h2.1]; simp) hx'
      subst hl
      constructor
      · intro y hy
        simp only [List.mem_reverse, List.mem_filter, mem_successors] at hy
        exact .single hy.1
      · intro s hxs
        by_cases hsw : s ∈ white.erase x
        · left; simp only [List.mem_reverse, List.mem_filter, mem_successors]; exact ⟨hxs, by simpa using hsw⟩
        · right; exact hsw
    · have hxw' : x ∉ white := fun hc => hxw ⟨hxn, hc⟩
      rcases List.append_eq_append_iff.mp hsplit with ⟨a, h1, h2⟩ | ⟨a, h1, h2⟩
      · obtain ⟨h3, h4⟩ := h.above a x r h2 hxw' hxf (fun hc => hxl (by rw [h1]; simp [hc]))
        have hnxa : nx ∈ a := by
          cases a with
          | nil => simp at h2; exact absurd h2.1.symm hxn
          | cons b a => simp only [List.cons_append, List.cons.injEq] at h2; rw [h2.1]; simp
        constructor
        · intro y hy
          rw [h1] at hy
          rcases List.mem_append.mp hy with hy | hy
          · simp only [List.mem_reverse, List.mem_filter, mem_successors] at hy
            exact (h3 nx hnxa).tail hy.1
          · exact h3 y hy
        · intro s hxs
          rcases h4 s hxs with h5 | h5
          · left; rw [h1]; simp [h5]
          · right; rw [hne]; exact fun hc => h5 hc.2
      · cases a with
        | nil => simp at h2; exact absurd h2.1 hxn
        | cons b a =>
          simp only [List.cons_append, List.cons.injEq] at h2
          have : x ∈ ((g.successors nx).filter fun s => s ∈ white.erase nx).reverse := by rw [h1, ← h2.1]; simp
          simp only [List.mem_reverse, List.mem_filter, decide_eq_true_eq, hne] at this
          exact absurd this.2.2 hxw'
  · intro x hx hxw
    rw [hne] at hxw
    by_cases hxn : x = nx
    · subst hxn; rwa [mem_successors] at hs
    · exact h.loops x hx (fun hc => hxw ⟨hxn, hc⟩)

theorem inv_pop {g : Graph} (hg : g.Ok) {nx : Nat} {rest white fin : List Nat} (h : Inv g (nx :: rest) white fin) (hw : nx ∉ white) :
    Inv g rest white (if nx ∈ fin then fin else nx :: fin) := by
  have hmem : ∀ x, x ∈ (if nx ∈ fin then fin else nx :: fin) ↔ x = nx ∨ x ∈ fin := by
    intro x; split
    · constructor
      · exact .inr
      · rintro (rfl | h) <;> assumption
    · simp
  have hn : nx < g.size := h.stackSize _ (by simp)
  refine ⟨h.whiteNodup, ?_, ?_, ?_, ?_, ?_, ?_, ?_, h.loops⟩
  · split
    · exact h.finNodup
    · exact List.nodup_cons.mpr ⟨by assumption, h.finNodup⟩
  · intro x hx; rw [hmem] at hx
    rcases hx with rfl | hx
    · exact hw
    · exact h.finWhite _ hx
  · intro x hx; rw [hmem] at hx
    rcases hx with rfl | hx
    · exact hn
    · exact h.finSize _ hx
  · intro x hx; exact h.stackSize _ (by simp [hx])
  · intro x hx hxw hxf
    rw [hmem] at hxf
    have := h.grey x hx hxw (fun hc => hxf (.inr hc))
    rcases List.mem_cons.mp this with rfl | h1
    · exact absurd (.inl rfl) hxf
    · exact h1
  · intro l x r hsplit hxw hxf hxl
    rw [hmem] at hxf
    have hxn : x ≠ nx := fun hc => hxf (.inl hc)
    obtain ⟨h1, h2⟩ := h.above (nx :: l) x r (by simp [hsplit]) hxw (fun hc => hxf (.inr hc)) (by simp [hxn, hxl])
    refine ⟨fun y hy => h1 y (by simp [hy]), fun s hs => ?_⟩
    rcases h2 s hs with h3 | h3
    · rcases List.mem_cons.mp h3 with rfl | h3
      · exact .inr hw
      · exact .inl h3
    · exact .inr h3
  · intro l j e hsplit s hs
    split at hsplit
    · exact h.order l j e hsplit s hs
    · rename_i hnf
      cases l with
      | cons b l =>
        simp only [List.cons_append, List.cons.injEq] at hsplit
        exact h.order l j e hsplit.2 s hs
      | nil =>
        simp only [List.nil_append, List.cons.injEq] at hsplit
        obtain ⟨rfl, rfl⟩ := hsplit
        by_cases hsf : s ∈ fin
        · exact .inl hsf
        · right
          obtain ⟨-, h2⟩ := h.above [] nx rest rfl hw hnf (by simp)
          have hsw : s ∉ white := by
            rcases h2 s hs with h3 | h3
            · simp at h3
            · exact h3
          by_cases hsn : s = nx
          · subst hsn; exact .refl
          · have hsm := h.grey s (hg _ _ hs).2 hsw hsf
            obtain ⟨l, r, hl, hnl⟩ := List.eq_append_cons_of_mem hsm
            obtain ⟨h3, -⟩ := h.above l s r hl hsw hsf hnl
            apply h3
            cases l with
            | nil => simp at hl; exact absurd hl.1.symm hsn
            | cons b l => simp only [List.cons_append, List.cons.injEq] at hl; rw [hl.1]; simp

theorem dfsLoop_spec {g : Graph} (hg : g.Ok) (stack white fin : List Nat) (h : Inv g stack white fin) :
    match dfsLoop g stack white fin with
    | .error n => n < g.size ∧ Edge g n n
    | .ok (white', fin') => Inv g [] white' fin' ∧ (∀ x ∈ white', x ∈ white) ∧ ∀ x ∈ stack, x ∉ white' := by
  induction stack, white, fin using dfsLoop.induct g with
  | case1 white fin =>
    unfold dfsLoop
    exact ⟨h, fun _ h => h, by simp⟩
  | case2 white fin nx rest hw hs =>
    unfold dfsLoop
    simp only [hw, hs, if_true]
    exact ⟨h.stackSize _ (by simp), (mem_successors _ _ _).mp hs⟩
  | case3 white fin nx rest hw hs ih =>
    unfold dfsLoop
    simp only [hw, hs, if_true, if_false]
    have := ih (inv_discover hg h hw hs)
    revert this
    split
    · exact id
    · rintro ⟨h1, h2, h3⟩
      exact ⟨h1, fun x hx => List.mem_of_mem_erase (h2 x hx), fun x hx => h3 x (by simp only [List.mem_append]; exact .inr hx)⟩
  | case4 white fin nx rest hw ih =>
    unfold dfsLoop
    simp only [hw, if_false]
    have := ih (inv_pop hg h hw)
    revert this
    generalize hfin : (if nx ∈ fin then fin else nx :: fin) = fin'
    have : (dite (nx ∈ fin) (fun _ => fin) fun _ => nx :: fin) = fin' := hfin
    simp only [hfin, this]
    generalize dfsLoop g rest white fin' = res
    cases res with
    | error n => exact id
    | ok p =>
      rintro ⟨h1, h2, h3⟩
      refine ⟨h1, h2, fun x hx => ?_⟩
      rcases List.mem_cons.mp hx with rfl | hx
      · exact fun hc => hw (h2 _ hc)
      · exact h3 x hx

theorem inv_start {g : Graph} {i : Nat} {white fin : List Nat} (h : Inv g [] white fin) (hi : i < g.size) (hw : i ∈ white) :
    Inv g [i] white fin := by
  refine ⟨h.whiteNodup, h.finNodup, h.finWhite, h.finSize, ?_, ?_, ?_, h.order, h.loops⟩
  · simpa using hi
  · intro x hx hxw hxf; exact absurd (h.grey x hx hxw hxf) (by simp)
  · intro l x r hs hxw hxf hxl
    cases l with
    | nil => simp at hs; exact absurd (hs.1 ▸ hw) hxw
    | cons b l => simp at hs

theorem dfsAll_spec {g : Graph} (hg : g.Ok) (starts white fin : List Nat) (h : Inv g [] white fin)
    (hst : ∀ i ∈ starts, i < g.size) :
    match dfsAll g starts white fin with
    | .error n => n < g.size ∧ Edge g n n
    | .ok (white', fin') => Inv g [] white' fin' ∧ (∀ x ∈ white', x ∈ white) ∧ ∀ x ∈ starts, x ∉ white' := by
  induction starts generalizing white fin with
  | nil => simp only [dfsAll]; exact ⟨h, fun _ h => h, by simp⟩
  | cons i starts ih =>
    have hst' : ∀ i ∈ starts, i < g.size := fun j hj => hst j (by simp [hj])
    simp only [dfsAll]
    by_cases hw : i ∈ white
    · simp only [hw, if_true]
      have h1 := dfsLoop_spec hg [i] white fin (inv_start h (hst i (by simp)) hw)
      revert h1
      cases dfsLoop g [i] white fin with
      | error n => exact id
      | ok p =>
        rintro ⟨h1, h2, h3⟩
        have := ih p.1 p.2 h1 hst'
        revert this
        simp only
        split
        · exact id
        · rintro ⟨h4, h5, h6⟩
          refine ⟨h4, fun x hx => h2 x (h5 x hx), fun x hx => ?_⟩
          rcases List.mem_cons.mp hx with rfl | hx
          · exact fun hc => h3 x (by simp) (h5 x hc)
          · exact h6 x hx
    · simp only [hw, if_false]
      have := ih white fin h hst'
      revert this
      split
      · exact id
      · rintro ⟨h4, h5, h6⟩
        refine ⟨h4, h5, fun x hx => ?_⟩
        rcases List.mem_cons.mp hx with rfl | hx
        · exact fun hc => hw (h5 x hc)
        · exact h6 x hx

theorem inv_init (g : Graph) : Inv g [] (List.range g.size) [] := by
  refine ⟨List.nodup_range, List.nodup_nil, by simp, by simp, by simp, ?_, by simp, by simp, ?_⟩
  · intro x hx hw; exact absurd (List.mem_range.mpr hx) hw
  · intro x hx hw; exact absurd (List.mem_range.mpr hx) hw

theorem dfsNext_head (g : Graph) (x : Nat) (stack white : List Nat) (h : x ∈ white) :
    dfsNext g (x :: stack) white =
      some (x, ((g.predecessors x).filter fun s => s ∈ white.erase x).reverse ++ stack, white.erase x) := by
  simp [dfsNext, h]

theorem checkOrder_spec (g : Graph) (order white : List Nat) (hn : order.Nodup) (hwn : white.Nodup)
    (hw : ∀ x, x ∈ white ↔ x ∈ order) :
    match checkOrder g order white with
    | none => ∀ l i r, order = l ++ i :: r → ∀ p, Edge g p i → p ∈ order → p = i ∨ p ∈ l
    | some j => ∃ l i r, order = l ++ i :: r ∧ Edge g j i ∧ j ∈ r := by
  induction order generalizing white with
  | nil => simp [checkOrder]
  | cons i order ih =>
    have hi : i ∈ white := (hw i).mpr (by simp)
    have hn' := List.nodup_cons.mp hn
    have hw' : ∀ x, x ∈ white.erase i ↔ x ∈ order := by
      intro x
      rw [hwn.mem_erase_iff, hw]
      constructor
      · rintro ⟨h1, h2⟩; exact (List.mem_cons.mp h2).resolve_left h1
      · intro h; exact ⟨fun hc => hn'.1 (hc ▸ h), by simp [h]⟩
    simp only [checkOrder, dfsNext_head g i [] white hi, List.append_nil]
    cases hst : ((g.predecessors i).filter fun s => s ∈ white.erase i).reverse with
    | nil =>
      simp only [dfsNext]
      have := ih (white.erase i) hn'.2 (hwn.erase _) hw'
      have hno : ∀ p, Edge g p i → p ∉ order := by
        intro p hp hpo
        have : p ∈ ((g.predecessors i).filter fun s => s ∈ white.erase i).reverse := by
          simp only [List.mem_reverse, List.mem_filter, mem_predecessors]
          exact ⟨hp, by simpa using (hw' p).mpr hpo⟩
        rw [hst] at this; simp at this
      revert this
      cases checkOrder g order (white.erase i) with
      | none =>
        intro h l k r hsplit p hp hpo
        cases l with
        | nil =>
          simp only [List.nil_append, List.cons.injEq] at hsplit
          obtain ⟨rfl, rfl⟩ := hsplit
          rcases List.mem_cons.mp hpo with h1 | h1
          · exact .inl h1
          · exact absurd h1 (hno p hp)
        | cons b l =>
          simp only [List.cons_append, List.cons.injEq] at hsplit
          rcases List.mem_cons.mp hpo with h1 | h1
          · right; rw [← hsplit.1, h1]; simp
          · rcases h l k r hsplit.2 p hp h1 with h2 | h2
            · exact .inl h2
            · exact .inr (by simp [h2])
      | some j =>
        rintro ⟨l, k, r, h1, h2, h3⟩
        exact ⟨i :: l, k, r, by simp [h1], h2, h3⟩
    | cons j rest =>
      have hj : j ∈ ((g.predecessors i).filter fun s => s ∈ white.erase i).reverse := by rw [hst]; simp
      simp only [List.mem_reverse, List.mem_filter, mem_predecessors, decide_eq_true_eq] at hj
      rw [dfsNext_head g j rest _ hj.2]
      exact ⟨[], i, order, rfl, hj.1, (hw' j).mp hj.2⟩

/-- The order has every node once and edges go from earlier to later nodes; an error is a node on a cycle. -/
theorem toposort_spec {g : Graph} (hg : g.Ok) :
    match toposort g with
    | .ok order => order.Perm (List.range g.size) ∧ ∀ a b, Edge g a b → Before order a b
    | .error n => n < g.size ∧ TransGen (Edge g) n n := by
  have h1 := dfsAll_spec hg (List.range g.size) (List.range g.size) [] (inv_init g) (by simp)
  simp only [toposort]
  revert h1
  cases dfsAll g (List.range g.size) (List.range g.size) [] with
  | error n => rintro ⟨h1, h2⟩; exact ⟨h1, .single h2⟩
  | ok p =>
    obtain ⟨w, fin⟩ := p
    rintro ⟨h1, h2, h3⟩
    have hwe : ∀ x, x ∉ w := by
      intro x hx
      exact h3 x (h2 x hx) hx
    have hall : ∀ x, x < g.size → x ∈ fin := by
      intro x hx
      by_contra hc
      exact absurd (h1.grey x hx (hwe x) hc) (by simp)
    have hperm : fin.Perm (List.range g.size) := by
      rw [List.perm_ext_iff_of_nodup h1.finNodup List.nodup_range]
      intro x
      rw [List.mem_range]
      exact ⟨h1.finSize x, hall x⟩
    have h4 := checkOrder_spec g fin (List.range g.size) h1.finNodup List.nodup_range
      (fun x => by rw [List.mem_range]; exact ⟨hall x, h1.finSize x⟩)
    simp only
    revert h4
    cases checkOrder g fin (List.range g.size) with
    | none =>
      intro h4
      refine ⟨hperm, fun a b hab => ?_⟩
      obtain ⟨l, r, hl⟩ := List.append_of_mem (hall b (hg _ _ hab).2)
      refine ⟨l, r, hl, ?_⟩
      rcases h4 l b r hl a hab (hall a (hg _ _ hab).1) with rfl | h5
      · exact absurd hab (h1.loops a (hg _ _ hab).1 (hwe a))
      · exact h5
    | some j =>
      rintro ⟨l, i, r, h5, h6, h7⟩
      refine ⟨(hg _ _ h6).1, ?_⟩
      obtain ⟨r1, r2, h8⟩ := List.append_of_mem h7
      rcases h1.order (l ++ i :: r1) j r2 (by rw [h5, h8]; simp) i h6 with h9 | h9
      · have := h1.finNodup
        rw [h5, List.nodup_append] at this
        have := (List.nodup_cons.mp this.2.1).1
        exact absurd (by rw [h8]; simp [h9]) this
      · exact TransGen.head' h6 h9

end Verif.DepTree
