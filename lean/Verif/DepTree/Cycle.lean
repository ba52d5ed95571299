import Verif.DepTree.Sort
import Mathlib.Data.List.Chain

/-
`find_cycle` finds a cycle through a node that is on one, and the maps between names and indexes.
-/
namespace Verif.DepTree
open Relation

/-- The number of nodes not seen yet. -/
def unseen (g : Graph) (seen : List Nat) : Nat := ((List.range g.size).filter fun x => decide (x ∉ seen)).length

theorem unseen_mono (g : Graph) (seen seen' : List Nat) (h : ∀ x ∈ seen, x ∈ seen') : unseen g seen' ≤ unseen g seen := by
  apply List.Sublist.length_le
  apply List.monotone_filter_right
  intro x hx
  simp only [decide_eq_true_eq] at hx ⊢
  exact fun hc => hx (h x hc)

theorem unseen_cons (g : Graph) (x : Nat) (seen : List Nat) (hx : x < g.size) (hs : x ∉ seen) :
    unseen g (x :: seen) < unseen g seen := by
  unfold unseen
  have h1 : (List.range g.size).filter (fun y => decide (y ∉ x :: seen)) =
      ((List.range g.size).filter fun y => decide (y ∉ seen)).filter fun y => decide (y ≠ x) := by
    rw [List.filter_filter]
    congr 1; funext y; simp
  rw [h1]
  apply List.length_filter_lt_length_iff_exists.mpr
  exact ⟨x, by simp [hx, hs], by simp⟩

/-- What `find_cycle`'s loop over `nodes` guarantees. -/
def LoopPost (g : Graph) (origin : Nat) (nodes path seen : List Nat) (r : Option (Bool × List Nat × List Nat)) : Prop :=
  ∃ found path' seen', r = some (found, path', seen') ∧ (∀ x ∈ seen, x ∈ seen') ∧
    (found = false → path' = path ∧ (∀ x ∈ seen', x ∉ seen → ∀ s, Edge g x s → s ∈ seen' ∧ s ≠ origin) ∧
      ∀ x ∈ nodes, x ∈ seen' ∧ x ≠ origin) ∧
    (found = true → ∃ tail, path' = path ++ origin :: tail ∧ tail.Nodup ∧ (∀ x ∈ tail, x ∉ seen ∧ x < g.size) ∧
      List.IsChain (fun a b => Edge g b a) (origin :: tail) ∧ ∃ last ∈ nodes, (origin :: tail).getLast? = some last)

theorem findCycleLoop_spec {g : Graph} (hg : g.Ok) (origin : Nat) (fuel : Nat) (nodes path seen : List Nat)
    (ho : origin ∈ seen) (hsize : ∀ x ∈ nodes, x < g.size) (hf : unseen g seen ≤ fuel) :
    LoopPost g origin nodes path seen (findCycleLoop g origin nodes path seen fuel) := by
  induction fuel using Nat.strong_induction_on generalizing nodes path seen with
  | _ fuel ihf =>
  induction nodes generalizing path seen with
  | nil =>
    unfold findCycleLoop
    exact ⟨false, path, seen, rfl, fun _ h => h, fun _ => ⟨rfl, fun x hx hc => absurd hx hc, by simp⟩, by simp⟩
  | cons node nodes ih =>
    have hsize' : ∀ x ∈ nodes, x < g.size := fun x hx => hsize x (by simp [hx])
    unfold findCycleLoop
    by_cases hno : node = origin
    · simp only [hno, if_true]
      refine ⟨true, _, _, rfl, fun _ h => h, by simp, fun _ => ⟨[], by simp, by simp, by simp, by simp, origin, by simp, by simp⟩⟩
    · simp only [hno, if_false]
      by_cases hns : node ∈ seen
      · simp only [hns, if_true]
        obtain ⟨found, path', seen', h1, h2, h3, h4⟩ := ih path seen ho hsize' hf
        refine ⟨found, path', seen', h1, h2, fun hfalse => ?_, fun htrue => ?_⟩
        · obtain ⟨h5, h6, h7⟩ := h3 hfalse
          refine ⟨h5, h6, fun x hx => ?_⟩
          rcases List.mem_cons.mp hx with rfl | hx
          · exact ⟨h2 _ hns, hno⟩
          · exact h7 x hx
        · obtain ⟨tail, h5, h6, h7, h8, last, h9, h10⟩ := h4 htrue
          exact ⟨tail, h5, h6, h7, h8, last, by simp [h9], h10⟩
      · simp only [hns, if_false]
        have hlt := unseen_cons g node seen (hsize node (by simp)) hns
        obtain ⟨fuel, rfl⟩ : ∃ f, fuel = f + 1 := ⟨fuel - 1, by omega⟩
        unfold findCycle
        obtain ⟨found, path', seen', h1, h2, h3, h4⟩ := ihf fuel (by omega) (g.successors node) path (node :: seen)
          (by simp [ho]) (fun x hx => (hg _ _ ((mem_successors _ _ _).mp hx)).2) (by omega)
        rw [h1]
        have hss : ∀ x ∈ seen, x ∈ seen' := fun x hx => h2 x (by simp [hx])
        cases found with
        | true =>
          obtain ⟨tail, h5, h6, h7, h8, last, h9, h10⟩ := h4 rfl
          have hnt : node ∉ tail := fun hc => (h7 node hc).1 (by simp)
          refine ⟨true, _, _, rfl, hss, by simp, fun _ => ⟨tail ++ [node], by simp [h5], ?_, ?_, ?_, node, by simp, ?_⟩⟩
          · rw [List.nodup_append]
            refine ⟨h6, by simp, ?_⟩
            intro a ha b hb
            simp only [List.mem_singleton] at hb
            exact fun hc => hnt (hb ▸ hc ▸ ha)
          · intro x hx
            rcases List.mem_append.mp hx with hx | hx
            · exact ⟨fun hc => (h7 x hx).1 (by simp [hc]), (h7 x hx).2⟩
            · simp only [List.mem_singleton] at hx
              subst hx
              exact ⟨hns, hsize x (by simp)⟩
          · rw [← List.cons_append, List.isChain_append]
            refine ⟨h8, by simp, ?_⟩
            intro a ha b hb
            rw [h10] at ha
            simp only [Option.mem_def, Option.some.injEq, List.head?_cons] at ha hb
            subst ha hb
            exact (mem_successors _ _ _).mp h9
          · rw [← List.cons_append, List.getLast?_concat]
        | false =>
          obtain ⟨h5, h6, h7⟩ := h3 rfl
          obtain ⟨found, path'', seen'', g1, g2, g3, g4⟩ := ih path' seen' (hss _ ho) hsize'
            (Nat.le_trans (unseen_mono g seen seen' hss) hf)
          subst h5
          refine ⟨found, path'', seen'', g1, fun x hx => g2 x (hss x hx), fun hfalse => ?_, fun htrue => ?_⟩
          · obtain ⟨g5, g6, g7⟩ := g3 hfalse
            refine ⟨g5, ?_, ?_⟩
            · intro x hx hxs s hs
              by_cases hx' : x ∈ seen'
              · by_cases hxn : x = node
                · subst hxn
                  have := h7 s ((mem_successors _ _ _).mpr hs)
                  exact ⟨g2 s this.1, this.2⟩
                · have := h6 x hx' (by simp [hxn, hxs]) s hs
                  exact ⟨g2 s this.1, this.2⟩
              · exact g6 x hx hx' s hs
            · intro x hx
              rcases List.mem_cons.mp hx with rfl | hx
              · exact ⟨g2 _ (h2 _ (by simp)), hno⟩
              · exact g7 x hx
          · obtain ⟨tail, k5, k6, k7, k8, last, k9, k10⟩ := g4 htrue
            exact ⟨tail, k5, k6, fun x hx => ⟨fun hc => (k7 x hx).1 (hss x hc), (k7 x hx).2⟩, k8, last, by simp [k9], k10⟩

/-- From a node on a cycle, `find_cycle` ends and gives a cycle. -/
theorem findCycle_spec {g : Graph} (hg : g.Ok) (origin : Nat) (hs : origin < g.size) (hc : TransGen (Edge g) origin origin) :
    ∃ path seen, findCycle g origin origin [] [] (g.size + 1) = some (true, path, seen) ∧
      IsCycle (Edge g) path ∧ ∀ x ∈ path, x < g.size := by
  unfold findCycle
  have hu : unseen g [origin] ≤ g.size := by
    unfold unseen
    have := List.length_filter_le (fun x => decide (x ∉ [origin])) (List.range g.size)
    rwa [List.length_range] at this
  obtain ⟨found, path', seen', h1, h2, h3, h4⟩ := findCycleLoop_spec hg origin g.size (g.successors origin) [] [origin]
    (by simp) (fun x hx => (hg _ _ ((mem_successors _ _ _).mp hx)).2) hu
  cases found with
  | false =>
    obtain ⟨-, h6, h7⟩ := h3 rfl
    have closed : ∀ x ∈ seen', ∀ s, Edge g x s → s ∈ seen' ∧ s ≠ origin := by
      intro x hx s he
      by_cases hxo : x = origin
      · subst hxo; exact h7 s ((mem_successors _ _ _).mpr he)
      · exact h6 x hx (by simp [hxo]) s he
    have : ∀ y, TransGen (Edge g) origin y → y ∈ seen' ∧ y ≠ origin := by
      intro y hy
      induction hy with
      | single h => exact closed _ (h2 _ (by simp)) _ h
      | tail _ h ih => exact closed _ ih.1 _ h
    exact absurd rfl (this origin hc).2
  | true =>
    obtain ⟨tail, h5, h6, h7, h8, last, h9, h10⟩ := h4 rfl
    refine ⟨path', seen', h1, ?_, ?_⟩
    · simp only [List.nil_append] at h5
      subst h5
      refine ⟨by simp, ?_, ?_, ?_⟩
      · rw [List.nodup_cons]
        exact ⟨fun hc => (h7 _ hc).1 (by simp), h6⟩
      · intro l a b r hl
        rw [hl] at h8
        exact (List.isChain_append_cons_cons.mp h8).2.1
      · intro f la hf hl
        rw [h10] at hl
        simp only [List.head?_cons, Option.some.injEq] at hf hl
        subst hf hl
        exact (mem_successors _ _ _).mp h9
    · intro x hx
      simp only [List.nil_append] at h5
      subst h5
      rcases List.mem_cons.mp hx with rfl | hx
      · exact hs
      · exact (h7 x hx).2

theorem get_cons (name : String) (i : Nat) (map : List (String × Nat)) (n : String) :
    get ((name, i) :: map) n = if name = n then some i else get map n := by
  by_cases h : name = n
  · simp [get, h]
  · simp [get, h]

theorem get_indexes (inputs : List (String × List String)) (next : Nat) (acc : List (String × Nat))
    (hn : (inputs.map (·.1)).Nodup) (name : String) (i : Nat) :
    get (indexes inputs next acc) name = some i ↔
      (∃ k deps, inputs[k]? = some (name, deps) ∧ i = next + k) ∨ (name ∉ inputs.map (·.1) ∧ get acc name = some i) := by
  induction inputs generalizing next acc with
  | nil => simp [indexes]
  | cons e inputs ih =>
    obtain ⟨value, deps⟩ := e
    simp only [List.map_cons, List.nodup_cons] at hn
    simp only [indexes]
    rw [ih (next + 1) ((value, next) :: acc) hn.2, get_cons]
    constructor
    · rintro (⟨k, deps, h1, h2⟩ | ⟨h1, h2⟩)
      · exact .inl ⟨k + 1, deps, by simpa using h1, by omega⟩
      · by_cases hv : value = name
        · subst hv
          simp only [if_true, Option.some.injEq] at h2
          exact .inl ⟨0, deps, by simp, by omega⟩
        · rw [if_neg hv] at h2
          exact .inr ⟨by simp only [List.map_cons, List.mem_cons, not_or]; exact ⟨fun hc => hv hc.symm, h1⟩, h2⟩
    · rintro (⟨k, deps', h1, h2⟩ | ⟨h1, h2⟩)
      · cases k with
        | zero =>
          simp only [List.getElem?_cons_zero, Option.some.injEq, Prod.mk.injEq] at h1
          obtain ⟨rfl, rfl⟩ := h1
          exact .inr ⟨hn.1, by simpa using h2.symm⟩
        | succ k => exact .inl ⟨k, deps', by simpa using h1, by omega⟩
      · simp only [List.map_cons, List.mem_cons, not_or] at h1
        exact .inr ⟨h1.2, by rw [if_neg (fun hc => h1.1 hc.symm)]; exact h2⟩

theorem get_indexes_iff (inputs : List (String × List String)) (hn : (inputs.map (·.1)).Nodup) (name : String) (i : Nat) :
    get (indexes inputs 0 []) name = some i ↔ ∃ deps, inputs[i]? = some (name, deps) := by
  rw [get_indexes inputs 0 [] hn]
  constructor
  · rintro (⟨k, deps, h1, h2⟩ | ⟨-, h2⟩)
    · have : i = k := by omega
      subst this; exact ⟨deps, h1⟩
    · simp [get] at h2
  · rintro ⟨deps, h⟩; exact .inl ⟨i, deps, h, by omega⟩

theorem edges_some (map : List (String × Nat)) (inputs : List (String × List String))
    (h : ∀ e ∈ inputs, ∃ i, get map e.1 = some i) :
    ∃ es, edges map inputs = some es ∧
      ∀ a b, (a, b) ∈ es ↔ ∃ name deps dep, (name, deps) ∈ inputs ∧ get map name = some a ∧ dep ∈ deps ∧ get map dep = some b := by
  induction inputs with
  | nil => exact ⟨[], rfl, by simp⟩
  | cons e inputs ih =>
    obtain ⟨value, deps⟩ := e
    obtain ⟨i, hi⟩ := h (value, deps) (by simp)
    obtain ⟨es, h1, h2⟩ := ih (fun e he => h e (by simp [he]))
    simp only at hi
    refine ⟨edgesFrom map i deps ++ es, by simp [edges, hi, h1], fun a b => ?_⟩
    rw [List.mem_append, h2]
    simp only [edgesFrom, List.mem_map, List.mem_filterMap]
    constructor
    · rintro (⟨x, ⟨dep, h3, h4⟩, h5⟩ | ⟨name, deps', dep, h3, h4⟩)
      · simp only [Prod.mk.injEq] at h5
        obtain ⟨rfl, rfl⟩ := h5
        exact ⟨value, deps, dep, by simp, hi, h3, h4⟩
      · exact ⟨name, deps', dep, by simp [h3], h4⟩
    · rintro ⟨name, deps', dep, h3, h4, h5, h6⟩
      rcases List.mem_cons.mp h3 with h3 | h3
      · simp only [Prod.mk.injEq] at h3
        obtain ⟨rfl, rfl⟩ := h3
        rw [hi, Option.some.injEq] at h4
        exact .inl ⟨b, ⟨dep, h5, h6⟩, by rw [h4]⟩
      · exact .inr ⟨name, deps', dep, h3, h4, h5, h6⟩

/-- Removing distinct indexes that are in the map gives their names. -/
theorem removeAll_spec (name : Nat → String) (vals : List (Nat × String)) (seq : List Nat) (hn : seq.Nodup)
    (hv : ∀ i ∈ seq, (i, name i) ∈ vals) (hf : ∀ e ∈ vals, e.2 = name e.1) : removeAll vals seq = some (seq.map name) := by
  induction seq generalizing vals with
  | nil => rfl
  | cons i seq ih =>
    rw [List.nodup_cons] at hn
    unfold removeAll
    have h1 : ∃ e, vals.find? (fun e => e.1 == i) = some e := by
      cases h : vals.find? (fun e => e.1 == i) with
      | some e => exact ⟨e, rfl⟩
      | none =>
        rw [List.find?_eq_none] at h
        exact absurd (h _ (hv i (by simp))) (by simp)
    obtain ⟨e, h1⟩ := h1
    obtain ⟨j, nm⟩ := e
    have h2 := List.find?_some h1
    simp only [beq_iff_eq] at h2
    subst h2
    have h3 := hf _ (List.mem_of_find?_eq_some h1)
    simp only at h3
    simp only [h1]
    rw [ih (vals.filter fun e => e.1 != j) hn.2 ?_ ?_]
    · simp [h3]
    · intro k hk
      rw [List.mem_filter]
      refine ⟨hv k (by simp [hk]), ?_⟩
      simp only [bne_iff_ne, ne_eq]
      exact fun hc => hn.1 (hc ▸ hk)
    · intro e he; exact hf e (List.mem_filter.mp he).1

/-- The name of the module with the given index. -/
def nameAt (inputs : List (String × List String)) (i : Nat) : String := ((inputs[i]?).map (·.1)).getD ""

theorem mem_values (inputs : List (String × List String)) (e : Nat × String) :
    e ∈ values inputs ↔ e.1 < inputs.length ∧ e.2 = nameAt inputs e.1 := by
  obtain ⟨i, s⟩ := e
  simp only [values, nameAt]
  rw [List.mem_iff_getElem?]
  simp only [List.getElem?_zip_eq_some]
  constructor
  · rintro ⟨k, h1, h2⟩
    rw [List.getElem?_eq_some_iff] at h1
    obtain ⟨hk, h1⟩ := h1
    simp only [List.length_range, List.getElem_range] at hk h1
    subst h1
    rw [List.getElem?_map] at h2
    exact ⟨hk, by rw [h2]; rfl⟩
  · rintro ⟨h1, h2⟩
    refine ⟨i, by simp [h1], ?_⟩
    rw [List.getElem?_map]
    simp [h2, h1]

end Verif.DepTree
