import Verif.Sugar.Model

/-! # The arguments of a record update are the fields in their order -/

namespace Verif.Sugar

open Verif.ErlText (Text)

variable {α : Type}

theorem mem_insertByIndex (e x : Nat × α) (l : List (Nat × α)) : x ∈ insertByIndex e l ↔ x = e ∨ x ∈ l := by
  induction l with
  | nil => simp [insertByIndex]
  | cons y l ih =>
    simp only [insertByIndex]
    split
    · simp
    · simp only [List.mem_cons, ih]
      constructor
      · rintro (h | h | h) <;> simp [h]
      · rintro (h | h | h) <;> simp [h]

theorem mem_sortByIndex (x : Nat × α) (l : List (Nat × α)) : x ∈ sortByIndex l ↔ x ∈ l := by
  induction l with
  | nil => simp [sortByIndex]
  | cons y l ih => simp [sortByIndex, mem_insertByIndex, ih]

theorem insertByIndex_sorted (e : Nat × α) (l : List (Nat × α)) (h : l.Pairwise fun a b => a.1 < b.1)
    (he : ∀ x ∈ l, x.1 ≠ e.1) : (insertByIndex e l).Pairwise fun a b => a.1 < b.1 := by
  induction l with
  | nil => simp [insertByIndex]
  | cons y l ih =>
    simp only [insertByIndex]
    rw [List.pairwise_cons] at h
    have hy := he y (by simp)
    split
    · rename_i hle
      rw [List.pairwise_cons]
      refine ⟨fun x hx => ?_, List.pairwise_cons.2 h⟩
      rcases List.mem_cons.1 hx with rfl | hx
      · omega
      · have := h.1 x hx; omega
    · rename_i hle
      rw [List.pairwise_cons]
      refine ⟨fun x hx => ?_, ih h.2 fun x hx => he x (by simp [hx])⟩
      rcases (mem_insertByIndex _ _ _).1 hx with rfl | hx
      · omega
      · exact h.1 x hx

theorem sortByIndex_sorted (l : List (Nat × α)) (h : (l.map Prod.fst).Nodup) :
    (sortByIndex l).Pairwise fun a b => a.1 < b.1 := by
  induction l with
  | nil => simp [sortByIndex]
  | cons y l ih =>
    simp only [List.map_cons, List.nodup_cons, List.mem_map, not_exists, not_and] at h
    refine insertByIndex_sorted y _ (ih h.2) fun x hx => ?_
    exact h.1 x ((mem_sortByIndex _ _).1 hx)

/-- Lists that are sorted and have the same members are the same. -/
theorem eq_of_sorted {l k : List (Nat × α)} (hl : l.Pairwise fun a b => a.1 < b.1) (hk : k.Pairwise fun a b => a.1 < b.1)
    (h : ∀ x, x ∈ l ↔ x ∈ k) : l = k := by
  induction l generalizing k with
  | nil =>
    cases k with
    | nil => rfl
    | cons y k => have := (h y).2 (by simp); cases this
  | cons x l ih =>
    cases k with
    | nil => have := (h x).1 (by simp); cases this
    | cons y k =>
      rw [List.pairwise_cons] at hl hk
      have hxy : x = y := by
        rcases List.mem_cons.1 ((h x).1 (by simp)) with hx | hx
        · exact hx
        · rcases List.mem_cons.1 ((h y).2 (by simp)) with hy | hy
          · exact hy.symm
          · have h1 := hk.1 x hx
            have h2 := hl.1 y hy
            omega
      subst hxy
      congr 1
      refine ih hl.2 hk.2 fun z => ?_
      constructor
      · intro hz
        rcases List.mem_cons.1 ((h z).1 (by simp [hz])) with rfl | h'
        · have := hl.1 z hz; omega
        · exact h'
      · intro hz
        rcases List.mem_cons.1 ((h z).2 (by simp [hz])) with rfl | h'
        · have := hk.1 z hz; omega
        · exact h'

/-! ### The arguments -/

/-- What stands in a field: what is given for its label, or the old field. -/
def fieldOf (given : List (Text × ErlGen.Expr)) (record : ErlGen.Expr) (i : Nat) (label : Option Text) : ErlGen.Expr :=
  match label.bind fun l => given.lookup l with
  | some e => e
  | none => .field record i

theorem label_unique {labels : List (Option Text)} (h : (labels.filterMap id).Nodup) {i j : Nat} {l : Text}
    (hi : labels[i]? = some (some l)) (hj : labels[j]? = some (some l)) : i = j := by
  induction labels generalizing i j with
  | nil => simp at hi
  | cons a labels ih =>
    have hmem : ∀ {n : Nat}, labels[n]? = some (some l) → l ∈ labels.filterMap id := fun hn =>
      List.mem_filterMap.2 ⟨some l, List.mem_of_getElem? hn, rfl⟩
    cases a with
    | none =>
      simp only [List.filterMap_cons, id] at h
      cases i <;> cases j <;> simp at hi hj
      rw [ih h hi hj]
    | some b =>
      simp only [List.filterMap_cons, id, List.nodup_cons] at h
      cases i <;> cases j <;> simp at hi hj
      · rfl
      · subst hi; exact absurd (hmem hj) h.1
      · subst hj; exact absurd (hmem hi) h.1
      · rw [ih h.2 hi hj]

theorem findIdx_label {labels : List (Option Text)} (h : (labels.filterMap id).Nodup) (l : Text) (i : Nat) :
    labels.findIdx? (· == some l) = some i ↔ labels[i]? = some (some l) := by
  rw [List.findIdx?_eq_some_iff_getElem]
  constructor
  · rintro ⟨hi, he, -⟩
    rw [List.getElem?_eq_getElem hi, eq_of_beq he]
  · intro hi
    obtain ⟨hlt, he⟩ := List.getElem?_eq_some_iff.1 hi
    refine ⟨hlt, by simp [he], fun j hj hb => ?_⟩
    have : labels[j]? = some (some l) := by
      rw [List.getElem?_eq_getElem (by omega), eq_of_beq hb]
    have := label_unique h hi this
    omega

theorem lookup_of_mem {given : List (Text × ErlGen.Expr)} (h : (given.map Prod.fst).Nodup) {l : Text} {e : ErlGen.Expr}
    (hm : (l, e) ∈ given) : given.lookup l = some e := by
  induction given with
  | nil => cases hm
  | cons g given ih =>
    simp only [List.map_cons, List.nodup_cons] at h
    rcases List.mem_cons.1 hm with rfl | hm
    · simp [List.lookup_cons]
    · have : l ≠ g.1 := fun hl => h.1 (hl ▸ List.mem_map.2 ⟨_, hm, rfl⟩)
      rw [List.lookup_cons, show (l == g.1) = false from by simpa using this]
      exact ih h.2 hm

theorem mem_of_lookup {given : List (Text × ErlGen.Expr)} {l : Text} {e : ErlGen.Expr} (h : given.lookup l = some e) :
    (l, e) ∈ given := by
  induction given with
  | nil => simp at h
  | cons g given ih =>
    rw [List.lookup_cons] at h
    cases hb : l == g.1 with
    | true => simp only [hb] at h; cases h; rw [eq_of_beq hb]; simp
    | false => simp only [hb] at h; exact List.mem_cons_of_mem _ (ih h)

theorem lookup_none {given : List (Text × ErlGen.Expr)} {l : Text} :
    given.lookup l = none ↔ (given.map Prod.fst).contains l = false := by
  induction given with
  | nil => simp
  | cons g given ih =>
    rw [List.lookup_cons]
    cases hb : l == g.1 with
    | true => simp [List.contains_cons, hb]
    | false => simp only [ih, List.map_cons, List.contains_cons, hb, Bool.false_or]

theorem implicit_nodup (labels : List (Option Text)) (n : Nat) (given : List (Text × ErlGen.Expr)) (record : ErlGen.Expr) :
    (((labels.zipIdx n).filterMap fun (label, i) =>
      match label with
      | some l => if (given.map Prod.fst).contains l then none else some (i, ErlGen.Expr.field record i)
      | none => some (i, .field record i)).map Prod.fst).Nodup := by
  suffices h : (((labels.zipIdx n).filterMap fun (label, i) =>
      match label with
      | some l => if (given.map Prod.fst).contains l then none else some (i, ErlGen.Expr.field record i)
      | none => some (i, .field record i)).map Prod.fst).Pairwise (· < ·) ∧
      ∀ i ∈ ((labels.zipIdx n).filterMap fun (label, i) =>
        match label with
        | some l => if (given.map Prod.fst).contains l then none else some (i, ErlGen.Expr.field record i)
        | none => some (i, .field record i)).map Prod.fst, n ≤ i by
    exact h.1.imp fun h => Nat.ne_of_lt h
  induction labels generalizing n with
  | nil => simp
  | cons label labels ih =>
    obtain ⟨h1, h2⟩ := ih (n + 1)
    rw [List.zipIdx_cons, List.filterMap_cons]
    split
    · exact ⟨h1, fun i hi => by have := h2 i hi; omega⟩
    · rename_i e he
      have : e.1 = n := by
        cases label with
        | none => simp at he; rw [← he]
        | some l => dsimp only at he; split at he <;> simp at he; rw [← he]
      simp only [List.map_cons, List.pairwise_cons, List.mem_cons]
      refine ⟨⟨fun i hi => ?_, h1⟩, ?_⟩
      · have := h2 i hi; omega
      · rintro i (rfl | hi)
        · omega
        · have := h2 i hi; omega

/-- The arguments of a record update are the fields in their order. -/
theorem updateArguments_eq {labels : List (Option Text)} {given : List (Text × ErlGen.Expr)} (record : ErlGen.Expr)
    (hl : (labels.filterMap id).Nodup) (hg : (given.map Prod.fst).Nodup) :
    updateArguments labels given record = labels.mapIdx (fieldOf given record) := by
  let target : List (Nat × ErlGen.Expr) := labels.mapIdx fun i label => (i, fieldOf given record i label)
  have htarget : target.map Prod.snd = labels.mapIdx (fieldOf given record) := by
    apply List.ext_getElem?
    intro i
    simp [target, List.getElem?_mapIdx, Function.comp_def]
  have hE : ∀ i e, (i, e) ∈ explicitArguments labels given ↔
      ∃ l, (l, e) ∈ given ∧ labels[i]? = some (some l) := by
    intro i e
    simp only [explicitArguments, List.mem_filterMap, Option.map_eq_some_iff]
    constructor
    · rintro ⟨⟨l, e'⟩, hm, j, hj, hje⟩
      simp only [Prod.mk.injEq] at hje
      obtain ⟨rfl, rfl⟩ := hje
      exact ⟨l, hm, (findIdx_label hl l j).1 hj⟩
    · rintro ⟨l, hm, hi⟩
      exact ⟨(l, e), hm, i, (findIdx_label hl l i).2 hi, rfl⟩
  have hI : ∀ i e, (i, e) ∈ implicitArguments labels given record ↔
      ∃ label, labels[i]? = some label ∧ (label.bind fun l => given.lookup l) = none ∧ e = .field record i := by
    intro i e
    simp only [implicitArguments, List.mem_filterMap, Prod.exists]
    constructor
    · rintro ⟨label, j, hm, h⟩
      rw [List.mk_mem_zipIdx_iff_getElem?] at hm
      cases label with
      | none => simp at h; obtain ⟨rfl, rfl⟩ := h; exact ⟨none, hm, rfl, rfl⟩
      | some l =>
        dsimp only at h
        split at h
        · cases h
        · rename_i hc
          simp only [Option.some.injEq, Prod.mk.injEq] at h
          obtain ⟨rfl, rfl⟩ := h
          exact ⟨some l, hm, lookup_none.2 (by simpa using hc), rfl⟩
    · rintro ⟨label, hi, hn, rfl⟩
      refine ⟨label, i, by rw [List.mk_mem_zipIdx_iff_getElem?]; exact hi, ?_⟩
      cases label with
      | none => rfl
      | some l =>
        have := lookup_none.1 (show given.lookup l = none from hn)
        simp only [this, Bool.false_eq_true, if_false]
  have hmem : ∀ x, x ∈ explicitArguments labels given ++ implicitArguments labels given record ↔ x ∈ target := by
    rintro ⟨i, e⟩
    rw [List.mem_append, hE, hI]
    simp only [target, List.mem_mapIdx, Prod.mk.injEq]
    constructor
    · rintro (⟨l, hm, hi⟩ | ⟨label, hi, hn, rfl⟩)
      · obtain ⟨hlt, he⟩ := List.getElem?_eq_some_iff.1 hi
        refine ⟨i, hlt, rfl, ?_⟩
        simp only [fieldOf, he, Option.bind_some, lookup_of_mem hg hm]
      · obtain ⟨hlt, he⟩ := List.getElem?_eq_some_iff.1 hi
        refine ⟨i, hlt, rfl, ?_⟩
        simp only [fieldOf, he, hn]
    · rintro ⟨j, hlt, rfl, rfl⟩
      cases hf : (labels[j]).bind fun l => given.lookup l with
      | none =>
        right
        exact ⟨labels[j], List.getElem?_eq_getElem hlt, hf, by simp only [fieldOf, hf]⟩
      | some e =>
        left
        obtain ⟨l, hll, hle⟩ := Option.bind_eq_some_iff.1 hf
        refine ⟨l, ?_, by rw [List.getElem?_eq_getElem hlt, hll]⟩
        simp only [fieldOf, hf]
        exact mem_of_lookup hle
  have hkeys : ((explicitArguments labels given ++ implicitArguments labels given record).map Prod.fst).Nodup := by
    rw [List.map_append, List.nodup_append]
    refine ⟨?_, ?_, ?_⟩
    · clear hE hI hmem
      have : ∀ gs : List (Text × ErlGen.Expr), (gs.map Prod.fst).Nodup →
          ((explicitArguments labels gs).map Prod.fst).Nodup := by
        intro gs
        induction gs with
        | nil => simp [explicitArguments]
        | cons g gs ih =>
          intro hn
          simp only [List.map_cons, List.nodup_cons] at hn
          simp only [explicitArguments, List.filterMap_cons]
          cases hfi : labels.findIdx? (· == some g.1) with
          | none => exact ih hn.2
          | some i =>
            simp only [Option.map_some, List.map_cons, List.nodup_cons]
            refine ⟨?_, ih hn.2⟩
            intro hi
            simp only [List.mem_map, List.mem_filterMap, Option.map_eq_some_iff] at hi
            obtain ⟨⟨j, e⟩, ⟨⟨l, e'⟩, hm, k, hk, hke⟩, hij⟩ := hi
            simp only [Prod.mk.injEq] at hke
            obtain ⟨rfl, rfl⟩ := hke
            simp only at hij
            subst hij
            have h1 := (findIdx_label hl _ _).1 hk
            have h2 := (findIdx_label hl _ _).1 hfi
            rw [h1] at h2
            simp only [Option.some.injEq] at h2
            exact hn.1 (h2 ▸ List.mem_map.2 ⟨_, hm, rfl⟩)
      exact this given hg
    · exact implicit_nodup labels 0 given record
    · intro a ha b hb hab
      simp only [List.mem_map, Prod.exists] at ha hb
      obtain ⟨i, e, he, rfl⟩ := ha
      obtain ⟨j, e', he', rfl⟩ := hb
      subst hab
      obtain ⟨l, hm, hi⟩ := (hE _ _).1 he
      obtain ⟨label, hj, hn, -⟩ := (hI _ _).1 he'
      rw [hi] at hj
      cases hj
      rw [Option.bind_some, lookup_of_mem hg hm] at hn
      cases hn
  have hsorted : target.Pairwise fun a b => a.1 < b.1 := by
    rw [List.pairwise_iff_getElem]
    intro i j hi hj hij
    simp [target, hij]
  rw [updateArguments, eq_of_sorted (sortByIndex_sorted _ hkeys) hsorted fun x => by rw [mem_sortByIndex, hmem], htarget]

end Verif.Sugar
