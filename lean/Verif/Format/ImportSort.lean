import Verif.Format.ImportSpec

/-!
# Names are sorted
-/
namespace Verif.Format
open Verif.Format.Spec

theorem nameLe_iff : (a b : Name) → (nameLe a b = true ↔ a ≤ b)
  | [], b => by simp [nameLe]
  | a :: as, [] => by simp [nameLe]
  | a :: as, b :: bs => by
    rw [nameLe, List.cons_le_cons_iff, ← nameLe_iff as bs]
    simp

section
variable {α : Type} {key : α → Name}

theorem insertBy_perm (x : α) : (l : List α) → (insertBy key x l).Perm (x :: l)
  | [] => .refl _
  | y :: ys => by
    rw [insertBy]
    split
    · exact .refl _
    · exact ((insertBy_perm x ys).cons y).trans (.swap _ _ _)

theorem sortBy_perm : (l : List α) → (sortBy key l).Perm l
  | [] => .refl _
  | x :: xs => by
    rw [sortBy]
    exact (insertBy_perm x _).trans ((sortBy_perm xs).cons x)

theorem insertBy_sorted (x : α) : {l : List α} → l.Pairwise (fun a b => key a ≤ key b) →
    (insertBy key x l).Pairwise fun a b => key a ≤ key b
  | [], _ => by simp [insertBy]
  | y :: ys, h => by
    rw [insertBy]
    rw [List.pairwise_cons] at h
    split
    · next hle =>
      have hle := (nameLe_iff _ _).1 hle
      refine List.pairwise_cons.2 ⟨fun z hz => ?_, List.pairwise_cons.2 h⟩
      rcases List.mem_cons.1 hz with rfl | hz
      · exact hle
      · exact List.le_trans hle (h.1 z hz)
    · next hle =>
      have hle : key y ≤ key x := (List.le_total _ _).resolve_left fun e => hle ((nameLe_iff _ _).2 e)
      refine List.pairwise_cons.2 ⟨fun z hz => ?_, insertBy_sorted x h.2⟩
      rcases List.mem_cons.1 ((insertBy_perm x ys).mem_iff.1 hz) with rfl | hz
      · exact hle
      · exact h.1 z hz

theorem sortBy_sorted : (l : List α) → (sortBy key l).Pairwise fun a b => key a ≤ key b
  | [] => by simp [sortBy]
  | x :: xs => insertBy_sorted x (sortBy_sorted xs)

theorem insertBy_filter (x : α) (n : Name) : (l : List α) →
    (insertBy key x l).filter (fun a => key a = n) = (x :: l).filter fun a => key a = n
  | [] => rfl
  | y :: ys => by
    rw [insertBy]
    split
    · rfl
    · next hle =>
      have hne : key y ≠ key x := fun e => hle ((nameLe_iff _ _).2 (by rw [e]; exact List.le_refl _))
      rw [List.filter_cons, insertBy_filter x n ys]
      simp only [List.filter_cons]
      by_cases h1 : key y = n <;> by_cases h2 : key x = n
      · exact absurd (h1.trans h2.symm) hne
      all_goals simp [h1, h2]

theorem sortBy_filter (n : Name) : (l : List α) →
    (sortBy key l).filter (fun a => key a = n) = l.filter fun a => key a = n
  | [] => rfl
  | x :: xs => by
    rw [sortBy, insertBy_filter]
    simp only [List.filter_cons]
    rw [sortBy_filter n xs]

theorem sortBy_sorts (l : List α) : Sorts key l (sortBy key l) :=
  ⟨sortBy_perm l, sortBy_sorted l, fun n => sortBy_filter n l⟩

theorem sortBy_same : {l : List α} → l.Pairwise (fun a b => key a ≤ key b) → sortBy key l = l
  | [], _ => rfl
  | x :: xs, h => by
    rw [List.pairwise_cons] at h
    rw [sortBy, sortBy_same h.2]
    cases xs with
    | nil => rfl
    | cons y ys => rw [insertBy, if_pos ((nameLe_iff _ _).2 (h.1 y (by simp)))]

theorem sortBy_mem {l : List α} {x : α} : x ∈ sortBy key l ↔ x ∈ l := (sortBy_perm l).mem_iff

end
end Verif.Format
