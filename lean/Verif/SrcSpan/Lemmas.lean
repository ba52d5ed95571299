import Verif.SrcSpan.Model
import Mathlib.Data.List.TakeWhile
import Verif.SrcSpan.Spec

namespace Verif.SrcSpan
open Spec

theorem lenUtf8_eq (c : Char) : lenUtf8 c = c.utf8Size := by
  unfold lenUtf8 Char.utf8Size
  have e : ∀ n : UInt32, (c.val ≤ n) = (c.val.toNat ≤ n.toNat) := fun n => by
    rw [UInt32.le_iff_toNat_le]
  simp only [Char.toNat, e, UInt32.toNat_ofNatLT]
  repeat' split
  all_goals omega

theorem lenUtf16_eq (c : Char) : lenUtf16 c = utf16Size c := by
  unfold lenUtf16 utf16Size
  split <;> split <;> omega

theorem lenUtf8_pos (c : Char) : 0 < lenUtf8 c := by unfold lenUtf8; split <;> (try split) <;> (try split) <;> omega
theorem lenUtf16_pos (c : Char) : 0 < lenUtf16 c := by unfold lenUtf16; split <;> omega

theorem lenUtf16_of_len8 (c : Char) (h : lenUtf8 c = 1) : lenUtf16 c = 1 := by
  unfold lenUtf8 at h; unfold lenUtf16
  split at h
  · split <;> omega
  · split at h
    · omega
    · split at h <;> omega

theorem byteLen_eq (p : List Char) : byteLen p = utf8Len p := by
  induction p with
  | nil => rfl
  | cons c cs ih => simp [byteLen, ih, utf8Len, lenUtf8_eq]

@[simp] theorem byteLen_append (p q : List Char) : byteLen (p ++ q) = byteLen p + byteLen q := by
  induction p with
  | nil => simp [byteLen]
  | cons c cs ih => simp [byteLen, ih]; omega

theorem charIndices_append (k : Nat) (p q : List Char) :
    charIndices k (p ++ q) = charIndices k p ++ charIndices (k + byteLen p) q := by
  induction p generalizing k with
  | nil => simp [charIndices, byteLen]
  | cons c cs ih => simp [charIndices, byteLen, ih, Nat.add_assoc]

/-- Newline positions plus one. -/
def starts (k : Nat) (s : List Char) : List Nat :=
  ((charIndices k s).filter (fun p => p.2 == '\n')).map (fun p => p.1 + 1)

theorem starts_append (k : Nat) (p q : List Char) :
    starts k (p ++ q) = starts k p ++ starts (k + byteLen p) q := by
  simp [starts, charIndices_append]

theorem starts_cons (k : Nat) (c : Char) (s : List Char) :
    starts k (c :: s) = (if c = '\n' then [k + 1] else []) ++ starts (k + lenUtf8 c) s := by
  by_cases h : c = '\n' <;> simp [starts, charIndices, h]

theorem starts_gt (k : Nat) (s : List Char) : ∀ x ∈ starts k s, k < x := by
  induction s generalizing k with
  | nil => simp [starts, charIndices]
  | cons c cs ih =>
    intro x hx
    rw [starts_cons] at hx
    rcases List.mem_append.1 hx with h | h
    · split at h <;> simp at h; omega
    · have := ih _ x h; have := lenUtf8_pos c; omega

theorem len_newline : lenUtf8 '\n' = 1 := by decide

theorem starts_sorted (k : Nat) (s : List Char) : (starts k s).Pairwise (· < ·) := by
  induction s generalizing k with
  | nil => simp [starts, charIndices]
  | cons c cs ih =>
    rw [starts_cons]
    split
    · rename_i h; subst h
      simp only [List.singleton_append, List.pairwise_cons]
      refine ⟨fun x hx => ?_, ih _⟩
      have := starts_gt _ _ x hx; rw [len_newline] at this; omega
    · simpa using ih _

theorem length_starts (k : Nat) (s : List Char) : (starts k s).length = newlines s := by
  induction s generalizing k with
  | nil => simp [starts, charIndices, newlines]
  | cons c cs ih =>
    rw [starts_cons, List.length_append, ih]
    unfold newlines
    rw [List.count_cons]
    by_cases h : c = '\n' <;> simp [h] ; omega

theorem lineStarts_eq (s : List Char) : (LineNumbers.new s).lineStarts = 0 :: starts 0 s := rfl

theorem lineStarts_sorted (s : List Char) : (LineNumbers.new s).lineStarts.Pairwise (· < ·) := by
  rw [lineStarts_eq, List.pairwise_cons]
  exact ⟨fun x hx => by have := starts_gt 0 s x hx; omega, starts_sorted 0 s⟩

/-- Binary search on a strictly sorted list, reduced to counting. -/
theorem binarySearch_sorted (l : List Nat) (x : Nat) (h : l.Pairwise (· < ·)) :
    (x ∈ l → binarySearch l x = .ok (l.countP (· ≤ x) - 1) ∧ 0 < l.countP (· ≤ x)) ∧
    (x ∉ l → binarySearch l x = .error (l.countP (· ≤ x))) := by
  have key : ∀ (l : List Nat), l.Pairwise (· < ·) →
      (x ∈ l → l[l.countP (fun y => decide (y < x))]? = some x ∧
        l.countP (· ≤ x) = l.countP (fun y => decide (y < x)) + 1) ∧
      (x ∉ l → l.countP (· ≤ x) = l.countP (fun y => decide (y < x))) := by
    intro l
    induction l with
    | nil => simp
    | cons a l ih =>
      intro hp
      rw [List.pairwise_cons] at hp
      have ih := ih hp.2
      constructor
      · intro hx
        by_cases hax : a < x
        · have : x ∈ l := by
            rcases List.mem_cons.1 hx with h | h
            · omega
            · exact h
          have := ih.1 this
          rw [List.countP_cons_of_pos (by simp; omega), List.countP_cons_of_pos (by simp; omega)]
          simp [this]
        · have hxa : x = a := by
            rcases List.mem_cons.1 hx with h | h
            · exact h
            · exact absurd (hp.1 x h) (by omega)
          subst hxa
          have h0 : List.countP (fun y => decide (y < x)) l = 0 := by
            rw [List.countP_eq_zero]; intro y hy; have := hp.1 y hy; simp; omega
          have h1 : List.countP (fun y => decide (y ≤ x)) l = 0 := by
            rw [List.countP_eq_zero]; intro y hy; have := hp.1 y hy; simp; omega
          rw [List.countP_cons_of_neg (by simp), List.countP_cons_of_pos (by simp), h0, h1]
          simp
      · intro hx
        have hx' : x ≠ a ∧ x ∉ l := by simpa using hx
        have := ih.2 hx'.2
        by_cases hax : a < x
        · rw [List.countP_cons_of_pos (by simp; omega), List.countP_cons_of_pos (by simp; omega), this]
        · rw [List.countP_cons_of_neg (by simp; omega), List.countP_cons_of_neg (by simp; omega), this]
  constructor
  · intro hx
    obtain ⟨h1, h2⟩ := (key l h).1 hx
    unfold binarySearch
    simp only [h1, if_true]
    constructor
    · congr 1; omega
    · omega
  · intro hx
    have h2 := (key l h).2 hx
    unfold binarySearch
    have : ¬ (l[List.countP (fun y => decide (y < x)) l]? = some x) := by
      intro hh; exact hx (List.mem_of_getElem? hh)
    simp only [this, if_false, h2]

theorem newlinesBefore_zero (s : List Char) : newlinesBefore s 0 = 0 := by
  cases s <;> simp [newlinesBefore]

theorem countP_starts (k : Nat) (s : List Char) (i : Nat) :
    (starts k s).countP (· ≤ k + i) = newlinesBefore s i := by
  induction s generalizing k i with
  | nil => simp [starts, charIndices, newlinesBefore]
  | cons c cs ih =>
    rw [starts_cons, List.countP_append]
    by_cases hi : i = 0
    · subst hi
      simp only [newlinesBefore, if_true]
      have h0 : List.countP (fun x => decide (x ≤ k + 0)) (starts (k + lenUtf8 c) cs) = 0 := by
        rw [List.countP_eq_zero]; intro y hy; have := starts_gt _ _ y hy; simp; omega
      rw [h0]; split <;> simp
    · simp only [newlinesBefore, hi, if_false]
      congr 1
      · split
        · simp; omega
        · simp
      · by_cases hl : lenUtf8 c ≤ i
        · have := ih (k + lenUtf8 c) (i - lenUtf8 c)
          rw [← lenUtf8_eq, ← this]
          congr 1; funext x; congr 1; rw [eq_iff_iff]; omega
        · have : i - c.utf8Size = 0 := by rw [← lenUtf8_eq]; omega
          rw [this, newlinesBefore_zero, List.countP_eq_zero]
          intro y hy; have := starts_gt _ _ y hy; simp; omega

theorem lineNumber_eq (s : List Char) (i : Nat) :
    (LineNumbers.new s).lineNumber i = some (newlinesBefore s i + 1) := by
  have hs := binarySearch_sorted _ i (lineStarts_sorted s)
  have hc : (LineNumbers.new s).lineStarts.countP (· ≤ i) = newlinesBefore s i + 1 := by
    rw [lineStarts_eq, List.countP_cons_of_pos (by simp)]
    have := countP_starts 0 s i
    simpa using this
  unfold LineNumbers.lineNumber
  by_cases hm : i ∈ (LineNumbers.new s).lineStarts
  · rw [(hs.1 hm).1, hc]; simp
  · rw [hs.2 hm, hc]

theorem newlinesBefore_append (p q : List Char) : newlinesBefore (p ++ q) (byteLen p) = newlines p := by
  induction p with
  | nil => simp [byteLen, newlinesBefore_zero, newlines]
  | cons c cs ih =>
    have := lenUtf8_pos c
    simp only [List.cons_append, newlinesBefore, byteLen, newlines, List.count_cons]
    rw [if_neg (by omega), ← lenUtf8_eq, Nat.add_sub_cancel_left, ih]
    by_cases h : c = '\n' <;> simp [h, newlines]; omega

/-- Split a text at the start of its last line. -/
theorem split_line (p : List Char) : ∃ a, p = a ++ currentLine p ∧ newlines a = newlines p ∧
    (a = [] ∨ ∃ a', a = a' ++ ['\n']) ∧ '\n' ∉ currentLine p := by
  refine ⟨(p.reverse.dropWhile (· ≠ '\n')).reverse, ?_, ?_, ?_, ?_⟩
  · rw [currentLine, ← List.reverse_append, List.takeWhile_append_dropWhile, List.reverse_reverse]
  · have h : p.reverse.takeWhile (fun x => decide (x ≠ '\n')) ++ p.reverse.dropWhile (fun x => decide (x ≠ '\n')) = p.reverse := List.takeWhile_append_dropWhile
    have h2 : (p.reverse.takeWhile (fun x => decide (x ≠ '\n'))).count '\n' = 0 := by
      rw [List.count_eq_zero]; intro hm
      have := List.mem_takeWhile_imp hm
      simp at this
    have h3 : p.reverse.count '\n' = (p.reverse.dropWhile (fun x => decide (x ≠ '\n'))).count '\n' := by
      conv => lhs; rw [← h]
      rw [List.count_append, h2, Nat.zero_add]
    unfold newlines
    rw [List.count_reverse, ← h3, List.count_reverse]
  · cases h : p.reverse.dropWhile (fun x => decide (x ≠ '\n')) with
    | nil => left; rfl
    | cons x xs =>
      right
      have : x = '\n' := by
        have hne : p.reverse.dropWhile (fun x => decide (x ≠ '\n')) ≠ [] := by rw [h]; simp
        have := List.head_dropWhile_not (fun x => decide (x ≠ '\n')) hne
        simp only [h, List.head_cons] at this; simpa using this
      exact ⟨xs.reverse, by simp [this]⟩
  · intro hm
    rw [currentLine, List.mem_reverse] at hm
    have := List.mem_takeWhile_imp hm
    simp at this

theorem lineStart_at (a b : List Char) (ha : a = [] ∨ ∃ a', a = a' ++ ['\n']) :
    (LineNumbers.new (a ++ b)).lineStarts[newlines a]? = some (byteLen a) := by
  rw [lineStarts_eq]
  rcases ha with rfl | ⟨a', rfl⟩
  · simp [newlines, byteLen]
  · rw [List.append_assoc, starts_append]
    have hn : newlines (a' ++ ['\n']) = newlines a' + 1 := by simp [newlines]
    rw [hn, List.getElem?_cons_succ, List.getElem?_append_right (by rw [length_starts]),
      length_starts, Nat.sub_self]
    simp [starts_cons, byteLen, len_newline]

/-! ### The character mapping -/

def mapStep (map : List (Nat × Character)) (e : Nat × Char) : List (Nat × Character) :=
  if lenUtf8 e.2 ≠ 1 then (e.1, ⟨lenUtf8 e.2, lenUtf16 e.2⟩) :: map else map

theorem mappingOf_eq (s : List Char) : mappingOf s = (charIndices 0 s).foldl mapStep [] := rfl

theorem lookup_lt (k j : Nat) (s : List Char) (acc : List (Nat × Character)) (h : j < k) :
    ((charIndices k s).foldl mapStep acc).lookup j = acc.lookup j := by
  induction s generalizing k acc with
  | nil => rfl
  | cons c cs ih =>
    simp only [charIndices, List.foldl_cons]
    rw [ih _ _ (by omega)]
    unfold mapStep
    split
    · rw [List.lookup_cons]
      have : (j == k) = false := by simp; omega
      simp [this]
    · rfl

theorem lookup_none (acc : List (Nat × Character)) (j : Nat) (h : ∀ e ∈ acc, e.1 < j) : acc.lookup j = none := by
  rw [List.lookup_eq_none_iff]
  intro p hp
  have := h p hp
  simp; omega

theorem lookup_at (k : Nat) (x : List Char) (c : Char) (y : List Char) (acc : List (Nat × Character))
    (h : ∀ e ∈ acc, e.1 < k) :
    ((charIndices k (x ++ c :: y)).foldl mapStep acc).lookup (k + byteLen x) =
      if lenUtf8 c ≠ 1 then some ⟨lenUtf8 c, lenUtf16 c⟩ else none := by
  induction x generalizing k acc with
  | nil =>
    simp only [List.nil_append, charIndices, List.foldl_cons, byteLen, Nat.add_zero]
    rw [lookup_lt _ _ _ _ (by have := lenUtf8_pos c; omega)]
    unfold mapStep
    split
    · simp
    · exact lookup_none _ _ h
  | cons d x ih =>
    simp only [List.cons_append, charIndices, List.foldl_cons, byteLen]
    rw [← Nat.add_assoc]
    apply ih
    intro e he
    have hd := lenUtf8_pos d
    unfold mapStep at he
    split at he
    · rcases List.mem_cons.1 he with rfl | he
      · simpa using hd
      · have := h e he; omega
    · have := h e he; omega

theorem mapping_at (x : List Char) (c : Char) (y : List Char) :
    (LineNumbers.new (x ++ c :: y)).mapping.lookup (byteLen x) =
      if lenUtf8 c ≠ 1 then some ⟨lenUtf8 c, lenUtf16 c⟩ else none := by
  have := lookup_at 0 x c y [] (by simp)
  simpa [LineNumbers.new, mappingOf_eq] using this

theorem utf16Len_cons (c : Char) (b : List Char) : utf16Len (c :: b) = lenUtf16 c + utf16Len b := by
  simp [utf16Len, lenUtf16_eq]

theorem utf16Loop_eq (b : List Char) : ∀ (a q : List Char) (fuel u16 : Nat), byteLen b < fuel →
    utf16Loop (LineNumbers.new (a ++ b ++ q)).mapping (byteLen (a ++ b)) fuel (byteLen a) u16
      = some (u16 + utf16Len b) := by
  induction b with
  | nil =>
    intro a q fuel u16 hf
    cases fuel with
    | zero => omega
    | succ f => simp [utf16Loop, utf16Len]
  | cons c b ih =>
    intro a q fuel u16 hf
    cases fuel with
    | zero => omega
    | succ f =>
      have hc := lenUtf8_pos c
      rw [byteLen] at hf
      unfold utf16Loop
      rw [if_neg (by simp [byteLen]; omega)]
      have hm : (LineNumbers.new (a ++ (c :: b) ++ q)).mapping.lookup (byteLen a) =
          (if lenUtf8 c ≠ 1 then some ⟨lenUtf8 c, lenUtf16 c⟩ else none) := by
        have := mapping_at a c (b ++ q); simpa using this
      rw [hm]
      have hcc : byteLen (a ++ [c]) = byteLen a + lenUtf8 c := by simp [byteLen]
      have key := ih (a ++ [c]) q f (u16 + lenUtf16 c) (by omega)
      simp only [List.append_assoc, List.singleton_append, hcc] at key
      by_cases h1 : lenUtf8 c ≠ 1
      · simp only [h1, if_true, not_false_eq_true, ne_eq]
        simpa [utf16Len_cons, Nat.add_assoc] using key
      · have h1' : lenUtf8 c = 1 := by omega
        have h2 := lenUtf16_of_len8 c h1'
        simp only [h1', ne_eq, not_true_eq_false, if_false]
        rw [h1', h2] at key
        simpa [utf16Len_cons, h2, Nat.add_assoc] using key

theorem byteIndexLoop_eq (b : List Char) : ∀ (a q : List Char) (fuel u16 : Nat), utf16Len b < fuel →
    byteIndexLoop (LineNumbers.new (a ++ b ++ q)).mapping (u16 + utf16Len b) fuel (byteLen a) u16
      = some (byteLen (a ++ b)) := by
  induction b with
  | nil =>
    intro a q fuel u16 hf
    cases fuel with
    | zero => omega
    | succ f => simp [byteIndexLoop, utf16Len]
  | cons c b ih =>
    intro a q fuel u16 hf
    cases fuel with
    | zero => omega
    | succ f =>
      have hc := lenUtf16_pos c
      rw [utf16Len_cons] at hf
      unfold byteIndexLoop
      rw [if_neg (by rw [utf16Len_cons]; omega)]
      have hm : (LineNumbers.new (a ++ (c :: b) ++ q)).mapping.lookup (byteLen a) =
          (if lenUtf8 c ≠ 1 then some ⟨lenUtf8 c, lenUtf16 c⟩ else none) := by
        have := mapping_at a c (b ++ q); simpa using this
      rw [hm]
      have hcc : byteLen (a ++ [c]) = byteLen a + lenUtf8 c := by simp [byteLen]
      have key := ih (a ++ [c]) q f (u16 + lenUtf16 c) (by omega)
      simp only [List.append_assoc, List.singleton_append, hcc] at key
      by_cases h1 : lenUtf8 c ≠ 1
      · simp only [h1, if_true, not_false_eq_true, ne_eq]
        simpa [utf16Len_cons, Nat.add_assoc] using key
      · have h1' : lenUtf8 c = 1 := by omega
        have h2 := lenUtf16_of_len8 c h1'
        simp only [h1', ne_eq, not_true_eq_false, if_false]
        rw [h1', h2] at key
        simpa [utf16Len_cons, h2, Nat.add_assoc] using key

end Verif.SrcSpan
