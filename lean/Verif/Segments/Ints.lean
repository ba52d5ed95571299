import Verif.Segments.Eval
import Verif.BitArrays.Props

/-!
# The bits of a literal integer
-/

namespace Verif.Segments

open Verif.BitArrays (bitsBig bitsLittle writeInt readInt valueBig valueLittle valueOf asSigned bitsBig_length bitsBig_add
  bitsBig_succ bitsLittle_length writeInt_length)

/-! ### Reading is one-to-one -/

theorem bitsBig_mod (n : Nat) : ∀ v w : Int, v % 2 ^ n = w % 2 ^ n → bitsBig v n = bitsBig w n := by
  induction n with
  | zero => intro v w _; simp [bitsBig]
  | succ n ih =>
    intro v w h
    rw [bitsBig_succ, bitsBig_succ]
    have h2 : v % 2 = w % 2 := by
      have hd : (2 : Int) ∣ 2 ^ (n + 1) := dvd_pow_self 2 (by omega)
      rw [← Int.emod_emod_of_dvd v hd, ← Int.emod_emod_of_dvd w hd, h]
    have h3 : v / 2 % 2 ^ n = w / 2 % 2 ^ n := by
      rw [pow_succ, Int.mul_comm, BitArrays.mod_mul v 2 _ (by norm_num) (by positivity),
        BitArrays.mod_mul w 2 _ (by norm_num) (by positivity)] at h
      omega
    rw [ih _ _ h3, h2]

theorem bitsLittle_mod (n : Nat) : ∀ v w : Int, v % 2 ^ n = w % 2 ^ n → bitsLittle v n = bitsLittle w n := by
  induction n using Nat.strongRecOn with
  | ind n ih =>
    intro v w h
    conv_lhs => rw [bitsLittle]
    conv_rhs => rw [bitsLittle]
    split
    · exact bitsBig_mod n v w h
    · rename_i hn
      have hp : (2 : Int) ^ n = 256 * 2 ^ (n - 8) := by
        conv_lhs => rw [show n = 8 + (n - 8) by omega, pow_add]
        norm_num
      rw [hp, BitArrays.mod_mul v 256 _ (by norm_num) (by positivity),
        BitArrays.mod_mul w 256 _ (by norm_num) (by positivity)] at h
      have h1 : v % 256 = w % 256 := by omega
      have h2 : v / 256 % 2 ^ (n - 8) = w / 256 % 2 ^ (n - 8) := by omega
      rw [ih (n - 8) (by omega) _ _ h2, bitsBig_mod 8 v w (by norm_num; exact h1)]

theorem writeInt_mod (big : Bool) {n : Nat} {v w : Int} (h : v % 2 ^ n = w % 2 ^ n) : writeInt big v n = writeInt big w n := by
  unfold writeInt
  split
  · exact bitsBig_mod n v w h
  · exact bitsLittle_mod n v w h

theorem valueBig_lt (l : List Bool) : valueBig l < 2 ^ l.length := by
  induction l using List.reverseRecOn with
  | nil => simp [valueBig]
  | append_singleton l b ih =>
    rw [BitArrays.valueBig_append, List.length_append, List.length_singleton, pow_succ]
    have := Bool.toNat_le b
    omega

theorem bitsBig_valueBig (l : List Bool) : bitsBig (valueBig l) l.length = l := by
  induction l using List.reverseRecOn with
  | nil => simp [bitsBig]
  | append_singleton l b ih =>
    rw [BitArrays.valueBig_append, List.length_append, List.length_singleton, bitsBig_succ]
    have h1 : ((2 * valueBig l + b.toNat : Nat) : Int) / 2 = valueBig l := by
      have := Bool.toNat_le b
      omega
    have h2 : decide (((2 * valueBig l + b.toNat : Nat) : Int) % 2 = 1) = b := by
      cases b
      · simp
      · simp
    rw [h1, h2, ih]

theorem valueLittle_lt (n : Nat) : ∀ l : List Bool, l.length = n → valueLittle l < 2 ^ n := by
  induction n using Nat.strongRecOn with
  | ind n ih =>
    intro l hl
    rw [valueLittle]
    split
    · rw [← hl]; exact valueBig_lt l
    · rename_i h
      have h1 := ih (n - 8) (by omega) (l.drop 8) (by simp [hl])
      have h2 := valueBig_lt (l.take 8)
      rw [List.length_take, Nat.min_eq_left (by omega)] at h2
      have hp : 2 ^ n = 256 * 2 ^ (n - 8) := by
        conv_lhs => rw [show n = 8 + (n - 8) by omega, pow_add]
        norm_num
      rw [hp]
      omega

theorem bitsLittle_valueLittle (n : Nat) : ∀ l : List Bool, l.length = n → bitsLittle (valueLittle l) n = l := by
  induction n using Nat.strongRecOn with
  | ind n ih =>
    intro l hl
    rw [bitsLittle, valueLittle, hl]
    split
    · rw [← hl]; exact bitsBig_valueBig l
    · rename_i h
      have h2 := valueBig_lt (l.take 8)
      rw [List.length_take, Nat.min_eq_left (by omega)] at h2
      have e1 : ((valueBig (l.take 8) + 256 * valueLittle (l.drop 8) : Nat) : Int) / 256 = valueLittle (l.drop 8) := by
        push_cast; omega
      rw [e1, ih (n - 8) (by omega) (l.drop 8) (by simp [hl])]
      have e2 : bitsBig ((valueBig (l.take 8) + 256 * valueLittle (l.drop 8) : Nat) : Int) 8 = l.take 8 := by
        rw [bitsBig_mod 8 _ (valueBig (l.take 8)) (by push_cast; norm_num)]
        have := bitsBig_valueBig (l.take 8)
        rwa [List.length_take, Nat.min_eq_left (by omega)] at this
      rw [e2, List.take_append_drop]

theorem valueOf_lt (big : Bool) (l : List Bool) : valueOf big l < 2 ^ l.length := by
  unfold valueOf
  split
  · exact valueBig_lt l
  · exact valueLittle_lt _ l rfl

theorem writeInt_valueOf (big : Bool) (l : List Bool) : writeInt big (valueOf big l) l.length = l := by
  unfold valueOf writeInt
  cases big
  · exact bitsLittle_valueLittle _ l rfl
  · exact bitsBig_valueBig l

/-- The bits are those of the integer they are read as. -/
theorem writeInt_readInt (big signed : Bool) (l : List Bool) : writeInt big (readInt big signed l) l.length = l := by
  conv_rhs => rw [← writeInt_valueOf big l]
  apply writeInt_mod
  unfold readInt asSigned
  split
  · split
    · rw [Int.sub_emod, Int.emod_self, Int.sub_zero, Int.emod_emod_of_dvd _ (dvd_refl _)]
    · rfl
  · rfl

/-- An integer that fits in `n` bits. -/
def Fits (v : Int) (n : Nat) (signed : Bool) : Prop :=
  if signed then 0 < n ∧ -2 ^ (n - 1) ≤ v ∧ v < 2 ^ (n - 1) else 0 ≤ v ∧ v < 2 ^ n

/-- What is read from some bits fits in them. -/
theorem readInt_fits (big signed : Bool) (l : List Bool) (h : 0 < l.length) : Fits (readInt big signed l) l.length signed := by
  have hl := valueOf_lt big l
  have hl' : (valueOf big l : Int) < 2 ^ l.length := by exact_mod_cast hl
  unfold Fits readInt asSigned
  cases signed with
  | false => simp only [Bool.false_eq_true, if_false]; omega
  | true =>
    simp only [if_true]
    have hp : (2 : Int) ^ l.length = 2 * 2 ^ (l.length - 1) := by
      conv_lhs => rw [show l.length = (l.length - 1) + 1 by omega, pow_succ]
      ring
    have hp' : (2 : Nat) ^ l.length = 2 * 2 ^ (l.length - 1) := by
      conv_lhs => rw [show l.length = (l.length - 1) + 1 by omega, pow_succ]
      ring
    have hpos : (0 : Int) < 2 ^ (l.length - 1) := by positivity
    have hc : ((2 ^ (l.length - 1) : Nat) : Int) = 2 ^ (l.length - 1) := by push_cast; rfl
    refine ⟨h, ?_⟩
    split <;> constructor <;> omega

/-- The bits that are read as an integer are exactly the bits written for it. -/
theorem readInt_iff {big signed : Bool} {v : Int} {n : Nat} (hfit : Fits v n signed) {l : List Bool} (hl : l.length = n) :
    readInt big signed l = v ↔ l = writeInt big v n := by
  constructor
  · intro h
    rw [← h, ← hl, writeInt_readInt]
  · intro h
    rw [h]
    exact BitArrays.read_write big signed v n hfit

/-! ### `representable_with_bits` -/

theorem representable_iff (v : Int) (n : Nat) (signed : Bool) : representableWithBits v n signed = true ↔ 0 < n ∧ Fits v n signed := by
  unfold representableWithBits Fits
  split
  · rename_i h; simp [h]
  rename_i hn
  have hn' : 0 < n := by omega
  have hpos : (0 : Int) < 2 ^ (n - 1) := by positivity
  have hpos' : (0 : Int) < 2 ^ n := by positivity
  split
  · rename_i h0
    subst h0
    cases signed <;> simp [hn'] <;> omega
  rename_i h0
  split
  · rename_i hp
    have hv : (v.natAbs : Int) = v := by omega
    cases signed with
    | false =>
      simp only [Bool.false_eq_true, if_false, decide_eq_true_eq, Nat.size_le]
      rw [← hv]
      constructor
      · intro h; exact ⟨hn', by omega, by exact_mod_cast h⟩
      · intro h; exact_mod_cast h.2.2
    | true =>
      simp only [if_true, decide_eq_true_eq]
      rw [show Nat.size v.natAbs + 1 ≤ n ↔ Nat.size v.natAbs ≤ n - 1 by omega, Nat.size_le, ← hv]
      constructor
      · intro h
        have : (v.natAbs : Int) < 2 ^ (n - 1) := by exact_mod_cast h
        exact ⟨hn', hn', by omega, this⟩
      · intro h; exact_mod_cast h.2.2.2
  rename_i hnp
  cases signed with
  | false =>
    simp only [Bool.false_eq_true, if_false, false_iff]
    omega
  | true =>
    have hv : v = -(v.natAbs : Int) := by omega
    simp only [if_true, decide_eq_true_eq]
    have key : (0 < n ∧ 0 < n ∧ -2 ^ (n - 1) ≤ v ∧ v < 2 ^ (n - 1)) ↔ v.natAbs ≤ 2 ^ (n - 1) := by
      have hc : ((2 ^ (n - 1) : Nat) : Int) = 2 ^ (n - 1) := by push_cast; rfl
      constructor
      · intro h; omega
      · intro h; refine ⟨hn', hn', ?_, ?_⟩ <;> omega
    rw [key]
    have hm0 : v.natAbs ≠ 0 := by omega
    have hs : 0 < Nat.size v.natAbs := Nat.size_pos.2 (by omega)
    split
    · rename_i hpw
      constructor
      · intro h
        rw [hpw]
        exact Nat.pow_le_pow_right (by norm_num) (by omega)
      · intro h
        rw [hpw] at h
        have := (Nat.pow_le_pow_iff_right (by norm_num : 1 < 2)).1 h
        omega
    · rename_i hpw
      rw [show Nat.size v.natAbs + 1 ≤ n ↔ Nat.size v.natAbs ≤ n - 1 by omega, Nat.size_le]
      constructor
      · intro h; omega
      · intro h
        refine lt_of_le_of_ne h fun he => hpw ?_
        rw [he, Nat.size_pow, Nat.add_sub_cancel]

/-! ### `int_to_bits` -/

/-- The bits needed for an integer, with or without a sign. -/
theorem byteCount_fits (v : Int) (signed : Bool) (hs : signed = false → 0 ≤ v) : Fits v (8 * byteCount v signed) signed := by
  have h1 : 1 ≤ byteCount v signed := Nat.le_max_left _ _
  have := (representable_iff v (8 * byteCount v signed) signed).1 ?_
  · exact this.2
  unfold representableWithBits
  rw [if_neg (by omega)]
  split
  · simp; omega
  rename_i h0
  unfold byteCount at *
  split
  · rename_i hp
    have hnn : ¬ v < 0 := by omega
    cases signed <;> simp [hnn] <;> omega
  · rename_i hp
    cases signed with
    | false => have := hs rfl; omega
    | true =>
      simp only [if_true, decide_eq_true_eq]
      have hneg : v < 0 := by omega
      simp only [hneg, true_and]
      split <;> omega

/-- A value that fits in `n` bits needs no more bytes than these bits. -/
theorem byteCount_le {v : Int} {n : Nat} {signed : Bool} (h : representableWithBits v n signed = true) :
    byteCount v signed ≤ (n + 7) / 8 := by
  unfold representableWithBits at h
  unfold byteCount
  split at h
  · simp at h
  split at h
  · rename_i h0
    subst h0
    cases signed <;> simp <;> omega
  split at h
  · rename_i hp
    have hnn : ¬ v < 0 := by omega
    cases signed with
    | false => simp only [Bool.false_eq_true, if_false, decide_eq_true_eq] at h ⊢; omega
    | true => simp only [if_true, hnn, false_and, if_false, decide_eq_true_eq] at h ⊢; omega
  · rename_i hp
    have hneg : v < 0 := by omega
    cases signed with
    | false => simp at h
    | true =>
      simp only [if_true, decide_eq_true_eq, hneg, true_and] at h ⊢
      split at h <;> rename_i hq <;> first | (rw [if_pos hq]; omega) | (rw [if_neg hq]; omega)

theorem byteBits_eq (b : Nat) : byteBits b = BitArrays.byteBits b := rfl

theorem littleBytes_eq (v : Int) (signed : Bool) (hs : signed = false → 0 ≤ v) :
    littleBytes v signed = (List.range (byteCount v signed)).map fun i => BitArrays.toUint8 (v / 256 ^ i) := by
  unfold littleBytes
  have : (if signed then v else (v.natAbs : Int)) = v := by
    cases signed
    · have := hs rfl; simp; omega
    · simp
  rw [this]
  rfl

theorem flatMap_big (v : Int) (k : Nat) :
    (((List.range k).map fun i => BitArrays.toUint8 (v / 256 ^ i)).reverse).flatMap byteBits = bitsBig v (8 * k) := by
  induction k generalizing v with
  | zero => simp [bitsBig]
  | succ k ih =>
    rw [List.range_succ, List.map_append, List.reverse_append, List.map_singleton, List.reverse_singleton,
      List.singleton_append, List.flatMap_cons, ih, byteBits_eq, BitArrays.byteBits_toUint8,
      show 8 * (k + 1) = 8 + 8 * k by omega, bitsBig_add, pow_mul]
    norm_num

/-- Whole bytes come first. -/
theorem bitsLittle_split (t : Nat) (k : Nat) : ∀ v : Int,
    bitsLittle v (8 * k + t) = (((List.range k).map fun i => BitArrays.toUint8 (v / 256 ^ i)).flatMap byteBits) ++ bitsLittle (v / 256 ^ k) t := by
  induction k with
  | zero => intro v; simp
  | succ k ih =>
    intro v
    rw [bitsLittle, if_neg (by omega), show 8 * (k + 1) + t - 8 = 8 * k + t by omega, ih, List.range_succ_eq_map, List.map_cons,
      List.flatMap_cons, List.append_assoc, byteBits_eq, pow_zero, Int.ediv_one, BitArrays.byteBits_toUint8,
      Int.ediv_ediv_of_nonneg (by norm_num), ← pow_succ', List.map_map]
    congr 3
    apply List.map_congr_left
    intro i _
    simp only [Function.comp, Int.ediv_ediv_of_nonneg (show (0 : Int) ≤ 256 by norm_num), ← pow_succ']

theorem bitsLittle_zero (v : Int) : bitsLittle v 0 = [] := by
  rw [bitsLittle]; simp [bitsBig]

theorem bitsBig_const {v : Int} {pad : Bool} (h : v = if pad then -1 else 0) (n : Nat) : bitsBig v n = List.replicate n pad := by
  induction n with
  | zero => simp [bitsBig]
  | succ n ih =>
    have h2 : v / 2 = v := by subst h; cases pad <;> simp
    have h3 : decide (v % 2 = 1) = pad := by subst h; cases pad <;> simp
    rw [bitsBig_succ, h2, ih, h3, List.replicate_succ']

theorem bitsLittle_const {v : Int} {pad : Bool} (h : v = if pad then -1 else 0) (n : Nat) : bitsLittle v n = List.replicate n pad := by
  induction n using Nat.strongRecOn with
  | ind n ih =>
    rw [bitsLittle]
    split
    · exact bitsBig_const h n
    · have h2 : v / 256 = v := by subst h; cases pad <;> simp
      rw [h2, ih (n - 8) (by omega), bitsBig_const h, List.replicate_append_replicate, show 8 + (n - 8) = n by omega]

/-- Above the bits of a value there is only its sign. -/
theorem high_bits {v : Int} {n : Nat} {signed : Bool} (h : Fits v n signed) : v / 2 ^ n = if decide (v < 0) then -1 else 0 := by
  unfold Fits at h
  cases signed with
  | false =>
    simp only [Bool.false_eq_true, if_false] at h
    rw [if_neg (by simp; omega)]
    exact Int.ediv_eq_zero_of_lt h.1 h.2
  | true =>
    simp only [if_true] at h
    obtain ⟨h0, h1, h2⟩ := h
    have hp : (2 : Int) ^ n = 2 * 2 ^ (n - 1) := by
      conv_lhs => rw [show n = (n - 1) + 1 by omega, pow_succ]
      ring
    have hpos : (0 : Int) < 2 ^ (n - 1) := by positivity
    by_cases hneg : v < 0
    · rw [if_pos (by simpa using hneg)]
      rw [Int.ediv_eq_iff_of_pos (by omega)]
      omega
    · rw [if_neg (by simpa using hneg)]
      exact Int.ediv_eq_zero_of_lt (by omega) (by omega)

theorem flatMap_length (l : List Nat) : (l.flatMap byteBits).length = 8 * l.length := BitArrays.flatMap_byteBits_length l

theorem intToBytes_length (v : Int) (big signed : Bool) : (intToBytes v big signed).length = byteCount v signed := by
  unfold intToBytes littleBytes
  split <;> simp

/-- The bits computed for a literal integer are those of its segment. -/
theorem adjustBits_eq {v : Int} {n : Nat} {signed : Bool} (big : Bool) (h : representableWithBits v n signed = true) :
    adjustBits (intToBytes v big signed) n big (decide (v < 0)) = writeInt big v n := by
  obtain ⟨hn, hfit⟩ := (representable_iff v n signed).1 h
  have hs : signed = false → 0 ≤ v := by
    intro e
    rw [e] at hfit
    simp only [Fits, Bool.false_eq_true, if_false] at hfit
    exact hfit.1
  have hk := byteCount_fits v signed hs
  have hle := byteCount_le h
  have hhigh := high_bits hk
  have hlen := intToBytes_length v big signed
  unfold adjustBits
  rw [hlen]
  unfold intToBytes at hlen ⊢
  rw [littleBytes_eq v signed hs] at hlen ⊢
  generalize byteCount v signed = k at *
  unfold writeInt
  cases big with
  | true =>
    simp only [if_true]
    rw [flatMap_big]
    split
    · rename_i e; rw [show 8 * k = n by omega]
    split
    · rw [show 8 * k = (k * 8 - n) + n by omega, bitsBig_add, List.drop_left' (by rw [bitsBig_length])]
    · rw [← bitsBig_const hhigh, ← bitsBig_add, show n - k * 8 + 8 * k = n by omega]
  | false =>
    simp only [Bool.false_eq_true, if_false]
    split
    · rename_i e
      have := bitsLittle_split 0 k v
      rw [bitsLittle_zero, List.append_nil] at this
      rw [← this, show 8 * k + 0 = n by omega]
    split
    · rw [if_neg (by omega)]
      obtain ⟨j, rfl⟩ : ∃ j, k = j + 1 := ⟨k - 1, by omega⟩
      have hj : n = 8 * j + n % 8 := by omega
      conv_rhs => rw [hj, bitsLittle_split]
      unfold shiftLast
      rw [List.range_succ, List.map_append, List.map_singleton, List.dropLast_concat, List.getLast?_concat, Option.map_some,
        Option.toList_some, List.flatMap_append, List.take_append, flatMap_length, List.length_map, List.length_range,
        List.take_of_length_le (by rw [flatMap_length]; simp; omega), List.flatMap_singleton, bitsLittle, if_pos (by omega)]
      congr 1
      rw [show n - 8 * j = n % 8 by omega, byteBits_eq]
      have := BitArrays.shifted_bits (a := v / 256 ^ j) (v := v / 256 ^ j) (t := n % 8) (by omega) rfl (v / 256 ^ j * 2 ^ (8 - n % 8)) rfl
      rw [← this]
      congr 2
      unfold BitArrays.toUint8
      have hnn : 0 ≤ v / 256 ^ j % 256 := Int.emod_nonneg _ (by norm_num)
      zify
      rw [Int.toNat_of_nonneg hnn, Int.toNat_of_nonneg (Int.emod_nonneg _ (by norm_num)), Int.mul_emod, Int.emod_emod_of_dvd _ (dvd_refl _), ← Int.mul_emod]
    · rw [← bitsLittle_const (v := v / 256 ^ k) (by rw [← hhigh, pow_mul]; norm_num), ← bitsLittle_split, show 8 * k + (n - k * 8) = n by omega]

end Verif.Segments
