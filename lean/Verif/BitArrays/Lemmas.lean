import Verif.BitArrays.Spec
import Mathlib.Data.Nat.Bitwise
import Mathlib.Tactic.IntervalCases

namespace Verif.BitArrays

theorem at_lt {buffer : List Nat} (h : Bytes buffer) (i : Nat) : at_ buffer i < 256 := by
  unfold at_
  by_cases hi : i < buffer.length
  · rw [List.getD_eq_getElem _ _ hi]
    exact h _ (List.getElem_mem hi)
  · rw [List.getD_eq_default _ _ (by omega)]
    omega

theorem testBit_high {n j : Nat} (h : n < 256) (hj : 8 ≤ j) : n.testBit j = false :=
  Nat.testBit_lt_two_pow (lt_of_lt_of_le h (Nat.pow_le_pow_right (n := 2) (by omega) hj : 2 ^ 8 ≤ 2 ^ j))

theorem byte_ext {m n : Nat} (hm : m < 256) (hn : n < 256) (h : ∀ k < 8, m.testBit (7 - k) = n.testBit (7 - k)) : m = n := by
  apply Nat.eq_of_testBit_eq
  intro i
  by_cases hi : i < 8
  · have := h (7 - i) (by omega)
    rwa [show 7 - (7 - i) = i by omega] at this
  · rw [testBit_high hm (by omega), testBit_high hn (by omega)]

theorem bufferBit_at {buffer : List Nat} {i k : Nat} (hk : k < 8) :
    bufferBit buffer (8 * i + k) = (at_ buffer i).testBit (7 - k) := by
  unfold bufferBit at_
  rw [show (8 * i + k) / 8 = i by omega, show (8 * i + k) % 8 = k by omega]

theorem bufferBit_eq (buffer : List Nat) (i : Nat) :
    bufferBit buffer i = (at_ buffer (i / 8)).testBit (7 - i % 8) := rfl

theorem bufferBit_outside {buffer : List Nat} {i : Nat} (h : 8 * buffer.length ≤ i) : bufferBit buffer i = false := by
  unfold bufferBit
  rw [List.getD_eq_default _ _ (by omega)]
  simp

theorem ff_testBit (j : Nat) : (0xff : Nat).testBit j = decide (j < 8) := by
  rw [show (0xff : Nat) = 2 ^ 8 - 1 by norm_num, Nat.testBit_two_pow_sub_one]

theorem byteAt_testBit {buffer : List Nat} (h : Bytes buffer) {off i k : Nat} (hoff : off ≤ 7) (hk : k < 8) :
    (byteAt buffer off i).testBit (7 - k) = bufferBit buffer (off + 8 * i + k) := by
  unfold byteAt
  split
  · rename_i h0
    subst h0
    rw [show 0 + 8 * i + k = 8 * i + k by omega, bufferBit_at hk]
  · rename_i h0
    rw [bufferBit_eq, Nat.testBit_or, Nat.testBit_and, ff_testBit, Nat.testBit_shiftLeft, Nat.testBit_shiftRight]
    by_cases hlt : off + k < 8
    · rw [show (off + 8 * i + k) / 8 = i by omega, show (off + 8 * i + k) % 8 = off + k by omega,
        testBit_high (at_lt h (i + 1)) (by omega)]
      rw [show 7 - k - off = 7 - (off + k) by omega]
      have : 7 - k ≥ off := by omega
      have h8 : 7 - k < 8 := by omega
      simp [this, h8]
    · rw [show (off + 8 * i + k) / 8 = i + 1 by omega, show (off + 8 * i + k) % 8 = off + k - 8 by omega,
        show 8 - off + (7 - k) = 7 - (off + k - 8) by omega]
      have : ¬ 7 - k ≥ off := by omega
      simp [this]

theorem byteAt_lt {buffer : List Nat} (h : Bytes buffer) {off i : Nat} (hoff : off ≤ 7) : byteAt buffer off i < 256 := by
  unfold byteAt
  split
  · exact at_lt h i
  · refine Nat.or_lt_two_pow (n := 8) ?_ ?_
    · exact lt_of_le_of_lt Nat.and_le_right (by norm_num)
    · rw [Nat.shiftRight_eq_div_pow]
      exact lt_of_le_of_lt (Nat.div_le_self _ _) (at_lt h (i + 1))

/-- Whole bytes are the same exactly if their bits are. -/
theorem byteAt_eq_iff {a b : List Nat} (ha : Bytes a) (hb : Bytes b) {oa ob i : Nat} (hoa : oa ≤ 7) (hob : ob ≤ 7) :
    byteAt a oa i = byteAt b ob i ↔ ∀ k < 8, bufferBit a (oa + 8 * i + k) = bufferBit b (ob + 8 * i + k) := by
  constructor
  · intro h k hk
    rw [← byteAt_testBit ha hoa hk, ← byteAt_testBit hb hob hk, h]
  · intro h
    refine byte_ext (byteAt_lt ha hoa) (byteAt_lt hb hob) fun k hk => ?_
    rw [byteAt_testBit ha hoa hk, byteAt_testBit hb hob hk, h k hk]

theorem byteAt_shift_eq_iff {a b : List Nat} (ha : Bytes a) (hb : Bytes b) {oa ob i t : Nat} (hoa : oa ≤ 7) (hob : ob ≤ 7)
    (ht : t < 8) :
    byteAt a oa i >>> (8 - t) = byteAt b ob i >>> (8 - t) ↔
      ∀ k < t, bufferBit a (oa + 8 * i + k) = bufferBit b (ob + 8 * i + k) := by
  constructor
  · intro h k hk
    have := congrArg (fun n => n.testBit (t - 1 - k)) h
    simp only [Nat.testBit_shiftRight] at this
    rw [show 8 - t + (t - 1 - k) = 7 - k by omega] at this
    rwa [byteAt_testBit ha hoa (by omega), byteAt_testBit hb hob (by omega)] at this
  · intro h
    apply Nat.eq_of_testBit_eq
    intro j
    rw [Nat.testBit_shiftRight, Nat.testBit_shiftRight]
    by_cases hj : 8 - t + j < 8
    · have h1 := byteAt_testBit ha hoa (i := i) (k := 7 - (8 - t + j)) (by omega)
      have h2 := byteAt_testBit hb hob (i := i) (k := 7 - (8 - t + j)) (by omega)
      rw [show 7 - (7 - (8 - t + j)) = 8 - t + j by omega] at h1 h2
      rw [h1, h2]
      exact h _ (by omega)
    · rw [testBit_high (byteAt_lt ha hoa) (by omega), testBit_high (byteAt_lt hb hob) (by omega)]

/-- Bits compared byte by byte, with the last few apart. -/
theorem forall_bits_iff {P : Nat → Prop} (n : Nat) :
    (∀ j < n, P j) ↔ (∀ i < n / 8, ∀ k < 8, P (8 * i + k)) ∧ ∀ k < n % 8, P (8 * (n / 8) + k) := by
  constructor
  · intro h
    exact ⟨fun i hi k hk => h _ (by omega), fun k hk => h _ (by omega)⟩
  · rintro ⟨h1, h2⟩ j hj
    by_cases hlt : j / 8 < n / 8
    · have := h1 (j / 8) hlt (j % 8) (by omega)
      rwa [show 8 * (j / 8) + j % 8 = j by omega] at this
    · have := h2 (j % 8) (by omega)
      rwa [show 8 * (n / 8) + j % 8 = j by omega] at this

theorem bits_length (b : BitArray) : b.bits.length = b.bitSize := by simp [BitArray.bits]

theorem bits_eq_iff (a b : BitArray) :
    a.bits = b.bits ↔ a.bitSize = b.bitSize ∧
      ∀ j < a.bitSize, bufferBit a.rawBuffer (a.bitOffset + j) = bufferBit b.rawBuffer (b.bitOffset + j) := by
  constructor
  · intro h
    have hl := congrArg List.length h
    rw [bits_length, bits_length] at hl
    refine ⟨hl, fun j hj => ?_⟩
    have := congrArg (fun l => l[j]?) h
    simpa [BitArray.bits, List.getElem?_range hj, List.getElem?_range (hl ▸ hj)] using this
  · rintro ⟨hl, h⟩
    unfold BitArray.bits
    rw [← hl]
    apply List.map_congr_left
    intro j hj
    exact h j (List.mem_range.1 hj)

theorem byteAt_zero (buffer : List Nat) (i : Nat) : byteAt buffer 0 i = at_ buffer i := by simp [byteAt]

theorem equals_iff {a b : BitArray} (ha : a.Valid) (hb : b.Valid) : a.equals b = true ↔ a.bits = b.bits := by
  rw [bits_eq_iff]
  by_cases hs : a.bitSize = b.bitSize
  swap
  · simp [BitArray.equals, hs]
  have key : a.equals b = true ↔
      (∀ i < a.bitSize / 8, byteAt a.rawBuffer a.bitOffset i = byteAt b.rawBuffer b.bitOffset i) ∧
      (a.bitSize % 8 = 0 ∨ byteAt a.rawBuffer a.bitOffset (a.bitSize / 8) >>> (8 - a.bitSize % 8) =
        byteAt b.rawBuffer b.bitOffset (a.bitSize / 8) >>> (8 - a.bitSize % 8)) := by
    unfold BitArray.equals
    rw [if_neg (by simpa using hs)]
    simp only
    split
    · rename_i h0
      simp only [h0.1, h0.2, byteAt_zero]
      simp
    · simp
  rw [key]
  simp only [hs, true_and]
  rw [forall_bits_iff (P := fun j => bufferBit a.rawBuffer (a.bitOffset + j) = bufferBit b.rawBuffer (b.bitOffset + j))]
  refine and_congr (forall_congr' fun i => forall_congr' fun _ => ?_) ?_
  · rw [byteAt_eq_iff ha.bytes hb.bytes ha.offset hb.offset]
    simp only [Nat.add_assoc]
  · by_cases h0 : b.bitSize % 8 = 0
    · simp [h0]
    · rw [byteAt_shift_eq_iff ha.bytes hb.bytes ha.offset hb.offset (by omega)]
      simp only [h0, false_or, Nat.add_assoc]

/-! ### Slices -/

theorem getD_drop_take {l : List Nat} {s n i : Nat} (h : i < n) : ((l.drop s).take n).getD i 0 = l.getD (s + i) 0 := by
  simp [List.getD_eq_getElem?_getD, List.getElem?_take, h]

theorem bufferBit_drop_take {l : List Nat} {s n i : Nat} (h : i < 8 * n) :
    bufferBit ((l.drop s).take n) i = bufferBit l (8 * s + i) := by
  unfold bufferBit
  rw [getD_drop_take (by omega), show (8 * s + i) / 8 = s + i / 8 by omega, show (8 * s + i) % 8 = i % 8 by omega]

theorem bits_drop_take (b : BitArray) (start stop : Nat) (h : stop ≤ b.bitSize) :
    (b.bits.drop start).take (stop - start) =
      (List.range (stop - start)).map fun i => bufferBit b.rawBuffer (b.bitOffset + (start + i)) := by
  apply List.ext_getElem
  · simp [bits_length]
    omega
  · intro i h1 h2
    simp [BitArray.bits]

theorem bytes_drop_take {l : List Nat} (h : Bytes l) (s n : Nat) : Bytes ((l.drop s).take n) :=
  fun byte hb => h byte (List.mem_of_mem_drop (List.mem_of_mem_take hb))

theorem valid_empty : (BitArray.ofBytes []).Valid := ⟨by simp [Bytes, BitArray.ofBytes], by simp [BitArray.ofBytes], by simp [BitArray.ofBytes]⟩

theorem sliceNat_spec {b : BitArray} (hb : b.Valid) {start stop : Nat} (h1 : start ≤ stop) (h2 : stop ≤ b.bitSize) :
    ∃ r, sliceNat b start stop = some r ∧ r.Valid ∧ r.bits = (b.bits.drop start).take (stop - start) := by
  unfold sliceNat
  split
  · rename_i h
    subst h
    exact ⟨_, rfl, valid_empty, by simp [BitArray.ofBytes, BitArray.bits]⟩
  split
  · rename_i _ h
    refine ⟨b, rfl, hb, ?_⟩
    rw [h.1, h.2]
    simp [← bits_length b]
  · rename_i h3 h4
    have hoff := hb.offset
    have hlen := hb.length
    -- the buffer is the same view either way
    have hbuf : (if (start + b.bitOffset) / 8 = 0 ∧
          (stop + b.bitOffset + 7) / 8 - (start + b.bitOffset) / 8 = b.rawBuffer.length then b.rawBuffer
        else (b.rawBuffer.drop ((start + b.bitOffset) / 8)).take
          ((stop + b.bitOffset + 7) / 8 - (start + b.bitOffset) / 8)) =
        (b.rawBuffer.drop ((start + b.bitOffset) / 8)).take
          ((stop + b.bitOffset + 7) / 8 - (start + b.bitOffset) / 8) := by
      split
      · rename_i h
        rw [h.2, h.1]
        simp
      · rfl
    simp only [hbuf]
    have hbl : ((b.rawBuffer.drop ((start + b.bitOffset) / 8)).take
        ((stop + b.bitOffset + 7) / 8 - (start + b.bitOffset) / 8)).length =
        ((start + b.bitOffset) % 8 + (stop + b.bitOffset - (start + b.bitOffset)) + 7) / 8 := by
      simp
      omega
    refine ⟨⟨_, _, _⟩, ?_, ⟨bytes_drop_take hb.bytes _ _, ?_, hbl⟩, ?_⟩
    · unfold BitArray.new
      rw [if_neg (by omega), if_neg (by rw [hbl]; simp)]
    · simp only
      omega
    · rw [bits_drop_take b start stop h2]
      unfold BitArray.bits
      simp only
      rw [show stop + b.bitOffset - (start + b.bitOffset) = stop - start by omega]
      apply List.map_congr_left
      intro i hi
      have hi := List.mem_range.1 hi
      rw [bufferBit_drop_take (by omega)]
      congr 1
      omega

end Verif.BitArrays
