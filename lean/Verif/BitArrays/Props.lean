import Verif.BitArrays.Encode

/-
Properties C55 to C58: bit arrays in the JavaScript runtime are sequences of bits, wherever those bits are in memory.
-/
namespace Verif.BitArrays

/-- A bit array in the middle of a byte, with other bits around it: 1 0110 1101 001 out of `x1011011 01001xxx`. -/
def sample : BitArray := ⟨[0b11011011, 0b01001101], 12, 1⟩

theorem sample_valid : sample.Valid := ⟨by simp [sample, Bytes], by decide, by decide⟩

/-- C57: two bit arrays are equal exactly if they have the same bits. -/
theorem equality (a b : BitArray) (ha : a.Valid) (hb : b.Valid) : a.equals b = true ↔ a.bits = b.bits := equals_iff ha hb

example : sample.equals ⟨[0b10110110, 0b10011111], 12, 0⟩ = true ∧ sample.equals ⟨[0b10110110, 0b10111111], 12, 0⟩ = false := by decide +kernel

/-- C55: a slice has exactly the bits that were asked for; a slice that does not exist is refused. -/
theorem slicing (b : BitArray) (hb : b.Valid) (start : Int) (stop : Option Int) :
    (0 ≤ start ∧ start ≤ stop.getD b.bitSize ∧ stop.getD b.bitSize ≤ b.bitSize →
      ∃ r, slice b start stop = some r ∧ r.Valid ∧
        r.bits = (b.bits.drop start.toNat).take ((stop.getD b.bitSize).toNat - start.toNat)) ∧
    (¬ (0 ≤ start ∧ start ≤ stop.getD b.bitSize ∧ stop.getD b.bitSize ≤ b.bitSize) → slice b start stop = none) := by
  unfold slice
  simp only
  constructor
  · rintro ⟨h1, h2, h3⟩
    have : validRange b start (stop.getD b.bitSize) = true := by
      simp [validRange]
      omega
    rw [if_pos this]
    exact sliceNat_spec hb (by omega) (by omega)
  · intro h
    have : ¬ validRange b start (stop.getD b.bitSize) = true := by
      simp [validRange]
      omega
    rw [if_neg this]

example : (slice sample 3 (some 8)).map BitArray.bits = some [true, false, true, true, false] ∧
    (slice sample 5 none).map BitArray.bits = some [true, true, false, true, false, false, true] ∧
    slice sample 3 (some 13) = none ∧ slice sample 3 (some 2) = none := by decide +kernel

/-- C56: joining segments gives the bits of the first, then those of the second, and so on. -/
theorem joining (segments : List Segment) (hv : ∀ s ∈ segments, s.Valid) :
    ∃ r, toBitArray segments = some r ∧ r.Valid ∧ r.bits = segments.flatMap Segment.toBits := toBitArray_spec segments hv

example : (toBitArray [.bits ⟨[0b10111111], 3, 0⟩, .number (-1), .bits sample, .bytes [0x0f]]).map BitArray.bits = some
    ([true, false, true] ++ List.replicate 8 true ++ [true, false, true, true, false, true, true, false, true, false, false, true] ++
      [false, false, false, false, true, true, true, true]) := by decide +kernel

/-- C58, writing: an integer segment has the low bits of the integer, in two's complement and in the order of its bytes. -/
theorem integer_written {number : Int → Option Int} (hn : Converts number) (value : Int) (hv : IsNumber value) (size : Int)
    (isBigEndian : Bool) :
    ∃ s, sizedInt number value size isBigEndian = some s ∧ s.Valid ∧ s.toBits = writeInt isBigEndian value size.toNat :=
  sizedInt_spec hn hv size isBigEndian

/-- C58, reading: the integer that the bits stand for, as close as a number can be to it. -/
theorem integer_read {number : Int → Option Int} (hn : Converts number) (b : BitArray) (hb : b.Valid) (start stop : Int)
    (isBigEndian isSigned : Bool) :
    (0 ≤ start ∧ start ≤ stop ∧ stop ≤ b.bitSize →
      sliceToInt number b start stop isBigEndian isSigned =
        some (number (readInt isBigEndian isSigned ((b.bits.drop start.toNat).take (stop.toNat - start.toNat))))) ∧
    (¬ (0 ≤ start ∧ start ≤ stop ∧ stop ≤ b.bitSize) → sliceToInt number b start stop isBigEndian isSigned = none) := by
  unfold sliceToInt
  constructor
  · rintro ⟨h1, h2, h3⟩
    have : validRange b start stop = true := by
      simp [validRange]
      omega
    rw [if_pos this, sliceToIntNat_eq hn hb (by omega) (by omega)]
  · intro h
    have : ¬ validRange b start stop = true := by
      simp [validRange]
      omega
    rw [if_neg this]

/-- What is read from the bits of an integer is that integer, if it fits in its bits: with or without a sign. -/
theorem read_write (isBigEndian isSigned : Bool) (v : Int) (n : Nat)
    (hfit : if isSigned then 0 < n ∧ -2 ^ (n - 1) ≤ v ∧ v < 2 ^ (n - 1) else 0 ≤ v ∧ v < 2 ^ n) :
    readInt isBigEndian isSigned (writeInt isBigEndian v n) = v := by
  have hval := valueOf_writeInt isBigEndian v n
  unfold readInt
  rw [writeInt_length]
  cases isSigned with
  | false =>
    simp only [Bool.false_eq_true, if_false] at hfit ⊢
    rw [hval, Int.emod_eq_of_lt hfit.1 hfit.2]
  | true =>
    simp only [if_true] at hfit ⊢
    obtain ⟨h0, h1, h2⟩ := hfit
    have hp : (2 : Int) ^ n = 2 * 2 ^ (n - 1) := by
      conv_lhs => rw [show n = (n - 1) + 1 by omega, pow_succ]
      ring
    have hpos : (0 : Int) < 2 ^ (n - 1) := by positivity
    have hp' : ((2 ^ n : Nat) : Int) = 2 ^ n := by push_cast; rfl
    unfold asSigned
    rw [hval]
    by_cases hneg : v < 0
    · have hm : v % 2 ^ n = v + 2 ^ n := by
        rw [← Int.add_emod_right, Int.emod_eq_of_lt (by omega) (by omega)]
      rw [if_pos (by omega), hm]
      omega
    · have hm : v % 2 ^ n = v := Int.emod_eq_of_lt (by omega) (by omega)
      rw [if_neg (by omega), hm]

/-- C58: an integer written anywhere between other segments is read back from where it was written. -/
theorem integer_round_trip {number : Int → Option Int} (hn : Converts number) (before after : List Segment)
    (hb : ∀ s ∈ before, s.Valid) (ha : ∀ s ∈ after, s.Valid) (v : Int) (hv : IsNumber v) (n : Nat) (isBigEndian isSigned : Bool)
    (hfit : if isSigned then 0 < n ∧ -2 ^ (n - 1) ≤ v ∧ v < 2 ^ (n - 1) else 0 ≤ v ∧ v < 2 ^ n) :
    ∃ s r, sizedInt number v n isBigEndian = some s ∧ toBitArray (before ++ s :: after) = some r ∧
      sliceToInt number r (before.flatMap Segment.toBits).length ((before.flatMap Segment.toBits).length + n) isBigEndian isSigned =
        some (number v) := by
  obtain ⟨s, hs, hsv, hsb⟩ := integer_written hn v hv n isBigEndian
  rw [Int.toNat_natCast] at hsb
  obtain ⟨r, hr, hrv, hrb⟩ := joining (before ++ s :: after) (by
    intro x hx
    rw [List.mem_append, List.mem_cons] at hx
    rcases hx with h | rfl | h
    · exact hb x h
    · exact hsv
    · exact ha x h)
  refine ⟨s, r, hs, hr, ?_⟩
  have hlen : s.toBits.length = n := by rw [hsb, writeInt_length]
  have hsize : r.bitSize = (before.flatMap Segment.toBits).length + (n + (after.flatMap Segment.toBits).length) := by
    rw [← bits_length, hrb, List.flatMap_append, List.flatMap_cons, List.length_append, List.length_append, hlen]
  rw [(integer_read hn r hrv _ _ isBigEndian isSigned).1 ⟨by omega, by omega, by rw [hsize]; push_cast; omega⟩]
  congr 2
  rw [hrb, List.flatMap_append, List.flatMap_cons]
  rw [show ((before.flatMap Segment.toBits).length : Int).toNat = (before.flatMap Segment.toBits).length by omega,
    show (((before.flatMap Segment.toBits).length : Int) + n).toNat - (before.flatMap Segment.toBits).length = n by omega]
  rw [List.drop_left' rfl, List.take_left' hlen, hsb, read_write isBigEndian isSigned v n hfit]

/-- A conversion as the theorems expect it. -/
def convert (n : Int) : Option Int := if |n| < 2 ^ 1024 then some n else none

theorem convert_converts : Converts convert := by
  intro m e hm
  unfold convert
  by_cases h : |m * 2 ^ e| < 2 ^ 1024
  · rw [if_pos h]
    exact .inl rfl
  · rw [if_neg h]
    refine .inr ⟨?_, rfl⟩
    by_contra he
    apply h
    rw [abs_mul, abs_of_pos (show (0 : Int) < 2 ^ e by positivity)]
    have h1 : (2 : Int) ^ e ≤ 2 ^ 971 := pow_le_pow_right₀ (by norm_num) (by omega)
    calc |m| * 2 ^ e ≤ |m| * 2 ^ 971 := mul_le_mul_of_nonneg_left h1 (abs_nonneg m)
      _ < 2 ^ 53 * 2 ^ 971 := mul_lt_mul_of_pos_right hm (by positivity)
      _ = 2 ^ 1024 := by rw [← pow_add]

example : IsNumber (-300) ∧ (-2 ^ (12 - 1) ≤ (-300 : Int) ∧ (-300 : Int) < 2 ^ (12 - 1)) := ⟨⟨-300, 0, by norm_num, by norm_num⟩, by norm_num⟩

example : (sizedInt convert (-300) 12 false).map Segment.toBits =
    some [true, true, false, true, false, true, false, false, true, true, true, false] := by decide +kernel

example : toBitArray [.bits ⟨[0b10111111], 3, 0⟩, .bits ⟨[0b11010100, 0b11100000], 12, 0⟩, .number 7] =
    some ⟨[0b10111010, 0b10011100, 0b00001110], 23, 0⟩ := by decide +kernel

example : sliceToInt convert ⟨[0b10111010, 0b10011100, 0b00001110], 23, 0⟩ 3 15 false true = some (some (-300)) := by
  simp [sliceToInt, validRange, sliceToIntNat, unalignedValue, littleUnaligned, trailingByte, reinterpret, at_]

end Verif.BitArrays
