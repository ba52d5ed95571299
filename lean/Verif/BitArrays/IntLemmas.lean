import Verif.BitArrays.Concat
import Mathlib.Tactic.Ring
import Mathlib.Tactic.Linarith
import Mathlib.Tactic.Positivity

namespace Verif.BitArrays

/-! ### Reading -/

/-- The number written by `n` bits of `f` from `s` on. -/
def V (f : Nat → Bool) (s : Nat) : Nat → Nat
  | 0 => 0
  | n + 1 => 2 * V f s n + (f (s + n)).toNat

theorem V_lt (f : Nat → Bool) (s : Nat) : ∀ n, V f s n < 2 ^ n
  | 0 => by simp [V]
  | n + 1 => by
    have := V_lt f s n
    have hb : (f (s + n)).toNat ≤ 1 := Bool.toNat_le _
    rw [V, pow_succ]
    omega

theorem V_add (f : Nat → Bool) (s m : Nat) : ∀ n, V f s (m + n) = V f s m * 2 ^ n + V f (s + m) n
  | 0 => by simp [V]
  | n + 1 => by
    rw [← Nat.add_assoc, V, V_add f s m n, V, pow_succ, Nat.add_assoc s m n]
    ring

theorem V_congr {f g : Nat → Bool} {s t n : Nat} (h : ∀ i < n, f (s + i) = g (t + i)) : V f s n = V g t n := by
  induction n with
  | zero => rfl
  | succ n ih => rw [V, V, ih fun i hi => h i (by omega), h n (by omega)]

theorem valueBig_append (l : List Bool) (b : Bool) : valueBig (l ++ [b]) = 2 * valueBig l + b.toNat := by
  simp [valueBig]

theorem valueBig_range (f : Nat → Bool) (s n : Nat) : valueBig ((List.range n).map fun i => f (s + i)) = V f s n := by
  induction n with
  | zero => rfl
  | succ n ih => rw [List.range_succ, List.map_append, List.map_singleton, valueBig_append, ih, V]

/-- The same for little endian. -/
def L (f : Nat → Bool) (s n : Nat) : Nat := if n < 8 then V f s n else V f s 8 + 256 * L f (s + 8) (n - 8)
termination_by n

theorem valueLittle_range (f : Nat → Bool) (n : Nat) : ∀ s, valueLittle ((List.range n).map fun i => f (s + i)) = L f s n := by
  induction n using Nat.strongRecOn with
  | ind n ih =>
    intro s
    rw [valueLittle, L]
    simp only [List.length_map, List.length_range]
    split
    · exact valueBig_range f s n
    · rename_i h
      have h1 : ((List.range n).map fun i => f (s + i)).take 8 = (List.range 8).map fun i => f (s + i) := by
        rw [← List.map_take, List.take_range, Nat.min_eq_left (by omega)]
      have h2 : ((List.range n).map fun i => f (s + i)).drop 8 = (List.range (n - 8)).map fun i => f (s + 8 + i) := by
        conv_lhs => rw [show n = 8 + (n - 8) by omega, List.range_add, List.map_append]
        rw [List.drop_left' (by simp), List.map_map]
        apply List.map_congr_left
        intro i _
        simp [Nat.add_assoc]
      rw [h1, h2, valueBig_range, ih (n - 8) (by omega)]

theorem L_lt (f : Nat → Bool) (n : Nat) : ∀ s, L f s n < 2 ^ n := by
  induction n using Nat.strongRecOn with
  | ind n ih =>
    intro s
    rw [L]
    split
    · exact V_lt f s n
    · rename_i h
      have h1 := ih (n - 8) (by omega) (s + 8)
      have h2 := V_lt f s 8
      have h3 : 2 ^ n = 256 * 2 ^ (n - 8) := by
        conv_lhs => rw [show n = 8 + (n - 8) by omega, pow_add]
        norm_num
      omega

variable {buffer : List Nat}

theorem byte_V (h : Bytes buffer) (i : Nat) : at_ buffer i = V (bufferBit buffer) (8 * i) 8 := by
  have hb : ∀ k < 8, bufferBit buffer (8 * i + k) = (at_ buffer i).testBit (7 - k) := fun k hk => bufferBit_at hk
  have hlt := at_lt h i
  simp only [V]
  rw [hb 0 (by omega), hb 1 (by omega), hb 2 (by omega), hb 3 (by omega), hb 4 (by omega), hb 5 (by omega), hb 6 (by omega), hb 7 (by omega)]
  generalize at_ buffer i = x at hlt
  simp only [Nat.testBit_eq_decide_div_mod_eq]
  have ht : ∀ n : Nat, (decide (n % 2 = 1)).toNat = n % 2 := by
    intro n
    rcases Nat.mod_two_eq_zero_or_one n with h | h <;> simp [h]
  simp only [ht]
  norm_num
  omega

theorem byte_high (h : Bytes buffer) {i t : Nat} (ht : t ≤ 8) :
    at_ buffer i >>> (8 - t) = V (bufferBit buffer) (8 * i) t := by
  rw [byte_V h, Nat.shiftRight_eq_div_pow]
  conv_lhs => rw [show (8 : Nat) = t + (8 - t) by omega]
  rw [V_add]
  have := V_lt (bufferBit buffer) (8 * i + t) (8 - t)
  rw [show t + (8 - t) - t = 8 - t by omega]
  rw [show t + (8 - t) = 8 by omega] at *
  rw [Nat.mul_comm, Nat.mul_add_div (by positivity), Nat.div_eq_of_lt this, Nat.add_zero]

theorem byte_low (h : Bytes buffer) {i l : Nat} (hl : l ≤ 8) :
    at_ buffer i &&& ((1 <<< l) - 1) = V (bufferBit buffer) (8 * i + (8 - l)) l := by
  rw [byte_V h, Nat.one_shiftLeft, Nat.and_two_pow_sub_one_eq_mod]
  conv_lhs => rw [show (8 : Nat) = (8 - l) + l by omega]
  rw [V_add]
  have := V_lt (bufferBit buffer) (8 * i + (8 - l)) l
  rw [show 8 - l + l = 8 by omega]
  rw [Nat.mul_comm, Nat.mul_add_mod, Nat.mod_eq_of_lt this]

theorem foldl_range_succ {α} (g : α → Nat → α) (a : α) (n : Nat) :
    (List.range (n + 1)).foldl g a = g ((List.range n).foldl g a) n := by
  rw [List.range_succ, List.foldl_append]
  rfl

theorem alignedValue_big (h : Bytes buffer) (start n : Nat) :
    (List.range n).foldl (fun value i => value * 256 + at_ buffer (start + i)) 0 = V (bufferBit buffer) (8 * start) (8 * n) := by
  induction n with
  | zero => simp [V]
  | succ n ih =>
    rw [foldl_range_succ, ih, show 8 * (n + 1) = 8 * n + 8 by omega, V_add, byte_V h, show 8 * start + 8 * n = 8 * (start + n) by omega]
    norm_num

theorem alignedValue_little (h : Bytes buffer) (n : Nat) : ∀ start,
    (List.range n).foldl (fun value i => value * 256 + at_ buffer (start + n - 1 - i)) 0 = L (bufferBit buffer) (8 * start) (8 * n) := by
  induction n with
  | zero => intro start; simp [L, V]
  | succ n ih =>
    intro start
    rw [foldl_range_succ, L, if_neg (by omega), show 8 * (n + 1) - 8 = 8 * n by omega, show 8 * start + 8 = 8 * (start + 1) by omega,
      ← ih (start + 1)]
    rw [show start + (n + 1) - 1 - n = start by omega, byte_V h]
    have : (fun (value i : Nat) => value * 256 + at_ buffer (start + (n + 1) - 1 - i)) =
        fun value i => value * 256 + at_ buffer (start + 1 + n - 1 - i) := by
      funext value i
      rw [show start + (n + 1) - 1 - i = start + 1 + n - 1 - i by omega]
    rw [this, Nat.mul_comm, Nat.add_comm]

/-- The value of `size` bits from `s` on. -/
def val (isBigEndian : Bool) (buffer : List Nat) (s n : Nat) : Nat :=
  if isBigEndian then V (bufferBit buffer) s n else L (bufferBit buffer) s n

theorem alignedValue_eq (h : Bytes buffer) {start stop : Nat} (hle : start ≤ stop) (e : Bool) :
    alignedValue buffer start stop e = val e buffer (8 * start) (8 * (stop - start)) := by
  unfold alignedValue val
  cases e with
  | true => simp [alignedValue_big h]
  | false =>
    have := alignedValue_little h (stop - start) start
    rw [show start + (stop - start) = stop by omega] at this
    simpa using this

theorem bigLoop_eq (h : Bytes buffer) (f : Nat → Bool) (s d : Nat) (size : Nat) : ∀ value byteIndex,
    (∀ i, bufferBit buffer i = f i) → value = V f s d → s + d = 8 * byteIndex →
    bigLoop buffer value byteIndex size = V f s (d + size) := by
  induction size using Nat.strongRecOn generalizing d with
  | ind size ih =>
    intro value byteIndex hf hv hs
    have hf' : bufferBit buffer = f := funext hf
    rw [bigLoop]
    split
    · split
      · rw [byte_high h (by omega), V_add, hv, hf', hs]
      · rw [show d + size = d by omega, hv]
    · rw [ih (size - 8) (by omega) (d + 8) _ _ hf _ (by omega), show d + 8 + (size - 8) = d + size by omega]
      rw [V_add, byte_V h, hf', hv, hs]
      norm_num

theorem littleAligned_eq (h : Bytes buffer) (size : Nat) : ∀ value scale byteIndex,
    littleAligned buffer value scale byteIndex size = value + L (bufferBit buffer) (8 * byteIndex) size * scale := by
  induction size using Nat.strongRecOn with
  | ind size ih =>
    intro value scale byteIndex
    rw [littleAligned, L]
    split
    · rw [byte_high h (by omega)]
    · rw [ih (size - 8) (by omega), byte_V h, show 8 * (byteIndex + 1) = 8 * byteIndex + 8 by omega]
      ring

theorem trailingByte_eq (h : Bytes buffer) {high byteIndex size : Nat} (h0 : 0 < high) (h8 : high < 8) (hs : size < 8) :
    trailingByte buffer (8 - high) byteIndex size = V (bufferBit buffer) (8 * byteIndex + high) size := by
  unfold trailingByte
  simp only
  rw [byte_low h (by omega), show 8 - (8 - high) = high by omega, Nat.shiftRight_eq_div_pow]
  have hcut : ∀ u ≤ 8 - high, V (bufferBit buffer) (8 * byteIndex + high) (8 - high) / 2 ^ (8 - high - u) =
      V (bufferBit buffer) (8 * byteIndex + high) u := by
    intro u hu
    have h1 := V_add (bufferBit buffer) (8 * byteIndex + high) u (8 - high - u)
    rw [show u + (8 - high - u) = 8 - high by omega] at h1
    have h2 := V_lt (bufferBit buffer) (8 * byteIndex + high + u) (8 - high - u)
    rw [h1, Nat.mul_comm, Nat.mul_add_div (by positivity), Nat.div_eq_of_lt h2, Nat.add_zero]
  by_cases hlt : size ≤ 8 - high
  · rw [if_neg (by omega), show size - (size - (8 - high)) = size by omega, hcut _ hlt]
  · rw [if_pos (by omega), show size - (size - (8 - high)) = 8 - high by omega, hcut _ (le_refl _), byte_high h (by omega)]
    have h1 := V_add (bufferBit buffer) (8 * byteIndex + high) (8 - high) (size - (8 - high))
    rw [show 8 - high + (size - (8 - high)) = size by omega,
      show 8 * byteIndex + high + (8 - high) = 8 * (byteIndex + 1) by omega] at h1
    exact h1.symm

theorem crossing_byte (h : Bytes buffer) {high byteIndex : Nat} (h0 : 0 < high) (h8 : high < 8) :
    ((at_ buffer byteIndex <<< high) ||| (at_ buffer (byteIndex + 1) >>> (8 - high))) &&& 0xff =
      V (bufferBit buffer) (8 * byteIndex + high) 8 := by
  have hand : ((at_ buffer byteIndex <<< high) ||| (at_ buffer (byteIndex + 1) >>> (8 - high))) &&& 0xff =
      byteAt buffer high byteIndex := by
    unfold byteAt
    rw [if_neg (by omega)]
    apply Nat.eq_of_testBit_eq
    intro j
    simp only [Nat.testBit_and, Nat.testBit_or, ff_testBit]
    by_cases hj : j < 8
    · simp [hj]
    · have : (at_ buffer (byteIndex + 1) >>> (8 - high)).testBit j = false := by
        rw [Nat.testBit_shiftRight]
        exact testBit_high (at_lt h _) (by omega)
      simp [hj, this]
  rw [hand]
  have hlt : byteAt buffer high byteIndex < 256 := byteAt_lt h (by omega)
  have hone : Bytes [byteAt buffer high byteIndex] := by
    intro x hx
    simp at hx
    omega
  have := byte_V hone 0
  simp only [at_, List.getD_cons_zero] at this
  rw [this]
  apply V_congr
  intro i hi
  rw [show 8 * 0 + i = 8 * 0 + i by rfl, bufferBit_at hi]
  simp only [at_, List.getD_cons_zero]
  rw [byteAt_testBit h (by omega) hi]
  congr 1
  omega

theorem littleUnaligned_eq (h : Bytes buffer) {high : Nat} (h0 : 0 < high) (h8 : high < 8) (size : Nat) :
    ∀ value scale byteIndex, littleUnaligned buffer high value scale byteIndex size =
      value + L (bufferBit buffer) (8 * byteIndex + high) size * scale := by
  induction size using Nat.strongRecOn with
  | ind size ih =>
    intro value scale byteIndex
    rw [littleUnaligned, L]
    simp only
    split
    · split
      · rw [trailingByte_eq h h0 h8 (by omega)]
      · rw [show size = 0 by omega]
        simp [V]
    · rw [ih (size - 8) (by omega), crossing_byte h h0 h8, show 8 * (byteIndex + 1) + high = 8 * byteIndex + high + 8 by omega]
      ring

theorem unalignedValue_eq (h : Bytes buffer) {start stop : Nat} (hcross : start / 8 < (stop - 1) / 8) (e : Bool) :
    unalignedValue buffer start stop e = val e buffer start (stop - start) := by
  unfold unalignedValue val
  cases e with
  | true =>
    simp only [if_true]
    split
    · rw [byte_low h (by omega)]
      rw [bigLoop_eq h (bufferBit buffer) (8 * (start / 8) + (8 - (8 - start % 8))) (8 - start % 8) _ _ _ (fun _ => rfl) rfl (by omega)]
      congr 1 <;> omega
    · rw [bigLoop_eq h (bufferBit buffer) start 0 (stop - start) 0 (start / 8) (fun _ => rfl) rfl (by omega), Nat.zero_add]
  | false =>
    simp only [Bool.false_eq_true, if_false]
    split
    · rw [littleAligned_eq h, show 8 * (start / 8) = start by omega]
      omega
    · rw [littleUnaligned_eq h (by omega) (by omega), show 8 * (start / 8) + start % 8 = start by omega]
      omega

/-! The two variants take the same steps. -/

theorem bigLoopBig_eq (size : Nat) : ∀ value byteIndex, bigLoopBig buffer value byteIndex size = bigLoop buffer value byteIndex size := by
  induction size using Nat.strongRecOn with
  | ind size ih =>
    intro value byteIndex
    rw [bigLoopBig, bigLoop]
    split
    · rw [Nat.shiftLeft_eq]
    · exact ih _ (by omega) _ _

theorem littleAlignedBig_eq (size : Nat) : ∀ value shift byteIndex,
    littleAlignedBig buffer value shift byteIndex size = littleAligned buffer value (2 ^ shift) byteIndex size := by
  induction size using Nat.strongRecOn with
  | ind size ih =>
    intro value shift byteIndex
    rw [littleAlignedBig, littleAligned]
    split
    · rw [Nat.shiftLeft_eq]
    · rw [ih _ (by omega), Nat.shiftLeft_eq, pow_add]
      norm_num

theorem trailingByteBig_eq (l i size : Nat) : trailingByteBig buffer l i size = trailingByte buffer l i size := by
  unfold trailingByteBig trailingByte
  simp only [Nat.shiftLeft_eq]

theorem littleUnalignedBig_eq (high size : Nat) : ∀ value shift byteIndex,
    littleUnalignedBig buffer high value shift byteIndex size = littleUnaligned buffer high value (2 ^ shift) byteIndex size := by
  induction size using Nat.strongRecOn with
  | ind size ih =>
    intro value shift byteIndex
    rw [littleUnalignedBig, littleUnaligned]
    simp only
    split
    · rw [Nat.shiftLeft_eq, trailingByteBig_eq]
    · rw [ih _ (by omega), Nat.shiftLeft_eq _ shift, pow_add]
      norm_num

theorem unalignedValueBig_eq (start stop : Nat) (e : Bool) :
    unalignedValueBig buffer start stop e = unalignedValue buffer start stop e := by
  unfold unalignedValueBig unalignedValue
  simp only [bigLoopBig_eq, littleAlignedBig_eq, littleUnalignedBig_eq, pow_zero]

theorem val_lt (e : Bool) (s n : Nat) : val e buffer s n < 2 ^ n := by
  unfold val
  split
  · exact V_lt ..
  · exact L_lt ..

theorem valueOf_slice (b : BitArray) (start stop : Nat) (h : stop ≤ b.bitSize) (e : Bool) :
    valueOf e ((b.bits.drop start).take (stop - start)) = val e b.rawBuffer (start + b.bitOffset) (stop - start) := by
  rw [bits_drop_take b start stop h]
  have : (fun i => bufferBit b.rawBuffer (b.bitOffset + (start + i))) = fun i => bufferBit b.rawBuffer (start + b.bitOffset + i) := by
    funext i
    congr 1
    omega
  rw [this]
  unfold valueOf val
  rw [valueBig_range, valueLittle_range]

theorem reinterpret_eq {s : Bool} {n v : Nat} (hn : 0 < n) :
    reinterpret s n v = if s then asSigned n v else (v : Int) := by
  unfold reinterpret asSigned
  have h1 : 2 ^ n = 2 * 2 ^ (n - 1) := by
    conv_lhs => rw [show n = (n - 1) + 1 by omega, pow_succ]
    ring
  have h2 : ((2 : Int) ^ n) = 2 * 2 ^ (n - 1) := by exact_mod_cast h1
  cases s with
  | false => simp
  | true =>
    simp only [Bool.true_and, decide_eq_true_eq, if_true, h1, h2]
    by_cases h : v ≥ 2 ^ (n - 1)
    · rw [if_pos h, if_pos (by omega)]
      ring
    · rw [if_neg h, if_neg (by omega)]

theorem number_small {number : Int → Option Int} (hn : Converts number) {v : Int} (h : |v| < 2 ^ 53) : number v = some v := by
  have := hn v 0 h
  simpa using this

theorem readInt_small {s : Bool} {n v : Nat} (hv : v < 2 ^ n) (hn : n ≤ 53) :
    |if s then asSigned n v else (v : Int)| < 2 ^ 53 := by
  have h1 : 2 ^ n ≤ 2 ^ 53 := Nat.pow_le_pow_right (by omega) hn
  have h2 : ((2 : Int) ^ n) = ((2 ^ n : Nat) : Int) := by push_cast; rfl
  rw [abs_lt]
  unfold asSigned
  rw [h2]
  generalize 2 ^ n = N at *
  split <;> [split; skip] <;> omega

theorem V_eq_L (f : Nat → Bool) (s : Nat) {n : Nat} (h : n < 9) : L f s n = V f s n := by
  rw [L]
  split
  · rfl
  · rw [show n = 8 by omega, L]
    simp [V]

theorem sliceToIntNat_eq {number : Int → Option Int} (hn : Converts number) {b : BitArray} (hb : b.Valid) {start stop : Nat}
    (h1 : start ≤ stop) (h2 : stop ≤ b.bitSize) (e s : Bool) :
    sliceToIntNat number b start stop e s = number (readInt e s ((b.bits.drop start).take (stop - start))) := by
  have hlen : ((b.bits.drop start).take (stop - start)).length = stop - start := by
    simp [bits_length]
    omega
  unfold readInt
  rw [hlen, valueOf_slice b start stop h2]
  unfold sliceToIntNat
  split
  · rename_i h
    subst h
    have : val e b.rawBuffer (start + b.bitOffset) (start - start) = 0 := by
      have := val_lt (buffer := b.rawBuffer) e (start + b.bitOffset) (start - start)
      simp at this
      simpa using this
    rw [this]
    have hz : (if s = true then asSigned (start - start) 0 else ((0 : Nat) : Int)) = 0 := by
      cases s <;> simp [asSigned]
    rw [hz, number_small hn (by norm_num)]
  rename_i hne
  simp only
  split
  · rename_i hal
    unfold intFromAlignedSlice
    simp only
    rw [alignedValue_eq hb.bytes (by omega)]
    have hs : (stop + b.bitOffset) / 8 - (start + b.bitOffset) / 8 = (stop - start) / 8 := by omega
    have hs8 : (stop - start) / 8 * 8 = stop - start := by omega
    have hs8' : 8 * ((stop - start) / 8) = stop - start := by omega
    rw [hs, hs8, hs8', reinterpret_eq (by omega), show 8 * ((start + b.bitOffset) / 8) = start + b.bitOffset by omega]
    split
    · rw [number_small hn (readInt_small (val_lt _ _ _) (by omega))]
    · rfl
  rename_i hal
  rw [show stop + b.bitOffset - (start + b.bitOffset) = stop - start by omega]
  split
  · rename_i hone
    have hv : (at_ b.rawBuffer ((start + b.bitOffset) / 8) &&& 0xff >>> ((start + b.bitOffset) % 8)) >>>
        ((8 - (stop + b.bitOffset) % 8) % 8) = val e b.rawBuffer (start + b.bitOffset) (stop - start) := by
      have hmask : (0xff : Nat) >>> ((start + b.bitOffset) % 8) = (1 <<< (8 - (start + b.bitOffset) % 8)) - 1 := by
        have : (start + b.bitOffset) % 8 < 8 := Nat.mod_lt _ (by norm_num)
        generalize (start + b.bitOffset) % 8 = x at this
        interval_cases x <;> rfl
      rw [hmask, byte_low hb.bytes (by omega), Nat.shiftRight_eq_div_pow]
      have hpos : 8 * ((start + b.bitOffset) / 8) + (8 - (8 - (start + b.bitOffset) % 8)) = start + b.bitOffset := by omega
      rw [hpos]
      have hsplit : 8 - (start + b.bitOffset) % 8 = (stop - start) + (8 - (stop + b.bitOffset) % 8) % 8 := by omega
      rw [hsplit, V_add]
      have hlt := V_lt (bufferBit b.rawBuffer) (start + b.bitOffset + (stop - start)) ((8 - (stop + b.bitOffset) % 8) % 8)
      rw [Nat.mul_comm, Nat.mul_add_div (by positivity), Nat.div_eq_of_lt hlt, Nat.add_zero]
      unfold val
      rw [V_eq_L _ _ (by omega)]
      simp
    rw [hv, reinterpret_eq (by omega), number_small hn (readInt_small (val_lt _ _ _) (by omega))]
  rename_i hcross
  split
  · rw [unalignedValue_eq hb.bytes (by omega), reinterpret_eq (by omega),
      show stop + b.bitOffset - (start + b.bitOffset) = stop - start by omega,
      number_small hn (readInt_small (val_lt _ _ _) (by omega))]
  · rw [unalignedValueBig_eq, unalignedValue_eq hb.bytes (by omega), reinterpret_eq (by omega),
      show stop + b.bitOffset - (start + b.bitOffset) = stop - start by omega]

end Verif.BitArrays
