import Verif.BitArrays.IntLemmas

namespace Verif.BitArrays

/-! ### The specification's own lemmas -/

theorem bitsBig_length (v : Int) (n : Nat) : (bitsBig v n).length = n := by simp [bitsBig]

theorem bitsBig_add (v : Int) (a b : Nat) : bitsBig v (a + b) = bitsBig (v / 2 ^ b) a ++ bitsBig v b := by
  unfold bitsBig
  rw [List.range_add, List.map_append, List.map_map]
  congr 1
  · apply List.map_congr_left
    intro i hi
    have hi := List.mem_range.1 hi
    rw [Int.ediv_ediv_of_nonneg (by positivity), ← pow_add, show b + (a - 1 - i) = a + b - 1 - i by omega]
  · apply List.map_congr_left
    intro i hi
    have hi := List.mem_range.1 hi
    simp only [Function.comp]
    rw [show a + b - 1 - (a + i) = b - 1 - i by omega]

theorem bitsBig_succ (v : Int) (n : Nat) : bitsBig v (n + 1) = bitsBig (v / 2) n ++ [decide (v % 2 = 1)] := by
  rw [bitsBig_add]
  simp [bitsBig]

theorem toNat_mod (v : Int) : ((decide (v % 2 = 1)).toNat : Int) = v % 2 := by
  rcases Int.emod_two_eq_zero_or_one v with h | h <;> simp [h]

theorem mod_mul (v m k : Int) (hm : 0 < m) (hk : 0 < k) : v % (m * k) = m * (v / m % k) + v % m := by
  have := Int.emod_def v (m * k)
  rw [this, Int.emod_def (v / m), Int.emod_def v m, Int.ediv_ediv_of_nonneg hm.le]
  ring

theorem valueBig_bitsBig (n : Nat) : ∀ v : Int, (valueBig (bitsBig v n) : Int) = v % 2 ^ n := by
  induction n with
  | zero => intro v; simp [bitsBig, valueBig, Int.emod_one]
  | succ n ih =>
    intro v
    rw [bitsBig_succ, valueBig_append]
    push_cast
    rw [ih, toNat_mod, pow_succ, Int.mul_comm ((2 : Int) ^ n), mod_mul v 2 (2 ^ n) (by norm_num) (by positivity)]

theorem bitsLittle_length (n : Nat) : ∀ v : Int, (bitsLittle v n).length = n := by
  induction n using Nat.strongRecOn with
  | ind n ih =>
    intro v
    rw [bitsLittle]
    split
    · exact bitsBig_length v n
    · rw [List.length_append, bitsBig_length, ih (n - 8) (by omega)]
      omega

theorem valueLittle_bitsLittle (n : Nat) : ∀ v : Int, (valueLittle (bitsLittle v n) : Int) = v % 2 ^ n := by
  induction n using Nat.strongRecOn with
  | ind n ih =>
    intro v
    rw [valueLittle, bitsLittle_length, bitsLittle]
    split
    · exact valueBig_bitsBig n v
    · rename_i h
      rw [List.take_left' (bitsBig_length v 8), List.drop_left' (bitsBig_length v 8)]
      push_cast
      rw [ih (n - 8) (by omega), valueBig_bitsBig]
      have : (2 : Int) ^ n = 256 * 2 ^ (n - 8) := by
        conv_lhs => rw [show n = 8 + (n - 8) by omega, pow_add]
        norm_num
      rw [this, mod_mul v 256 (2 ^ (n - 8)) (by norm_num) (by positivity)]
      norm_num
      ring

theorem writeInt_length (e : Bool) (v : Int) (n : Nat) : (writeInt e v n).length = n := by
  unfold writeInt
  split
  · exact bitsBig_length v n
  · exact bitsLittle_length n v

theorem valueOf_writeInt (e : Bool) (v : Int) (n : Nat) : (valueOf e (writeInt e v n) : Int) = v % 2 ^ n := by
  unfold valueOf writeInt
  cases e with
  | true => exact valueBig_bitsBig n v
  | false => exact valueLittle_bitsLittle n v

/-! ### Writing -/

theorem byteBits_toUint8 (v : Int) : byteBits (toUint8 v) = bitsBig v 8 := by
  unfold byteBits bitsBig
  apply List.map_congr_left
  intro i hi
  have hi := List.mem_range.1 hi
  rw [Nat.testBit_eq_decide_div_mod_eq]
  unfold toUint8
  congr 1
  apply propext
  interval_cases i <;> norm_num <;> omega

theorem toUint8_congr {a b : Int} (h : a % 256 = b % 256) : toUint8 a = toUint8 b := by
  unfold toUint8
  rw [h]

theorem fillDown_bits (n : Nat) : ∀ v : Int,
    (fillDown toUint8 (· / 2 ^ 8) n v).flatMap byteBits = bitsBig v (8 * n) := by
  induction n with
  | zero => intro v; simp [fillDown, bitsBig]
  | succ n ih =>
    intro v
    rw [fillDown, List.flatMap_append, ih, show 8 * (n + 1) = 8 * n + 8 by omega, bitsBig_add v (8 * n) 8]
    simp [byteBits_toUint8]

/-- `bitsLittle` peels whole bytes from the front. -/
theorem fillUp_bits (t : Nat) (ht : t < 8) (n : Nat) : ∀ v : Int,
    (fillUp toUint8 (· / 2 ^ 8) n v).flatMap byteBits ++ bitsBig (leftOver (· / 2 ^ 8) n v) t = bitsLittle v (8 * n + t) := by
  induction n with
  | zero =>
    intro v
    rw [bitsLittle, if_pos (by omega)]
    simp [fillUp, leftOver]
  | succ n ih =>
    intro v
    rw [bitsLittle, if_neg (by omega), fillUp, leftOver, List.flatMap_cons, List.append_assoc, ih, byteBits_toUint8,
      show 8 * (n + 1) + t - 8 = 8 * n + t by omega]
    norm_num

/-- The same last bits. -/
def Agree (m : Nat) (a b : Int) : Prop := a % 2 ^ m = b % 2 ^ m

theorem agree_iff {m : Nat} {a b : Int} : Agree m a b ↔ (2 : Int) ^ m ∣ a - b := by
  unfold Agree
  rw [Int.emod_eq_emod_iff_emod_sub_eq_zero]
  exact Iff.symm (Int.dvd_iff_emod_eq_zero)

theorem agree_div {m k : Nat} {a b : Int} (h : Agree m a b) (hk : k ≤ m) : Agree (m - k) (a / 2 ^ k) (b / 2 ^ k) := by
  unfold Agree at *
  have h1 : (2 : Int) ^ m = 2 ^ k * 2 ^ (m - k) := by rw [← pow_add]; congr 1; omega
  rw [h1, mod_mul a _ _ (by positivity) (by positivity), mod_mul b _ _ (by positivity) (by positivity)] at h
  have h2 : a % 2 ^ k = b % 2 ^ k := by
    have := congrArg (· % (2 : Int) ^ k) h
    simpa [Int.add_emod, Int.mul_emod_right] using this
  rw [h2] at h
  have := add_right_cancel h
  exact Int.eq_of_mul_eq_mul_left (by positivity) this

theorem agree_mono {m k : Nat} {a b : Int} (h : Agree m a b) (hk : k ≤ m) : Agree k a b := by
  rw [agree_iff] at *
  exact dvd_trans (pow_dvd_pow 2 hk) h

theorem agree_toInt32 (v : Int) : Agree 32 (toInt32 v) v := by
  unfold Agree toInt32
  norm_num

theorem agree_trans {m : Nat} {a b c : Int} (h1 : Agree m a b) (h2 : Agree m b c) : Agree m a c := h1.trans h2

theorem agree_shr32 {m k : Nat} {a b : Int} (h : Agree m a b) (hm : m ≤ 32) (hk : k ≤ m) : Agree (m - k) (shr32 a k) (b / 2 ^ k) :=
  agree_div (agree_trans (agree_mono (agree_toInt32 a) hm) h) hk

theorem agree_toUint8 {m : Nat} {a b : Int} (h : Agree m a b) (hm : 8 ≤ m) : toUint8 a = toUint8 b := by
  have := agree_mono h hm
  exact toUint8_congr (by simpa [Agree] using this)

theorem agree_mul {m : Nat} {a b : Int} (k : Int) (h : Agree m a b) : Agree m (a * k) (b * k) := by
  rw [agree_iff] at *
  rw [← Int.sub_mul]
  exact Dvd.dvd.mul_right h k

theorem fillDown_32 (n : Nat) : ∀ (m : Nat) (a b : Int), Agree m a b → m ≤ 32 → 8 * n ≤ m →
    fillDown toUint8 (shr32 · 8) n a = fillDown toUint8 (· / 2 ^ 8) n b := by
  induction n with
  | zero => intros; rfl
  | succ n ih =>
    intro m a b h hm hn
    rw [fillDown, fillDown, ih (m - 8) _ _ (agree_shr32 h hm (by omega)) (by omega) (by omega), agree_toUint8 h (by omega)]

theorem fillUp_32 (n : Nat) : ∀ (m : Nat) (a b : Int), Agree m a b → m ≤ 32 → 8 * n ≤ m →
    fillUp toUint8 (shr32 · 8) n a = fillUp toUint8 (· / 2 ^ 8) n b ∧
    Agree (m - 8 * n) (leftOver (shr32 · 8) n a) (leftOver (· / 2 ^ 8) n b) := by
  induction n with
  | zero => intro m a b h _ _; exact ⟨rfl, h⟩
  | succ n ih =>
    intro m a b h hm hn
    obtain ⟨h1, h2⟩ := ih (m - 8) _ _ (agree_shr32 h hm (by omega)) (by omega) (by omega)
    refine ⟨by rw [fillUp, fillUp, h1, agree_toUint8 h (by omega)], ?_⟩
    rw [leftOver, leftOver, show m - 8 * (n + 1) = m - 8 - 8 * n by omega]
    exact h2

/-- The high bits of a shifted byte. -/
theorem shifted_bits {a v : Int} {t : Nat} (ht : t ≤ 8) (h : Agree t a v) (u : Int) (hu : toUint8 u = toUint8 (a * 2 ^ (8 - t))) :
    (byteBits (toUint8 u)).take t = bitsBig v t := by
  rw [hu, byteBits_toUint8, show (8 : Nat) = t + (8 - t) by omega, bitsBig_add, show t + (8 - t) - t = 8 - t by omega]
  rw [List.take_left' (bitsBig_length _ _), Int.mul_ediv_cancel _ (by positivity)]
  unfold bitsBig
  apply List.map_congr_left
  intro i hi
  have hi := List.mem_range.1 hi
  have := agree_mono (agree_div h (k := t - 1 - i) (by omega)) (show 1 ≤ t - (t - 1 - i) by omega)
  unfold Agree at this
  rw [pow_one] at this
  rw [this]

theorem shl32_toUint8 (v : Int) (k : Nat) : toUint8 (shl32 v k) = toUint8 (v * 2 ^ k) := by
  unfold shl32
  rw [agree_toUint8 (agree_toInt32 _) (by omega)]
  exact agree_toUint8 (agree_mul _ (agree_toInt32 v)) (by omega)

/-! Converting to numbers changes nothing. -/

theorem isNumber_shift {v : Int} (h : IsNumber v) (k : Nat) : IsNumber (v / 2 ^ k) := by
  obtain ⟨m, e, hm, rfl⟩ := h
  by_cases hk : k ≤ e
  · refine ⟨m, e - k, hm, ?_⟩
    rw [show (2 : Int) ^ e = 2 ^ (e - k) * 2 ^ k by rw [← pow_add]; congr 1; omega, ← Int.mul_assoc,
      Int.mul_ediv_cancel _ (by positivity)]
  · refine ⟨m / 2 ^ (k - e), 0, ?_, ?_⟩
    · have h2 : (1 : Int) ≤ 2 ^ (k - e) := one_le_pow₀ (by norm_num)
      rw [abs_lt] at hm ⊢
      constructor
      · have : -(2 ^ 53) + 1 ≤ m / 2 ^ (k - e) := by
          rw [Int.le_ediv_iff_mul_le (by positivity)]
          nlinarith
        omega
      · apply Int.ediv_lt_of_lt_mul (by positivity)
        nlinarith
    · rw [show (2 : Int) ^ k = 2 ^ e * 2 ^ (k - e) by rw [← pow_add]; congr 1; omega, Int.mul_comm m,
        Int.mul_ediv_mul_of_pos _ _ (by positivity), pow_zero, Int.mul_one]

theorem isNumber_mul {v : Int} (h : IsNumber v) (k : Nat) : IsNumber (v * 2 ^ k) := by
  obtain ⟨m, e, hm, rfl⟩ := h
  exact ⟨m, e + k, hm, by rw [pow_add, Int.mul_assoc]⟩

theorem store_number {number : Int → Option Int} (hn : Converts number) {v : Int} (h : IsNumber v) :
    storeNumber (number v) = toUint8 v := by
  obtain ⟨m, e, hm, rfl⟩ := h
  rcases hn m e hm with h | ⟨he, h⟩
  · rw [h]
    rfl
  · rw [h, storeNumber]
    unfold toUint8
    have : (256 : Int) ∣ m * 2 ^ e := Dvd.dvd.mul_left (by
      rw [show (256 : Int) = 2 ^ 8 by norm_num]
      exact pow_dvd_pow 2 (by omega)) m
    rw [Int.emod_eq_zero_of_dvd this]
    rfl

theorem fillDown_number {number : Int → Option Int} (hn : Converts number) (n : Nat) : ∀ v, IsNumber v →
    fillDown (fun n => storeNumber (number n)) (· / 2 ^ 8) n v = fillDown toUint8 (· / 2 ^ 8) n v := by
  induction n with
  | zero => intros; rfl
  | succ n ih =>
    intro v h
    rw [fillDown, fillDown, ih _ (isNumber_shift h 8), store_number hn h]

theorem fillUp_number {number : Int → Option Int} (hn : Converts number) (n : Nat) : ∀ v, IsNumber v →
    fillUp (fun n => storeNumber (number n)) (· / 2 ^ 8) n v = fillUp toUint8 (· / 2 ^ 8) n v ∧
    IsNumber (leftOver (· / 2 ^ 8) n v) := by
  induction n with
  | zero => intro v h; exact ⟨rfl, h⟩
  | succ n ih =>
    intro v h
    obtain ⟨h1, h2⟩ := ih _ (isNumber_shift h 8)
    exact ⟨by rw [fillUp, fillUp, h1, store_number hn h], h2⟩

theorem fillDown_length (store : Int → Nat) (shift : Int → Int) (n : Nat) : ∀ v, (fillDown store shift n v).length = n := by
  induction n with
  | zero => intro v; rfl
  | succ n ih => intro v; simp [fillDown, ih]

theorem fillUp_length (store : Int → Nat) (shift : Int → Int) (n : Nat) : ∀ v, (fillUp store shift n v).length = n := by
  induction n with
  | zero => intro v; rfl
  | succ n ih => intro v; simp [fillUp, ih]

theorem fillDown_bytes (shift : Int → Int) (n : Nat) : ∀ v, Bytes (fillDown toUint8 shift n v) := by
  induction n with
  | zero => intro v x hx; simp [fillDown] at hx
  | succ n ih =>
    intro v x hx
    rw [fillDown, List.mem_append, List.mem_singleton] at hx
    rcases hx with hx | rfl
    · exact ih _ x hx
    · exact toUint8_lt v

theorem fillUp_bytes (shift : Int → Int) (n : Nat) : ∀ v, Bytes (fillUp toUint8 shift n v) := by
  induction n with
  | zero => intro v x hx; simp [fillUp] at hx
  | succ n ih =>
    intro v x hx
    rw [fillUp, List.mem_cons] at hx
    rcases hx with rfl | hx
    · exact toUint8_lt v
    · exact ih _ x hx

/-- What both paths compute, without limits on the size of numbers. -/
def exactBuffer (value : Int) (size : Nat) (isBigEndian : Bool) : List Nat :=
  if isBigEndian then
    fillDown toUint8 (· / 2 ^ 8) (size / 8) (value / 2 ^ (size % 8)) ++ if size % 8 ≠ 0 then [toUint8 (value * 2 ^ (8 - size % 8))] else []
  else
    fillUp toUint8 (· / 2 ^ 8) (size / 8) value ++
      if size % 8 ≠ 0 then [toUint8 (leftOver (· / 2 ^ 8) (size / 8) value * 2 ^ (8 - size % 8))] else []

theorem sizedIntNumber_eq (value : Int) {size : Nat} (hs : size ≤ 32) (e : Bool) :
    sizedIntNumber value size e = exactBuffer value size e := by
  unfold sizedIntNumber exactBuffer
  cases e with
  | true =>
    simp only [if_true]
    split
    · rw [fillDown_32 _ (32 - size % 8) _ _ (agree_shr32 (m := 32) (a := value) (b := value) rfl (le_refl _) (by omega)) (by omega) (by omega),
        shl32_toUint8]
    · rename_i h
      rw [show size % 8 = 0 by simpa using h, pow_zero, Int.ediv_one, List.append_nil,
        fillDown_32 _ 32 value value rfl (le_refl _) (by omega)]
  | false =>
    simp only [Bool.false_eq_true, if_false]
    obtain ⟨h1, h2⟩ := fillUp_32 (size / 8) 32 value value rfl (le_refl _) (by omega)
    rw [h1]
    split
    · rename_i ht
      rw [shl32_toUint8]
      have : toUint8 (leftOver (shr32 · 8) (size / 8) value * 2 ^ (8 - size % 8)) =
          toUint8 (leftOver (· / 2 ^ 8) (size / 8) value * 2 ^ (8 - size % 8)) := by
        exact agree_toUint8 (agree_mul _ h2) (by omega)
      rw [this]
    · rfl

theorem sizedIntBigInt_eq {number : Int → Option Int} (hn : Converts number) {value : Int} (hv : IsNumber value) (size : Nat) (e : Bool) :
    sizedIntBigInt number value size e = exactBuffer value size e := by
  unfold sizedIntBigInt exactBuffer
  cases e with
  | true =>
    simp only [if_true]
    split
    · rw [fillDown_number hn _ _ (isNumber_shift hv _), store_number hn (isNumber_mul hv _)]
    · rename_i h
      rw [show size % 8 = 0 by simpa using h, pow_zero, Int.ediv_one, List.append_nil, fillDown_number hn _ _ hv]
  | false =>
    simp only [Bool.false_eq_true, if_false]
    obtain ⟨h1, h2⟩ := fillUp_number hn (size / 8) value hv
    rw [h1, store_number hn (isNumber_mul h2 _)]

theorem exactBuffer_length (value : Int) (size : Nat) (e : Bool) : (exactBuffer value size e).length = (size + 7) / 8 := by
  unfold exactBuffer
  cases e <;> simp only [Bool.false_eq_true, if_false, if_true, List.length_append, fillDown_length, fillUp_length] <;>
    split <;> simp <;> omega

theorem exactBuffer_bytes (value : Int) (size : Nat) (e : Bool) : Bytes (exactBuffer value size e) := by
  intro x hx
  unfold exactBuffer at hx
  cases e with
  | true =>
    simp only [if_true, List.mem_append] at hx
    rcases hx with hx | hx
    · exact fillDown_bytes _ _ _ x hx
    · split at hx
      · simp only [List.mem_singleton] at hx
        rw [hx]
        exact toUint8_lt _
      · simp at hx
  | false =>
    simp only [Bool.false_eq_true, if_false, List.mem_append] at hx
    rcases hx with hx | hx
    · exact fillUp_bytes _ _ _ x hx
    · split at hx
      · simp only [List.mem_singleton] at hx
        rw [hx]
        exact toUint8_lt _
      · simp at hx

theorem flatMap_byteBits_length (l : List Nat) : (l.flatMap byteBits).length = 8 * l.length := by
  rw [flatMap_byteBits]
  simp [Nat.mul_comm]

theorem exactBuffer_bits (value : Int) (size : Nat) (e : Bool) :
    ((exactBuffer value size e).flatMap byteBits).take size = writeInt e value size := by
  have hdiv : size = 8 * (size / 8) + size % 8 := by omega
  unfold exactBuffer writeInt
  cases e with
  | true =>
    simp only [if_true]
    rw [List.flatMap_append, fillDown_bits]
    conv_rhs => rw [hdiv, bitsBig_add]
    conv_lhs => rw [hdiv]
    rw [show (8 * (size / 8) + size % 8) % 8 = size % 8 by omega, show (8 * (size / 8) + size % 8) / 8 = size / 8 by omega]
    have hl : (bitsBig (value / 2 ^ (size % 8)) (8 * (size / 8))).length = 8 * (size / 8) := bitsBig_length _ _
    rw [List.take_append, hl, List.take_of_length_le (by omega), show 8 * (size / 8) + size % 8 - 8 * (size / 8) = size % 8 by omega]
    congr 1
    split
    · rw [List.flatMap_singleton, shifted_bits (a := value) (by omega) rfl _ rfl]
    · rename_i h
      rw [show size % 8 = 0 by simpa using h]
      simp [bitsBig]
  | false =>
    simp only [Bool.false_eq_true, if_false]
    rw [List.flatMap_append]
    have hl : ((fillUp toUint8 (· / 2 ^ 8) (size / 8) value).flatMap byteBits).length = 8 * (size / 8) := by
      rw [flatMap_byteBits_length, fillUp_length]
    rw [List.take_append, hl, List.take_of_length_le (by omega), show size - 8 * (size / 8) = size % 8 by omega]
    conv_rhs => rw [hdiv]
    rw [← fillUp_bits (size % 8) (by omega)]
    congr 1
    split
    · rw [List.flatMap_singleton, shifted_bits (a := leftOver (· / 2 ^ 8) (size / 8) value) (by omega) rfl _ rfl]
    · rename_i h
      rw [show size % 8 = 0 by simpa using h]
      simp [bitsBig]

theorem bits_take (buffer : List Nat) (size : Nat) (h : size ≤ 8 * buffer.length) :
    (⟨buffer, size, 0⟩ : BitArray).bits = (buffer.flatMap byteBits).take size := by
  rw [flatMap_byteBits, ← List.map_take, List.take_range, Nat.min_eq_left (by omega)]
  simp [BitArray.bits]

theorem sizedInt_spec {number : Int → Option Int} (hn : Converts number) {value : Int} (hv : IsNumber value) (size : Int) (e : Bool) :
    ∃ s, sizedInt number value size e = some s ∧ s.Valid ∧ s.toBits = writeInt e value size.toNat := by
  unfold sizedInt
  split
  · rename_i h
    refine ⟨_, rfl, by simp [Segment.Valid, Bytes], ?_⟩
    rw [show size.toNat = 0 by omega]
    unfold writeInt
    rw [bitsLittle]
    simp [Segment.toBits, bitsBig]
  rename_i hpos
  have hsz : 0 < size.toNat := by omega
  simp only
  generalize size.toNat = n at hsz ⊢
  have w8 : ∀ n < 9, writeInt e value n = bitsBig value n := by
    intro n hn
    unfold writeInt
    rw [bitsLittle]
    split
    · rfl
    · split
      · rfl
      · rw [show n = 8 by omega, bitsLittle]
        simp [bitsBig]
  split
  · rename_i h
    subst h
    refine ⟨_, rfl, ?_, ?_⟩
    · intro x hx
      simp at hx
      rw [hx]
      exact toUint8_lt _
    · rw [w8 8 (by omega)]
      simp [Segment.toBits, byteBits_toUint8]
  split
  · rename_i h8 h
    have hb : Bytes [toUint8 (shl32 value (8 - n))] := by
      intro x hx
      simp at hx
      rw [hx]
      exact toUint8_lt _
    refine ⟨.bits ⟨[toUint8 (shl32 value (8 - n))], n, 0⟩, ?_, ⟨hb, by simp, by simp; omega⟩, ?_⟩
    · unfold BitArray.new
      rw [if_neg (by omega), if_neg (by simp; omega)]
      rfl
    · rw [w8 n (by omega)]
      simp only [Segment.toBits]
      rw [bits_take _ _ (by simp; omega), List.flatMap_singleton, shifted_bits (a := value) (by omega) rfl _ (shl32_toUint8 _ _)]
  rename_i h8 h
  have hbuf : (if n ≤ 32 then sizedIntNumber value n e else sizedIntBigInt number value n e) = exactBuffer value n e := by
    split
    · rename_i h32
      exact sizedIntNumber_eq value h32 e
    · exact sizedIntBigInt_eq hn hv n e
  rw [hbuf]
  have hl := exactBuffer_length value n e
  split
  · rename_i ht
    refine ⟨.bits ⟨exactBuffer value n e, n, 0⟩, ?_, ⟨exactBuffer_bytes _ _ _, by simp, by simp [hl]⟩, ?_⟩
    · unfold BitArray.new
      rw [if_neg (by omega), if_neg (by simp [hl])]
      rfl
    · simp only [Segment.toBits]
      rw [bits_take _ _ (by rw [hl]; omega), exactBuffer_bits]
  · rename_i ht
    refine ⟨_, rfl, exactBuffer_bytes _ _ _, ?_⟩
    simp only [Segment.toBits]
    rw [← exactBuffer_bits, List.take_of_length_le (by rw [flatMap_byteBits_length, hl]; omega)]

end Verif.BitArrays
