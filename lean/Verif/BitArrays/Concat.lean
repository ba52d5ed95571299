import Verif.BitArrays.Lemmas

namespace Verif.BitArrays

theorem bytes_put {buffer : List Nat} (h : Bytes buffer) {i byte : Nat} (hb : byte < 256) : Bytes (put buffer i byte) := by
  intro x hx
  rcases List.mem_or_eq_of_mem_set hx with h' | h'
  · exact h x h'
  · omega

theorem put_length (buffer : List Nat) (i byte : Nat) : (put buffer i byte).length = buffer.length := by simp [put]

theorem bufferBit_put {buffer : List Nat} {j byte : Nat} (hj : j < buffer.length) (i : Nat) :
    bufferBit (put buffer j byte) i = if i / 8 = j then byte.testBit (7 - i % 8) else bufferBit buffer i := by
  unfold bufferBit put
  by_cases h : i / 8 = j
  · simp [h, List.getD_eq_getElem?_getD, hj]
  · simp [h, List.getD_eq_getElem?_getD, Ne.symm h]

theorem put_outside {buffer : List Nat} {j byte : Nat} (hj : buffer.length ≤ j) : put buffer j byte = buffer := by
  simp [put, List.set_eq_of_length_le hj]

theorem putAll_length (bytes : List Nat) : ∀ (buffer : List Nat) (i : Nat), (putAll buffer i bytes).length = buffer.length := by
  induction bytes with
  | nil => intro buffer i; rfl
  | cons byte bytes ih => intro buffer i; rw [putAll, ih, put_length]

theorem bytes_putAll {bytes : List Nat} (hb : Bytes bytes) :
    ∀ {buffer : List Nat} (_ : Bytes buffer) (i : Nat), Bytes (putAll buffer i bytes) := by
  induction bytes with
  | nil => intro buffer h i; exact h
  | cons byte bytes ih =>
    intro buffer h i
    exact ih (fun x hx => hb x (List.mem_cons_of_mem _ hx)) (bytes_put h (hb byte (List.mem_cons_self ..))) _

theorem bufferBit_putAll (bytes : List Nat) : ∀ (buffer : List Nat) (j : Nat), j + bytes.length ≤ buffer.length → ∀ i,
    bufferBit (putAll buffer j bytes) i =
      if 8 * j ≤ i ∧ i < 8 * (j + bytes.length) then bufferBit bytes (i - 8 * j) else bufferBit buffer i := by
  induction bytes with
  | nil =>
    intro buffer j h i
    rw [if_neg (by simp)]
    rfl
  | cons byte bytes ih =>
    intro buffer j h i
    simp only [List.length_cons] at h ⊢
    rw [putAll, ih _ _ (by rw [put_length]; omega)]
    by_cases h1 : 8 * (j + 1) ≤ i ∧ i < 8 * (j + 1 + bytes.length)
    · rw [if_pos h1, if_pos (by omega)]
      unfold bufferBit
      rw [show (i - 8 * j) / 8 = (i - 8 * (j + 1)) / 8 + 1 by omega, show (i - 8 * j) % 8 = (i - 8 * (j + 1)) % 8 by omega]
      simp [List.getD_eq_getElem?_getD]
    · rw [if_neg h1, bufferBit_put (by omega)]
      by_cases h2 : i / 8 = j
      · rw [if_pos h2, if_pos (by omega)]
        unfold bufferBit
        rw [show (i - 8 * j) / 8 = 0 by omega, show (i - 8 * j) % 8 = i % 8 by omega]
        simp
      · rw [if_neg h2, if_neg (by omega)]

/-- What has been written: the bits so far, and zeros after them. -/
structure Wrote (w : Writer) (n : Nat) (bits : List Bool) : Prop where
  length : w.buffer.length = n
  bytes : Bytes w.buffer
  cursor : w.cursor = bits.length
  content : ∀ i, bufferBit w.buffer i = bits.getD i false

theorem getD_append {l m : List Bool} {i : Nat} :
    (l ++ m).getD i false = if i < l.length then l.getD i false else m.getD (i - l.length) false := by
  simp only [List.getD_eq_getElem?_getD, List.getElem?_append]
  split <;> rfl

theorem getD_range_map {f : Nat → Bool} {n i : Nat} :
    ((List.range n).map f).getD i false = if i < n then f i else false := by
  simp only [List.getD_eq_getElem?_getD, List.getElem?_map]
  by_cases h : i < n
  · simp [List.getElem?_range h, h]
  · simp [h]

theorem byte_mod_testBit (n k : Nat) : (n % 256).testBit (7 - k) = n.testBit (7 - k) := by
  rw [show (256 : Nat) = 2 ^ 8 by norm_num, Nat.testBit_mod_two_pow]
  have : 7 - k < 8 := by omega
  simp [this]

/-- Cutting the low bits of a byte. -/
theorem cut_testBit {byte s k : Nat} (hs : s ≤ 8) (hk : k < 8) :
    ((byte >>> (8 - s)) <<< (8 - s) % 256).testBit (7 - k) = (decide (k < s) && byte.testBit (7 - k)) := by
  rw [byte_mod_testBit, Nat.testBit_shiftLeft, Nat.testBit_shiftRight]
  by_cases h : k < s
  · have h' : 7 - k ≥ 8 - s := by omega
    rw [show 8 - s + (7 - k - (8 - s)) = 7 - k by omega]
    simp [h, h']
  · have h' : ¬ 7 - k ≥ 8 - s := by omega
    simp [h, h']

/-- The loop, for a source whose bits are `src`. -/
theorem appendLoop_spec {src : List Nat} (hsrc : Bytes src) {offset : Nat} (hoff : offset ≤ 7) {c0 n : Nat} {orig : Nat → Bool} :
    ∀ (fuel i r : Nat) (w : Writer), Bytes w.buffer → r ≤ 8 * fuel → w.cursor = c0 + n - r → (0 < r → n = 8 * i + r) →
      c0 + n ≤ 8 * w.buffer.length → r ≤ n →
      (∀ j, bufferBit w.buffer j = if j < c0 then orig j else if j < c0 + (n - r) then bufferBit src (offset + (j - c0)) else false) →
      ∀ res, appendLoop src offset (c0 % 8) fuel i r (c0 / 8 + i) w = res →
      res.buffer.length = w.buffer.length ∧ Bytes res.buffer ∧ res.cursor = c0 + n ∧
      ∀ j, bufferBit res.buffer j = if j < c0 then orig j else if j < c0 + n then bufferBit src (offset + (j - c0)) else false := by
  intro fuel
  induction fuel with
  | zero =>
    intro i r w hw hf hc hr hlen hrn hbits res hres
    have : r = 0 := by omega
    subst this
    rw [appendLoop] at hres
    subst hres
    exact ⟨rfl, hw, by omega, by simpa using hbits⟩
  | succ fuel ih =>
    intro i r w hw hf hc hr hlen hrn hbits res hres
    rw [appendLoop] at hres
    simp only at hres
    -- the byte, with the bits past the end cut
    obtain ⟨byte, hbyte⟩ : ∃ byte, byte = (if r < 8 then ((byteAt src offset i >>> (8 - r)) <<< (8 - r)) % 256 else byteAt src offset i) := ⟨_, rfl⟩
    rw [← hbyte] at hres
    have hlt : byte < 256 := by
      rw [hbyte]
      split
      · exact Nat.mod_lt _ (by norm_num)
      · exact byteAt_lt hsrc hoff
    have hb : ∀ k < 8, byte.testBit (7 - k) = (decide (k < r) && bufferBit src (offset + 8 * i + k)) := by
      intro k hk
      rw [hbyte]
      split
      · rw [cut_testBit (by omega) hk, byteAt_testBit hsrc hoff hk]
      · rw [byteAt_testBit hsrc hoff hk]
        have : k < r := by omega
        simp [this]
    by_cases hr0 : r = 0
    · -- an extra turn of the loop changes nothing
      subst hr0
      have hz : byte = 0 := byte_ext hlt (by norm_num) fun k hk => by rw [hb k hk]; simp
      simp only [hz, Nat.zero_shiftRight, Nat.or_zero, Nat.zero_sub, Nat.sub_zero, Nat.add_zero, if_true] at hres
      have hput : ∀ j, bufferBit (put w.buffer (c0 / 8 + i) (at_ w.buffer (c0 / 8 + i))) j = bufferBit w.buffer j := by
        intro j
        by_cases hin : c0 / 8 + i < w.buffer.length
        · rw [bufferBit_put hin]
          split
          · rename_i h
            rw [bufferBit_eq, h]
          · rfl
        · rw [put_outside (by omega)]
      subst hres
      refine ⟨put_length .., bytes_put hw (at_lt hw _), by simpa using hc, fun j => ?_⟩
      rw [hput, hbits]
      simp
    have hn := hr (by omega)
    have hin : c0 / 8 + i < w.buffer.length := by omega
    obtain ⟨high, hhigh⟩ : ∃ high, high = c0 % 8 := ⟨_, rfl⟩
    rw [← hhigh] at hres
    have hh8 : high < 8 := by omega
    obtain ⟨buf1, hbuf1⟩ : ∃ buf1, buf1 = put w.buffer (c0 / 8 + i) (at_ w.buffer (c0 / 8 + i) ||| byte >>> high) := ⟨_, rfl⟩
    rw [← hbuf1] at hres
    have hor : at_ w.buffer (c0 / 8 + i) ||| byte >>> high < 256 := by
      refine Nat.or_lt_two_pow (n := 8) (at_lt hw _) ?_
      rw [Nat.shiftRight_eq_div_pow]
      exact lt_of_le_of_lt (Nat.div_le_self _ _) hlt
    have hb1 : Bytes buf1 := hbuf1 ▸ bytes_put hw hor
    have hl1 : buf1.length = w.buffer.length := by rw [hbuf1, put_length]
    have hbits1 : ∀ j, bufferBit buf1 j = if j < c0 then orig j else
        if j < c0 + (n - r) + min r (8 - high) then bufferBit src (offset + (j - c0)) else false := by
      intro j
      rw [hbuf1, bufferBit_put hin]
      split
      · rename_i hj
        rw [Nat.testBit_or, ← hj, ← bufferBit_eq, hbits, Nat.testBit_shiftRight]
        by_cases h1 : j < c0
        · rw [if_pos h1, if_pos h1, testBit_high hlt (by omega)]
          simp
        · rw [if_neg h1, if_neg h1]
          by_cases h2 : j < c0 + (n - r)
          · rw [if_pos h2, if_pos (by omega), testBit_high hlt (by omega)]
            simp
          · rw [if_neg h2]
            have := hb (j % 8 - high) (by omega)
            rw [show 7 - (j % 8 - high) = high + (7 - j % 8) by omega] at this
            rw [this, Bool.false_or]
            by_cases h3 : j < c0 + (n - r) + min r (8 - high)
            · rw [if_pos h3]
              have h4 : j % 8 - high < r := by omega
              rw [show offset + 8 * i + (j % 8 - high) = offset + (j - c0) by omega]
              simp [h4]
            · rw [if_neg h3]
              have h4 : ¬ j % 8 - high < r := by omega
              simp [h4]
      · rename_i hj
        rw [hbits]
        by_cases h1 : j < c0
        · rw [if_pos h1, if_pos h1]
        · rw [if_neg h1, if_neg h1]
          by_cases h2 : j < c0 + (n - r)
          · rw [if_pos h2, if_pos (by omega)]
          · rw [if_neg h2, if_neg (by omega)]
    by_cases hdone : r - (r - (r - (8 - high))) = 0
    · rw [if_pos hdone] at hres
      subst hres
      refine ⟨hl1, hb1, by simp only; omega, fun j => ?_⟩
      simp only
      rw [hbits1]
      by_cases h1 : j < c0
      · rw [if_pos h1, if_pos h1]
      · rw [if_neg h1, if_neg h1]
        congr 1
        apply propext
        omega
    rw [if_neg hdone] at hres
    have hin2 : c0 / 8 + i + 1 < buf1.length := by
      rw [hl1]
      omega
    obtain ⟨buf2, hbuf2⟩ : ∃ buf2, buf2 = put buf1 (c0 / 8 + i + 1) (byte <<< (8 - high) % 256) := ⟨_, rfl⟩
    rw [← hbuf2] at hres
    have hb2 : Bytes buf2 := hbuf2 ▸ bytes_put hb1 (Nat.mod_lt _ (by norm_num))
    have hl2 : buf2.length = w.buffer.length := by rw [hbuf2, put_length, hl1]
    have hbits2 : ∀ j, bufferBit buf2 j = if j < c0 then orig j else
        if j < c0 + (n - r) + min r 8 then bufferBit src (offset + (j - c0)) else false := by
      intro j
      rw [hbuf2, bufferBit_put hin2]
      split
      · rename_i hj
        rw [byte_mod_testBit, Nat.testBit_shiftLeft]
        rw [if_neg (by omega)]
        by_cases h3 : j % 8 < high
        · have h4 : 7 - j % 8 ≥ 8 - high := by omega
          have := hb (8 - high + j % 8) (by omega)
          rw [show 7 - (8 - high + j % 8) = 7 - j % 8 - (8 - high) by omega] at this
          rw [this]
          by_cases h5 : j < c0 + (n - r) + min r 8
          · rw [if_pos h5, show offset + 8 * i + (8 - high + j % 8) = offset + (j - c0) by omega]
            have h6 : 8 - high + j % 8 < r := by omega
            simp [h4, h6]
          · rw [if_neg h5]
            have h6 : ¬ 8 - high + j % 8 < r := by omega
            simp [h6]
        · have h4 : ¬ 7 - j % 8 ≥ 8 - high := by omega
          rw [if_neg (by omega)]
          simp [h4]
      · rename_i hj
        rw [hbits1]
        by_cases h1 : j < c0
        · rw [if_pos h1, if_pos h1]
        · rw [if_neg h1, if_neg h1]
          congr 1
          apply propext
          omega
    have hrest : r - (r - (r - (8 - high))) - (r - (r - (r - (8 - high))) - (r - (r - (r - (8 - high))) - high)) = r - 8 := by omega
    rw [hrest, hhigh] at hres
    have hcur : w.cursor + (r - (r - (8 - high))) + (r - (r - (r - (8 - high))) - (r - (r - (r - (8 - high))) - high)) = c0 + n - (r - 8) := by omega
    rw [← hhigh, hcur, hhigh, Nat.add_assoc (c0 / 8) i 1] at hres
    clear hrest hcur hdone
    have hstep : c0 + (n - r) + min r 8 = c0 + (n - (r - 8)) := by omega
    rw [hstep] at hbits2
    have := ih (i + 1) (r - 8) ⟨buf2, c0 + n - (r - 8)⟩ hb2 (by omega) rfl (by omega) (by simp only [hl2]; exact hlen) (by omega)
      hbits2 res hres
    simpa [hl2] using this

theorem appendUnaligned_spec {w : Writer} {n : Nat} {bits : List Bool} (h : Wrote w n bits) {src : List Nat} (hsrc : Bytes src)
    {size offset : Nat} (hoff : offset ≤ 7) (hfit : bits.length + size ≤ 8 * n) :
    Wrote (appendUnaligned w src size offset) n (bits ++ (List.range size).map fun i => bufferBit src (offset + i)) := by
  unfold appendUnaligned
  split
  · rename_i h0
    subst h0
    simpa using h
  · rename_i h0
    have := appendLoop_spec hsrc hoff (c0 := w.cursor) (n := size) (orig := fun j => bits.getD j false) size 0 size w h.bytes
      (by omega) (by omega) (by omega) (by rw [h.length, h.cursor]; exact hfit) (le_refl _)
      (fun j => by
        rw [h.content]
        by_cases h1 : j < w.cursor
        · rw [if_pos h1]
        · rw [if_neg h1, if_neg (by omega), List.getD_eq_default _ _ (by rw [← h.cursor]; omega)])
      _ rfl
    obtain ⟨h1, h2, h3, h4⟩ := this
    rw [Nat.add_zero] at h1 h2 h3 h4
    refine ⟨by rw [h1, h.length], h2, by rw [h3, h.cursor]; simp, fun i => ?_⟩
    rw [h4, getD_append, getD_range_map, ← h.cursor]
    by_cases hi : i < w.cursor
    · rw [if_pos hi, if_pos hi]
    · rw [if_neg hi, if_neg hi]
      congr 1
      apply propext
      omega

theorem byteBits_eq (byte : Nat) : byteBits byte = (List.range 8).map fun i => bufferBit [byte] i := by
  unfold byteBits
  apply List.map_congr_left
  intro i hi
  have hi := List.mem_range.1 hi
  unfold bufferBit
  rw [show i / 8 = 0 by omega, show i % 8 = i by omega]
  simp

theorem flatMap_byteBits (bytes : List Nat) :
    bytes.flatMap byteBits = (List.range (bytes.length * 8)).map (bufferBit bytes) := by
  induction bytes with
  | nil => simp
  | cons byte bytes ih =>
    rw [List.flatMap_cons, ih, List.length_cons, show (bytes.length + 1) * 8 = 8 + bytes.length * 8 by omega, List.range_add,
      List.map_append]
    refine congrArg₂ _ ?_ ?_
    · rw [byteBits_eq]
      apply List.map_congr_left
      intro i hi
      have hi := List.mem_range.1 hi
      unfold bufferBit
      rw [show i / 8 = 0 by omega]
      simp
    · rw [List.map_map]
      apply List.map_congr_left
      intro i hi
      simp only [Function.comp]
      unfold bufferBit
      rw [show (8 + i) / 8 = i / 8 + 1 by omega, show (8 + i) % 8 = i % 8 by omega]
      simp [List.getD_eq_getElem?_getD]

theorem toUint8_lt (n : Int) : toUint8 n < 256 := by
  unfold toUint8
  omega

/-- Copying whole bytes to an aligned position. -/
theorem putAll_wrote {w : Writer} {n : Nat} {bits : List Bool} (h : Wrote w n bits) {src : List Nat} (hsrc : Bytes src)
    (hal : w.cursor % 8 = 0) (hfit : bits.length + 8 * src.length ≤ 8 * n) (i : Nat) :
    bufferBit (putAll w.buffer (w.cursor / 8) src) i =
      (bits ++ (List.range (8 * src.length)).map (bufferBit src)).getD i false := by
  rw [bufferBit_putAll _ _ _ (by rw [h.length, h.cursor]; omega), getD_append, getD_range_map, h.content]
  have hc := h.cursor
  by_cases h1 : i < bits.length
  · rw [if_pos h1, if_neg (by omega)]
  · rw [if_neg h1]
    by_cases h2 : i - bits.length < 8 * src.length
    · rw [if_pos h2, if_pos (by omega)]
      congr 1
      omega
    · rw [if_neg h2, if_neg (by omega), List.getD_eq_default _ _ (by omega)]

theorem append_spec {w : Writer} {n : Nat} {bits : List Bool} (h : Wrote w n bits) {s : Segment} (hs : s.Valid)
    (hfit : bits.length + s.size ≤ 8 * n) : Wrote (append w s) n (bits ++ s.toBits) := by
  cases s with
  | number k =>
    simp only [append, Segment.size] at hfit ⊢
    simp only [Segment.toBits]
    split
    · rename_i hal
      have hc := h.cursor
      have hput : put w.buffer (w.cursor / 8) (toUint8 k) = putAll w.buffer (w.cursor / 8) [toUint8 k] := rfl
      refine ⟨by rw [put_length, h.length], bytes_put h.bytes (toUint8_lt k), ?_, fun i => ?_⟩
      · simp [byteBits, hc]
      · simp only
        rw [hput, putAll_wrote h (src := [toUint8 k]) (by intro x hx; simp at hx; rw [hx]; exact toUint8_lt k) hal (by simpa using hfit),
          byteBits_eq]
        rfl
    · rw [byteBits_eq]
      have := appendUnaligned_spec h (src := [toUint8 k]) (by intro x hx; simp at hx; rw [hx]; exact toUint8_lt k)
        (size := 8) (offset := 0) (by omega) hfit
      simp only [Nat.zero_add] at this
      exact this
  | bytes src =>
    simp only [append, Segment.size] at hfit ⊢
    simp only [Segment.toBits]
    rw [flatMap_byteBits]
    split
    · rename_i hal
      refine ⟨by rw [putAll_length, h.length], bytes_putAll hs h.bytes _, ?_, fun i => ?_⟩
      · simp [h.cursor]
      · simp only
        rw [putAll_wrote h hs hal (by omega), Nat.mul_comm]
    · have := appendUnaligned_spec h hs (size := src.length * 8) (offset := 0) (by omega) hfit
      simp only [Nat.zero_add] at this
      exact this
  | bits b =>
    simp only [append, Segment.size] at hfit ⊢
    simp only [Segment.toBits]
    have hb : b.Valid := hs
    split
    · rename_i hal
      obtain ⟨hal, h0⟩ := hal
      have hlen := hb.length
      have hc := h.cursor
      rw [h0] at hlen
      have hfit' : bits.length + 8 * b.rawBuffer.length ≤ 8 * n := by omega
      have hbits := putAll_wrote h hb.bytes hal hfit'
      have hby : Bytes (putAll w.buffer (w.cursor / 8) b.rawBuffer) := bytes_putAll hb.bytes h.bytes _
      have hle : (putAll w.buffer (w.cursor / 8) b.rawBuffer).length = n := by rw [putAll_length, h.length]
      unfold zeroTrailing
      simp only
      split
      · rename_i ht
        refine ⟨hle, hby, by simp [hc, bits_length], fun i => ?_⟩
        simp only
        rw [hbits, show 8 * b.rawBuffer.length = b.bitSize by omega]
        simp [BitArray.bits, h0]
      · rename_i ht
        refine ⟨by rw [put_length, hle], bytes_put hby (Nat.mod_lt _ (by norm_num)), by simp [hc, bits_length], fun i => ?_⟩
        simp only
        rw [bufferBit_put (by rw [hle]; omega)]
        split
        · rename_i hi
          rw [cut_testBit (by omega) (Nat.mod_lt _ (by norm_num)), ← hi, ← bufferBit_eq, hbits, getD_append, getD_append,
            if_neg (by omega), if_neg (by omega), getD_range_map]
          unfold BitArray.bits
          rw [getD_range_map, h0]
          by_cases h1 : i % 8 < b.bitSize % 8
          · rw [if_pos (by omega), if_pos (by omega)]
            simp [h1]
          · rw [if_neg (c := i - bits.length < b.bitSize) (by omega)]
            simp [h1]
        · rename_i hi
          rw [hbits, getD_append, getD_append, getD_range_map]
          unfold BitArray.bits
          rw [getD_range_map, h0]
          simp only [Nat.zero_add]
          by_cases h1 : i < bits.length
          · rw [if_pos h1, if_pos h1]
          · rw [if_neg h1, if_neg h1]
            congr 1
            apply propext
            omega
    · exact appendUnaligned_spec h hb.bytes hb.offset hfit

theorem toBits_length (s : Segment) : s.toBits.length = s.size := by
  cases s with
  | number n => simp [Segment.toBits, Segment.size, byteBits]
  | bytes b => simp [Segment.toBits, Segment.size, flatMap_byteBits]
  | bits b => exact bits_length b

theorem fold_spec {n : Nat} : ∀ (segments : List Segment) (w : Writer) (bits : List Bool), Wrote w n bits →
    (∀ s ∈ segments, s.Valid) → bits.length + (segments.map Segment.size).sum ≤ 8 * n →
    Wrote (segments.foldl append w) n (bits ++ segments.flatMap Segment.toBits) := by
  intro segments
  induction segments with
  | nil => intro w bits h _ _; simpa using h
  | cons s rest ih =>
    intro w bits h hv hfit
    simp only [List.map_cons, List.sum_cons] at hfit
    rw [List.foldl_cons, List.flatMap_cons, ← List.append_assoc]
    refine ih _ _ (append_spec h (hv s (List.mem_cons_self ..)) (by omega)) (fun x hx => hv x (List.mem_cons_of_mem _ hx)) ?_
    rw [List.length_append, toBits_length]
    omega

theorem ofBytes_valid {buffer : List Nat} (h : Bytes buffer) : (BitArray.ofBytes buffer).Valid :=
  ⟨h, by simp [BitArray.ofBytes], by simp [BitArray.ofBytes]; omega⟩

theorem ofBytes_bits (buffer : List Nat) : (BitArray.ofBytes buffer).bits = buffer.flatMap byteBits := by
  rw [flatMap_byteBits]
  simp [BitArray.ofBytes, BitArray.bits]

theorem flatMap_toBits_length (segments : List Segment) :
    (segments.flatMap Segment.toBits).length = (segments.map Segment.size).sum := by
  induction segments with
  | nil => rfl
  | cons s rest ih => simp [toBits_length, ih]

theorem numbers_bits (segments : List Segment) (h : segments.all Segment.isNumber = true) :
    (segments.map Segment.numberByte).flatMap byteBits = segments.flatMap Segment.toBits := by
  induction segments with
  | nil => rfl
  | cons s rest ih =>
    simp only [List.all_cons, Bool.and_eq_true] at h
    rw [List.map_cons, List.flatMap_cons, List.flatMap_cons, ih h.2]
    cases s with
    | number n => rfl
    | bytes b => simp [Segment.isNumber] at h
    | bits b => simp [Segment.isNumber] at h

theorem bytes_numbers (segments : List Segment) : Bytes (segments.map Segment.numberByte) := by
  intro x hx
  obtain ⟨s, _, rfl⟩ := List.mem_map.1 hx
  cases s with
  | number n => exact toUint8_lt n
  | bytes b => simp [Segment.numberByte]
  | bits b => simp [Segment.numberByte]

theorem toBitArray_spec (segments : List Segment) (hv : ∀ s ∈ segments, s.Valid) :
    ∃ r, toBitArray segments = some r ∧ r.Valid ∧ r.bits = segments.flatMap Segment.toBits := by
  unfold toBitArray
  split
  · exact ⟨_, rfl, valid_empty, by simp [BitArray.ofBytes, BitArray.bits]⟩
  · rename_i b
    exact ⟨b, rfl, hv (.bits b) (by simp), by simp [Segment.toBits]⟩
  · rename_i buffer
    exact ⟨_, rfl, ofBytes_valid (hv (.bytes buffer) (by simp)), by simp [ofBytes_bits, Segment.toBits]⟩
  · rename_i n
    refine ⟨_, rfl, ofBytes_valid ?_, by simp [ofBytes_bits, Segment.toBits, toUint8]⟩
    intro x hx
    simp at hx
    rw [hx]
    exact toUint8_lt n
  · simp only
    split
    · rename_i h
      exact ⟨_, rfl, ofBytes_valid (bytes_numbers segments), by rw [ofBytes_bits, numbers_bits _ h]⟩
    · obtain ⟨size, hsize⟩ : ∃ size, size = (segments.map Segment.size).sum := ⟨_, rfl⟩
      rw [← hsize]
      have hw := fold_spec (n := (size + 7) / 8) segments ⟨List.replicate ((size + 7) / 8) 0, 0⟩ []
        ⟨by simp, by intro x hx; rw [List.eq_of_mem_replicate hx]; norm_num, by simp, fun i => by
          unfold bufferBit
          simp [List.getD_eq_getElem?_getD, List.getElem?_replicate]
          split <;> simp⟩ hv (by simp [← hsize]; omega)
      rw [List.nil_append] at hw
      obtain ⟨w, hweq⟩ : ∃ w, w = segments.foldl append ⟨List.replicate ((size + 7) / 8) 0, 0⟩ := ⟨_, rfl⟩
      rw [← hweq] at hw ⊢
      refine ⟨⟨w.buffer, size, 0⟩, ?_, ⟨hw.bytes, by simp, by simp [hw.length]⟩, ?_⟩
      · unfold BitArray.new
        rw [if_neg (by omega), if_neg (by simp [hw.length])]
      · unfold BitArray.bits
        apply List.ext_getElem
        · rw [flatMap_toBits_length, ← hsize]
          simp
        · intro i h1 h2
          have := hw.content i
          rw [List.getD_eq_getElem _ _ h2] at this
          simpa using this

end Verif.BitArrays
