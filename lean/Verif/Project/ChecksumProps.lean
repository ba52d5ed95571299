import Verif.Project.ChecksumModel

/-
**C41**: checksums round-trip through the lockfile.
-/
namespace Verif.Project

/-- The digits of base 16, in either case. -/
def hexDigits : List Char := "0123456789ABCDEFabcdef".toList

/-- Valid base-16 text: whole bytes, digits only. -/
def ValidHex (text : List Char) : Prop := text.length % 2 = 0 ∧ ∀ c ∈ text, c ∈ hexDigits

theorem hexValue_hexDigit : ∀ n : Fin 16, hexValue (hexDigit n.val) = some n.val := by decide

theorem hexDigit_mem : ∀ n : Fin 16, hexDigit n.val ∈ hexDigits := by decide

theorem hexValue_some (c : Char) : (∃ n, hexValue c = some n) ↔ c ∈ hexDigits := by
  constructor
  · rintro ⟨n, h⟩
    have hc : c = Char.ofNat c.toNat := (Char.ofNat_toNat c).symm
    unfold hexValue at h
    have key : ∀ k, 48 ≤ k → k ≤ 57 → Char.ofNat k ∈ hexDigits := by
      intro k h1 h2
      have : ∀ i : Fin 10, Char.ofNat (48 + i.val) ∈ hexDigits := by decide
      have := this ⟨k - 48, by omega⟩
      rwa [show 48 + (k - 48) = k by omega] at this
    have key2 : ∀ k, 65 ≤ k → k ≤ 70 → Char.ofNat k ∈ hexDigits := by
      intro k h1 h2
      have : ∀ i : Fin 6, Char.ofNat (65 + i.val) ∈ hexDigits := by decide
      have := this ⟨k - 65, by omega⟩
      rwa [show 65 + (k - 65) = k by omega] at this
    have key3 : ∀ k, 97 ≤ k → k ≤ 102 → Char.ofNat k ∈ hexDigits := by
      intro k h1 h2
      have : ∀ i : Fin 6, Char.ofNat (97 + i.val) ∈ hexDigits := by decide
      have := this ⟨k - 97, by omega⟩
      rwa [show 97 + (k - 97) = k by omega] at this
    rw [hc]
    split at h
    · rename_i h1; exact key _ h1.1 h1.2
    · split at h
      · rename_i h1; exact key2 _ h1.1 h1.2
      · split at h
        · rename_i h1; exact key3 _ h1.1 h1.2
        · cases h
  · intro h
    have : ∀ c ∈ hexDigits, (hexValue c).isSome = true := by decide
    exact Option.isSome_iff_exists.mp (this c h)

theorem hexValue_lt (c : Char) (n : Nat) (h : hexValue c = some n) : n < 16 ∧ hexDigit n = c.toUpper := by
  have hc := (hexValue_some c).mp ⟨n, h⟩
  have : ∀ c ∈ hexDigits, (hexValue c).all (fun n => decide (n < 16 ∧ hexDigit n = c.toUpper)) = true := by decide
  have := this c hc
  rw [h] at this
  simpa using this

/-- **C41.** A checksum is read back from the text written for it; exactly the valid texts are read, and what is written for the
bytes read is the text in upper case. -/
theorem checksum_roundtrip :
    (∀ bytes, decode (encodeUpper bytes) = some bytes) ∧ (∀ text, (∃ bytes, decode text = some bytes) ↔ ValidHex text) ∧
    ∀ text bytes, decode text = some bytes → encodeUpper bytes = text.map Char.toUpper := by
  refine ⟨?_, ?_, ?_⟩
  · intro bytes
    induction bytes with
    | nil => rfl
    | cons b bytes ih =>
      have hb : b.toNat < 256 := b.toNat_lt
      have h1 := hexValue_hexDigit ⟨b.toNat / 16, by omega⟩
      have h2 := hexValue_hexDigit ⟨b.toNat % 16, by omega⟩
      simp only [encodeUpper, List.flatMap_cons, List.cons_append, List.nil_append, decode] at ih ⊢
      rw [h1, h2, ih]
      simp only [show 16 * (b.toNat / 16) + b.toNat % 16 = b.toNat by omega, UInt8.ofNat_toNat]
  · intro text
    induction text using decode.induct with
    | case1 => simp [decode, ValidHex]
    | case2 c => simp [decode, ValidHex]
    | case3 a b rest x y r h3 h2 h1 ih =>
      simp only [decode, h1, h2, h3]
      have := ih.mp ⟨r, h3⟩
      refine ⟨fun _ => ⟨?_, ?_⟩, fun _ => ⟨_, rfl⟩⟩
      · have := this.1; simp only [List.length_cons]; omega
      · intro c hc
        rcases List.mem_cons.mp hc with rfl | hc
        · exact (hexValue_some _).mp ⟨_, h1⟩
        · rcases List.mem_cons.mp hc with rfl | hc
          · exact (hexValue_some _).mp ⟨_, h2⟩
          · exact this.2 c hc
    | case4 a b rest hno ih =>
      constructor
      · rintro ⟨bytes, h⟩
        unfold decode at h
        split at h
        · rename_i x y r h1 h2 h3; exact absurd h3 (hno x y r h1 h2)
        · cases h
      · rintro ⟨h1, h2⟩
        exfalso
        obtain ⟨x, hx⟩ := (hexValue_some a).mpr (h2 a (by simp))
        obtain ⟨y, hy⟩ := (hexValue_some b).mpr (h2 b (by simp))
        obtain ⟨r, hr⟩ := ih.mpr ⟨by simp only [List.length_cons] at h1; omega, fun c hc => h2 c (by simp [hc])⟩
        exact hno x y r hx hy hr
  · intro text
    induction text using decode.induct with
    | case1 => intro bytes h; simp only [decode, Option.some.injEq] at h; subst h; rfl
    | case2 c => intro bytes h; simp [decode] at h
    | case3 a b rest x y r h3 h2 h1 ih =>
      intro bytes h
      simp only [decode, h1, h2, h3, Option.some.injEq] at h
      subst h
      obtain ⟨hx, hx'⟩ := hexValue_lt _ _ h1
      obtain ⟨hy, hy'⟩ := hexValue_lt _ _ h2
      have := ih r h3
      simp only [encodeUpper, List.flatMap_cons] at this ⊢
      rw [this]
      have hn : (UInt8.ofNat (16 * x + y)).toNat = 16 * x + y := by
        rw [UInt8.toNat_ofNat']; omega
      rw [hn, show (16 * x + y) / 16 = x by omega, show (16 * x + y) % 16 = y by omega, hx', hy']
      rfl
    | case4 a b rest hno ih =>
      intro bytes h
      unfold decode at h
      split at h
      · rename_i x y r h1 h2 h3; exact absurd h3 (hno x y r h1 h2)
      · cases h

example : encodeUpper [0, 10, 255] = "000AFF".toList ∧ decode "000aFf".toList = some [0, 10, 255] ∧ decode "0g".toList = none := by
  decide

end Verif.Project
