import Verif.Lexer.View
import Mathlib.Tactic.IntervalCases

/-!
# Digits and numbers
-/
namespace Verif.Lexer
open Spec

/-! ### Character classes -/

theorem isHex_mem {c : Char} (h : Strings.isHex c) : c ∈ "0123456789abcdefABCDEF".toList := by
  have h1 : (48 ≤ c.toNat ∧ c.toNat ≤ 57) ∨ (65 ≤ c.toNat ∧ c.toNat ≤ 70) ∨ (97 ≤ c.toNat ∧ c.toNat ≤ 102) := by
    simp only [Strings.isHex, Bool.or_eq_true, Bool.and_eq_true, decide_eq_true_eq] at h
    omega
  rw [← Char.ofNat_toNat c]
  generalize c.toNat = n at h1
  rcases h1 with ⟨ha, hb⟩ | ⟨ha, hb⟩ | ⟨ha, hb⟩ <;> interval_cases n <;> decide

theorem digit?_isHex {c : Char} (h : Strings.isHex c) : digit? c = some (digitValue c) := by
  have h1 := isHex_mem h
  revert h1
  clear h
  revert c
  decide

theorem mem_of_idxOf? {c : Char} {l : List Char} {d : Nat} (h : l.idxOf? c = some d) : c ∈ l := by
  by_contra hc
  rw [List.idxOf?_eq_none_iff.2 hc] at h
  cases h

theorem digits_isHex : ∀ c ∈ "0123456789abcdefABCDEF".toList, Strings.isHex c := by decide

theorem lower_digits : ∀ c ∈ "0123456789abcdef".toList, c ∈ "0123456789abcdefABCDEF".toList := by decide

theorem upper_digits : ∀ c ∈ "0123456789ABCDEF".toList, c ∈ "0123456789abcdefABCDEF".toList := by decide

theorem digit?_some {c : Char} {d : Nat} (h : digit? c = some d) : Strings.isHex c ∧ digitValue c = d := by
  have h1 : c ∈ "0123456789abcdefABCDEF".toList := by
    unfold digit? at h
    split at h
    · rename_i v hv
      exact lower_digits c (mem_of_idxOf? hv)
    · exact upper_digits c (mem_of_idxOf? h)
  have h2 := digits_isHex c h1
  rw [digit?_isHex h2] at h
  cases h
  exact ⟨h2, rfl⟩

theorem isDigitOf_iff {radix : Radix} {c : Char} :
    isDigitOf radix c ↔ ∃ d, digit? c = some d ∧ d < radix.base := by
  unfold isDigitOf
  rw [Bool.and_eq_true, decide_eq_true_eq]
  constructor
  · rintro ⟨h1, h2⟩
    exact ⟨_, digit?_isHex h1, h2⟩
  · rintro ⟨d, h1, h2⟩
    obtain ⟨h3, h4⟩ := digit?_some h1
    exact ⟨h3, h4 ▸ h2⟩

theorem isDigitOf_value {radix : Radix} {c : Char} (h : isDigitOf radix c) :
    digit? c = some (digitValue c) ∧ digitValue c < radix.base := by
  unfold isDigitOf at h
  rw [Bool.and_eq_true, decide_eq_true_eq] at h
  exact ⟨digit?_isHex h.1, h.2⟩

theorem isDigitOf_plain {radix : Radix} {c : Char} (h : isDigitOf radix c) :
    c ≠ '_' ∧ c ≠ '\n' ∧ c ≠ '\r' ∧ c ≠ '-' ∧ c ≠ 'x' ∧ c ≠ 'o' ∧ c.utf8Size = 1 := by
  unfold isDigitOf at h
  rw [Bool.and_eq_true] at h
  have h1 := isHex_mem h.1
  clear h
  revert h1
  revert c
  decide

/-! ### Runs of digits -/

/-- Digits and underscores, each underscore before a digit. -/
inductive Run (radix : Radix) : List Char → Prop
  | nil : Run radix []
  | digit {c : Char} {t : List Char} : isDigitOf radix c → Run radix t → Run radix (c :: t)
  | underscore {c : Char} {t : List Char} : isDigitOf radix c → Run radix (c :: t) → Run radix ('_' :: c :: t)

/-- The number a run stands for, after the number `n`. -/
def runValue (radix : Radix) (n : Nat) (t : List Char) : Nat :=
  (t.filter (· ≠ '_')).foldl (fun a c => a * radix.base + digitValue c) n

theorem runValue_digit {radix : Radix} {n : Nat} {c : Char} {t : List Char} (h : isDigitOf radix c) :
    runValue radix n (c :: t) = runValue radix (n * radix.base + digitValue c) t := by
  simp [runValue, (isDigitOf_plain h).1]

theorem runValue_underscore {radix : Radix} {n : Nat} {t : List Char} :
    runValue radix n ('_' :: t) = runValue radix n t := by
  simp [runValue]

theorem digits_append {radix : Radix} {s t : List Char} {n : Nat} (hs : Digits radix.base s n) (ht : Run radix t) :
    Digits radix.base (s ++ t) (runValue radix n t) := by
  generalize hk : t.length = k
  induction k using Nat.strongRecOn generalizing s t n with
  | ind k ih =>
    cases ht with
    | nil => simpa [runValue] using hs
    | @digit c t hc ht =>
      have h1 := isDigitOf_value hc
      have h2 := ih t.length (by rw [← hk]; simp) (Digits.more hs h1.1 h1.2) ht rfl
      rw [runValue_digit hc]
      simpa using h2
    | @underscore c t hc ht =>
      cases ht with
      | @digit _ _ hc ht =>
        have h1 := isDigitOf_value hc
        have h2 := ih t.length (by rw [← hk]; simp only [List.length_cons]; omega) (Digits.underscore hs h1.1 h1.2) ht rfl
        rw [runValue_underscore, runValue_digit hc]
        simpa using h2
      | underscore hd _ => exact absurd rfl (isDigitOf_plain hc).1

theorem digits_run {radix : Radix} {c : Char} {t : List Char} (hc : isDigitOf radix c) (ht : Run radix t) :
    Digits radix.base (c :: t) (runValue radix 0 (c :: t)) := by
  have h1 := isDigitOf_value hc
  have h2 := digits_append (Digits.one h1.1 h1.2) ht
  rw [runValue_digit hc, Nat.zero_mul, Nat.zero_add]
  exact h2

theorem run_chars {radix : Radix} {t : List Char} (h : Run radix t) : ∀ c ∈ t, c = '_' ∨ isDigitOf radix c := by
  induction h with
  | nil => simp
  | digit hc _ ih =>
    intro c h
    rcases List.mem_cons.1 h with h | h
    · subst h; exact .inr hc
    · exact ih c h
  | underscore hc _ ih =>
    intro c h
    rcases List.mem_cons.1 h with h | h
    · exact .inl h
    · exact ih c h

theorem parseDigits_run {radix : Radix} {c : Char} {t : List Char} (hc : isDigitOf radix c) (ht : Run radix t) :
    parseDigits radix (c :: t) = some (runValue radix 0 (c :: t)) := by
  unfold parseDigits
  rw [if_neg]
  · rfl
  · rintro (h | h | h)
    · cases h
    · cases h
      exact (isDigitOf_plain hc).1 rfl
    · obtain ⟨d, hd, h2⟩ := List.any_eq_true.1 h
      rcases run_chars (.digit hc ht) d hd with h3 | h3
      · subst h3; simp at h2
      · rw [h3] at h2; simp at h2

/-- A run that is not empty, without the underscore it may start with. -/
theorem run_loose {radix : Radix} {t : List Char} (h : Run radix t) (hne : t ≠ []) :
    ∃ c t', t.dropWhile (· == '_') = c :: t' ∧ isDigitOf radix c ∧ Run radix t' ∧
      LooseDigits radix.base t (runValue radix 0 (c :: t')) := by
  cases h with
  | nil => exact absurd rfl hne
  | @digit c t hc ht =>
    refine ⟨c, t, ?_, hc, ht, .inl (digits_run hc ht)⟩
    rw [List.dropWhile_cons_of_neg]
    simpa using (isDigitOf_plain hc).1
  | @underscore c t hc ht =>
    cases ht with
    | @digit _ _ hc ht =>
      refine ⟨c, t, ?_, hc, ht, .inr ⟨_, rfl, digits_run hc ht⟩⟩
      rw [List.dropWhile_cons_of_pos (by simp), List.dropWhile_cons_of_neg]
      simpa using (isDigitOf_plain hc).1
    | underscore _ _ => exact absurd rfl (isDigitOf_plain hc).1

/-- The text of an unsigned decimal number parses. -/
theorem parseIntValue_decimal {c : Char} {t : List Char} (hc : isDigitOf .decimal c) (ht : Run .decimal t) :
    parseIntValue (c :: t) = some (runValue .decimal 0 (c :: t) : Int) := by
  have h1 : stripRadix (c :: t) = (.decimal, c :: t) := by
    cases ht with
    | nil =>
      unfold stripRadix
      split <;> simp_all
    | digit hd _ =>
      have h2 := isDigitOf_plain hd
      have h3 : ¬isDigitOf .decimal 'b' := by decide
      unfold stripRadix
      split <;> simp_all
    | underscore hd _ =>
      unfold stripRadix
      split <;> simp_all
  unfold parseIntValue
  rw [h1]
  simp only
  rw [List.dropWhile_cons_of_neg (by simpa using (isDigitOf_plain hc).1)]
  unfold parseBigInt
  split
  · rename_i h2
    cases h2
    exact absurd rfl (isDigitOf_plain hc).2.2.2.1
  · rw [parseDigits_run hc ht]
    rfl

/-- The text of a negative decimal number parses. -/
theorem parseIntValue_negative {c : Char} {t : List Char} (hc : isDigitOf .decimal c) (ht : Run .decimal t) :
    parseIntValue ('-' :: c :: t) = some (-(runValue .decimal 0 (c :: t) : Int)) := by
  have h1 : stripRadix ('-' :: c :: t) = (.decimal, '-' :: c :: t) := by
    unfold stripRadix
    split <;> simp_all
  unfold parseIntValue
  rw [h1]
  simp only
  rw [List.dropWhile_cons_of_neg (by simp)]
  simp only [parseBigInt]
  rw [parseDigits_run hc ht]
  rfl

/-- The letter of a radix. -/
def radixLetter : Radix → Char
  | .hexadecimal => 'x'
  | .octal => 'o'
  | .binary => 'b'
  | .decimal => 'd'

/-- The text of a number with a radix prefix parses. -/
theorem parseIntValue_based {radix : Radix} {t : List Char} (hr : radix ≠ .decimal) (h : Run radix t) (hne : t ≠ []) :
    ∃ n : Nat, parseIntValue ('0' :: radixLetter radix :: t) = some (n : Int) ∧ LooseDigits radix.base t n := by
  obtain ⟨c, t', h1, h2, h3, h4⟩ := run_loose h hne
  refine ⟨_, ?_, h4⟩
  have h5 : stripRadix ('0' :: radixLetter radix :: t) = (radix, t) := by
    cases radix <;> first | rfl | exact absurd rfl hr
  unfold parseIntValue
  rw [h5]
  simp only
  rw [h1]
  unfold parseBigInt
  split
  · rename_i h6
    cases h6
    exact absurd rfl (isDigitOf_plain h2).2.2.2.1
  · rw [parseDigits_run h2 h3]
    rfl

/-! ### Reading digits -/

theorem view_char1_digit {eof p : Nat} {radix : Radix} {rest : List Char}
    (h : isDigitOfRadix (View eof p ('_' :: rest)).char1 radix) :
    ∃ d rest', rest = d :: rest' ∧ isDigitOf radix d := by
  rw [view_cons_char1 (by decide)] at h
  cases hc : (View eof (p + '_'.utf8Size) rest).char0 with
  | none => rw [hc] at h; cases h
  | some d =>
    rw [hc] at h
    have hd : isDigitOf radix d := h
    obtain ⟨rest', h1, _⟩ := view_char0_some hc (isDigitOf_plain hd).2.1
    exact ⟨d, rest', h1, hd⟩

/-- Reading a run of digits. -/
theorem radixRun_view {eof : Nat} {radix : Radix} (p : Nat) (text : List Char) (he : Ends eof p text) :
    ∃ t rest, text = t ++ rest ∧ radixRun (View eof p text) radix = (t, View eof (p + bytes t) rest) ∧
      Ends eof (p + bytes t) rest ∧ Run radix t ∧ (∀ c r, rest = c :: r → ¬isDigitOf radix c) ∧
      (∀ c r, text = c :: r → isDigitOf radix c → t ≠ []) := by
  induction text generalizing p with
  | nil =>
    refine ⟨[], [], rfl, radixRun_end rfl, he, .nil, by simp, by simp⟩
  | cons c text ih =>
    by_cases hd : isDigitOf radix c
    · have h1 := isDigitOf_plain hd
      obtain ⟨t, rest, h2, h3, h4, h5, h6, _⟩ := ih _ (ends_next h1.2.2.1 he)
      refine ⟨c :: t, rest, by rw [h2]; rfl, ?_, ?_, .digit hd h5, h6, by simp⟩
      · rw [radixRun_more (view_cons_char0 h1.2.2.1) (.inl hd), view_next h1.2.2.1 he, h3, bytes_cons, Nat.add_assoc]
      · rw [bytes_cons, ← Nat.add_assoc]; exact h4
    · by_cases hu : c = '_' ∧ isDigitOfRadix (View eof p (c :: text)).char1 radix
      · obtain ⟨rfl, hu2⟩ := hu
        obtain ⟨d, rest', rfl, hd'⟩ := view_char1_digit hu2
        obtain ⟨t, rest, h2, h3, h4, h5, h6, h7⟩ := ih _ (ends_next (by decide) he)
        refine ⟨'_' :: t, rest, by rw [h2]; rfl, ?_, ?_, ?_, h6, by simp⟩
        · rw [radixRun_more (view_cons_char0 (by decide)) (.inr ⟨rfl, hu2⟩), view_next (by decide) he, h3, bytes_cons,
            Nat.add_assoc]
        · rw [bytes_cons, ← Nat.add_assoc]; exact h4
        · cases t with
          | nil => exact absurd rfl (h7 d rest' rfl hd')
          | cons e t =>
            cases h2
            exact .underscore hd' h5
      · refine ⟨[], c :: text, rfl, ?_, he, .nil, ?_, ?_⟩
        · by_cases hr : c = '\r'
          · have h0 : (View eof p (c :: text)).char0 = some '\n' := by
              subst hr
              rcases text_cases ('\r' :: text) with h1 | ⟨d, rest, h1, h2, h3⟩ | ⟨nl, rest, h1, h2, h3⟩
              · cases h1
              · cases h1; exact absurd rfl h2
              · rw [h1]; exact view_lineEnd_char0 h2 h3
            exact radixRun_done h0 (by
              rintro (h | h)
              · exact absurd rfl (isDigitOf_plain h).2.1
              · exact absurd h.1 (by decide))
          · exact radixRun_done (view_cons_char0 hr) (by rintro (h | h) <;> contradiction)
        · rintro _ _ ⟨rfl, rfl⟩
          exact hd
        · rintro _ _ ⟨rfl, rfl⟩ h
          exact absurd h hd

end Verif.Lexer
