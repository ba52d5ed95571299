import Verif.Lexer.Words

/-!
# Numbers cover the text they read
-/
namespace Verif.Lexer
open Spec

section
variable {eof p start : Nat} {c : Char} {text rest sign : List Char}

/-- The lexer reads a number token from the start of `text`, after a sign it has read already, or gives an error other
than a panic. -/
def ReadsNumber (eof p start : Nat) (sign text : List Char) (s : Except LexicalError (Spanned × Lexer)) : Prop :=
  (∀ e, s = .error e → e.error ≠ .panic) ∧
  ∀ r, s = .ok r → ∃ tok t rest, text = t ++ rest ∧
    r = (⟨start, tok, (View eof (p + bytes t) rest).location0⟩, View eof (p + bytes t) rest) ∧
    Ends eof (p + bytes t) rest ∧ lead tok = [] ∧ Reads tok (sign ++ t) ∧ Longest tok (sign ++ t) rest

theorem readsNumber_error {e : LexicalError} (h : e.error ≠ .panic) : ReadsNumber eof p start sign text (.error e) := by
  refine ⟨?_, by intro r hr; cases hr⟩
  intro e' he
  cases he
  exact h

theorem readsNumber_ok {tok : Token} {t : List Char} (htext : text = t ++ rest)
    (he : Ends eof (p + bytes t) rest) (hlead : lead tok = []) (hr : Reads tok (sign ++ t))
    (hl : Longest tok (sign ++ t) rest) :
    ReadsNumber eof p start sign text
      (.ok (⟨start, tok, (View eof (p + bytes t) rest).location0⟩, View eof (p + bytes t) rest)) := by
  refine ⟨(by intro e he; cases he), ?_⟩
  intro r hr'
  cases hr'
  exact ⟨tok, t, rest, htext, rfl, he, hlead, hr, hl⟩

/-- The sign of a number. -/
def signText (negative : Bool) : List Char := if negative then ['-'] else []

theorem not_digit {radix : Radix} (h : ∀ c r, rest = c :: r → ¬isDigitOf radix c) :
    ∀ c r d, rest = c :: r → digit? c = some d → ¬d < radix.base := by
  intro c r d hr hd hlt
  exact h c r hr (isDigitOf_iff.2 ⟨d, hd, hlt⟩)

/-- A token for an integer of a base. -/
theorem int_token {base : Nat} {n : Nat} {t v : List Char} {negative : Bool} (h : Natural base t v n)
    (hd : ∀ c r d, rest = c :: r → digit? c = some d → ¬d < base) :
    ∃ i : Int, i = (if negative then -(n : Int) else n) ∧
      Reads (.int (signText negative ++ v) i) (signText negative ++ t) ∧
      Longest (.int (signText negative ++ v) i) (signText negative ++ t) rest := by
  cases negative with
  | false => exact ⟨n, rfl, ⟨base, .pos h⟩, ⟨base, .pos h, hd⟩⟩
  | true => exact ⟨-n, rfl, ⟨base, .neg h⟩, ⟨base, .neg h, hd⟩⟩

/-- A number with a radix prefix, of which `text` is what follows the prefix. -/
theorem readsNumber_radix {radix : Radix} {x : Char} {negative : Bool} (hr : radix ≠ .decimal)
    (hx : (x, radixLetter radix, radix.base) ∈ basePrefix) (hb : bytes ['0', x] = 2) (he : Ends eof (p + 1 + 1) text) :
    ReadsNumber eof p start (signText negative) ('0' :: x :: text)
      (lexNumberRadix (View eof (p + 1 + 1) text) start radix negative ['0', radixLetter radix]) := by
  obtain ⟨t, rest, h1, h2, h3, h4, h5, _⟩ := radixRun_view (eof := eof) (radix := radix) _ text he
  unfold lexNumberRadix
  rw [h2]
  simp only
  split
  · exact readsNumber_error (by simp)
  split
  · exact readsNumber_error (by simp)
  rename_i hne _
  obtain ⟨n, h6, h7⟩ := parseIntValue_based hr h4 hne
  unfold radixToken
  have h8 : parseIntValue (['0', radixLetter radix] ++ t) = some (n : Int) := h6
  rw [h8]
  simp only
  have hq : p + 1 + 1 + bytes t = p + bytes ('0' :: x :: t) := by
    have : '0' :: x :: t = ['0', x] ++ t := rfl
    rw [this, bytes_append, hb]
    omega
  rw [hq] at h3 ⊢
  obtain ⟨i, hi, h9, h10⟩ := int_token (negative := negative) (Natural.based hx h7) (not_digit h5)
  have h11 := readsNumber_ok (start := start) (text := '0' :: x :: text) (by rw [h1]; rfl) h3 rfl h9 h10
  cases negative with
  | false =>
    subst hi
    exact h11
  | true =>
    subst hi
    exact h11

theorem run_digits {t : List Char} (h : Run .decimal t) (hne : t ≠ []) : ∃ n, LooseDigits 10 t n := by
  obtain ⟨c, t', _, _, _, h4⟩ := run_loose h hne
  exact ⟨_, h4⟩

/-- Reading the exponent of a float. -/
theorem lexExponent_view (text : List Char) (he : Ends eof p text) (hd : ∀ c r, text = c :: r → ¬isDigitOf .decimal c) :
    (∃ e, lexExponent (View eof p text) start = .error e ∧ e.error ≠ .panic) ∨
    ∃ t rest, text = t ++ rest ∧ lexExponent (View eof p text) start = .ok (t, View eof (p + bytes t) rest) ∧
      Ends eof (p + bytes t) rest ∧ (∀ c r, rest = c :: r → ¬isDigitOf .decimal c) ∧
      (t = [] ∨ ∃ s ds n, t = 'e' :: (s ++ ds) ∧ (s = [] ∨ s = ['-']) ∧ LooseDigits 10 ds n) := by
  unfold lexExponent
  split
  · rename_i h
    obtain ⟨r, rfl, hn, he2⟩ := view_is h he
    rw [hn]
    have key : ∀ (s r' : List Char) (q : Nat), r = s ++ r' → q = p + 1 + bytes s → (s = [] ∨ s = ['-']) → Ends eof q r' →
        (∃ e, (if (radixRun (View eof q r') .decimal).1 = [] then
            (.error ⟨.missingExponent, start, (radixRun (View eof q r') .decimal).2.location0⟩ :
              Except LexicalError (List Char × Lexer))
          else .ok ('e' :: (s ++ (radixRun (View eof q r') .decimal).1), (radixRun (View eof q r') .decimal).2)) =
            .error e ∧ e.error ≠ .panic) ∨
        ∃ t rest, 'e' :: r = t ++ rest ∧ (if (radixRun (View eof q r') .decimal).1 = [] then
            (.error ⟨.missingExponent, start, (radixRun (View eof q r') .decimal).2.location0⟩ :
              Except LexicalError (List Char × Lexer))
          else .ok ('e' :: (s ++ (radixRun (View eof q r') .decimal).1), (radixRun (View eof q r') .decimal).2)) =
            .ok (t, View eof (p + bytes t) rest) ∧
          Ends eof (p + bytes t) rest ∧ (∀ c r, rest = c :: r → ¬isDigitOf .decimal c) ∧
          (t = [] ∨ ∃ s ds n, t = 'e' :: (s ++ ds) ∧ (s = [] ∨ s = ['-']) ∧ LooseDigits 10 ds n) := by
      intro s r' q h1 h2 h3 h4
      obtain ⟨t, rest, h5, h6, h7, h8, h9, _⟩ := radixRun_view (eof := eof) (radix := .decimal) q r' h4
      rw [h6]
      simp only
      split
      · exact .inl ⟨_, rfl, by simp⟩
      · rename_i hne
        obtain ⟨n, hn⟩ := run_digits h8 hne
        have hq : q + bytes t = p + bytes ('e' :: (s ++ t)) := by
          rw [bytes_cons, bytes_append, h2]
          have : 'e'.utf8Size = 1 := by decide
          omega
        rw [hq] at h7 ⊢
        exact .inr ⟨'e' :: (s ++ t), rest, by rw [h1, h5]; simp, rfl, h7, h9, .inr ⟨s, t, n, rfl, h3, hn⟩⟩
    by_cases h1 : (View eof (p + 1) r).char0 = some '-'
    · simp only [h1, if_true]
      obtain ⟨r', rfl, hn2, he3⟩ := view_is h1 he2
      simp only [hn2]
      exact key ['-'] r' _ rfl rfl (.inr rfl) he3
    · simp only [h1, if_false]
      exact key [] r _ rfl rfl (.inl rfl) he2
  · exact .inr ⟨[], text, rfl, rfl, he, hd, .inl rfl⟩

/-- A decimal number or a float. -/
theorem readsNumber_decimal {negative can : Bool} (hc : isDigitOf .decimal c) (he : Ends eof p (c :: rest)) :
    ReadsNumber eof p start (signText negative) (c :: rest)
      (lexDecimalOrIntNumber (View eof p (c :: rest)) start negative can) := by
  obtain ⟨t, rest', h1, h2, h3, h4, h5, h6⟩ := radixRun_view (eof := eof) (radix := .decimal) _ (c :: rest) he
  have hne := h6 c rest rfl hc
  obtain ⟨t', rfl⟩ : ∃ t', t = c :: t' := by
    cases t with
    | nil => exact absurd rfl hne
    | cons d t => cases h1; exact ⟨t, rfl⟩
  have h4' : Run .decimal t' := by
    cases h4 with
    | digit _ h => exact h
    | underscore _ _ => exact absurd rfl (isDigitOf_plain hc).1
  have hdigits := digits_run hc h4'
  unfold lexDecimalOrIntNumber
  rw [h2]
  simp only
  split
  · rename_i h
    obtain ⟨r, rfl, hn, he2⟩ := view_is h.2 h3
    rw [hn]
    obtain ⟨f, rest2, h7, h8, h9, h10, h11, _⟩ := radixRun_view (eof := eof) (radix := .decimal) _ r he2
    rw [h8]
    simp only
    rcases lexExponent_view (start := start) rest2 h9 h11 with ⟨e, h12, h13⟩ | ⟨e, rest3, h12, h13, h14, h15, h16⟩
    · rw [h12]
      exact readsNumber_error h13
    · rw [h13]
      have hq : p + bytes (c :: t') + 1 + bytes f + bytes e = p + bytes (c :: t' ++ '.' :: f ++ e) := by
        simp only [bytes_append, bytes_cons]
        have : '.'.utf8Size = 1 := by decide
        omega
      rw [hq] at h14 ⊢
      have hs : (if negative = true then ['-'] else []) ++ c :: t' ++ '.' :: f ++ e =
          signText negative ++ (c :: t' ++ '.' :: f ++ e) := by simp [signText]
      simp only [Except.map]
      rw [hs]
      refine readsNumber_ok (by rw [h1, h7, h12]; simp) h14 rfl ⟨rfl, ?_⟩ (not_digit h15)
      refine ⟨signText negative, c :: t', f, e, by simp, ?_, ⟨_, hdigits⟩, ?_, h16⟩
      · cases negative <;> simp [signText]
      · by_cases hf : f = []
        · exact .inl hf
        · exact .inr (run_digits h10 hf)
  · obtain ⟨i, hi, h9, h10⟩ := int_token (negative := negative) (Natural.decimal hdigits) (not_digit h5)
    have h11 := readsNumber_ok (start := start) (text := c :: rest) h1 h3 rfl h9 h10
    cases negative with
    | false =>
      subst hi
      simp only [Bool.false_eq_true, if_false, List.nil_append]
      rw [parseIntValue_decimal hc h4']
      exact h11
    | true =>
      subst hi
      simp only [if_true, List.cons_append, List.nil_append]
      rw [parseIntValue_negative hc h4']
      exact h11

/-- What follows the sign of a number. -/
theorem readsNumber_unsigned {negative : Bool} (hc : isDigitOf .decimal c) (he : Ends eof p (c :: rest)) :
    ReadsNumber eof p start (signText negative) (c :: rest) (lexUnsigned (View eof p (c :: rest)) start negative) := by
  have key : ∀ (x : Char), (View eof p (c :: rest)).char0 = some '0' → (View eof p (c :: rest)).char1 = some x →
      x ∈ ['x', 'X', 'o', 'O', 'b', 'B'] → ∃ text, c :: rest = '0' :: x :: text ∧
        (View eof p (c :: rest)).nextChar.nextChar = View eof (p + 1 + 1) text ∧ Ends eof (p + 1 + 1) text ∧
        bytes ['0', x] = 2 := by
    intro x h0 h1 hx
    obtain ⟨r, hr, hn, he2⟩ := view_is h0 he
    cases hr
    rw [view_cons_char1 (by decide)] at h1
    have hx2 : x ≠ '\n' ∧ x.utf8Size = 1 ∧ bytes ['0', x] = 2 := by
      revert hx
      clear h1
      revert x
      decide
    obtain ⟨r', rfl, hn2, he3⟩ := view_is (q := p + 1) h1 he2 hx2.1 hx2.2.1
    exact ⟨r', rfl, by rw [hn, hn2], he3, hx2.2.2⟩
  unfold lexUnsigned
  split
  · rename_i h
    rcases h.2 with h1 | h1
    · obtain ⟨text, h2, h3, h4, h5⟩ := key 'x' h.1 h1 (by decide)
      rw [h3, h2]
      exact readsNumber_radix (radix := .hexadecimal) (by decide) (by decide) h5 h4
    · obtain ⟨text, h2, h3, h4, h5⟩ := key 'X' h.1 h1 (by decide)
      rw [h3, h2]
      exact readsNumber_radix (radix := .hexadecimal) (by decide) (by decide) h5 h4
  split
  · rename_i h
    rcases h.2 with h1 | h1
    · obtain ⟨text, h2, h3, h4, h5⟩ := key 'o' h.1 h1 (by decide)
      rw [h3, h2]
      exact readsNumber_radix (radix := .octal) (by decide) (by decide) h5 h4
    · obtain ⟨text, h2, h3, h4, h5⟩ := key 'O' h.1 h1 (by decide)
      rw [h3, h2]
      exact readsNumber_radix (radix := .octal) (by decide) (by decide) h5 h4
  split
  · rename_i h
    rcases h.2 with h1 | h1
    · obtain ⟨text, h2, h3, h4, h5⟩ := key 'b' h.1 h1 (by decide)
      rw [h3, h2]
      exact readsNumber_radix (radix := .binary) (by decide) (by decide) h5 h4
    · obtain ⟨text, h2, h3, h4, h5⟩ := key 'B' h.1 h1 (by decide)
      rw [h3, h2]
      exact readsNumber_radix (radix := .binary) (by decide) (by decide) h5 h4
  · exact readsNumber_decimal hc he

theorem readsNumber_trailing {s : Except LexicalError (Spanned × Lexer)} (h : ReadsNumber eof p start sign text s) :
    ReadsNumber eof p start sign text (s.bind noTrailingUnderscore) := by
  constructor
  · intro e he
    cases s with
    | error e' => cases he; exact h.1 e rfl
    | ok r =>
      simp only [Except.bind, noTrailingUnderscore] at he
      split at he
      · cases he; simp
      · cases he
  · intro r hr
    exact h.2 r (noTrailingUnderscore_eq hr).1

/-- A number, with its sign. -/
theorem readsNumber_number (hs : isNumberStart c (View eof p (c :: rest)).char1) (he : Ends eof p (c :: rest)) :
    ReadsNumber eof p p [] (c :: rest) (lexNumber (View eof p (c :: rest))) := by
  have hl : (View eof p (c :: rest)).location0 = p := by rw [view_location0, endsAt, if_neg (by simp)]
  unfold lexNumber
  rw [hl]
  simp only
  split
  · rename_i h
    obtain ⟨r, hr, hn, he2⟩ := view_is h he
    cases hr
    obtain ⟨d, h1, h2⟩ := isNumberStart_minus hs
    have hd := isDigit_isDigitOf h2
    rw [view_cons_char1 (by decide)] at h1
    obtain ⟨r', rfl, _⟩ := view_char0_some h1 (isDigitOf_plain hd).2.1
    rw [hn]
    have h3 := readsNumber_trailing (readsNumber_unsigned (eof := eof) (start := p) (negative := true) hd he2)
    refine ⟨h3.1, ?_⟩
    intro q hq
    obtain ⟨tok, t, rest, h4, h5, h6, h7, h8, h9⟩ := h3.2 q hq
    have hp : p + 1 + bytes t = p + bytes ('-' :: t) := by
      rw [bytes_cons]
      have : '-'.utf8Size = 1 := by decide
      omega
    rw [hp] at h5 h6
    exact ⟨tok, '-' :: t, rest, by rw [h4]; rfl, h5, h6, h7, h8, h9⟩
  · rename_i h
    have hc : isDigit c := by
      unfold isNumberStart at hs
      rw [Bool.or_eq_true] at hs
      rcases hs with hs | hs
      · exact hs
      · rw [Bool.and_eq_true, beq_iff_eq] at hs
        exact absurd (by rw [hs.1]; exact view_cons_char0 (by decide)) h
    exact readsNumber_trailing (readsNumber_unsigned (negative := false) (isDigit_isDigitOf hc) he)

theorem good_lexNumber (hs : isNumberStart c (View eof p (c :: rest)).char1) (he : Ends eof p (c :: rest)) :
    Good eof p (c :: rest) ((lexNumber (View eof p (c :: rest))).bind fun r => checkForMinus r.1 r.2) := by
  have h := readsNumber_number hs he
  cases hn : lexNumber (View eof p (c :: rest)) with
  | error e => apply good_error
  | ok r =>
    obtain ⟨tok, t, rest', h1, h2, h3, h4, h5, h6⟩ := h.2 r hn
    subst h2
    exact good_checkForMinus h1 h4 h3 rfl h5 h6

/-! ### Numbers after a dot -/

theorem maybeLexDotAccess_stop (h : ∀ c r, text = c :: r → ¬isDigitOf .decimal c) :
    maybeLexDotAccess (View eof p text) = .ok ([], View eof p text) := by
  cases h0 : (View eof p text).char0 with
  | none => exact maybeLexDotAccess_end h0
  | some c =>
    refine maybeLexDotAccess_done h0 fun hd => ?_
    have hc := isDigit_isDigitOf hd
    obtain ⟨rest, rfl, hr⟩ := view_char0_some h0 (isDigitOf_plain hc).2.1
    exact h c rest rfl hc

/-- The digits after a dot. -/
theorem lexIndex_view (hc : isDigitOf .decimal c) (he : Ends eof p (c :: rest)) :
    ∃ t rest' n, c :: rest = t ++ rest' ∧ Digits 10 t n ∧ (∀ c r, rest' = c :: r → ¬isDigitOf .decimal c) ∧
      Ends eof (p + bytes t) rest' ∧
      lexDecimalOrIntNumber (View eof p (c :: rest)) start false false =
        .ok (⟨start, .int t n, (View eof (p + bytes t) rest').location0⟩, View eof (p + bytes t) rest') := by
  obtain ⟨t, rest', h1, h2, h3, h4, h5, h6⟩ := radixRun_view (eof := eof) (radix := .decimal) _ (c :: rest) he
  have hne := h6 c rest rfl hc
  obtain ⟨t', rfl⟩ : ∃ t', t = c :: t' := by
    cases t with
    | nil => exact absurd rfl hne
    | cons d t => cases h1; exact ⟨t, rfl⟩
  have h4' : Run .decimal t' := by
    cases h4 with
    | digit _ h => exact h
    | underscore _ _ => exact absurd rfl (isDigitOf_plain hc).1
  refine ⟨_, rest', _, h1, digits_run hc h4', h5, h3, ?_⟩
  unfold lexDecimalOrIntNumber
  rw [h2]
  simp only [Bool.false_eq_true, false_and, if_false, List.nil_append]
  rw [parseIntValue_decimal hc h4']

theorem maybeLexDotAccess_index (h0 : isDigit c) (he : Ends eof p (c :: rest)) :
    ∃ t rest' n, c :: rest = t ++ rest' ∧ Digits 10 t n ∧ (∀ c r, rest' = c :: r → ¬isDigitOf .decimal c) ∧
      Ends eof (p + bytes t) rest' ∧
      maybeLexDotAccess (View eof p (c :: rest)) =
        .ok ([⟨p, .int t n, (View eof (p + bytes t) rest').location0⟩], View eof (p + bytes t) rest') := by
  have hc := isDigit_isDigitOf h0
  have hl : (View eof p (c :: rest)).location0 = p := by rw [view_location0, endsAt, if_neg (by simp)]
  obtain ⟨t, rest', n, h1, h2, h3, h4, h5⟩ := lexIndex_view (start := p) hc he
  refine ⟨t, rest', n, h1, h2, h3, h4, ?_⟩
  rw [maybeLexDotAccess_more (view_cons_char0 (isDigitOf_plain hc).2.2.1) h0, hl, h5]
  simp only [Except.bind]
  rw [maybeLexDotAccess_stop h3]
  rfl

theorem good_lexDot (he : Ends eof p ('.' :: rest)) : Good eof p ('.' :: rest) (lexDot p (View eof (p + 1) rest)) := by
  have he1 : Ends eof (p + 1) rest := ends_next (by decide) he
  unfold lexDot
  split
  · rename_i h1
    obtain ⟨r, rfl, hn, he2⟩ := view_is h1 he1
    rw [hn]
    exact good_symbol .dotDot rfl rfl he2 (by longest)
  · rename_i h1
    have k := view_not h1
    by_cases hd : ∃ c r, rest = c :: r ∧ isDigit c
    · obtain ⟨c, r, rfl, hd⟩ := hd
      obtain ⟨t, rest', n, h2, h3, h4, h5, h6⟩ := maybeLexDotAccess_index hd he1
      rw [h6]
      intro x hx
      cases hx
      refine ⟨_, rest', rfl, h5, ?_⟩
      intro ts p'' rest'' hcov
      rw [h2]
      have h7 : (View eof (p + 1) (t ++ rest')).location0 = p + 1 := by
        rw [← h2, view_location0, endsAt, if_neg (by simp)]
      rw [h7, view_location0]
      exact .index h3 (not_digit h4) hcov
    · have h2 : ∀ c r, rest = c :: r → ¬isDigitOf .decimal c := by
        intro c r hr hc
        have := isDigitOf_value hc
        exact hd ⟨c, r, hr, digit10 this.1 this.2⟩
      rw [maybeLexDotAccess_stop h2]
      exact good_symbol .dot rfl rfl he1 (by longest)

end

end Verif.Lexer
