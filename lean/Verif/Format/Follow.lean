import Verif.TypeText.Lex

/-!
# Tokens of formatted text

Numbers that are followed by a space, a comma, a closing bracket or a line ending are read. The proofs are those of
`Verif.Lexer.Complete`, where a space follows.
-/
namespace Verif.Format
open Verif.Lexer Verif.Lexer.Spec

section
variable {eof p : Nat} {c z : Char} {rest : List Char}

/-- What may follow a number. -/
def Sep (z : Char) : Prop := z ∈ [' ', ',', ')', ']', '\n']

theorem sep_char (h : Sep z) : z ≠ '\r' ∧ z ≠ '_' ∧ z ≠ '.' ∧ z ≠ 'e' ∧ z ≠ '-' := by
  unfold Sep at h
  revert h
  revert z
  decide

theorem sep_digit (h : Sep z) (radix : Radix) : ¬isDigitOf radix z := by
  unfold Sep at h
  cases radix <;> (revert h; revert z; decide)

theorem sep_tail (h : Sep z) : isDigitOf .hexadecimal z = false := by
  have := sep_digit h .hexadecimal
  simpa using this

theorem sep_letter (h : Sep z) (hy : z ∈ ['x', 'X', 'o', 'O', 'b', 'B']) : False := by
  unfold Sep at h
  revert h hy
  revert z
  decide

/-- The step that reads a token which is followed by the character `z`. -/
def Lexed' (z : Char) (eof p : Nat) (tok : Token) (text rest : List Char) (s : Step) : Prop :=
  s = .ok ([⟨p, tok, p + bytes text⟩], View eof (p + bytes text) (z :: rest)) ∧ Ends eof (p + bytes text) (z :: rest)

/-- A number is read, after its sign. -/
def NumberLexed' (z : Char) (eof p start : Nat) (tok : Token) (text rest : List Char) (s : Except LexicalError (Spanned × Lexer)) : Prop :=
  s = .ok (⟨start, tok, p + bytes text⟩, View eof (p + bytes text) (z :: rest)) ∧ Ends eof (p + bytes text) (z :: rest)

theorem radix_lexed' (hz : Sep z) {radix : Radix} {x : Char} {t : List Char} {n start : Nat} {negative : Bool} (hr : radix ≠ .decimal)
    (hb : bytes ['0', x] = 2) (h : LooseDigits radix.base t n) (he : Ends eof (p + 1 + 1) (t ++ z :: rest)) :
    NumberLexed' z eof p start (.int (signText negative ++ '0' :: radixLetter radix :: t) (if negative then -(n : Int) else n))
      ('0' :: x :: t) rest
      (lexNumberRadix (View eof (p + 1 + 1) (t ++ z :: rest)) start radix negative ['0', radixLetter radix]) := by
  obtain ⟨h1, h2, c, t', h3, h4, h5, h6⟩ := loose_run h
  have hsp : ¬isDigitOf radix z := sep_digit hz radix
  obtain ⟨h7, h8⟩ := radixRun_run h1 hsp (sep_char hz).2.1 (sep_char hz).1 he
  have hq : p + 1 + 1 + bytes t = p + bytes ('0' :: x :: t) := by
    have : '0' :: x :: t = ['0', x] ++ t := rfl
    rw [this, bytes_append, hb]
    omega
  rw [hq] at h7 h8
  refine ⟨?_, h8⟩
  unfold lexNumberRadix
  rw [h7]
  simp only
  rw [if_neg h2, view_cons_char0 (sep_char hz).1, if_neg (by
    rintro ⟨_, h⟩
    have h' := sep_tail hz
    simp only [isDigitOfRadix] at h
    revert h
    simp [h'])]
  have h9 : stripRadix ('0' :: radixLetter radix :: t) = (radix, t) := by
    cases radix <;> first | rfl | exact absurd rfl hr
  have h10 : parseIntValue (['0', radixLetter radix] ++ t) = some (n : Int) := by
    unfold parseIntValue
    rw [List.cons_append, List.cons_append, List.nil_append, h9]
    simp only
    rw [h3]
    unfold parseBigInt
    split
    · rename_i h
      cases h
      exact absurd rfl (isDigitOf_plain h4).2.2.2.1
    · rw [parseDigits_run h4 h5, h6]
      rfl
  unfold radixToken
  rw [h10, location_cons]
  cases negative <;> rfl

theorem decimal_lexed' (hz : Sep z) {t : List Char} {n start : Nat} {negative : Bool} (h : Digits 10 t n)
    (he : Ends eof p (t ++ z :: rest)) :
    NumberLexed' z eof p start (.int (signText negative ++ t) (if negative then -(n : Int) else n)) t rest
      (lexDecimalOrIntNumber (View eof p (t ++ z :: rest)) start negative true) := by
  obtain ⟨h1, h2, c, r, rfl, h3⟩ := digits_run_of (radix := .decimal) h
  have h4 : Run .decimal r := by
    cases h1 with
    | digit _ h => exact h
    | underscore _ _ => exact absurd rfl (isDigitOf_plain h3).1
  obtain ⟨h7, h8⟩ := radixRun_run h1 (sep_digit hz _) (sep_char hz).2.1 (sep_char hz).1 he
  refine ⟨?_, h8⟩
  unfold lexDecimalOrIntNumber
  rw [h7]
  simp only
  rw [if_neg (by
    rw [view_cons_char0 (sep_char hz).1]
    rintro ⟨_, h⟩
    exact (sep_char hz).2.2.1 (Option.some.inj h)), location_cons]
  cases negative with
  | false =>
    simp only [Bool.false_eq_true, if_false, List.nil_append, signText]
    rw [parseIntValue_decimal h3 h4, h2]
  | true =>
    simp only [if_true, List.cons_append, List.nil_append, signText]
    rw [parseIntValue_negative h3 h4, h2]


/-- The exponent of a float. -/
theorem exponent_lexed' (hz : Sep z) {t : List Char} {start : Nat}
    (h : t = [] ∨ ∃ s ds n, t = 'e' :: (s ++ ds) ∧ (s = [] ∨ s = ['-']) ∧ LooseDigits 10 ds n)
    (he : Ends eof p (t ++ z :: rest)) :
    lexExponent (View eof p (t ++ z :: rest)) start = .ok (t, View eof (p + bytes t) (z :: rest)) ∧
      Ends eof (p + bytes t) (z :: rest) := by
  unfold lexExponent
  rcases h with rfl | ⟨s, ds, n, rfl, h1, h2⟩
  · refine ⟨?_, he⟩
    rw [List.nil_append, view_cons_char0 (sep_char hz).1, if_neg (by
      intro h
      exact (sep_char hz).2.2.2.1 (Option.some.inj h))]
    rfl
  · obtain ⟨h3, h4, d, ds', h5, h6, _, _⟩ := loose_run (radix := .decimal) h2
    rw [List.cons_append] at he ⊢
    have n1 := next1 he (by decide) (by decide)
    rw [view_cons_char0 (by decide), if_pos rfl, n1.1]
    rcases h1 with rfl | rfl
    · rw [List.nil_append] at *
      obtain ⟨h7, h8⟩ := radixRun_run h3 (sep_digit hz _) (sep_char hz).2.1 (sep_char hz).1 n1.2
      have hq : p + 1 + bytes ds = p + bytes ('e' :: ds) := by
        rw [bytes_cons, show 'e'.utf8Size = 1 by decide]
        omega
      rw [hq] at h7 h8
      refine ⟨?_, h8⟩
      have hm : (View eof (p + 1) (ds ++ z :: rest)).char0 ≠ some '-' := by
        cases ds with
        | nil => exact absurd rfl h4
        | cons x ds =>
          rw [List.cons_append, view_cons_char0]
          · intro h
            cases h
            cases h3 with
            | digit h _ => exact absurd h (by decide)
          · rintro rfl
            cases h3 with
            | digit h _ => exact absurd h (by decide)
      simp only [hm, if_false]
      rw [h7]
      simp only [if_neg h4, List.nil_append]
    · simp only [List.cons_append, List.nil_append] at *
      have n2 := next1 n1.2 (by decide) (by decide)
      obtain ⟨h7, h8⟩ := radixRun_run h3 (sep_digit hz _) (sep_char hz).2.1 (sep_char hz).1 n2.2
      have hq : p + 1 + 1 + bytes ds = p + bytes ('e' :: '-' :: ds) := by
        rw [bytes_cons, bytes_cons, show 'e'.utf8Size = 1 by decide, show '-'.utf8Size = 1 by decide]
        omega
      rw [hq] at h7 h8
      refine ⟨?_, h8⟩
      simp only [view_cons_char0 (show '-' ≠ '\r' by decide), if_true, n2.1]
      rw [h7]
      simp only [if_neg h4, List.cons_append, List.nil_append]

/-- A float, after its sign. -/
theorem float_lexed' (hz : Sep z) {whole fraction exponent : List Char} {start : Nat} {negative : Bool} (hw : ∃ n, Digits 10 whole n)
    (hf : fraction = [] ∨ ∃ n, LooseDigits 10 fraction n)
    (hx : exponent = [] ∨ ∃ s ds n, exponent = 'e' :: (s ++ ds) ∧ (s = [] ∨ s = ['-']) ∧ LooseDigits 10 ds n)
    (he : Ends eof p (whole ++ '.' :: (fraction ++ (exponent ++ z :: rest)))) :
    NumberLexed' z eof p start (.float (signText negative ++ whole ++ '.' :: fraction ++ exponent))
      (whole ++ '.' :: (fraction ++ exponent)) rest
      (lexDecimalOrIntNumber (View eof p (whole ++ '.' :: (fraction ++ (exponent ++ z :: rest)))) start negative true) := by
  obtain ⟨n, hn⟩ := hw
  obtain ⟨h1, h2, c, r, h2', h3⟩ := digits_run_of (radix := .decimal) hn
  obtain ⟨h7, h8⟩ := radixRun_run h1 (by decide) (by decide) (by decide) he
  have n1 := next1 h8 (by decide) (by decide)
  have hfr : Run .decimal fraction := by
    rcases hf with rfl | ⟨m, hm⟩
    · exact .nil
    · exact (loose_run (radix := .decimal) hm).1
  have hfrac : radixRun (View eof (p + bytes whole + 1) (fraction ++ (exponent ++ z :: rest))) .decimal =
      (fraction, View eof (p + bytes whole + 1 + bytes fraction) (exponent ++ z :: rest)) ∧
      Ends eof (p + bytes whole + 1 + bytes fraction) (exponent ++ z :: rest) := by
    rcases hx with rfl | ⟨s, ds, m, rfl, _, _⟩
    · exact radixRun_run hfr (sep_digit hz _) (sep_char hz).2.1 (sep_char hz).1 n1.2
    · exact radixRun_run hfr (by decide) (by decide) (by decide) n1.2
  obtain ⟨h9, h10⟩ := exponent_lexed' hz (start := start) hx hfrac.2
  have hq : p + bytes whole + 1 + bytes fraction + bytes exponent = p + bytes (whole ++ '.' :: (fraction ++ exponent)) := by
    simp only [bytes_append, bytes_cons]
    have : '.'.utf8Size = 1 := by decide
    omega
  rw [hq] at h9 h10
  refine ⟨?_, h10⟩
  unfold lexDecimalOrIntNumber
  rw [h7]
  simp only
  rw [if_pos ⟨trivial, view_cons_char0 (by decide)⟩, n1.1, hfrac.1]
  simp only
  rw [h9]
  simp only [Except.map, location_cons]
  rfl


/-- A number that is not written with the prefix of a base. -/
theorem lexUnsigned_plain' {t more : List Char} {x : Char} {start n : Nat} {negative : Bool} (h : Digits 10 t n)
    (hx : x = '.' ∨ Sep x) :
    lexUnsigned (View eof p (t ++ x :: more)) start negative =
      lexDecimalOrIntNumber (View eof p (t ++ x :: more)) start negative true := by
  obtain ⟨h1, _, c, r, rfl, h3⟩ := digits_run_of (radix := .decimal) h
  have h4 : Run .decimal r := by
    cases h1 with
    | digit _ h => exact h
    | underscore _ _ => exact absurd rfl (isDigitOf_plain h3).1
  have key : ∀ y, y ∈ ['x', 'X', 'o', 'O', 'b', 'B'] → (View eof p (c :: r ++ x :: more)).char1 ≠ some y := by
    intro y hy h
    rw [List.cons_append, view_cons_char1 (isDigitOf_plain h3).2.2.1] at h
    cases h4 with
    | nil =>
      rcases hx with rfl | hx
      · rw [List.nil_append, view_cons_char0 (by decide)] at h
        cases h
        revert hy
        decide
      · rw [List.nil_append, view_cons_char0 (sep_char hx).1] at h
        cases h
        exact sep_letter hx hy
    | digit hd _ =>
      rw [List.cons_append, view_cons_char0 (isDigitOf_plain hd).2.2.1] at h
      cases h
      have : ∀ y ∈ ['x', 'X', 'o', 'O', 'b', 'B'], ¬isDigitOf .decimal y := by decide
      exact this _ hy hd
    | underscore _ _ =>
      rw [List.cons_append, view_cons_char0 (by decide)] at h
      cases h
      revert hy
      decide
  unfold lexUnsigned
  rw [if_neg, if_neg, if_neg]
  · rintro ⟨_, h | h⟩
    · exact key _ (by decide) h
    · exact key _ (by decide) h
  · rintro ⟨_, h | h⟩
    · exact key _ (by decide) h
    · exact key _ (by decide) h
  · rintro ⟨_, h | h⟩
    · exact key _ (by decide) h
    · exact key _ (by decide) h

/-- An integer, after its sign. -/
theorem natural_lexed' (hz : Sep z) {base n start : Nat} {t v : List Char} {negative : Bool} (h : Natural base t v n)
    (he : Ends eof p (t ++ z :: rest)) :
    NumberLexed' z eof p start (.int (signText negative ++ v) (if negative then -(n : Int) else n)) t rest
      (lexUnsigned (View eof p (t ++ z :: rest)) start negative) := by
  cases h with
  | decimal h =>
    rw [lexUnsigned_plain' h (.inr hz)]
    exact decimal_lexed' hz h he
  | @based x y base t n hx h =>
    simp only [List.cons_append] at he ⊢
    have hx2 : x ≠ '\r' ∧ x.utf8Size = 1 ∧ bytes ['0', x] = 2 := by
      have : ∀ q ∈ basePrefix, q.1 ≠ '\r' ∧ q.1.utf8Size = 1 ∧ bytes ['0', q.1] = 2 := by decide
      exact this _ hx
    have n1 := next1 he (by decide) (by decide)
    have n2 := next1 n1.2 hx2.1 hx2.2.1
    have h0 : (View eof p ('0' :: x :: (t ++ z :: rest))).char0 = some '0' := view_cons_char0 (by decide)
    have h1 : (View eof p ('0' :: x :: (t ++ z :: rest))).char1 = some x := by
      rw [view_cons_char1 (show '0' ≠ '\r' by decide), view_cons_char0 hx2.1]
    unfold lexUnsigned
    rw [h0, h1, n1.1, n2.1]
    simp only [basePrefix, List.mem_cons, Prod.mk.injEq, List.not_mem_nil, or_false] at hx
    rcases hx with ⟨rfl, rfl, rfl⟩ | ⟨rfl, rfl, rfl⟩ | ⟨rfl, rfl, rfl⟩ | ⟨rfl, rfl, rfl⟩ | ⟨rfl, rfl, rfl⟩ | ⟨rfl, rfl, rfl⟩
    · exact radix_lexed' hz (radix := .hexadecimal) (by decide) hx2.2.2 h n2.2
    · exact radix_lexed' hz (radix := .hexadecimal) (by decide) hx2.2.2 h n2.2
    · exact radix_lexed' hz (radix := .octal) (by decide) hx2.2.2 h n2.2
    · exact radix_lexed' hz (radix := .octal) (by decide) hx2.2.2 h n2.2
    · exact radix_lexed' hz (radix := .binary) (by decide) hx2.2.2 h n2.2
    · exact radix_lexed' hz (radix := .binary) (by decide) hx2.2.2 h n2.2

theorem lexed_number' (hz : Sep z) {tok : Token} {t : List Char} {s : Except LexicalError (Spanned × Lexer)}
    (h : NumberLexed' z eof p p tok t rest s) :
    Lexed' z eof p tok t rest ((s.bind noTrailingUnderscore).bind fun r => checkForMinus r.1 r.2) := by
  refine ⟨?_, h.2⟩
  rw [h.1]
  simp only [Except.bind, noTrailingUnderscore]
  rw [if_neg (by
    rw [view_cons_char0 (sep_char hz).1]
    intro h
    exact (sep_char hz).2.1 (Option.some.inj h))]
  show checkForMinus _ _ = _
  unfold checkForMinus
  rw [if_neg]
  rintro ⟨h, _⟩
  rw [view_cons_char0 (sep_char hz).1] at h
  exact (sep_char hz).2.2.2.2 (Option.some.inj h)

theorem shift_number' {tok : Token} {t : List Char} {s : Except LexicalError (Spanned × Lexer)}
    (h : NumberLexed' z eof (p + 1) p tok t rest s) : NumberLexed' z eof p p tok ('-' :: t) rest s := by
  have hq : p + 1 + bytes t = p + bytes ('-' :: t) := by
    rw [bytes_cons, show '-'.utf8Size = 1 by decide]
    omega
  unfold NumberLexed' at h ⊢
  rw [hq] at h
  exact h

theorem int_lexed' (hz : Sep z) {v t : List Char} {n : Int} (h : Reads (.int v n) t) (he : Ends eof p (t ++ z :: rest)) :
    Lexed' z eof p (.int v n) t rest (consumeNormal (View eof p (t ++ z :: rest))) := by
  obtain ⟨base, h⟩ := h
  cases h with
  | pos h =>
    obtain ⟨c, r, rfl, hc⟩ := natural_cons h
    have h1 := lexed_number' hz (natural_lexed' hz (start := p) (negative := false) h he)
    rw [List.cons_append] at he h1 ⊢
    rw [unsigned_step hc]
    exact h1
  | @neg t v n h =>
    obtain ⟨c, r, rfl, hc⟩ := natural_cons h
    have n1 := next1 he (by decide) (by decide)
    have h1 := lexed_number' hz (shift_number' (natural_lexed' hz (start := p) (negative := true) h n1.2))
    simp only [List.cons_append] at he h1 ⊢
    rw [signed_step hc he]
    exact h1

theorem floatToken_lexed' (hz : Sep z) {v : List Char} (h : FloatText v) (he : Ends eof p (v ++ z :: rest)) :
    Lexed' z eof p (.float v) v rest (consumeNormal (View eof p (v ++ z :: rest))) := by
  obtain ⟨sign, whole, fraction, exponent, rfl, hs, hw, hf, hx⟩ := h
  obtain ⟨n, hn⟩ := hw
  obtain ⟨_, _, c, r, rfl, hc⟩ := digits_run_of (radix := .decimal) hn
  have hu : ∀ q negative, lexUnsigned (View eof q (c :: r ++ '.' :: (fraction ++ (exponent ++ z :: rest)))) p negative =
      lexDecimalOrIntNumber (View eof q (c :: r ++ '.' :: (fraction ++ (exponent ++ z :: rest)))) p negative true :=
    fun q negative => lexUnsigned_plain' hn (.inl rfl)
  rcases hs with rfl | rfl
  · simp only [List.nil_append, List.append_assoc, List.cons_append] at he hu ⊢
    have h1 := lexed_number' hz (float_lexed' hz (start := p) (negative := false) ⟨n, hn⟩ hf hx he)
    rw [unsigned_step hc, hu]
    simp only [List.append_assoc, List.cons_append, signText, Bool.false_eq_true, if_false, List.nil_append] at h1
    exact h1
  · simp only [List.nil_append, List.append_assoc, List.cons_append] at he hu ⊢
    have n1 := next1 he (by decide) (by decide)
    have h1 := lexed_number' hz (shift_number' (float_lexed' hz (start := p) (negative := true) ⟨n, hn⟩ hf hx n1.2))
    rw [signed_step hc he, hu]
    simp only [List.append_assoc, List.cons_append, signText, if_true, List.nil_append] at h1
    exact h1

end
end Verif.Format
