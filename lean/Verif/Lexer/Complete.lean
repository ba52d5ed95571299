import Verif.Lexer.Spans

/-!
# Every token that is followed by a space is read
-/
namespace Verif.Lexer
open Spec

section
variable {eof p : Nat} {c : Char} {rest : List Char}

theorem next1 {c : Char} {p : Nat} {rest : List Char} (he : Ends eof p (c :: rest)) (h : c ≠ '\r') (h1 : c.utf8Size = 1) :
    (View eof p (c :: rest)).nextChar = View eof (p + 1) rest ∧ Ends eof (p + 1) rest := by
  have := view_next h he
  have h2 := ends_next h he
  rw [h1] at this h2
  exact ⟨this, h2⟩

theorem location_cons {c : Char} {p : Nat} {rest : List Char} : (View eof p (c :: rest)).location0 = p := by
  rw [view_location0, endsAt, if_neg (by simp)]

/-- The step that reads a token which is followed by a space. -/
def Lexed (eof p : Nat) (tok : Token) (text rest : List Char) (s : Step) : Prop :=
  s = .ok ([⟨p, tok, p + bytes text⟩], View eof (p + bytes text) (' ' :: rest)) ∧ Ends eof (p + bytes text) (' ' :: rest)

/-! ### Symbols -/

theorem symbol_lexed (s : Symbol) (he : Ends eof p (symbolText s ++ ' ' :: rest)) :
    Lexed eof p (.symbol s) (symbolText s) rest (consumeNormal (View eof p (symbolText s ++ ' ' :: rest))) := by
  unfold Lexed
  rw [bytes_symbol]
  cases s
  all_goals
    simp only [symbolText, List.cons_append, List.nil_append] at he ⊢
    have n1 := next1 he (by decide) (by decide)
    try have n2 := next1 n1.2 (by decide) (by decide)
    try have n3 := next1 n2.2 (by decide) (by decide)
    refine ⟨?_, by first | exact n1.2 | exact n2.2 | exact n3.2⟩
    simp only [consumeNormal, view_cons_char0, ne_eq, Char.reduceEq, not_false_eq_true, location_cons, view_cons_char1,
      isUpper, isNameStart, isLower, isNumberStart, isDigit, startsDigit, consumeCharacter, singleSymbol, if_true, if_false,
      eatSingleChar, emit, n1.1, lexPlus, lexMinus, lexStar, lexSlash, lexPercent, lexVbar, lexAmper, lexBang, lexLt,
      lexLtTail, lexGt, lexGtTail, lexEqual, lexDot, Option.some.injEq, Bool.and_eq_true, decide_eq_true_eq]
    try simp [n2.1, view_cons_char0, location_cons]
    try simp [n3.1, view_cons_char0, location_cons]
  rw [maybeLexDotAccess_done (view_cons_char0 (by decide)) (by decide)]
  rfl

/-! ### Names and keywords -/

theorem nameRun_run {t : List Char} (h : ∀ d ∈ t, NameChar d) (he : Ends eof p (t ++ ' ' :: rest)) :
    nameRun (View eof p (t ++ ' ' :: rest)) = (t, View eof (p + bytes t) (' ' :: rest)) ∧
      Ends eof (p + bytes t) (' ' :: rest) := by
  induction t generalizing p with
  | nil => exact ⟨nameRun_done (view_cons_char0 (by decide)) (by decide), he⟩
  | cons d t ih =>
    rw [List.cons_append] at he
    have h1 := h d (by simp)
    have h2 := nameChar_plain h1
    have h3 := nameChar_ascii h1
    have h4 := next1 he h2.1 h3.1
    obtain ⟨h5, h6⟩ := ih (fun x hx => h x (by simp [hx])) h4.2
    have hq : p + 1 + bytes t = p + bytes (d :: t) := by rw [bytes_cons, h3.1]; omega
    rw [hq] at h5 h6
    refine ⟨?_, h6⟩
    rw [List.cons_append, nameRun_more (view_cons_char0 h2.1) (isNameContinuation_iff.2 h1), h4.1, h5]

theorem checkForMinus_space {t : Spanned} : checkForMinus t (View eof p (' ' :: rest)) = .ok ([t], View eof p (' ' :: rest)) := by
  unfold checkForMinus
  rw [if_neg]
  rintro ⟨h, _⟩
  rw [view_cons_char0 (by decide)] at h
  cases h

theorem lower_not_upper {c : Char} (h : isLower c) : ¬isUpper c := by
  simp only [isLower, isUpper, Bool.and_eq_true, decide_eq_true_eq, Char.le_def, UInt32.le_iff_toNat_le] at h ⊢
  have h1 : 97 ≤ c.val.toNat := h.1
  rintro ⟨_, h2⟩
  have h3 : c.val.toNat ≤ 90 := h2
  omega

theorem word_lexed {t : List Char} (hc : t.head? = some c) (hs : isNameStart c) (h : ∀ d ∈ t, NameChar d)
    (he : Ends eof p (t ++ ' ' :: rest)) :
    Lexed eof p (nameToken t) t rest (consumeNormal (View eof p (t ++ ' ' :: rest))) := by
  obtain ⟨h1, h2⟩ := nameRun_run h he
  refine ⟨?_, h2⟩
  cases t with
  | nil => cases hc
  | cons d t =>
    cases hc
    have h3 := nameChar_plain (h c (by simp))
    have hu : ¬isUpper c := by
      simp only [isNameStart, Bool.or_eq_true, beq_iff_eq] at hs
      rcases hs with hs | hs
      · subst hs; decide
      · exact lower_not_upper hs
    unfold consumeNormal
    rw [List.cons_append, view_cons_char0 h3.1]
    simp only
    rw [if_neg hu, if_pos hs]
    unfold lexName
    rw [← List.cons_append, h1, checkForMinus_space]
    simp only [List.cons_append, location_cons]

theorem upName_lexed {t : List Char} (hc : t.head? = some c) (hs : isUpper c) (h : ∀ d ∈ t, NameChar d)
    (he : Ends eof p (t ++ ' ' :: rest)) :
    Lexed eof p (.upName t) t rest (consumeNormal (View eof p (t ++ ' ' :: rest))) := by
  obtain ⟨h1, h2⟩ := nameRun_run h he
  refine ⟨?_, h2⟩
  cases t with
  | nil => cases hc
  | cons d t =>
    cases hc
    have h3 := nameChar_plain (h c (by simp))
    have hk : stringToKeyword (c :: t) = none := by
      cases hk : stringToKeyword (c :: t) with
      | none => rfl
      | some k =>
        obtain ⟨d, r, h4, h5⟩ := keyword_lower k
        rw [← stringToKeyword_some hk] at h4
        cases h4
        exact absurd hs h5
    unfold consumeNormal
    rw [List.cons_append, view_cons_char0 h3.1]
    simp only
    rw [if_pos hs]
    unfold lexUpname upNameToken
    rw [← List.cons_append, h1, hk]
    simp only [List.cons_append, location_cons]

theorem keyword_start (k : Keyword) : ∃ c, (keywordText k).head? = some c ∧ isNameStart c := by
  cases k <;> exact ⟨_, rfl, by decide⟩

theorem keyword_chars (k : Keyword) : ∀ d ∈ keywordText k, NameChar d := by
  intro d hd
  apply isNameContinuation_iff.1
  revert d
  cases k <;> decide

theorem keyword_token (k : Keyword) : nameToken (keywordText k) = .keyword k := by cases k <;> rfl

theorem not_keyword {n : List Char} (h : ∀ k, n ≠ keywordText k) : stringToKeyword n = none := by
  cases hk : stringToKeyword n with
  | none => rfl
  | some k => exact absurd (stringToKeyword_some hk) (h k)

theorem keyword_head (k : Keyword) : (keywordText k).head? ≠ some '_' := by cases k <;> decide

theorem discard_token (r : List Char) : nameToken ('_' :: r) = .discardName ('_' :: r) := by
  unfold nameToken
  rw [not_keyword fun k hk => keyword_head k (by rw [← hk]; rfl)]
  rfl

/-! ### Numbers -/

theorem digits_run_of {radix : Radix} {t : List Char} {n : Nat} (h : Digits radix.base t n) :
    Run radix t ∧ runValue radix 0 t = n ∧ ∃ c r, t = c :: r ∧ isDigitOf radix c := by
  have append_run : ∀ {s u : List Char}, Run radix s → s ≠ [] → Run radix u → Run radix (s ++ u) := by
    intro s u hs
    induction hs with
    | nil => intro h; exact absurd rfl h
    | @digit c t hc ht ih =>
      intro _ hu
      by_cases h : t = []
      · subst h
        exact .digit hc hu
      · exact .digit hc (ih h hu)
    | underscore hc _ ih =>
      intro _ hu
      exact .underscore hc (ih (by simp) hu)
  have value_append : ∀ (s u : List Char) (n : Nat), runValue radix n (s ++ u) = runValue radix (runValue radix n s) u := by
    intro s u n
    simp [runValue, List.filter_append, List.foldl_append]
  induction h with
  | @one c v h1 h2 =>
    have hc : isDigitOf radix c := isDigitOf_iff.2 ⟨v, h1, h2⟩
    refine ⟨.digit hc .nil, ?_, c, [], rfl, hc⟩
    rw [runValue_digit hc]
    simp [runValue, (digit?_some h1).2]
  | @more t n c v _ h1 h2 ih =>
    obtain ⟨h3, h4, d, r, rfl, h5⟩ := ih
    have hc : isDigitOf radix c := isDigitOf_iff.2 ⟨v, h1, h2⟩
    refine ⟨append_run h3 (by simp) (.digit hc .nil), ?_, d, _, rfl, h5⟩
    rw [value_append, h4, runValue_digit hc]
    simp [runValue, (digit?_some h1).2]
  | @underscore t n c v _ h1 h2 ih =>
    obtain ⟨h3, h4, d, r, rfl, h5⟩ := ih
    have hc : isDigitOf radix c := isDigitOf_iff.2 ⟨v, h1, h2⟩
    refine ⟨append_run h3 (by simp) (.underscore hc (.digit hc .nil)), ?_, d, _, rfl, h5⟩
    rw [value_append, h4, runValue_underscore, runValue_digit hc]
    simp [runValue, (digit?_some h1).2]

theorem loose_run {radix : Radix} {t : List Char} {n : Nat} (h : LooseDigits radix.base t n) :
    Run radix t ∧ t ≠ [] ∧ ∃ c t', t.dropWhile (· == '_') = c :: t' ∧ isDigitOf radix c ∧ Run radix t' ∧
      runValue radix 0 (c :: t') = n := by
  have tail : ∀ {c : Char} {r : List Char}, isDigitOf radix c → Run radix (c :: r) → Run radix r := by
    intro c r hc h
    cases h with
    | digit _ h => exact h
    | underscore _ _ => exact absurd rfl (isDigitOf_plain hc).1
  rcases h with h | ⟨t', rfl, h⟩
  · obtain ⟨h1, h2, c, r, rfl, h3⟩ := digits_run_of h
    refine ⟨h1, by simp, c, r, ?_, h3, tail h3 h1, h2⟩
    rw [List.dropWhile_cons_of_neg]
    simpa using (isDigitOf_plain h3).1
  · obtain ⟨h1, h2, c, r, rfl, h3⟩ := digits_run_of h
    refine ⟨.underscore h3 h1, by simp, c, r, ?_, h3, tail h3 h1, h2⟩
    rw [List.dropWhile_cons_of_pos (by simp), List.dropWhile_cons_of_neg]
    simpa using (isDigitOf_plain h3).1

/-- Reading digits before a character that does not continue them. -/
theorem radixRun_run {radix : Radix} {t : List Char} {x : Char} (h : Run radix t) (hx : ¬isDigitOf radix x) (hx1 : x ≠ '_')
    (hx2 : x ≠ '\r') (he : Ends eof p (t ++ x :: rest)) :
    radixRun (View eof p (t ++ x :: rest)) radix = (t, View eof (p + bytes t) (x :: rest)) ∧
      Ends eof (p + bytes t) (x :: rest) := by
  induction h generalizing p with
  | nil =>
    refine ⟨radixRun_done (view_cons_char0 hx2) ?_, he⟩
    rintro (h | h)
    · exact hx h
    · exact hx1 h.1
  | @digit c t hc _ ih =>
    rw [List.cons_append] at he
    have h1 := isDigitOf_plain hc
    have h2 := next1 he h1.2.2.1 h1.2.2.2.2.2.2
    obtain ⟨h3, h4⟩ := ih h2.2
    have hq : p + 1 + bytes t = p + bytes (c :: t) := by rw [bytes_cons, h1.2.2.2.2.2.2]; omega
    rw [hq] at h3 h4
    refine ⟨?_, h4⟩
    rw [List.cons_append, radixRun_more (view_cons_char0 h1.2.2.1) (.inl hc), h2.1, h3]
  | @underscore c t hc _ ih =>
    rw [List.cons_append] at he
    have h1 := isDigitOf_plain hc
    have h2 := next1 he (by decide) (by decide)
    obtain ⟨h3, h4⟩ := ih h2.2
    have hq : p + 1 + bytes (c :: t) = p + bytes ('_' :: c :: t) := by
      rw [bytes_cons '_', show '_'.utf8Size = 1 by decide]
      omega
    rw [hq] at h3 h4
    refine ⟨?_, h4⟩
    rw [List.cons_append, radixRun_more (view_cons_char0 (by decide)) (.inr ⟨rfl, ?_⟩), h2.1, h3]
    rw [view_cons_char1 (by decide), List.cons_append, view_cons_char0 h1.2.2.1]
    exact hc

/-- A number is read, after its sign. -/
def NumberLexed (eof p start : Nat) (tok : Token) (text rest : List Char) (s : Except LexicalError (Spanned × Lexer)) : Prop :=
  s = .ok (⟨start, tok, p + bytes text⟩, View eof (p + bytes text) (' ' :: rest)) ∧ Ends eof (p + bytes text) (' ' :: rest)

theorem radix_lexed {radix : Radix} {x : Char} {t : List Char} {n start : Nat} {negative : Bool} (hr : radix ≠ .decimal)
    (hb : bytes ['0', x] = 2) (h : LooseDigits radix.base t n) (he : Ends eof (p + 1 + 1) (t ++ ' ' :: rest)) :
    NumberLexed eof p start (.int (signText negative ++ '0' :: radixLetter radix :: t) (if negative then -(n : Int) else n))
      ('0' :: x :: t) rest
      (lexNumberRadix (View eof (p + 1 + 1) (t ++ ' ' :: rest)) start radix negative ['0', radixLetter radix]) := by
  obtain ⟨h1, h2, c, t', h3, h4, h5, h6⟩ := loose_run h
  have hsp : ¬isDigitOf radix ' ' := by cases radix <;> decide
  obtain ⟨h7, h8⟩ := radixRun_run h1 hsp (by decide) (by decide) he
  have hq : p + 1 + 1 + bytes t = p + bytes ('0' :: x :: t) := by
    have : '0' :: x :: t = ['0', x] ++ t := rfl
    rw [this, bytes_append, hb]
    omega
  rw [hq] at h7 h8
  refine ⟨?_, h8⟩
  unfold lexNumberRadix
  rw [h7]
  simp only
  rw [if_neg h2, view_cons_char0 (by decide), if_neg (by rintro ⟨_, h⟩; exact absurd h (by decide))]
  have h9 : stripRadix ('0' :: radixLetter radix :: t) = (radix, t) := by
    cases radix <;> first | rfl | exact absurd rfl hr
  have h10 : parseIntValue (['0', radixLetter radix] ++ t) = some (n : Int) := by
    unfold parseIntValue
    rw [List.cons_append, List.cons_append, List.nil_append, h9]
    simp only
    rw [h3]
    unfold parseBigInt
    split
    · rename_i h
      cases h
      exact absurd rfl (isDigitOf_plain h4).2.2.2.1
    · rw [parseDigits_run h4 h5, h6]
      rfl
  unfold radixToken
  rw [h10, location_cons]
  cases negative <;> rfl

theorem decimal_lexed {t : List Char} {n start : Nat} {negative : Bool} (h : Digits 10 t n)
    (he : Ends eof p (t ++ ' ' :: rest)) :
    NumberLexed eof p start (.int (signText negative ++ t) (if negative then -(n : Int) else n)) t rest
      (lexDecimalOrIntNumber (View eof p (t ++ ' ' :: rest)) start negative true) := by
  obtain ⟨h1, h2, c, r, rfl, h3⟩ := digits_run_of (radix := .decimal) h
  have h4 : Run .decimal r := by
    cases h1 with
    | digit _ h => exact h
    | underscore _ _ => exact absurd rfl (isDigitOf_plain h3).1
  obtain ⟨h7, h8⟩ := radixRun_run h1 (by decide) (by decide) (by decide) he
  refine ⟨?_, h8⟩
  unfold lexDecimalOrIntNumber
  rw [h7]
  simp only
  rw [if_neg (by rw [view_cons_char0 (by decide)]; decide), location_cons]
  cases negative with
  | false =>
    simp only [Bool.false_eq_true, if_false, List.nil_append, signText]
    rw [parseIntValue_decimal h3 h4, h2]
  | true =>
    simp only [if_true, List.cons_append, List.nil_append, signText]
    rw [parseIntValue_negative h3 h4, h2]

/-- The exponent of a float. -/
theorem exponent_lexed {t : List Char} {start : Nat}
    (h : t = [] ∨ ∃ s ds n, t = 'e' :: (s ++ ds) ∧ (s = [] ∨ s = ['-']) ∧ LooseDigits 10 ds n)
    (he : Ends eof p (t ++ ' ' :: rest)) :
    lexExponent (View eof p (t ++ ' ' :: rest)) start = .ok (t, View eof (p + bytes t) (' ' :: rest)) ∧
      Ends eof (p + bytes t) (' ' :: rest) := by
  unfold lexExponent
  rcases h with rfl | ⟨s, ds, n, rfl, h1, h2⟩
  · refine ⟨?_, he⟩
    rw [List.nil_append, view_cons_char0 (by decide), if_neg (by decide)]
    rfl
  · obtain ⟨h3, h4, d, ds', h5, h6, _, _⟩ := loose_run (radix := .decimal) h2
    rw [List.cons_append] at he ⊢
    have n1 := next1 he (by decide) (by decide)
    rw [view_cons_char0 (by decide), if_pos rfl, n1.1]
    rcases h1 with rfl | rfl
    · rw [List.nil_append] at *
      obtain ⟨h7, h8⟩ := radixRun_run h3 (by decide) (by decide) (by decide) n1.2
      have hq : p + 1 + bytes ds = p + bytes ('e' :: ds) := by
        rw [bytes_cons, show 'e'.utf8Size = 1 by decide]
        omega
      rw [hq] at h7 h8
      refine ⟨?_, h8⟩
      have hm : (View eof (p + 1) (ds ++ ' ' :: rest)).char0 ≠ some '-' := by
        cases ds with
        | nil => exact absurd rfl h4
        | cons x ds =>
          rw [List.cons_append, view_cons_char0]
          · intro h
            cases h
            cases h3 with
            | digit h _ => exact absurd h (by decide)
          · rintro rfl
            cases h3 with
            | digit h _ => exact absurd h (by decide)
      simp only [hm, if_false]
      rw [h7]
      simp only [if_neg h4, List.nil_append]
    · simp only [List.cons_append, List.nil_append] at *
      have n2 := next1 n1.2 (by decide) (by decide)
      obtain ⟨h7, h8⟩ := radixRun_run h3 (by decide) (by decide) (by decide) n2.2
      have hq : p + 1 + 1 + bytes ds = p + bytes ('e' :: '-' :: ds) := by
        rw [bytes_cons, bytes_cons, show 'e'.utf8Size = 1 by decide, show '-'.utf8Size = 1 by decide]
        omega
      rw [hq] at h7 h8
      refine ⟨?_, h8⟩
      simp only [view_cons_char0 (show '-' ≠ '\r' by decide), if_true, n2.1]
      rw [h7]
      simp only [if_neg h4, List.cons_append, List.nil_append]

/-- A float, after its sign. -/
theorem float_lexed {whole fraction exponent : List Char} {start : Nat} {negative : Bool} (hw : ∃ n, Digits 10 whole n)
    (hf : fraction = [] ∨ ∃ n, LooseDigits 10 fraction n)
    (hx : exponent = [] ∨ ∃ s ds n, exponent = 'e' :: (s ++ ds) ∧ (s = [] ∨ s = ['-']) ∧ LooseDigits 10 ds n)
    (he : Ends eof p (whole ++ '.' :: (fraction ++ (exponent ++ ' ' :: rest)))) :
    NumberLexed eof p start (.float (signText negative ++ whole ++ '.' :: fraction ++ exponent))
      (whole ++ '.' :: (fraction ++ exponent)) rest
      (lexDecimalOrIntNumber (View eof p (whole ++ '.' :: (fraction ++ (exponent ++ ' ' :: rest)))) start negative true) := by
  obtain ⟨n, hn⟩ := hw
  obtain ⟨h1, h2, c, r, h2', h3⟩ := digits_run_of (radix := .decimal) hn
  obtain ⟨h7, h8⟩ := radixRun_run h1 (by decide) (by decide) (by decide) he
  have n1 := next1 h8 (by decide) (by decide)
  have hfr : Run .decimal fraction := by
    rcases hf with rfl | ⟨m, hm⟩
    · exact .nil
    · exact (loose_run (radix := .decimal) hm).1
  have hfrac : radixRun (View eof (p + bytes whole + 1) (fraction ++ (exponent ++ ' ' :: rest))) .decimal =
      (fraction, View eof (p + bytes whole + 1 + bytes fraction) (exponent ++ ' ' :: rest)) ∧
      Ends eof (p + bytes whole + 1 + bytes fraction) (exponent ++ ' ' :: rest) := by
    rcases hx with rfl | ⟨s, ds, m, rfl, _, _⟩
    · exact radixRun_run hfr (by decide) (by decide) (by decide) n1.2
    · exact radixRun_run hfr (by decide) (by decide) (by decide) n1.2
  obtain ⟨h9, h10⟩ := exponent_lexed (start := start) hx hfrac.2
  have hq : p + bytes whole + 1 + bytes fraction + bytes exponent = p + bytes (whole ++ '.' :: (fraction ++ exponent)) := by
    simp only [bytes_append, bytes_cons]
    have : '.'.utf8Size = 1 := by decide
    omega
  rw [hq] at h9 h10
  refine ⟨?_, h10⟩
  unfold lexDecimalOrIntNumber
  rw [h7]
  simp only
  rw [if_pos ⟨trivial, view_cons_char0 (by decide)⟩, n1.1, hfrac.1]
  simp only
  rw [h9]
  simp only [Except.map, location_cons]
  rfl

/-- A number that is not written with the prefix of a base. -/
theorem lexUnsigned_plain {t more : List Char} {x : Char} {start n : Nat} {negative : Bool} (h : Digits 10 t n)
    (hx : x = ' ' ∨ x = '.') :
    lexUnsigned (View eof p (t ++ x :: more)) start negative =
      lexDecimalOrIntNumber (View eof p (t ++ x :: more)) start negative true := by
  obtain ⟨h1, _, c, r, rfl, h3⟩ := digits_run_of (radix := .decimal) h
  have h4 : Run .decimal r := by
    cases h1 with
    | digit _ h => exact h
    | underscore _ _ => exact absurd rfl (isDigitOf_plain h3).1
  have key : ∀ y, y ∈ ['x', 'X', 'o', 'O', 'b', 'B'] → (View eof p (c :: r ++ x :: more)).char1 ≠ some y := by
    intro y hy h
    rw [List.cons_append, view_cons_char1 (isDigitOf_plain h3).2.2.1] at h
    cases h4 with
    | nil =>
      rcases hx with rfl | rfl
      · rw [List.nil_append, view_cons_char0 (by decide)] at h
        cases h
        revert hy
        decide
      · rw [List.nil_append, view_cons_char0 (by decide)] at h
        cases h
        revert hy
        decide
    | digit hd _ =>
      rw [List.cons_append, view_cons_char0 (isDigitOf_plain hd).2.2.1] at h
      cases h
      have : ∀ y ∈ ['x', 'X', 'o', 'O', 'b', 'B'], ¬isDigitOf .decimal y := by decide
      exact this _ hy hd
    | underscore _ _ =>
      rw [List.cons_append, view_cons_char0 (by decide)] at h
      cases h
      revert hy
      decide
  unfold lexUnsigned
  rw [if_neg, if_neg, if_neg]
  · rintro ⟨_, h | h⟩
    · exact key _ (by decide) h
    · exact key _ (by decide) h
  · rintro ⟨_, h | h⟩
    · exact key _ (by decide) h
    · exact key _ (by decide) h
  · rintro ⟨_, h | h⟩
    · exact key _ (by decide) h
    · exact key _ (by decide) h

/-- An integer, after its sign. -/
theorem natural_lexed {base n start : Nat} {t v : List Char} {negative : Bool} (h : Natural base t v n)
    (he : Ends eof p (t ++ ' ' :: rest)) :
    NumberLexed eof p start (.int (signText negative ++ v) (if negative then -(n : Int) else n)) t rest
      (lexUnsigned (View eof p (t ++ ' ' :: rest)) start negative) := by
  cases h with
  | decimal h =>
    rw [lexUnsigned_plain h (.inl rfl)]
    exact decimal_lexed h he
  | @based x y base t n hx h =>
    simp only [List.cons_append] at he ⊢
    have hx2 : x ≠ '\r' ∧ x.utf8Size = 1 ∧ bytes ['0', x] = 2 := by
      have : ∀ q ∈ basePrefix, q.1 ≠ '\r' ∧ q.1.utf8Size = 1 ∧ bytes ['0', q.1] = 2 := by decide
      exact this _ hx
    have n1 := next1 he (by decide) (by decide)
    have n2 := next1 n1.2 hx2.1 hx2.2.1
    have h0 : (View eof p ('0' :: x :: (t ++ ' ' :: rest))).char0 = some '0' := view_cons_char0 (by decide)
    have h1 : (View eof p ('0' :: x :: (t ++ ' ' :: rest))).char1 = some x := by
      rw [view_cons_char1 (show '0' ≠ '\r' by decide), view_cons_char0 hx2.1]
    unfold lexUnsigned
    rw [h0, h1, n1.1, n2.1]
    simp only [basePrefix, List.mem_cons, Prod.mk.injEq, List.not_mem_nil, or_false] at hx
    rcases hx with ⟨rfl, rfl, rfl⟩ | ⟨rfl, rfl, rfl⟩ | ⟨rfl, rfl, rfl⟩ | ⟨rfl, rfl, rfl⟩ | ⟨rfl, rfl, rfl⟩ | ⟨rfl, rfl, rfl⟩
    · exact radix_lexed (radix := .hexadecimal) (by decide) hx2.2.2 h n2.2
    · exact radix_lexed (radix := .hexadecimal) (by decide) hx2.2.2 h n2.2
    · exact radix_lexed (radix := .octal) (by decide) hx2.2.2 h n2.2
    · exact radix_lexed (radix := .octal) (by decide) hx2.2.2 h n2.2
    · exact radix_lexed (radix := .binary) (by decide) hx2.2.2 h n2.2
    · exact radix_lexed (radix := .binary) (by decide) hx2.2.2 h n2.2

theorem lexed_number {tok : Token} {t : List Char} {s : Except LexicalError (Spanned × Lexer)}
    (h : NumberLexed eof p p tok t rest s) :
    Lexed eof p tok t rest ((s.bind noTrailingUnderscore).bind fun r => checkForMinus r.1 r.2) := by
  refine ⟨?_, h.2⟩
  rw [h.1]
  simp only [Except.bind, noTrailingUnderscore]
  rw [if_neg (by rw [view_cons_char0 (by decide)]; decide)]
  exact checkForMinus_space

theorem digitOf_isDigit (h : isDigitOf .decimal c) : isDigit c ∧ ¬isUpper c ∧ ¬isNameStart c ∧ c ≠ '-' := by
  obtain ⟨v, h1, h2⟩ := isDigitOf_iff.1 h
  have h3 : c ∈ "0123456789abcdefABCDEF".toList := isHex_mem (digit?_some h1).1
  have key : ∀ c ∈ "0123456789abcdefABCDEF".toList, isDigitOf .decimal c →
      isDigit c ∧ ¬isUpper c ∧ ¬isNameStart c ∧ c ≠ '-' := by decide
  exact key c h3 h

/-- A number without a sign is read by the step for numbers. -/
theorem unsigned_step {t : List Char} (hc : isDigitOf .decimal c) :
    consumeNormal (View eof p (c :: t)) =
      ((lexUnsigned (View eof p (c :: t)) p false).bind noTrailingUnderscore).bind fun r => checkForMinus r.1 r.2 := by
  obtain ⟨h1, h2, h3, h4⟩ := digitOf_isDigit hc
  unfold consumeNormal
  rw [view_cons_char0 (isDigitOf_plain hc).2.2.1]
  simp only
  rw [if_neg h2, if_neg h3, if_pos (by unfold isNumberStart; rw [h1]; rfl)]
  unfold lexNumber
  rw [view_cons_char0 (isDigitOf_plain hc).2.2.1, if_neg (by simpa using h4), location_cons]

theorem signed_step {t : List Char} (hc : isDigitOf .decimal c) (he : Ends eof p ('-' :: c :: t)) :
    consumeNormal (View eof p ('-' :: c :: t)) =
      ((lexUnsigned (View eof (p + 1) (c :: t)) p true).bind noTrailingUnderscore).bind fun r => checkForMinus r.1 r.2 := by
  obtain ⟨h1, h2, h3, h4⟩ := digitOf_isDigit hc
  have n1 := next1 he (by decide) (by decide)
  unfold consumeNormal
  rw [view_cons_char0 (by decide)]
  simp only
  rw [if_neg (by decide), if_neg (by decide), if_pos]
  · unfold lexNumber
    rw [view_cons_char0 (by decide), if_pos rfl, location_cons, n1.1]
  · unfold isNumberStart startsDigit
    rw [view_cons_char1 (by decide), view_cons_char0 (isDigitOf_plain hc).2.2.1]
    simp [h1]

theorem shift_number {tok : Token} {t : List Char} {s : Except LexicalError (Spanned × Lexer)}
    (h : NumberLexed eof (p + 1) p tok t rest s) : NumberLexed eof p p tok ('-' :: t) rest s := by
  have hq : p + 1 + bytes t = p + bytes ('-' :: t) := by
    rw [bytes_cons, show '-'.utf8Size = 1 by decide]
    omega
  unfold NumberLexed at h ⊢
  rw [hq] at h
  exact h

theorem natural_cons {base n : Nat} {t v : List Char} (h : Natural base t v n) :
    ∃ c r, t = c :: r ∧ isDigitOf .decimal c := by
  cases h with
  | decimal h =>
    obtain ⟨_, _, c, r, rfl, h3⟩ := digits_run_of (radix := .decimal) h
    exact ⟨c, r, rfl, h3⟩
  | based _ _ => exact ⟨'0', _, rfl, by decide⟩

theorem int_lexed {v t : List Char} {n : Int} (h : Reads (.int v n) t) (he : Ends eof p (t ++ ' ' :: rest)) :
    Lexed eof p (.int v n) t rest (consumeNormal (View eof p (t ++ ' ' :: rest))) := by
  obtain ⟨base, h⟩ := h
  cases h with
  | pos h =>
    obtain ⟨c, r, rfl, hc⟩ := natural_cons h
    have h1 := lexed_number (natural_lexed (start := p) (negative := false) h he)
    rw [List.cons_append] at he h1 ⊢
    rw [unsigned_step hc]
    exact h1
  | @neg t v n h =>
    obtain ⟨c, r, rfl, hc⟩ := natural_cons h
    have n1 := next1 he (by decide) (by decide)
    have h1 := lexed_number (shift_number (natural_lexed (start := p) (negative := true) h n1.2))
    simp only [List.cons_append] at he h1 ⊢
    rw [signed_step hc he]
    exact h1

theorem floatToken_lexed {v : List Char} (h : FloatText v) (he : Ends eof p (v ++ ' ' :: rest)) :
    Lexed eof p (.float v) v rest (consumeNormal (View eof p (v ++ ' ' :: rest))) := by
  obtain ⟨sign, whole, fraction, exponent, rfl, hs, hw, hf, hx⟩ := h
  obtain ⟨n, hn⟩ := hw
  obtain ⟨_, _, c, r, rfl, hc⟩ := digits_run_of (radix := .decimal) hn
  have hu : ∀ q negative, lexUnsigned (View eof q (c :: r ++ '.' :: (fraction ++ (exponent ++ ' ' :: rest)))) p negative =
      lexDecimalOrIntNumber (View eof q (c :: r ++ '.' :: (fraction ++ (exponent ++ ' ' :: rest)))) p negative true :=
    fun q negative => lexUnsigned_plain hn (.inr rfl)
  rcases hs with rfl | rfl
  · simp only [List.nil_append, List.append_assoc, List.cons_append] at he hu ⊢
    have h1 := lexed_number (float_lexed (start := p) (negative := false) ⟨n, hn⟩ hf hx he)
    rw [unsigned_step hc, hu]
    simp only [List.append_assoc, List.cons_append, signText, Bool.false_eq_true, if_false, List.nil_append] at h1
    exact h1
  · simp only [List.nil_append, List.append_assoc, List.cons_append] at he hu ⊢
    have n1 := next1 he (by decide) (by decide)
    have h1 := lexed_number (shift_number (float_lexed (start := p) (negative := true) ⟨n, hn⟩ hf hx n1.2))
    rw [signed_step hc he, hu]
    simp only [List.append_assoc, List.cons_append, signText, if_true, List.nil_append] at h1
    exact h1

/-! ### Strings -/

theorem hexRun_run {ds : List Char} (h : ∀ d ∈ ds, Strings.isHex d) (hr : c ≠ '\r') (h1 : c.utf8Size = 1)
    (he : Ends eof p (c :: (ds ++ '}' :: rest))) :
    hexRun (View eof p (c :: (ds ++ '}' :: rest))) = .ok (ds, View eof (p + 1 + bytes ds) ('}' :: rest)) ∧
      Ends eof (p + 1 + bytes ds) ('}' :: rest) := by
  induction ds generalizing p c with
  | nil =>
    have n1 := next1 he hr h1
    refine ⟨?_, n1.2⟩
    rw [hexRun, n1.1]
    split
    · rename_i h0
      rw [List.nil_append, view_cons_char0 (by decide)] at h0
      cases h0
    · rename_i h0
      rw [List.nil_append, view_cons_char0 (by decide)] at h0
      cases h0
      rfl
  | cons d ds ih =>
    have n1 := next1 he hr h1
    have hd := h d (by simp)
    have h2 := isHex_plain hd
    obtain ⟨h3, h4⟩ := ih (fun x hx => h x (by simp [hx])) h2.2.1 h2.2.2.2 n1.2
    have hq : p + 1 + 1 + bytes ds = p + 1 + bytes (d :: ds) := by rw [bytes_cons, h2.2.2.2]; omega
    rw [hq] at h3 h4
    refine ⟨?_, h4⟩
    rw [hexRun, n1.1]
    split
    · rename_i h0
      rw [List.cons_append, view_cons_char0 h2.2.1] at h0
      cases h0
    · rename_i h0
      rw [List.cons_append, view_cons_char0 h2.2.1] at h0
      cases h0
      rw [if_neg h2.2.2.1, if_neg (by simpa using hd), List.cons_append, h3]
      rfl

theorem unicode_lexed {ds : List Char} {v : Char} {slash : Nat} (h : (Strings.Spec.Piece.unicode ds).value? = some v)
    (he : Ends eof p ('{' :: (ds ++ '}' :: rest))) :
    lexUnicode slash (View eof p ('{' :: (ds ++ '}' :: rest))) = .ok (ds, View eof (p + 1 + bytes ds + 1) rest) ∧
      Ends eof (p + 1 + bytes ds + 1) rest := by
  obtain ⟨h1, h2, h3, h4, _⟩ := Strings.unicode_value h
  obtain ⟨h5, h6⟩ := hexRun_run h3 (by decide) (by decide) he
  have n1 := next1 h6 (by decide) (by decide)
  refine ⟨?_, n1.2⟩
  unfold lexUnicode
  rw [view_cons_char0 (by decide), if_neg (by simp), h5]
  simp only [Except.bind, closeBrace]
  rw [view_cons_char0 (by decide), if_neg (by simp), n1.1]
  unfold checkDigits
  rw [if_neg (by simp [h1, h2])]
  simp only
  cases hp : Strings.parseHex ds with
  | none => rw [hp] at h4; cases h4
  | some n =>
    rw [hp] at h4
    simp only [Option.bind_some] at h4
    simp only [h4]

/-- Reading the characters of a string. -/
theorem pieces_lexed {pieces : List Strings.Spec.Piece} {value : List Char} {start : Nat}
    (h : Strings.Spec.Denotes pieces value) (hr : '\r' ∉ Strings.Spec.text pieces)
    (he : Ends eof p (Strings.Spec.text pieces ++ '"' :: rest)) :
    stringRun start (View eof p (Strings.Spec.text pieces ++ '"' :: rest)) =
      .ok (Strings.Spec.text pieces, View eof (p + bytes (Strings.Spec.text pieces) + 1) rest) ∧
      Ends eof (p + bytes (Strings.Spec.text pieces) + 1) rest := by
  induction pieces generalizing p value with
  | nil =>
    have n1 := next1 he (by decide) (by decide)
    refine ⟨?_, n1.2⟩
    show stringRun start (View eof p ('"' :: rest)) = _
    rw [stringRun_quote (view_cons_char0 (by decide)), n1.1]
    rfl
  | cons piece pieces ih =>
    cases value with
    | nil => cases h
    | cons v vs =>
      unfold Strings.Spec.Denotes at h
      rw [List.map_cons, List.map_cons, List.cons.injEq] at h
      have htext : Strings.Spec.text (piece :: pieces) = piece.text ++ Strings.Spec.text pieces := rfl
      rw [htext] at hr he ⊢
      have hr2 : '\r' ∉ Strings.Spec.text pieces := fun hm => hr (by simp [hm])
      have ih2 := fun q he => @ih q vs h.2 hr2 he
      clear ih
      generalize Strings.Spec.text pieces = body at *
      have simple : ∀ e, isSimpleEscape e → piece.text = ['\\', e] →
          stringRun start (View eof p (piece.text ++ body ++ '"' :: rest)) =
            .ok (piece.text ++ body, View eof (p + bytes (piece.text ++ body) + 1) rest) ∧
            Ends eof (p + bytes (piece.text ++ body) + 1) rest := by
        intro e hs ht
        obtain ⟨_, h5, h6, _⟩ := simpleEscape_piece hs
        rw [ht] at he ⊢
        simp only [List.cons_append, List.nil_append] at he ⊢
        have n1 := next1 he (by decide) (by decide)
        have n2 := next1 n1.2 h5 h6
        obtain ⟨h7, h8⟩ := ih2 _ n2.2
        have hq : p + 1 + 1 + bytes body = p + bytes ('\\' :: e :: body) := by
          rw [bytes_cons, bytes_cons, h6, show '\\'.utf8Size = 1 by decide]
          omega
        rw [hq] at h7 h8
        refine ⟨?_, h8⟩
        rw [stringRun_slash (view_cons_char0 (by decide)) (e := e) (by rw [n1.1, view_cons_char0 h5]), if_pos hs, n1.1, n2.1, h7]
        rfl
      cases piece with
      | char d =>
        simp only [Strings.Spec.Piece.text, List.cons_append, List.nil_append, List.mem_cons, not_or] at hr he ⊢
        have hv := h.1
        simp only [Strings.Spec.Piece.value?] at hv
        split at hv
        · cases hv
        rename_i hd
        have h2 : d ≠ '\r' := fun h => hr.1 h.symm
        have hn := view_next h2 he
        obtain ⟨h7, h8⟩ := ih2 _ (ends_next h2 he)
        have hq : p + d.utf8Size + bytes body = p + bytes (d :: body) := by
          rw [bytes_cons]
          omega
        rw [hq] at h7 h8
        refine ⟨?_, h8⟩
        rw [stringRun_char (view_cons_char0 h2) (fun h => hd (.inl h)) (fun h => hd (.inr h)), hn, h7]
        rfl
      | newline => exact simple 'n' (by decide) rfl
      | carriageReturn => exact simple 'r' (by decide) rfl
      | formFeed => exact simple 'f' (by decide) rfl
      | tab => exact simple 't' (by decide) rfl
      | quote => exact simple '"' (by decide) rfl
      | backslash => exact simple '\\' (by decide) rfl
      | unicode ds =>
        simp only [Strings.Spec.Piece.text, List.cons_append, List.nil_append, List.append_assoc] at he ⊢
        have n1 := next1 he (by decide) (by decide)
        have n2 := next1 n1.2 (by decide) (by decide)
        obtain ⟨h5, h6⟩ := unicode_lexed (slash := (View eof (p + 1) ('u' :: '{' :: (ds ++ '}' :: (body ++ '"' :: rest)))).location0 - 1)
          h.1 n2.2
        obtain ⟨h7, h8⟩ := ih2 _ h6
        have hq : p + 1 + 1 + 1 + bytes ds + 1 + bytes body = p + bytes ('\\' :: 'u' :: '{' :: (ds ++ '}' :: body)) := by
          simp only [bytes_cons, bytes_append, show '\\'.utf8Size = 1 by decide, show 'u'.utf8Size = 1 by decide,
            show '{'.utf8Size = 1 by decide, show '}'.utf8Size = 1 by decide]
          omega
        rw [hq] at h7 h8
        refine ⟨?_, h8⟩
        rw [stringRun_slash (view_cons_char0 (by decide)) (e := 'u') (by rw [n1.1, view_cons_char0 (by decide)]),
          if_neg (by decide), if_pos rfl, n1.1, n2.1, h5]
        simp only [Except.bind]
        rw [h7]
        rfl

theorem unixLines_plain {t : List Char} (h : '\r' ∉ t) : unixLines t = t := by
  induction t with
  | nil => rfl
  | cons c t ih =>
    simp only [List.mem_cons, not_or] at h
    rw [unixLines_cons (fun hc => h.1 hc.symm), ih h.2]

theorem string_lexed {v t : List Char} (h : Reads (.string v) t) (hr : '\r' ∉ t) (he : Ends eof p (t ++ ' ' :: rest)) :
    Lexed eof p (.string v) t rest (consumeNormal (View eof p (t ++ ' ' :: rest))) := by
  obtain ⟨body, pieces, value, rfl, h1, h2, h3⟩ := h
  have hb : '\r' ∉ body := fun hm => hr (by simp [hm])
  rw [unixLines_plain hb] at h1
  subst h1
  subst h2
  simp only [List.cons_append, List.append_assoc, List.nil_append] at he ⊢
  have n1 := next1 he (by decide) (by decide)
  obtain ⟨h4, h5⟩ := pieces_lexed (start := p) h3 hb n1.2
  have hq : p + 1 + bytes (Strings.Spec.text pieces) + 1 = p + bytes ('"' :: (Strings.Spec.text pieces ++ ['"'])) := by
    simp only [bytes_cons, bytes_append, bytes_nil, show '"'.utf8Size = 1 by decide]
    omega
  rw [hq] at h4 h5
  refine ⟨?_, h5⟩
  have hs : consumeNormal (View eof p ('"' :: (Strings.Spec.text pieces ++ '"' :: ' ' :: rest))) =
      (lexString (View eof p ('"' :: (Strings.Spec.text pieces ++ '"' :: ' ' :: rest)))).map fun r => ([r.1], r.2) := by
    unfold consumeNormal
    rw [view_cons_char0 (by decide)]
    rfl
  rw [hs]
  unfold lexString
  rw [location_cons, n1.1, h4]
  simp only [Except.map, location_cons]

/-! ### All tokens -/

/-- A token that can be written on its own: not a comment, a line ending or the end of the text. -/
def Plain1 (tok : Token) : Prop := lead tok = [] ∧ tok ≠ .newLine

theorem token_lexed {tok : Token} {t : List Char} (h : Reads tok t) (hp : Plain1 tok) (hr : '\r' ∉ t)
    (he : Ends eof p (t ++ ' ' :: rest)) :
    Lexed eof p tok t rest (consumeNormal (View eof p (t ++ ' ' :: rest))) := by
  cases tok with
  | name n =>
    obtain ⟨rfl, ⟨c, r, rfl, h1, h2⟩, h3, h4⟩ := h
    have hs : isLower c := by simp [isLower, h1, h2]
    have hu : c ≠ '_' := by
      rintro rfl
      revert h1
      decide
    have h5 := word_lexed (c := c) rfl (by simp [isNameStart, hs]) h3 he
    unfold nameToken at h5
    rw [not_keyword h4] at h5
    simp only [List.head?_cons, Option.some.injEq, hu, if_false] at h5
    exact h5
  | upName n =>
    obtain ⟨rfl, ⟨c, r, rfl, h1, h2⟩, h3⟩ := h
    exact upName_lexed (c := c) rfl (by simp [isUpper, h1, h2]) h3 he
  | discardName n =>
    obtain ⟨rfl, ⟨r, rfl⟩, h3⟩ := h
    have h5 := word_lexed (c := '_') rfl (by decide) h3 he
    rw [discard_token] at h5
    exact h5
  | int v n => exact int_lexed h he
  | float v =>
    obtain ⟨rfl, h⟩ := h
    exact floatToken_lexed h he
  | string v => exact string_lexed h hr he
  | commentDoc c => cases hp.1
  | commentNormal => cases hp.1
  | commentModule => cases hp.1
  | newLine => exact absurd rfl hp.2
  | symbol s => cases h; exact symbol_lexed s he
  | keyword k =>
    cases h
    obtain ⟨c, h1, h2⟩ := keyword_start k
    have h5 := word_lexed h1 h2 (keyword_chars k) he
    rw [keyword_token] at h5
    exact h5
  | endOfFile => cases h

/-- A token is not empty and starts with a character of one byte. -/
theorem reads_start {tok : Token} {t : List Char} (h : Reads tok t) (hp : Plain1 tok) :
    ∃ c r, t = c :: r ∧ c.utf8Size = 1 := by
  have size : ∀ {c : Char} {r : List Char}, (∀ d ∈ c :: r, NameChar d) → c.utf8Size = 1 :=
    fun h => (nameChar_ascii (h _ (by simp))).1
  cases tok with
  | name n =>
    obtain ⟨rfl, ⟨c, r, rfl, _⟩, h3, _⟩ := h
    exact ⟨c, r, rfl, size h3⟩
  | upName n =>
    obtain ⟨rfl, ⟨c, r, rfl, _⟩, h3⟩ := h
    exact ⟨c, r, rfl, size h3⟩
  | discardName n =>
    obtain ⟨rfl, ⟨r, rfl⟩, h3⟩ := h
    exact ⟨_, r, rfl, size h3⟩
  | int v n =>
    obtain ⟨base, h⟩ := h
    cases h with
    | pos h =>
      obtain ⟨c, r, rfl, hc⟩ := natural_cons h
      exact ⟨c, r, rfl, (isDigitOf_plain hc).2.2.2.2.2.2⟩
    | neg h => exact ⟨'-', _, rfl, by decide⟩
  | float v =>
    obtain ⟨rfl, sign, whole, fraction, exponent, rfl, hs, ⟨n, hn⟩, _⟩ := h
    obtain ⟨_, _, c, r, rfl, hc⟩ := digits_run_of (radix := .decimal) hn
    rcases hs with rfl | rfl
    · exact ⟨c, _, rfl, (isDigitOf_plain hc).2.2.2.2.2.2⟩
    · exact ⟨'-', _, rfl, by decide⟩
  | string v =>
    obtain ⟨body, _, _, rfl, _⟩ := h
    exact ⟨'"', _, rfl, by decide⟩
  | commentDoc c => cases hp.1
  | commentNormal => cases hp.1
  | commentModule => cases hp.1
  | newLine => exact absurd rfl hp.2
  | symbol s => cases h; cases s <;> exact ⟨_, _, rfl, by decide⟩
  | keyword k => cases h; cases k <;> exact ⟨_, _, rfl, by decide⟩
  | endOfFile => cases h

theorem collect_congr {l l' : Lexer} (h : fill l = fill l') : (Iter.mk l []).collect = (Iter.mk l' []).collect := by
  cases hf : fill l' with
  | error e =>
    rw [collect_error (it := ⟨l, []⟩) (it' := ⟨l, []⟩) (e := e) (by simp [Iter.next, h, hf]),
      collect_error (it := ⟨l', []⟩) (it' := ⟨l', []⟩) (e := e) (by simp [Iter.next, hf])]
  | ok r =>
    have hn : (Iter.mk l []).next = (Iter.mk l' []).next := by
      unfold Iter.next
      simp only [h, hf]
      obtain ⟨ts, l2⟩ := r
      cases ts <;> rfl
    cases h4 : (Iter.mk l' []).next with
    | mk a it =>
      rcases a with _ | e | u
      · rw [collect_none h4, collect_none (hn.trans h4)]
      · rw [collect_error h4, collect_error (hn.trans h4)]
      · rw [collect_ok h4, collect_ok (hn.trans h4)]

/-- One token that is followed by a space, and what comes after it. -/
theorem collect_token {tok : Token} {t : List Char} (h : Reads tok t) (hp : Plain1 tok) (hr : '\r' ∉ t)
    (he : Ends eof p (t ++ ' ' :: rest)) :
    Ends eof (p + bytes t + 1) rest ∧
    (Iter.mk (View eof p (t ++ ' ' :: rest)) []).collect =
      (⟨p, tok, p + bytes t⟩ :: (Iter.mk (View eof (p + bytes t) (' ' :: rest)) []).collect.1,
        (Iter.mk (View eof (p + bytes t) (' ' :: rest)) []).collect.2) ∧
    (Iter.mk (View eof (p + bytes t) (' ' :: rest)) []).collect = (Iter.mk (View eof (p + bytes t + 1) rest) []).collect := by
  obtain ⟨h1, h2⟩ := token_lexed h hp hr he
  have n1 := next1 h2 (by decide) (by decide)
  have hne : tok ≠ .endOfFile := by
    rintro rfl
    exact h
  refine ⟨n1.2, ?_, ?_⟩
  · have hf : fill (View eof p (t ++ ' ' :: rest)) = .ok ([⟨p, tok, p + bytes t⟩], View eof (p + bytes t) (' ' :: rest)) := by
      rw [fill]
      split
      · rename_i h3; rw [h1] at h3; cases h3
      · rename_i h3
        rw [h1] at h3
        cases h3
        rw [dif_neg (by simp)]
    apply collect_ok
    simp [Iter.next, hf, answer, hne]
  · have hs : consumeNormal (View eof (p + bytes t) (' ' :: rest)) = .ok ([], View eof (p + bytes t + 1) rest) := by
      unfold consumeNormal
      rw [view_cons_char0 (by decide)]
      simp only [isUpper, isNameStart, isLower, isNumberStart, isDigit]
      show lexBlank ' ' _ = _
      unfold lexBlank
      rw [if_neg (by decide), n1.1]
    have hf : fill (View eof (p + bytes t) (' ' :: rest)) = fill (View eof (p + bytes t + 1) rest) := by
      rw [fill]
      split
      · rename_i h3; rw [hs] at h3; cases h3
      · rename_i h3
        rw [hs] at h3
        cases h3
        rw [dif_pos rfl]
    exact collect_congr hf

end

/-- Tokens, each followed by a space. -/
theorem collect_spaced {eof : Nat} (items : List (Token × List Char)) (p : Nat)
    (h : ∀ i ∈ items, Reads i.1 i.2 ∧ Plain1 i.1 ∧ '\r' ∉ i.2) (he : Ends eof p (spaced items)) :
    (Iter.mk (View eof p (spaced items)) []).collect = (spacedTokens p items, none) := by
  induction items generalizing p with
  | nil =>
    show (Iter.mk (View eof p []) []).collect = ([], none)
    refine collect_none (it' := ⟨View eof p [], []⟩) ?_
    have hf : fill (View eof p []) = .ok ([⟨(View eof p []).location0, .endOfFile, (View eof p []).location0⟩], View eof p []) := by
      have hs : consumeNormal (View eof p []) =
          .ok ([⟨(View eof p []).location0, .endOfFile, (View eof p []).location0⟩], View eof p []) := rfl
      rw [fill]
      split
      · rename_i h3; rw [hs] at h3; cases h3
      · rename_i h3
        rw [hs] at h3
        cases h3
        rw [dif_neg (by simp)]
    simp only [Iter.next]
    rw [hf]
    rfl
  | cons i items ih =>
    obtain ⟨tok, t⟩ := i
    obtain ⟨h1, h2, h3⟩ := h (tok, t) (by simp)
    have hs : spaced ((tok, t) :: items) = t ++ ' ' :: spaced items := by simp [spaced]
    rw [hs] at he ⊢
    obtain ⟨h4, h5, h6⟩ := collect_token h1 h2 h3 he
    rw [h5, h6, ih _ (fun i hi => h i (by simp [hi])) h4]
    rfl

theorem tokens_spaced (items : List (Token × List Char)) (h : ∀ i ∈ items, Reads i.1 i.2 ∧ Plain1 i.1 ∧ '\r' ∉ i.2) :
    tokens (spaced items) = (spacedTokens 0 items, none) := by
  have hb : body (spaced items) = (0, spaced items) := by
    cases items with
    | nil => rfl
    | cons i items =>
      obtain ⟨c, r, h1, h2⟩ := reads_start (h i (by simp)).1 (h i (by simp)).2.1
      have hs : spaced (i :: items) = c :: (r ++ ' ' :: spaced items) := by simp [spaced, h1]
      rw [hs]
      show (if c = byteOrderMark then _ else _) = _
      rw [if_neg]
      rintro rfl
      revert h2
      decide
  have hn := new_eq (spaced items)
  rw [hb] at hn
  unfold tokens makeTokenizer
  rw [hn.1]
  exact collect_spaced items 0 h hn.2

end Verif.Lexer
