import Verif.Lexer.Complete

/-!
**C26**: the tokens of a text are its parts, in order, and their spans say where they are.
**C27**: reading the tokens of a text ends.
**C60**: a minus sign after a name or a number is an operator.
**C61**: every token that is written with a space after it is read.
-/
namespace Verif.Lexer
open Spec

/-! ### C26 -/

/-- **C26.** The text is made of its tokens, with blanks between them. Each token stands for its text, is as long as it
can be and starts where its text starts. If no error is reported the tokens make up the whole text. -/
theorem tokens_cover_the_text (source : List Char) :
    ∃ p rest, Covers (endOffset source) (body source).1 (body source).2 (tokens source).1 p rest ∧
      ((tokens source).2 = none → rest = []) := by
  obtain ⟨p, rest, h1, h2, _⟩ := tokens_cover source
  exact ⟨p, rest, h1, h2⟩

/-- **C26.** The tokens are in order and do not overlap. -/
theorem spans_are_in_order (source : List Char) : (tokens source).1.Pairwise fun t u => t.stop ≤ u.start := by
  obtain ⟨p, rest, h, _⟩ := tokens_cover source
  exact covers_ordered h

/-- **C26.** Every token lies within the text and starts at a character. -/
theorem spans_are_within_the_text (source : List Char) :
    ∀ t ∈ (tokens source).1, Boundary source t.start ∧ t.start ≤ t.stop ∧ t.stop ≤ bytes source :=
  fun t ht => placed_start (tokens_placed source t ht)

/-- **C26.** The text under the span of a token is the text of that token, for all tokens but comments and line endings. -/
theorem span_of_token_is_its_text (source : List Char) :
    ∀ t ∈ (tokens source).1, Inner t.token → ∃ text, Reads t.token text ∧ TextAt source t.start t.stop text := by
  intro t ht hi
  refine placed_exact (tokens_placed source t ht) (.inr ?_)
  cases hk : t.token <;> simp_all [Open, Inner]

/-- **C26 (partial).** The same for comments and line endings if the last character of the text is one byte long and the
text does not end with `\r\n`. `Witnesses.lean` shows that both conditions are needed. -/
theorem span_of_every_token_is_its_text_partial (source : List Char) (h : PlainEnd source) :
    ∀ t ∈ (tokens source).1, ∃ text, Reads t.token text ∧ TextAt source t.start t.stop text := by
  intro t ht
  refine placed_exact (tokens_placed source t ht) (.inl ?_)
  rcases List.eq_nil_or_concat source with rfl | ⟨s, c, rfl⟩
  · have := tokens_length []
    rw [List.length_nil, Nat.le_zero, List.length_eq_zero_iff] at this
    rw [this] at ht
    cases ht
  · rw [List.concat_eq_append] at *
    have hc := h.1 c (by simp)
    rw [endOffset_append]
    · rw [bytes_append]
      simp [bytes, hc]
    · rintro ⟨rfl, h2⟩
      obtain ⟨s', rfl⟩ := List.getLast?_eq_some_iff.1 h2
      exact h.2 ⟨s', by simp⟩

/-- A text with names, numbers, strings, comments and line endings, which has no errors. -/
def sampleText : List Char := "// à\r\nlet x1 = 0x_1F -. a.0\t<>\"é\\n\" // ok".toList

example : (tokens sampleText).2 = none ∧ (tokens sampleText).1.length = 13 ∧
    (tokens sampleText).1.map (·.token) =
      [.commentNormal, .newLine, .keyword .let_, .name ['x', '1'], .symbol .equal, .int "0x_1F".toList 31,
        .symbol .minusDot, .name ['a'], .symbol .dot, .int ['0'] 0, .symbol .concatenate, .string ['é', '\\', 'n'],
        .commentNormal] ∧
    PlainEnd sampleText := by
  refine ⟨by decide +kernel, by decide +kernel, by decide +kernel, ?_, by decide +kernel⟩
  intro c hc
  have : sampleText.getLast? = some 'k' := by decide +kernel
  rw [this] at hc
  cases hc
  decide

/-! ### C27 -/

theorem finished_of_end {l : Lexer} (h : l.char0 = none) : Finished ⟨l, []⟩ := by
  have h1 := char0_none_next h
  refine .intro fun n => ?_
  have h2 : ((fun i : Iter => i.next.2)^[n] ⟨l, []⟩) = ⟨l, []⟩ := by
    induction n with
    | zero => rfl
    | succ n ih => rw [Function.iterate_succ_apply', ih, h1]
  rw [h2, h1]

/-- An iterator over a text that is at the end gives the end from then on. -/
theorem finished_of_none {eof p : Nat} {text : List Char} (he : Ends eof p text)
    (h : (Iter.mk (View eof p text) []).next.1 = none) : Finished ⟨View eof p text, []⟩ := by
  rcases fill_view p text he with ⟨e, h1, _⟩ | ⟨p', q, h1, _⟩ | ⟨r, p', rest, h1, h2, _, _, h5, _⟩
  · simp [Iter.next, h1] at h
  · have h2 : (Iter.mk (View eof p text) []).next = (none, ⟨View eof p' [], []⟩) := by simp [Iter.next, h1, answer]
    refine .intro fun n => ?_
    cases n with
    | zero => exact h
    | succ n =>
      rw [Function.iterate_succ_apply, h2]
      cases finished_of_end (l := View eof p' []) rfl with
      | intro h3 => exact h3 n
  · obtain ⟨ts, l⟩ := r
    cases ts with
    | nil => exact absurd rfl h2
    | cons t ts =>
      have := h5 t (by simp)
      simp [Iter.next, h1, answer, this] at h

theorem yields_pending {l : Lexer} {ts : List Spanned} {e : Option LexicalError} (pending : List Spanned)
    (h : ∀ t ∈ pending, t.token ≠ .endOfFile) (hy : Yields ⟨l, []⟩ ts e) : Yields ⟨l, pending⟩ (pending ++ ts) e := by
  induction pending with
  | nil => exact hy
  | cons t pending ih =>
    refine .token (it' := ⟨l, pending⟩) ?_ (ih fun t ht => h t (by simp [ht]))
    simp [Iter.next, answer, h t (by simp)]

theorem yields_view {eof : Nat} (p : Nat) (text : List Char) (he : Ends eof p text) :
    Yields ⟨View eof p text, []⟩ (Iter.mk (View eof p text) []).collect.1 (Iter.mk (View eof p text) []).collect.2 := by
  generalize hk : (View eof p text).remaining = k
  induction k using Nat.strongRecOn generalizing text p with
  | ind k ih =>
    rcases fill_view p text he with ⟨e, h1, h2⟩ | ⟨p', q, h1, h2⟩ | ⟨r, p', rest, h1, h2, h3, h4, h5, h6⟩
    · have hn : (Iter.mk (View eof p text) []).next = (some (.error e), ⟨View eof p text, []⟩) := by
        simp [Iter.next, h1]
      rw [collect_error hn]
      exact .error (by rw [hn])
    · have hn : (Iter.mk (View eof p text) []).next = (none, ⟨View eof p' [], []⟩) := by
        simp [Iter.next, h1, answer]
      rw [collect_none hn]
      exact .finish (finished_of_none he (by rw [hn]))
    · obtain ⟨ts, l⟩ := r
      simp only at h2 h3 h5 h6
      cases ts with
      | nil => exact absurd rfl h2
      | cons t ts =>
        have hlt : l.remaining < k := by
          rcases fill_uses h1 with h7 | ⟨q, h7⟩
          · simp only [List.length_cons] at h7
            omega
          · cases h7
            exact absurd rfl (h5 _ List.mem_cons_self)
        have hn : (Iter.mk (View eof p text) []).next = (some (.ok t), ⟨l, ts⟩) := by
          simp [Iter.next, h1, answer, h5 t (by simp)]
        rw [collect_ok hn, collect_pending _ _ fun t ht => h5 t (by simp [ht])]
        rw [h3] at hlt hn ⊢
        exact .token hn (yields_pending ts (fun t ht => h5 t (by simp [ht])) (ih _ hlt p' rest h4 rfl))

/-- **C27.** Reading tokens from a text ends: after at most one token for each character there is an error, which is not
a panic, or the end of the text, at which the iterator stays. -/
theorem reading_tokens_ends (source : List Char) :
    ∃ ts last, Yields (makeTokenizer source) ts last ∧ ts.length ≤ source.length ∧
      ∀ e, last = some e → e.error ≠ .panic := by
  refine ⟨(tokens source).1, (tokens source).2, ?_, tokens_length source, ?_⟩
  · have h := new_eq source
    unfold tokens makeTokenizer
    rw [h.1]
    exact yields_view _ _ h.2
  · obtain ⟨_, _, _, _, h⟩ := tokens_cover source
    exact h

/-- The end is reported for a text without tokens and for one with tokens; errors are reported. -/
example : (tokens " \t".toList) = ([], none) ∧ (tokens "a+b".toList).1.length = 3 ∧
    (tokens "a ? b".toList) = ([⟨0, .name ['a'], 1⟩], some ⟨.unrecognizedToken '?', 2, 2⟩) := by decide +kernel

/-! ### C60 -/

/-- **C60 (partial).** A number with a minus sign never directly follows a name, a keyword or a number, unless that is an
index into a tuple. Missing are the other things an expression may end with: `Witnesses.lean` shows that `-1` is a number
in `X-1`, `f(x)-1` and `x.1-1`. -/
theorem minus_after_word_is_an_operator_partial (source : List Char) {before after : List Spanned} {t u : Spanned}
    (h : (tokens source).1 = before ++ t :: u :: after) (hadj : u.start = t.stop) (hw : Word t.token)
    (hn : Negative u.token) : ∃ before' d, before = before' ++ [d] ∧ d.token = .symbol .dot ∧ d.stop = t.start := by
  obtain ⟨p, rest, hc, _⟩ := tokens_cover source
  exact covers_minus hc h hadj hw hn

/-- After a name the sign is an operator; after a space it is a sign. -/
example : (tokens "x-1 -1".toList).1.map (·.token) =
    [.name ['x'], .symbol .minus, .int ['1'] 1, .int ['-', '1'] (-1)] := by decide +kernel

/-! ### C61 -/

/-- **C61.** Tokens written one after the other, each followed by a space, are read as these tokens, at the places where
they are. (Comments and line endings cannot be written like this. A carriage return in a string is read as a line feed.) -/
theorem written_tokens_are_read (items : List (Token × List Char))
    (h : ∀ i ∈ items, Reads i.1 i.2 ∧ Inner i.1 ∧ '\r' ∉ i.2) :
    tokens (spaced items) = (spacedTokens 0 items, none) := by
  refine tokens_spaced items fun i hi => ?_
  obtain ⟨h1, h2, h3⟩ := h i hi
  refine ⟨h1, ?_, h3⟩
  cases hk : i.1 <;> simp_all [Inner, Plain1, lead]

/-- Different integers are written differently: `-0b101` is minus five. -/
example : Reads (.int "-0b101".toList (-5)) "-0B101".toList ∧ Reads (.symbol .lessEqualDot) "<=.".toList ∧
    Inner (.int "-0b101".toList (-5)) := by
  refine ⟨⟨2, .neg (.based (x := 'B') (y := 'b') (t := "101".toList) (n := 5) (by decide) (.inl ?_))⟩, rfl, trivial⟩
  have h1 : Digits 2 ['1'] 1 := .one (by decide) (by decide)
  have h2 : Digits 2 ['1', '0'] 2 := .more (n := 1) h1 (v := 0) (by decide) (by decide)
  exact .more (n := 2) h2 (v := 1) (by decide) (by decide)

end Verif.Lexer
