import Verif.Lexer.NumberTokens
import Verif.Strings.Lemmas

/-!
# Strings cover the text they read
-/
namespace Verif.Lexer
open Spec

section
variable {eof p start : Nat} {c : Char} {text rest : List Char}

theorem unixLines_cons (h : c ≠ '\r') : unixLines (c :: rest) = c :: unixLines rest := by
  rw [unixLines]
  · rintro r rfl rfl; exact h rfl
  · rintro rfl; exact h rfl

theorem unixLines_lineEnd {nl : List Char} (h : LineEnd nl) (h2 : nl = ['\r'] → rest.head? ≠ some '\n') :
    unixLines (nl ++ rest) = '\n' :: unixLines rest := by
  rcases h with rfl | rfl | rfl
  · exact unixLines_cons (by decide)
  · have h3 := h2 rfl
    cases rest with
    | nil => rfl
    | cons d rest =>
      simp only [List.cons_append, List.nil_append]
      rw [unixLines]
      rintro r ⟨rfl, rfl⟩
      exact h3 rfl
  · rfl

theorem isHex_plain (h : Strings.isHex c) : c ≠ '\n' ∧ c ≠ '\r' ∧ c ≠ '}' ∧ c.utf8Size = 1 := by
  have h1 := isHex_mem h
  clear h
  revert h1
  revert c
  decide

/-- Reading the digits of `\u{...}`, from the character before them. -/
theorem hexRun_view (p : Nat) (c : Char) (text : List Char) (hr : c ≠ '\r') (h1 : c.utf8Size = 1)
    (he : Ends eof p (c :: text)) :
    (∃ e, hexRun (View eof p (c :: text)) = .error e ∧ e.error ≠ .panic) ∨
    ∃ ds rest, text = ds ++ rest ∧ hexRun (View eof p (c :: text)) = .ok (ds, View eof (p + 1 + bytes ds) rest) ∧
      Ends eof (p + 1 + bytes ds) rest ∧ (∀ d ∈ ds, Strings.isHex d) := by
  induction text generalizing p c with
  | nil =>
    have hn := view_next hr he
    have he2 := ends_next hr he
    rw [h1] at hn he2
    refine .inr ⟨[], [], rfl, ?_, he2, by simp⟩
    rw [hexRun, hn]
    split
    · rfl
    · rename_i h; cases h
  | cons d text ih =>
    have hn := view_next hr he
    have he2 := ends_next hr he
    rw [h1] at hn he2
    rw [hexRun, hn]
    split
    · rename_i h0
      cases view_char0_none h0
    · rename_i d' h0
      split
      · rename_i hb
        subst hb
        exact .inr ⟨[], d :: text, rfl, rfl, he2, by simp⟩
      split
      · exact .inl ⟨_, rfl, by simp⟩
      · rename_i hb hx
        have hx2 : Strings.isHex d' := by simpa using hx
        have h2 := isHex_plain hx2
        obtain ⟨r, h3, _⟩ := view_char0_some h0 h2.1
        cases h3
        rcases ih (p + 1) d h2.2.1 h2.2.2.2 he2 with ⟨e, h4, h5⟩ | ⟨ds, rest, h4, h5, h6, h7⟩
        · rw [h4]
          exact .inl ⟨e, rfl, h5⟩
        · rw [h5]
          have hq : p + 1 + 1 + bytes ds = p + 1 + bytes (d :: ds) := by rw [bytes_cons, h2.2.2.2]; omega
          rw [hq] at h6 ⊢
          refine .inr ⟨d :: ds, rest, by rw [h4]; rfl, rfl, h6, ?_⟩
          intro x hx
          rcases List.mem_cons.1 hx with hx | hx
          · rw [hx]; exact hx2
          · exact h7 x hx

/-- Reading `{...}` after `\u`. -/
theorem lexUnicode_view (slash : Nat) (text : List Char) (he : Ends eof p text) :
    (∃ e, lexUnicode slash (View eof p text) = .error e ∧ e.error ≠ .panic) ∨
    ∃ ds rest value, text = '{' :: (ds ++ '}' :: rest) ∧
      lexUnicode slash (View eof p text) = .ok (ds, View eof (p + bytes ('{' :: (ds ++ ['}']))) rest) ∧
      Ends eof (p + bytes ('{' :: (ds ++ ['}']))) rest ∧ (Strings.Spec.Piece.unicode ds).value? = some value ∧
      (∀ d ∈ ds, Strings.isHex d) := by
  unfold lexUnicode
  split
  · exact .inl ⟨_, rfl, by simp⟩
  rename_i h
  obtain ⟨r, rfl, hn, he2⟩ := view_is (Decidable.not_not.1 h) he
  rcases hexRun_view p '{' r (by decide) (by decide) he with ⟨e, h1, h2⟩ | ⟨ds, rest, h1, h2, h3, h4⟩
  · rw [h1]
    exact .inl ⟨e, rfl, h2⟩
  · rw [h2]
    simp only [Except.bind, closeBrace]
    split
    · exact .inl ⟨_, rfl, by simp⟩
    rename_i hb
    obtain ⟨rest', rfl, hn2, he3⟩ := view_is (Decidable.not_not.1 hb) h3
    rw [hn2]
    unfold checkDigits
    simp only
    split
    · exact .inl ⟨_, rfl, by simp⟩
    rename_i hlen
    have hlen2 := Decidable.not_not.1 hlen
    have hag := Strings.unicode_agree ds hlen2.1 hlen2.2 h4
    have hp : Strings.parseHex ds = some (ds.foldl (fun a c => a * 16 + Strings.hexVal c) 0) := by
      have hlt := Strings.foldl_hex_lt ds h4 0
      have hp : 16 ^ ds.length ≤ 16 ^ 6 := Nat.pow_le_pow_right (by omega) hlen2.2
      unfold Strings.parseHex
      rw [if_neg]
      rintro (rfl | h3)
      · simp at hlen2
      · omega
    rw [hp] at hag ⊢
    simp only
    split
    · exact .inl ⟨_, rfl, by simp⟩
    · rename_i n hn
      simp only [Option.bind_some] at hag
      rw [hn] at hag
      have hq : p + 1 + bytes ds + 1 = p + bytes ('{' :: (ds ++ ['}'])) := by
        simp only [bytes_cons, bytes_append, bytes_nil]
        have h8 : '{'.utf8Size = 1 := by decide
        have h9 : '}'.utf8Size = 1 := by decide
        omega
      rw [hq] at he3 ⊢
      refine .inr ⟨ds, rest', n, by rw [h1], rfl, he3, ?_, h4⟩
      simp only [Strings.Spec.Piece.value?]
      rw [if_pos hlen2]
      exact hag.symm

/-- Reading a string, after the quote that starts it. -/
def ReadsString (eof p : Nat) (text : List Char) (s : Except LexicalError (List Char × Lexer)) : Prop :=
  (∀ e, s = .error e → e.error ≠ .panic) ∧
  ∀ r, s = .ok r → ∃ content rest pieces value, text = content ++ '"' :: rest ∧
    r = (unixLines content, View eof (p + bytes content + 1) rest) ∧ Ends eof (p + bytes content + 1) rest ∧
    Strings.Spec.text pieces = unixLines content ∧ Strings.Spec.Denotes pieces value

/-- One more piece before a string. -/
theorem readsString_cons {s : Except LexicalError (List Char × Lexer)} {piece : Strings.Spec.Piece} {value : Char}
    {q : Nat} {t u : List Char} {f : List Char → List Char} (hs : ReadsString eof q rest s) (hq : q = p + bytes t)
    (htext : text = t ++ rest) (hu : piece.text = u) (hf : ∀ v, f v = u ++ v) (hv : piece.value? = some value)
    (hl : ∀ content more, rest = content ++ '"' :: more → unixLines (t ++ content) = u ++ unixLines content) :
    ReadsString eof p text (s.map fun r => (f r.1, r.2)) := by
  constructor
  · intro e he
    cases s with
    | error e' => cases he; exact hs.1 e rfl
    | ok r => cases he
  · intro r hr
    cases s with
    | error e => cases hr
    | ok r' =>
      cases hr
      obtain ⟨content, more, pieces, vs, h1, h2, h3, h4, h5⟩ := hs.2 r' rfl
      subst hq h2
      have hb : p + bytes t + bytes content + 1 = p + bytes (t ++ content) + 1 := by rw [bytes_append]; omega
      rw [hb] at h3
      refine ⟨t ++ content, more, piece :: pieces, value :: vs, by rw [htext, h1]; simp, ?_, h3, ?_, ?_⟩
      · rw [hl content more h1, ← hb]
        simp only
        rw [hf]
      · rw [hl content more h1, ← h4, ← hu]
        rfl
      · unfold Strings.Spec.Denotes at h5 ⊢
        rw [List.map_cons, List.map_cons, h5, hv]

theorem stringRun_quote {l : Lexer} (h0 : l.char0 = some '"') : stringRun start l = .ok ([], l.nextChar) := by
  rw [stringRun]
  split
  · simp_all
  · rename_i c' h0'
    rw [h0] at h0'
    cases h0'
    rfl

theorem stringRun_end {l : Lexer} (h0 : l.char0 = none) : stringRun start l = .error ⟨.unexpectedStringEnd, start, start⟩ := by
  rw [stringRun]
  split
  · rfl
  · simp_all

theorem stringRun_char {l : Lexer} (h0 : l.char0 = some c) (h1 : c ≠ '\\') (h2 : c ≠ '"') :
    stringRun start l = (stringRun start l.nextChar).map fun r => (c :: r.1, r.2) := by
  rw [stringRun]
  split
  · simp_all
  · rename_i c' h0'
    rw [h0] at h0'
    cases h0'
    rw [if_neg h1, if_neg h2]

theorem stringRun_slash_end {l : Lexer} (h0 : l.char0 = some '\\') (h1 : l.nextChar.char0 = none) :
    stringRun start l = .error ⟨.badStringEscape, l.nextChar.location0 - 1, l.nextChar.location0 - 1⟩ := by
  rw [stringRun]
  split
  · simp_all
  · rename_i c' h0'
    rw [h0] at h0'
    cases h0'
    rw [if_pos rfl]
    split
    · rfl
    · simp_all

theorem stringRun_slash {l : Lexer} {e : Char} (h0 : l.char0 = some '\\') (h1 : l.nextChar.char0 = some e) :
    stringRun start l =
      if isSimpleEscape e then (stringRun start l.nextChar.nextChar).map fun r => ('\\' :: e :: r.1, r.2)
      else if e = 'u' then
        (lexUnicode (l.nextChar.location0 - 1) l.nextChar.nextChar).bind fun u =>
          (stringRun start u.2).map fun r => ('\\' :: 'u' :: '{' :: (u.1 ++ '}' :: r.1), r.2)
      else .error ⟨.badStringEscape, l.nextChar.location0 - 1, l.nextChar.location0⟩ := by
  rw [stringRun]
  split
  · simp_all
  · rename_i c' h0'
    rw [h0] at h0'
    cases h0'
    rw [if_pos rfl]
    split
    · simp_all
    · rename_i e' h1'
      rw [h1] at h1'
      cases h1'
      split
      · rfl
      split
      · cases hu : lexUnicode (l.nextChar.location0 - 1) l.nextChar.nextChar with
        | error e => split <;> simp_all [Except.bind]
        | ok u =>
          split
          · simp_all
          · rename_i hu'
            cases hu'
            rfl
      · rfl

theorem simpleEscape_piece {e : Char} (h : isSimpleEscape e) :
    e ≠ '\n' ∧ e ≠ '\r' ∧ e.utf8Size = 1 ∧ ∃ piece : Strings.Spec.Piece, piece.text = ['\\', e] ∧ ∃ v, piece.value? = some v := by
  simp only [isSimpleEscape, Bool.or_eq_true, beq_iff_eq] at h
  rcases h with ((((rfl | rfl) | rfl) | rfl) | rfl) | rfl
  · exact ⟨by decide, by decide, by decide, .formFeed, rfl, _, rfl⟩
  · exact ⟨by decide, by decide, by decide, .newline, rfl, _, rfl⟩
  · exact ⟨by decide, by decide, by decide, .carriageReturn, rfl, _, rfl⟩
  · exact ⟨by decide, by decide, by decide, .tab, rfl, _, rfl⟩
  · exact ⟨by decide, by decide, by decide, .quote, rfl, _, rfl⟩
  · exact ⟨by decide, by decide, by decide, .backslash, rfl, _, rfl⟩

theorem unixLines_hex {ds : List Char} (h : ∀ d ∈ ds, Strings.isHex d) (rest : List Char) :
    unixLines (ds ++ rest) = ds ++ unixLines rest := by
  induction ds with
  | nil => rfl
  | cons d ds ih =>
    rw [List.cons_append, unixLines_cons (isHex_plain (h d (by simp))).2.1, ih fun x hx => h x (by simp [hx])]
    rfl

theorem readsString_error {e : LexicalError} (h : e.error ≠ .panic) : ReadsString eof p text (.error e) := by
  refine ⟨?_, by intro r hr; cases hr⟩
  intro e' he
  cases he
  exact h

theorem stringRun_view (text : List Char) (he : Ends eof p text) :
    ReadsString eof p text (stringRun start (View eof p text)) := by
  generalize hk : text.length = k
  induction k using Nat.strongRecOn generalizing text p with
  | ind k ih =>
    rcases text_cases text with h1 | ⟨c, rest, h1, h2, h3⟩ | ⟨nl, rest, h1, h2, h3⟩
    · subst h1
      rw [stringRun_end rfl]
      exact readsString_error (by simp)
    · subst h1
      have h0 : (View eof p (c :: rest)).char0 = some c := view_cons_char0 h2
      have hn := view_next h2 he
      have he2 := ends_next h2 he
      by_cases hq : c = '"'
      · subst hq
        rw [stringRun_quote h0, hn]
        refine ⟨(by intro e he; cases he), ?_⟩
        intro r hr
        cases hr
        exact ⟨[], rest, [], [], rfl, rfl, he2, rfl, rfl⟩
      · by_cases hb : c = '\\'
        · subst hb
          cases h1 : (View eof p ('\\' :: rest)).nextChar.char0 with
          | none =>
            rw [stringRun_slash_end h0 h1]
            exact readsString_error (by simp)
          | some e =>
            rw [stringRun_slash h0 h1]
            rw [hn] at h1 ⊢
            split
            · rename_i hs
              obtain ⟨h4, h5, h6, piece, h7, v, h8⟩ := simpleEscape_piece hs
              obtain ⟨r, rfl, hn3, he3⟩ := view_is h1 he2 h4 h6
              rw [hn3]
              refine readsString_cons (t := ['\\', e]) (f := fun v => '\\' :: e :: v) (ih r.length ?_ r he3 rfl) ?_ rfl h7
                (fun v => rfl) h8 ?_
              · rw [← hk]
                simp only [List.length_cons]
                omega
              · simp only [bytes_cons, bytes_nil, h6]
                omega
              · intro content more _
                simp only [List.cons_append, List.nil_append]
                rw [unixLines_cons (by decide), unixLines_cons h5]
            · split
              · rename_i hu
                subst hu
                obtain ⟨r, rfl, hn3, he3⟩ := view_is h1 he2
                rw [hn3]
                rcases lexUnicode_view (eof := eof) ((View eof (p + '\\'.utf8Size) ('u' :: r)).location0 - 1) r he3 with
                  ⟨e, h4, h5⟩ | ⟨ds, rest, v, h4, h5, h6, h7, h8⟩
                · rw [h4]
                  exact readsString_error h5
                · rw [h5]
                  simp only [Except.bind]
                  refine readsString_cons (t := '\\' :: 'u' :: '{' :: (ds ++ ['}']))
                    (u := '\\' :: 'u' :: '{' :: (ds ++ ['}'])) (piece := .unicode ds)
                    (f := fun v => '\\' :: 'u' :: '{' :: (ds ++ '}' :: v)) (ih rest.length ?_ rest h6 rfl) ?_ ?_ rfl ?_ h7 ?_
                  · rw [← hk, h4]
                    simp only [List.length_cons, List.length_append]
                    omega
                  · simp only [bytes_cons]
                    have h9 : 'u'.utf8Size = 1 := by decide
                    omega
                  · rw [h4]
                    simp
                  · intro w
                    simp
                  · intro content more _
                    simp only [List.cons_append, List.append_assoc, List.nil_append]
                    rw [unixLines_cons (by decide), unixLines_cons (by decide), unixLines_cons (by decide),
                      unixLines_hex h8, unixLines_cons (by decide)]
              · exact readsString_error (by simp)
        · rw [stringRun_char h0 hb hq, hn]
          refine readsString_cons (piece := .char c) (t := [c]) (f := fun v => c :: v) (value := c)
            (ih rest.length (by rw [← hk]; simp) rest he2 rfl) (by simp [bytes]) rfl rfl (fun v => rfl) ?_ ?_
          · simp [Strings.Spec.Piece.value?, hb, hq]
          · intro content more _
            exact unixLines_cons h2
    · subst h1
      have h0 := view_lineEnd_char0 (eof := eof) (p := p) h2 h3
      rw [stringRun_char h0 (by decide) (by decide), view_next_lineEnd h2 h3 he]
      have hlen : rest.length < k := by
        rw [← hk, List.length_append]
        rcases h2 with h2 | h2 | h2 <;> subst h2 <;> simp
      refine readsString_cons (piece := .char '\n') (t := nl) (f := fun v => '\n' :: v) (value := '\n')
        (ih rest.length hlen rest (ends_next_lineEnd h2 h3 he) rfl) rfl rfl rfl (fun v => rfl) rfl ?_
      intro content more hr
      refine unixLines_lineEnd h2 fun h => ?_
      have h4 := h3 h
      rw [hr] at h4
      exact append_head_ne h4

theorem good_lexString (he : Ends eof p ('"' :: rest)) :
    Good eof p ('"' :: rest) ((lexString (View eof p ('"' :: rest))).map fun r => ([r.1], r.2)) := by
  have hl : (View eof p ('"' :: rest)).location0 = p := by rw [view_location0, endsAt, if_neg (by simp)]
  have hn : (View eof p ('"' :: rest)).nextChar = View eof (p + 1) rest := view_next (by decide) he
  have he2 : Ends eof (p + 1) rest := ends_next (by decide) he
  unfold lexString
  rw [hl, hn]
  have h := stringRun_view (start := p) rest he2
  cases hs : stringRun p (View eof (p + 1) rest) with
  | error e => apply good_error
  | ok r =>
    obtain ⟨content, more, pieces, value, h1, h2, h3, h4, h5⟩ := h.2 r hs
    subst h2
    have hq : p + 1 + bytes content + 1 = p + bytes ('"' :: content ++ ['"']) := by
      simp only [List.cons_append, bytes_cons, bytes_append, bytes_nil]
      have h8 : '"'.utf8Size = 1 := by decide
      omega
    exact good_plain (tok := .string (unixLines content)) (t := '"' :: content ++ ['"']) (by rw [h1]; simp) rfl h3 hq
      ⟨content, pieces, value, rfl, rfl, h4, h5⟩ trivial id

end

end Verif.Lexer
