import Verif.Format.PatternSpec
import Verif.Format.Follow
import Verif.Format.Props

/-!
# The tokens of the parts of a formatted pattern
-/
namespace Verif.Format
open Verif.Lexer Verif.Lexer.Spec Verif.Format.Spec Verif.TypeText

section
variable {eof : Nat} {rest : List Char}

/-- The text `t` is read as the tokens `ks`, without line endings and comments, when `rest` follows. -/
def Seen (eof : Nat) (t : List Char) (ks : List Token) (rest : List Char) : Prop :=
  ∃ raw, Lexes eof t raw rest ∧ visible raw = ks

theorem Seen.append {t u : List Char} {ks ls : List Token} (h1 : Seen eof t ks (u ++ rest)) (h2 : Seen eof u ls rest) :
    Seen eof (t ++ u) (ks ++ ls) rest := by
  obtain ⟨r1, a1, b1⟩ := h1
  obtain ⟨r2, a2, b2⟩ := h2
  refine ⟨r1 ++ r2, a1.append a2, ?_⟩
  rw [← b1, ← b2]
  unfold visible
  rw [List.filter_append]

theorem Seen.nil : Seen eof [] [] rest := ⟨[], Lexes.nil, rfl⟩

theorem seen_lexes {t : List Char} {ks : List Token} (h : Lexes eof t ks rest) (hv : visible ks = ks) : Seen eof t ks rest :=
  ⟨ks, h, hv⟩

theorem seen_space : Seen eof [' '] [] rest := ⟨[], lexes_space, rfl⟩

theorem lexes_newline : Lexes eof ['\n'] [.newLine] rest := by
  refine lexes_token (by simp) fun p he => ?_
  simp only [List.singleton_append] at he ⊢
  have n1 := next1 he (by decide) (by decide)
  rw [bytes_one (by decide)]
  refine ⟨n1.2, p, (View eof (p + 1) rest).location0, ?_⟩
  unfold consumeNormal
  rw [view_cons_char0 (by decide)]
  simp only [isUpper, isNameStart, isLower, isNumberStart, isDigit]
  show lexBlank '\n' _ = _
  unfold lexBlank
  rw [if_pos rfl, n1.1, location_cons]

theorem seen_newline : Seen eof ['\n'] [] rest := ⟨[.newLine], lexes_newline, rfl⟩

theorem seen_spaces (n : Nat) : Seen eof (List.replicate n ' ') [] rest := by
  induction n with
  | zero => exact Seen.nil
  | succ n ih =>
    rw [List.replicate_succ]
    exact Seen.append (t := [' ']) (ks := []) seen_space ih

theorem lexes_symbol1 {c : Char} {s : Symbol}
    (h : (c, s) ∈ [('(', Symbol.leftParen), (')', .rightParen), (',', .comma), ('#', .hash), ('[', .leftSquare),
      (']', .rightSquare), (':', .colon)]) :
    Lexes eof [c] [.symbol s] rest := by
  refine lexes_token (by simp) fun p he => ?_
  simp only [List.mem_cons, Prod.mk.injEq, List.not_mem_nil, or_false] at h
  rcases h with ⟨rfl, rfl⟩ | ⟨rfl, rfl⟩ | ⟨rfl, rfl⟩ | ⟨rfl, rfl⟩ | ⟨rfl, rfl⟩ | ⟨rfl, rfl⟩ | ⟨rfl, rfl⟩
  all_goals
    simp only [List.singleton_append] at he ⊢
    have n1 := next1 he (by decide) (by decide)
    rw [bytes_one (by decide)]
    refine ⟨n1.2, p, (View eof (p + 1) rest).location0, ?_⟩
    simp only [consumeNormal, view_cons_char0, ne_eq, Char.reduceEq, not_false_eq_true, location_cons, view_cons_char1,
      isUpper, isNameStart, isLower, isNumberStart, isDigit, startsDigit, consumeCharacter, singleSymbol, if_true, if_false,
      eatSingleChar, emit, n1.1, Bool.and_eq_true, decide_eq_true_eq]
    rfl

theorem seen_symbol {c : Char} {s : Symbol}
    (h : (c, s) ∈ [('(', Symbol.leftParen), (')', .rightParen), (',', .comma), ('#', .hash), ('[', .leftSquare),
      (']', .rightSquare), (':', .colon)]) :
    Seen eof [c] [.symbol s] rest := seen_lexes (lexes_symbol1 h) rfl

theorem seen_dotDot : Seen eof ['.', '.'] [.symbol .dotDot] rest := by
  refine seen_lexes (lexes_token (by simp) fun p he => ?_) rfl
  simp only [List.cons_append, List.nil_append] at he ⊢
  have n1 := next1 he (by decide) (by decide)
  have n2 := next1 n1.2 (by decide) (by decide)
  have hb : p + bytes ['.', '.'] = p + 1 + 1 := rfl
  rw [hb]
  refine ⟨n2.2, p, (View eof (p + 1 + 1) rest).location0, ?_⟩
  simp only [consumeNormal, view_cons_char0, ne_eq, Char.reduceEq, not_false_eq_true, location_cons, view_cons_char1,
    isUpper, isNameStart, isLower, isNumberStart, isDigit, startsDigit, consumeCharacter, singleSymbol, if_true, if_false,
    emit, n1.1, n2.1, Option.some.injEq, Bool.and_eq_true, decide_eq_true_eq, lexDot]
  rfl

theorem seen_dot {c : Char} (hc : 'A' ≤ c ∧ c ≤ 'Z') : Seen eof ['.'] [.symbol .dot] (c :: rest) :=
  seen_lexes (lexes_dot hc) rfl

theorem seen_name {n : List Char} (hs : Stop rest) (h : IsName n) : Seen eof n [.name n] rest :=
  seen_lexes (lexes_name hs h) rfl

theorem seen_upName {n : List Char} (hs : Stop rest) (h : IsUpName n) : Seen eof n [.upName n] rest :=
  seen_lexes (lexes_upName hs h) rfl

theorem seen_discard {n : List Char} (hs : Stop rest) (h : IsDiscardName n) : Seen eof n [.discardName n] rest := by
  refine seen_lexes ?_ rfl
  obtain ⟨_, ⟨r, rfl⟩, h3⟩ := h
  rw [← discard_token]
  exact lexes_word (c := '_') hs rfl (by decide) h3 (by rw [discard_token]; simp)

theorem seen_as : Seen eof " as ".toList [.keyword .as_] rest := by
  have h1 : Lexes eof "as".toList [.keyword .as_] ([' '] ++ rest) :=
    lexes_word (c := 'a') (stop_cons (by simp)) rfl (by decide) (keyword_chars .as_) (by decide)
  exact Seen.append (t := [' ']) (ks := []) (u := "as ".toList) seen_space
    (Seen.append (t := "as".toList) (u := [' ']) (ks := [.keyword .as_]) (ls := []) (seen_lexes h1 rfl) seen_space)

theorem seen_concatenate : Seen eof " <> ".toList [.symbol .concatenate] rest := by
  have h1 : Lexes eof "<>".toList [.symbol .concatenate] (' ' :: rest) := by
    refine lexes_token (by simp) fun p he => ?_
    have h := symbol_lexed (eof := eof) (p := p) .concatenate (rest := rest) he
    exact ⟨h.2, _, _, h.1⟩
  exact Seen.append (t := [' ']) (ks := []) (u := "<> ".toList) seen_space
    (Seen.append (t := "<>".toList) (u := [' ']) (ks := [.symbol .concatenate]) (ls := []) (seen_lexes h1 rfl) seen_space)

theorem seen_int {v : List Char} {n : Int} {z : Char} (hz : Sep z) (h : Reads (.int v n) v) :
    Seen eof v [.int v n] (z :: rest) := by
  refine seen_lexes (lexes_token (by simp) fun p he => ?_) rfl
  have h1 := int_lexed' hz (p := p) h he
  exact ⟨h1.2, _, _, h1.1⟩

theorem seen_float {v : List Char} {z : Char} (hz : Sep z) (h : Reads (.float v) v) :
    Seen eof v [.float v] (z :: rest) := by
  refine seen_lexes (lexes_token (by simp) fun p he => ?_) rfl
  have h1 := floatToken_lexed' hz (p := p) h.2 he
  exact ⟨h1.2, _, _, h1.1⟩

theorem unixLines_no_return : ∀ t : List Char, '\r' ∉ unixLines t := by
  intro t
  induction t using unixLines.induct with
  | case1 rest ih => simpa [unixLines] using ih
  | case2 rest h ih =>
    rw [unixLines]
    · simpa using ih
    · exact h
  | case3 c rest h1 h2 ih =>
    have hc : c ≠ '\r' := fun hc => h2 hc
    rw [unixLines_cons hc]
    simp only [List.mem_cons, not_or]
    exact ⟨fun h => hc h.symm, ih⟩
  | case4 => simp [unixLines]

theorem seen_string {v : List Char} (h : IsString v) : Seen eof ('"' :: v ++ ['"']) [.string v] rest := by
  obtain ⟨t, body, pieces, value, _, h1, h2, h3⟩ := h
  have hr : '\r' ∉ v := h1 ▸ unixLines_no_return body
  refine seen_lexes (lexes_token (by simp) fun p he => ?_) rfl
  subst h2
  simp only [List.cons_append, List.append_assoc, List.nil_append] at he ⊢
  have n1 := next1 he (by decide) (by decide)
  obtain ⟨h4, h5⟩ := pieces_lexed (start := p) h3 hr n1.2
  have hq : p + 1 + bytes (Strings.Spec.text pieces) + 1 = p + bytes ('"' :: (Strings.Spec.text pieces ++ ['"'])) := by
    simp only [bytes_cons, bytes_append, bytes_nil, show '"'.utf8Size = 1 by decide]
    omega
  rw [hq] at h4 h5
  refine ⟨h5, p, (View eof (p + bytes ('"' :: (Strings.Spec.text pieces ++ ['"']))) rest).location0, ?_⟩
  have hs : consumeNormal (View eof p ('"' :: (Strings.Spec.text pieces ++ '"' :: rest))) =
      (lexString (View eof p ('"' :: (Strings.Spec.text pieces ++ '"' :: rest)))).map fun r => ([r.1], r.2) := by
    unfold consumeNormal
    rw [view_cons_char0 (by decide)]
    rfl
  rw [hs]
  unfold lexString
  rw [location_cons, n1.1, h4]
  simp only [Except.map]

theorem stop_sep {z : Char} (hz : Sep z) : Stop (z :: rest) := by
  intro d hd
  cases hd
  unfold Sep at hz
  unfold NameChar
  revert hz
  revert z
  decide

end
end Verif.Format
