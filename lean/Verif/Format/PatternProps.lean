import Verif.Format.PatternSeen
import Verif.Format.PatternRead
import Verif.Format.PatternOk
import Verif.Format.PatternNormal
import Verif.Pretty.Props

/-!
# C75: a formatted pattern is read as the same pattern
-/
namespace Verif.Format
open Verif.Lexer Verif.Lexer.Spec Verif.Format.Spec Verif.TypeText

theorem seen_after {eof : Nat} (s : Symbol) : Seen eof (' ' :: symbolText s ++ [' ']) [.symbol s] [] := by
  have h1 : Lexes eof (symbolText s) [.symbol s] (' ' :: []) := by
    refine lexes_token (by simp) fun p he => ?_
    have h := symbol_lexed (eof := eof) (p := p) s (rest := []) he
    exact ⟨h.2, _, _, h.1⟩
  exact Seen.append (t := [' ']) (ks := []) (u := symbolText s ++ [' ']) seen_space
    (Seen.append (t := symbolText s) (u := [' ']) (ks := [.symbol s]) (ls := []) (seen_lexes h1 rfl) seen_space)

/-- A text that is read as tokens when nothing follows has these tokens. -/
theorem seen_tokens {source : List Char} {ks : List Token} (h : Seen (endOffset source) source ks [])
    (hb : source.head? ≠ some byteOrderMark) :
    visible ((tokens source).1.map (·.token)) = ks ∧ (tokens source).2 = none := by
  obtain ⟨raw, h1, h2⟩ := h
  have hb : body source = (0, source) := by
    cases source with
    | nil => rfl
    | cons c r =>
      show (if c = byteOrderMark then _ else _) = _
      rw [if_neg]
      rintro rfl
      simp at hb
  have hn := new_eq source
  rw [hb] at hn
  obtain ⟨h3, h4⟩ := h1 0 (by rw [List.append_nil]; exact hn.2)
  rw [lexes_end h3, List.append_nil, List.append_nil] at h4
  unfold Left at h4
  unfold tokens makeTokenizer
  rw [hn.1]
  exact ⟨by rw [← h2]; exact congrArg (visible ∘ Prod.fst) h4, congrArg Prod.snd h4⟩

/-- The text starts with a character of one byte. -/
def Ascii (t : List Char) : Prop := ∃ c r, t = c :: r ∧ c.utf8Size = 1

theorem ascii_append {t : List Char} (h : Ascii t) (u : List Char) : Ascii (t ++ u) := by
  obtain ⟨c, r, rfl, h⟩ := h
  exact ⟨c, r ++ u, rfl, h⟩

theorem ascii_assignName {width : List Char → Nat} {a : AssignName} (h : AssignNameOk a) {i : Int} {br : Bool} {out : List Char}
    (hl : Pretty.Spec.Layout (assignNameDoc width a) i br out) : Ascii out := by
  cases a with
  | variable_ n => cases hl; exact reads_start (tok := .name out) h ⟨rfl, by simp⟩
  | discard n => cases hl; exact reads_start (tok := .discardName out) h ⟨rfl, by simp⟩

theorem ascii_constructorName {width : List Char → Nat} {module : Option Name} {name : Name}
    (hm : ∀ m, module = some m → IsName m) (hn : IsUpName name) {i : Int} {br : Bool} {out : List Char}
    (hl : Pretty.Spec.Layout (constructorName width module name) i br out) : Ascii out := by
  cases module with
  | none => cases hl; exact reads_start hn ⟨rfl, by simp⟩
  | some m =>
    obtain ⟨x, y, rfl, h1, _⟩ := layout_append
      (show Pretty.Spec.Layout (((text width m).append (text width ['.'])).append (text width name)) i br out from hl)
    obtain ⟨a, b, rfl, h3, _⟩ := layout_append h1
    have h3 : a = m := h3
    subst h3
    have h4 : Ascii a := reads_start (hm a rfl) ⟨rfl, by simp⟩
    exact ascii_append (ascii_append h4 _) _

theorem pattern_start {width : List Char → Nat} : (p : Pat) → Ok p → ∀ i br out,
    Pretty.Spec.Layout (patternDoc width p) i br out → Ascii out
  | .int value n, ok, i, br, out, hl => by
    rw [patternDoc] at hl
    cases hl
    rw [Ok] at ok
    obtain ⟨t, ok⟩ := ok
    exact reads_start (formatted_int_is_same ok).1 ⟨rfl, by simp⟩
  | .float value, ok, i, br, out, hl => by
    rw [patternDoc] at hl
    cases hl
    rw [Ok] at ok
    obtain ⟨_, _, _, _, hd⟩ := float_denotes ok.1
    exact reads_start (formatted_float_is_same_partial hd ok.2).2.1 ⟨rfl, by simp⟩
  | .string value, ok, i, br, out, hl => by
    rw [patternDoc] at hl
    rw [layout_string hl]
    exact ⟨_, _, rfl, rfl⟩
  | .var name, ok, i, br, out, hl => by
    rw [patternDoc] at hl
    cases hl
    rw [Ok] at ok
    exact reads_start ok ⟨rfl, by simp⟩
  | .discard name, ok, i, br, out, hl => by
    rw [patternDoc] at hl
    cases hl
    rw [Ok] at ok
    exact reads_start ok ⟨rfl, by simp⟩
  | .assign name p, ok, i, br, out, hl => by
    rw [patternDoc] at hl
    rw [Ok] at ok
    split at hl
    next hd =>
      cases hl
      exact reads_start ok.1 ⟨rfl, by simp⟩
    next hd =>
      obtain ⟨x, y, rfl, h1, h2⟩ := layout_append hl
      obtain ⟨x, u, rfl, h3, h4⟩ := layout_append h1
      exact ascii_append (ascii_append (pattern_start p ok.2.2 _ _ _ h3) _) _
  | .stringPrefix left leftName right, ok, i, br, out, hl => by
    cases leftName with
    | none =>
      rw [patternDoc] at hl
      obtain ⟨x, y, u, rfl, h1, _, _⟩ := hl
      rw [layout_string h1]
      exact ⟨_, _, rfl, rfl⟩
    | some n =>
      rw [patternDoc] at hl
      obtain ⟨x, u, rfl, ⟨a, b, c, d, rfl, h1, _⟩, _⟩ := layout_append
        (a := .join4 (stringDoc width left) (text width " as ".toList) (text width n) (text width " <> ".toList)) hl
      rw [layout_string h1]
      exact ⟨_, _, rfl, rfl⟩
  | .tuple elements, ok, i, br, out, hl => by
    rw [patternDoc] at hl
    obtain ⟨br, hl⟩ := layout_grouped hl
    obtain ⟨x, y, rfl, h1, _⟩ := layout_append hl
    cases h1
    exact ⟨_, _, rfl, rfl⟩
  | .list .nil none, ok, i, br, out, hl => by
    rw [patternDoc] at hl
    cases hl
    exact ⟨_, _, rfl, rfl⟩
  | .list .nil (some t), ok, i, br, out, hl => by
    rw [patternDoc] at hl
    rw [Ok] at ok
    exact ascii_assignName (ok.2 t rfl) hl
  | .list (.cons p ps) tail, ok, i, br, out, hl => by
    unfold patternDoc at hl
    obtain ⟨br, hl⟩ := layout_grouped hl
    obtain ⟨x, y, rfl, h1, _⟩ := layout_append hl
    refine ascii_append ?_ _
    have key : ∀ {i : Int} {br : Bool} {o : List Char}, Pretty.Spec.Layout openSquareBreak i br o → Ascii o := by
      rintro i br o (⟨_, rfl⟩ | ⟨_, rfl⟩) <;> exact ⟨_, _, rfl, rfl⟩
    cases tail with
    | none =>
      obtain ⟨u, v, rfl, h3, _⟩ := layout_append h1
      obtain ⟨o, s, rfl, e5, _⟩ := layout_append (show Pretty.Spec.Layout
        (openSquareBreak.append (Pretty.joinWith commaBreak (patternDoc width p :: patternDocs width ps))) _ _ u from h3)
      exact ascii_append (ascii_append (key e5) _) _
    | some tl =>
      obtain ⟨u, v, rfl, h3, h4⟩ := layout_append h1
      obtain ⟨u1, dots, rfl, e3a, e3b⟩ := layout_append (show Pretty.Spec.Layout
        (((openSquareBreak.append (Pretty.joinWith commaBreak (patternDoc width p :: patternDocs width ps))).append
          commaBreak).append _) _ _ u from h3)
      obtain ⟨u2, cm, rfl, e3c, e3d⟩ := layout_append e3a
      obtain ⟨o, s, rfl, e5, e6⟩ := layout_append e3c
      exact ascii_append (ascii_append (ascii_append (ascii_append (key e5) _) _) _) _
  | .ctor module name arguments spread, ok, i, br, out, hl => by
    rw [patternDoc] at hl
    rw [Ok] at ok
    split at hl
    · obtain ⟨x, y, rfl, h1, _⟩ := layout_append hl
      exact ascii_append (ascii_constructorName ok.1 ok.2.1 h1) _
    · split at hl
      · exact ascii_constructorName ok.1 ok.2.1 hl
      · split at hl
        · obtain ⟨br, hl⟩ := layout_grouped hl
          obtain ⟨x, y, rfl, h1, _⟩ := layout_append hl
          exact ascii_append (ascii_constructorName ok.1 ok.2.1 h1) _
        · split at hl
          · obtain ⟨br, hl⟩ := layout_grouped hl
            obtain ⟨x, y, rfl, h1, _⟩ := layout_append hl
            obtain ⟨x, y, rfl, h1, _⟩ := layout_append h1
            obtain ⟨x, y, rfl, h1, _⟩ := layout_append h1
            exact ascii_append (ascii_append (ascii_append (ascii_constructorName ok.1 ok.2.1 ‹_›) _) _) _
          · obtain ⟨br, hl⟩ := layout_grouped hl
            obtain ⟨x, y, rfl, h1, _⟩ := layout_append hl
            exact ascii_append (ascii_constructorName ok.1 ok.2.1 h1) _

/-- **C75.** A pattern that is made of tokens of the language is written as a text that is read as its normal form, whatever
the length of a line, the width of characters and the token that follows. -/
theorem written_pattern_is_read {p : Pat} (ok : Ok p) (width : List Char → Nat) (limit : Int) (s : Symbol)
    (hs : s ≠ .dot ∧ s ≠ .concatenate ∧ s ≠ .leftParen) :
    readPattern (formatPattern width limit p ++ (' ' :: symbolText s ++ [' '])) =
      some (normal int float p, [.symbol s]) := by
  have hl := Pretty.print_is_layout limit (patternDoc width p)
  have ha : Ascii (formatPattern width limit p) := pattern_start p ok _ _ _ hl
  generalize hsrc : formatPattern width limit p ++ (' ' :: symbolText s ++ [' ']) = source
  obtain ⟨ks, hk, hseen⟩ := pattern_seen (eof := endOffset source) p ok _ _ _ hl
  have h1 : Seen (endOffset source) source (ks ++ [.symbol s]) [] := by
    have h2 := Seen.append (rest := []) (u := ' ' :: symbolText s ++ [' '])
      (by simpa using hseen ' ' (symbolText s ++ [' ']) (by simp [Sep])) (seen_after s)
    rw [← hsrc] at h2 ⊢
    exact h2
  have hb : source.head? ≠ some byteOrderMark := by
    obtain ⟨c, r, e, h⟩ := ascii_append ha (' ' :: symbolText s ++ [' '])
    rw [← hsrc, e]
    simp only [List.head?_cons, ne_eq, Option.some.injEq]
    rintro rfl
    revert h
    decide
  obtain ⟨h3, h4⟩ := seen_tokens h1 hb
  have h5 := reads_pattern p ok ks [.symbol s] (2 * (ks ++ [Token.symbol s]).length + 2) hk (base_symbol hs)
    (fun _ => notAs_symbol) (by simp; omega)
  rw [finish_plain notAs_symbol] at h5
  unfold readPattern
  generalize tokens source = r at h3 h4
  obtain ⟨ts, e⟩ := r
  cases h4
  simp only at h3 ⊢
  rw [h3, h5]

/-- **C75 (partial).** A pattern that is read from a text, formatted, is read as its normal form. Missing: texts with a
float that has an underscore before the zeros at its end (see `formatted_float_is_rejected`), bit arrays and comments. -/
theorem formatted_pattern_is_read_partial {source : List Char} {p : Pat} {rest : List Token}
    (h : readPattern source = some (p, rest))
    (hz : ∀ t ∈ (tokens source).1, ∀ v, t.token = .float v → PlainZeros v) (width : List Char → Nat) (limit : Int)
    (s : Symbol) (hs : s ≠ .dot ∧ s ≠ .concatenate ∧ s ≠ .leftParen) :
    readPattern (formatPattern width limit p ++ (' ' :: symbolText s ++ [' '])) =
      some (normal int float p, [.symbol s]) :=
  written_pattern_is_read (read_pattern_ok h hz) width limit s hs

/-- **C75 (partial).** What the pattern matched, it matches after formatting, with the same variables. If no list pattern is
only a tail it matches nothing else. Missing: the same as above. -/
theorem formatted_pattern_matches_the_same_partial {source : List Char} {p : Pat} {rest : List Token}
    (h : readPattern source = some (p, rest))
    (hz : ∀ t ∈ (tokens source).1, ∀ v, t.token = .float v → PlainZeros v) (width : List Char → Nat) (limit : Int) :
    ∃ q, readPattern (formatPattern width limit p ++ " -> ".toList) = some (q, [.symbol .rArrow]) ∧
      ∀ (F : Type) (m : Meaning F), m.Sound → ∀ v b,
        (Matches m p v b → Matches m q v b) ∧ (NoBareTail p → Matches m q v b → Matches m p v b) := by
  have ok := read_pattern_ok h hz
  exact ⟨_, written_pattern_is_read ok width limit .rArrow (by simp), fun F m hm v b =>
    ⟨normal_matches hm p ok v b, fun hb => matches_normal hm p ok hb v b⟩⟩

/-- **C75 (partial).** If no list pattern is only a tail, a formatted pattern is formatted as it is. -/
theorem formatting_a_pattern_again_is_same_partial {source : List Char} {p : Pat} {rest : List Token}
    (h : readPattern source = some (p, rest))
    (hz : ∀ t ∈ (tokens source).1, ∀ v, t.token = .float v → PlainZeros v) (hb : NoBareTail p) (width : List Char → Nat)
    (limit : Int) :
    ∃ q, readPattern (formatPattern width limit p ++ " -> ".toList) = some (q, [.symbol .rArrow]) ∧
      formatPattern width limit q = formatPattern width limit p := by
  have ok := read_pattern_ok h hz
  exact ⟨_, written_pattern_is_read ok width limit .rArrow (by simp),
    congrArg (Pretty.toPrettyString limit) (doc_normal p ok hb)⟩

/-- **C75, not so for list patterns that are only a tail.** `[..]` is formatted as `_`, so the pattern matches values that
are no lists; and `[..] as x` needs to be formatted twice. -/
theorem bare_tail_is_changed :
    (readPattern "[..] ->".toList).map (·.1) = some (.list .nil (some (.discard ['_']))) ∧
    formatPattern List.length 80 (.list .nil (some (.discard ['_']))) = ['_'] ∧
    (∀ (F : Type) (m : Meaning F), ¬Matches m (.list .nil (some (.discard ['_']))) (.int 1) [] ∧
      Matches m (.discard ['_']) (.int 1) []) ∧
    (readPattern "[..] as x ->".toList).map (fun r => formatPattern List.length 80 r.1) = some "_ as x".toList ∧
    (readPattern "_ as x ->".toList).map (fun r => formatPattern List.length 80 r.1) = some ['x'] := by
  refine ⟨by decide +kernel, by decide +kernel, fun F m => ⟨?_, by rw [Matches]⟩, by decide +kernel, by decide +kernel⟩
  rw [Matches]
  rintro ⟨_, _, _, h, _⟩
  cases h

/-! ### Cases that meet the hypotheses -/

/-- A pattern with most constructs, and its layout on short lines. -/
def exampleSource : List Char :=
  "Ok(User(name: \"a\" <> rest, age: 1000, tags:)as u,  [1.50,2.0,.._rest],#(_ as x,m.None,)) ->".toList

example :
    (tokens exampleSource).1.filterMap (fun t => match t.token with | .float v => some v | _ => none) =
      ["1.50".toList, "2.0".toList] ∧
    (readPattern exampleSource).map (fun r => formatPattern List.length 90 r.1) =
      some "Ok(User(name: \"a\" <> rest, age: 1000, tags:) as u, [1.5, 2.0, ..], #(x, m.None))".toList ∧
    (readPattern exampleSource).map (fun r => formatPattern List.length 20 r.1) =
      some ("Ok(\n  User(\n    name: \"a\" <> rest,\n    age: 1000,\n    tags:,\n  ) as u,\n  [1.5, 2.0, ..],\n  " ++
        "#(x, m.None),\n)").toList := by
  decide +kernel

example : PlainZeros "1.50".toList := by
  rintro ⟨before, zeros, after, h, _⟩
  have : '_' ∈ "1.50".toList := by rw [h]; simp
  simp at this

/-- A meaning of patterns that is sound. -/
example : ∃ m : Meaning Unit, m.Sound := ⟨⟨fun _ => (), id, fun _ _ _ _ _ _ => True⟩, fun _ _ _ _ _ _ _ _ _ _ _ => rfl⟩

end Verif.Format
