import Verif.Format.PatternLex
import Verif.Pretty.Spec

/-!
# The tokens of a formatted pattern
-/
namespace Verif.Format
open Verif.Lexer Verif.Lexer.Spec Verif.Format.Spec Verif.TypeText
open Verif.Pretty (Doc joinWith concat concatLoop)
open Verif.Pretty.Spec (Layout)

/-! ### Layouts of documents that are built -/

theorem layout_append {a b : Doc} {i : Int} {br : Bool} {out : List Char} (h : Layout (a.append b) i br out) :
    ∃ x y, out = x ++ y ∧ Layout a i br x ∧ Layout b i br y := by
  unfold Doc.append at h
  split at h
  · exact ⟨out, [], by simp, h, rfl⟩
  · split at h
    · exact ⟨[], out, rfl, rfl, h⟩
    · obtain ⟨x, y, z, rfl, h1, h2, h3⟩ := h
      exact ⟨x ++ y, z, rfl, ⟨x, y, rfl, h1, h2⟩, h3⟩
    · obtain ⟨x, y, z, u, rfl, h1, h2, h3, h4⟩ := h
      exact ⟨x ++ y ++ z, u, rfl, ⟨x, y, z, rfl, h1, h2, h3⟩, h4⟩
    · exact h

theorem layout_grouped {d : Doc} {i : Int} {br : Bool} {out : List Char} (h : Layout d.grouped i br out) :
    ∃ br, Layout d i br out := by
  unfold Doc.grouped at h
  split at h
  · exact ⟨br, h⟩
  · exact ⟨br, h⟩
  · exact ⟨br, h⟩
  · exact ⟨br, h⟩
  · exact ⟨br, h⟩
  · exact h

/-- A layout of documents that each follow the separator. -/
def LayAll (sep : Doc) (i : Int) (br : Bool) : List Doc → List Char → Prop
  | [], out => out = []
  | d :: ds, out => ∃ s x y, out = s ++ (x ++ y) ∧ Layout sep i br s ∧ Layout d i br x ∧ LayAll sep i br ds y

theorem layout_joinWith {sep : Doc} {i : Int} {br : Bool} {ds : List Doc} :
    ∀ {d : Doc} {out : List Char}, Layout (joinWith sep (d :: ds)) i br out →
      ∃ x y, out = x ++ y ∧ Layout d i br x ∧ LayAll sep i br ds y := by
  induction ds with
  | nil => intro d out h; exact ⟨out, [], by simp, h, rfl⟩
  | cons e ds ih =>
    intro d out h
    obtain ⟨x, y, rfl, ⟨a, s, b, rfl, h1, h2, h3⟩, h4⟩ := ih (d := .join3 d sep e) h
    exact ⟨a, s ++ (b ++ y), by simp, h1, s, b, y, rfl, h2, h3, h4⟩

/-! ### Breaks -/

section
variable {eof : Nat} {rest : List Char} {i : Int} {br : Bool} {out : List Char}

/-- A line ending and the indentation after it. -/
theorem seen_lineEnd (n : Nat) : Seen eof ('\n' :: List.replicate n ' ') [] rest :=
  Seen.append (t := ['\n']) (ks := []) seen_newline (seen_spaces n)

theorem seen_commaBreak (h : Layout commaBreak i br out) :
    Seen eof out [.symbol .comma] rest ∧ ∃ r, out = ',' :: r := by
  rcases h with ⟨_, rfl⟩ | ⟨_, rfl⟩
  · exact ⟨Seen.append (t := [',']) (ks := [.symbol .comma]) (ls := []) (seen_symbol (by decide)) (seen_lineEnd _), _, rfl⟩
  · exact ⟨Seen.append (t := [',']) (u := [' ']) (ks := [.symbol .comma]) (ls := []) (seen_symbol (by decide)) seen_space,
      _, rfl⟩

/-- A comma, or nothing. -/
def MaybeComma (ks : List Token) : Prop := ks = [] ∨ ks = [.symbol .comma]

theorem seen_trailingCommaBreak (h : Layout trailingCommaBreak i br out) :
    ∃ ks, MaybeComma ks ∧ (∀ rest, Seen eof out ks rest) ∧ (out = [] ∨ ∃ r, out = ',' :: r) := by
  rcases h with ⟨_, rfl⟩ | ⟨_, rfl⟩
  · refine ⟨[.symbol .comma], .inr rfl, fun rest => ?_, .inr ⟨_, rfl⟩⟩
    exact Seen.append (t := [',']) (ks := [.symbol .comma]) (ls := []) (seen_symbol (by decide)) (seen_lineEnd _)
  · exact ⟨[], .inl rfl, fun _ => Seen.nil, .inl rfl⟩

theorem seen_openParenBreak (h : Layout openParenBreak i br out) :
    Seen eof out [.symbol .leftParen] rest ∧ ∃ r, out = '(' :: r := by
  rcases h with ⟨_, rfl⟩ | ⟨_, rfl⟩
  · exact ⟨Seen.append (t := ['(']) (ks := [.symbol .leftParen]) (ls := []) (seen_symbol (by decide)) (seen_lineEnd _),
      _, rfl⟩
  · exact ⟨seen_symbol (by decide), _, rfl⟩

theorem seen_openSquareBreak (h : Layout openSquareBreak i br out) : Seen eof out [.symbol .leftSquare] rest := by
  rcases h with ⟨_, rfl⟩ | ⟨_, rfl⟩
  · exact Seen.append (t := ['[']) (ks := [.symbol .leftSquare]) (ls := []) (seen_symbol (by decide)) (seen_lineEnd _)
  · exact seen_symbol (by decide)

theorem seen_emptyBreak (h : Layout emptyBreak i br out) : Seen eof out [] rest ∧ (out = [] ∨ ∃ r, out = '\n' :: r) := by
  rcases h with ⟨_, rfl⟩ | ⟨_, rfl⟩
  · exact ⟨seen_lineEnd _, .inr ⟨_, rfl⟩⟩
  · exact ⟨Seen.nil, .inl rfl⟩

end

/-! ### Tokens -/

/-- The tokens of a name that may be ignored. -/
def assignNameToks : AssignName → List Token
  | .variable_ n => [.name n]
  | .discard n => [.discardName n]

/-- The tokens of the name of a constructor. -/
def constructorToks (module : Option Name) (name : Name) : List Token :=
  match module with
  | some m => [.name m, .symbol .dot, .upName name]
  | none => [.upName name]

/-- The tokens of the tail of a list. -/
def tailToks : AssignName → List Token
  | .variable_ n => [.symbol .dotDot, .name n]
  | .discard _ => [.symbol .dotDot]

mutual
/-- The tokens of a formatted pattern: there may be a comma after the last element. -/
def Toks : Pat → List Token → Prop
  | .int value n, ks => ks = [.int (int value) n]
  | .float value, ks => ks = [.float (float value)]
  | .string value, ks => ks = [.string value]
  | .var name, ks => ks = [.name name]
  | .discard name, ks => ks = [.discardName name]
  | .assign name p, ks =>
    if p.isDiscard then ks = [.name name] else ∃ a, ks = a ++ [.keyword .as_, .name name] ∧ Toks p a
  | .stringPrefix left leftName right, ks =>
    ks = .string left :: (match leftName with | some n => [.keyword .as_, .name n] | none => []) ++
      .symbol .concatenate :: assignNameToks right
  | .tuple elements, ks =>
    ∃ a c, ks = [.symbol .hash, .symbol .leftParen] ++ (a ++ (c ++ [.symbol .rightParen])) ∧ PatsToks [] elements a ∧
      MaybeComma c ∧ (elements = .nil → c = [])
  | .list elements tail, ks =>
    match elements with
    | .nil => ks = (match tail with | some t => assignNameToks t | none => [.symbol .leftSquare, .symbol .rightSquare])
    | .cons p rest =>
      ∃ a b c, ks = .symbol .leftSquare :: (a ++ b ++ (c ++ [.symbol .rightSquare])) ∧ Toks p a ∧
        PatsToks [.symbol .comma] rest b ∧
        (match tail with | some t => c = .symbol .comma :: tailToks t | none => MaybeComma c)
  | .ctor module name arguments spread, ks =>
    if arguments.isEmpty then
      ks = constructorToks module name ++
        (if spread then [.symbol .leftParen, .symbol .dotDot, .symbol .rightParen] else [])
    else ∃ a c, ks = constructorToks module name ++ .symbol .leftParen :: (a ++
        ((if spread then [.symbol .comma, .symbol .dotDot] else []) ++ (c ++ [.symbol .rightParen]))) ∧
      ArgsToks [] arguments a ∧ MaybeComma c

/-- The tokens of patterns, the first of which follows `lead`. -/
def PatsToks (lead : List Token) : Pats → List Token → Prop
  | .nil, ks => ks = []
  | .cons p rest, ks => ∃ a b, ks = lead ++ (a ++ b) ∧ Toks p a ∧ PatsToks [.symbol .comma] rest b

/-- The tokens of arguments, the first of which follows `lead`. -/
def ArgsToks (lead : List Token) : Args → List Token → Prop
  | .nil, ks => ks = []
  | .plain p rest, ks => ∃ a b, ks = lead ++ (a ++ b) ∧ Toks p a ∧ ArgsToks [.symbol .comma] rest b
  | .labelled label p rest, ks =>
    ∃ a b, ks = lead ++ ([.name label, .symbol .colon] ++ a ++ b) ∧ Toks p a ∧ ArgsToks [.symbol .comma] rest b
  | .shorthand label rest, ks =>
    ∃ b, ks = lead ++ ([.name label, .symbol .colon] ++ b) ∧ ArgsToks [.symbol .comma] rest b
end

/-! ### From layouts to tokens -/

section
variable {eof : Nat} {width : List Char → Nat}

/-- The text is read as the tokens when a separator follows. -/
def SeenSep (eof : Nat) (out : List Char) (ks : List Token) : Prop := ∀ z rest, Sep z → Seen eof out ks (z :: rest)

/-- What starts with a separator if one follows. -/
def Starts (out : List Char) : Prop := out = [] ∨ ∃ z r, out = z :: r ∧ Sep z

theorem starts_then {out rest : List Char} {z : Char} (h : Starts out) (hz : Sep z) :
    ∃ z' r', out ++ z :: rest = z' :: r' ∧ Sep z' := by
  rcases h with rfl | ⟨z', r, rfl, h⟩
  · exact ⟨z, rest, rfl, hz⟩
  · exact ⟨z', _, rfl, h⟩

theorem SeenSep.then {x y : List Char} {ks ls : List Token} (h1 : SeenSep eof x ks) (hs : Starts y) (h2 : SeenSep eof y ls) :
    SeenSep eof (x ++ y) (ks ++ ls) := by
  intro z rest hz
  obtain ⟨z', r', e, hz'⟩ := starts_then (rest := rest) hs hz
  refine Seen.append ?_ (h2 z rest hz)
  rw [e]
  exact h1 z' r' hz'

theorem layAll_starts {i : Int} {br : Bool} {ds : List Doc} {out : List Char} (h : LayAll commaBreak i br ds out) :
    Starts out := by
  cases ds with
  | nil => exact .inl h
  | cons d ds =>
    obtain ⟨s, x, y, rfl, h1, _, _⟩ := h
    obtain ⟨r, rfl⟩ := (seen_commaBreak (eof := 0) (rest := []) h1).2
    exact .inr ⟨',', _, rfl, by simp [Sep]⟩

theorem seen_assignName {a : AssignName} (h : AssignNameOk a) {i : Int} {br : Bool} {out : List Char}
    (hl : Layout (assignNameDoc width a) i br out) : SeenSep eof out (assignNameToks a) := by
  intro z rest hz
  cases a with
  | variable_ n =>
    cases hl
    exact seen_name (stop_sep hz) h
  | discard n =>
    cases hl
    exact seen_discard (stop_sep hz) h

theorem layout_string {value : List Char} {i : Int} {br : Bool} {out : List Char}
    (hl : Layout (stringDoc width value) i br out) : out = '"' :: value ++ ['"'] := by
  have key : ∀ {i : Int} {br : Bool} {out : List Char},
      Layout ((text width value).surround (text width ['"']) (text width ['"'])) i br out → out = '"' :: value ++ ['"'] := by
    intro i br out h
    obtain ⟨x, y, rfl, h1, h2⟩ := layout_append h
    obtain ⟨a, b, rfl, h3, h4⟩ := layout_append h1
    cases h2
    cases h3
    cases h4
    rfl
  unfold stringDoc at hl
  simp only at hl
  split at hl
  · exact key hl
  · exact key hl

theorem stop_open {c : Char} {rest : List Char} (h : c = '(' ∨ c = '.' ∨ c = ' ' ∨ c = ':') : Stop (c :: rest) := by
  intro d hd
  cases hd
  unfold NameChar
  rcases h with rfl | rfl | rfl | rfl <;> decide

theorem seen_constructorName {module : Option Name} {name : Name} (hm : ∀ m, module = some m → IsName m)
    (hn : IsUpName name) {i : Int} {br : Bool} {out rest : List Char} (hs : Stop rest)
    (hl : Layout (constructorName width module name) i br out) : Seen eof out (constructorToks module name) rest := by
  cases module with
  | none =>
    cases hl
    exact seen_upName hs hn
  | some m =>
    obtain ⟨x, y, rfl, h1, h2⟩ := layout_append
      (show Layout (((text width m).append (text width ['.'])).append (text width name)) i br out from hl)
    obtain ⟨a, b, rfl, h3, h4⟩ := layout_append h1
    cases h2
    cases h3
    cases h4
    have hn' := hn
    obtain ⟨_, ⟨c, r, e, hc⟩, _⟩ := hn'
    rw [List.append_assoc]
    refine Seen.append (ks := [.name m]) (seen_name ?_ (hm m rfl)) (Seen.append (t := ['.']) (ks := [.symbol .dot]) ?_
      (seen_upName hs hn))
    · exact stop_open (.inr (.inl rfl))
    · rw [e]
      exact seen_dot hc

theorem layAll_nil {docs : List Doc} {i : Int} {br : Bool} {out : List Char} (h : LayAll commaBreak i br docs out)
    (hd : docs = []) : out = [] := by
  subst hd
  exact h

/-- A first document, and documents that follow it after commas, in parentheses. -/
theorem seen_wrap {d : Doc} {ds : List Doc} {i : Int} {br : Bool} {out : List Char} {first more : List Token → Prop}
    (hl : Layout (wrapArguments width (d :: ds)) i br out)
    (h1 : ∀ i br x, Layout d i br x → ∃ ks, first ks ∧ SeenSep eof x ks)
    (h2 : ∀ i br x, LayAll commaBreak i br ds x → ∃ ks, more ks ∧ SeenSep eof x ks) :
    ∃ a b c, first a ∧ more b ∧ MaybeComma c ∧ (∃ r, out = '(' :: r) ∧
      SeenSep eof out (.symbol .leftParen :: (a ++ b ++ (c ++ [.symbol .rightParen]))) := by
  unfold wrapArguments at hl
  obtain ⟨x, y, rfl, e1, e2⟩ := layout_append hl
  obtain ⟨u, v, rfl, e3, e4⟩ := layout_append e1
  obtain ⟨o, s, rfl, e5, e6⟩ := layout_append (show Layout (openParenBreak.append (joinWith commaBreak (d :: ds))) _ _ u from e3)
  obtain ⟨f, t, rfl, e7, e8⟩ := layout_joinWith e6
  cases e2
  obtain ⟨a, ha, sa⟩ := h1 _ _ _ e7
  obtain ⟨b, hb, sb⟩ := h2 _ _ _ e8
  obtain ⟨c, hc, sc, sc'⟩ := seen_trailingCommaBreak (eof := eof) e4
  obtain ⟨r, hr⟩ := (seen_openParenBreak (eof := eof) (rest := []) e5).2
  have st : Starts (v ++ [')']) := by
    rcases sc' with rfl | ⟨r, rfl⟩
    · exact .inr ⟨')', [], rfl, by simp [Sep]⟩
    · exact .inr ⟨',', _, rfl, by simp [Sep]⟩
  have sclose : SeenSep eof (v ++ [')']) (c ++ [.symbol .rightParen]) := by
    intro z rest hz
    exact Seen.append (sc _) (seen_symbol (by decide))
  refine ⟨a, b, c, ha, hb, hc, ⟨_, by rw [hr]; rfl⟩, ?_⟩
  intro z rest hz
  have h3 := (SeenSep.then (SeenSep.then sa (layAll_starts e8) sb) st sclose) z rest hz
  have h4 : Seen eof o [.symbol .leftParen] (f ++ t ++ (v ++ [')']) ++ z :: rest) := (seen_openParenBreak e5).1
  have h5 := Seen.append h4 h3
  simpa using h5

theorem seen_wrapSpread {d : Doc} {ds : List Doc} {i : Int} {br : Bool} {out : List Char} {first more : List Token → Prop}
    (hl : Layout (wrapArgumentsWithSpread width (d :: ds)) i br out)
    (h1 : ∀ i br x, Layout d i br x → ∃ ks, first ks ∧ SeenSep eof x ks)
    (h2 : ∀ i br x, LayAll commaBreak i br ds x → ∃ ks, more ks ∧ SeenSep eof x ks) :
    ∃ a b c, first a ∧ more b ∧ MaybeComma c ∧ (∃ r, out = '(' :: r) ∧
      SeenSep eof out (.symbol .leftParen :: (a ++ b ++ ([.symbol .comma, .symbol .dotDot] ++ (c ++ [.symbol .rightParen])))) := by
  unfold wrapArgumentsWithSpread at hl
  obtain ⟨x, y, rfl, e1, e2⟩ := layout_append hl
  obtain ⟨u, v, rfl, e3, e4⟩ := layout_append e1
  obtain ⟨u1, dots, rfl, e3a, e3b⟩ := layout_append (show Layout
    (((openParenBreak.append (joinWith commaBreak (d :: ds))).append commaBreak).append (text width ['.', '.'])) _ _ u from e3)
  obtain ⟨u2, cm, rfl, e3c, e3d⟩ := layout_append e3a
  obtain ⟨o, s, rfl, e5, e6⟩ := layout_append e3c
  obtain ⟨f, t, rfl, e7, e8⟩ := layout_joinWith e6
  cases e2
  cases e3b
  obtain ⟨a, ha, sa⟩ := h1 _ _ _ e7
  obtain ⟨b, hb, sb⟩ := h2 _ _ _ e8
  obtain ⟨c, hc, sc, sc'⟩ := seen_trailingCommaBreak (eof := eof) e4
  obtain ⟨r, hr⟩ := (seen_openParenBreak (eof := eof) (rest := []) e5).2
  obtain ⟨r', hr'⟩ := (seen_commaBreak (eof := eof) (rest := []) e3d).2
  have st : Starts (cm ++ (['.', '.'] ++ (v ++ [')']))) := .inr ⟨',', _, by rw [hr']; rfl, by simp [Sep]⟩
  have sclose : SeenSep eof (cm ++ (['.', '.'] ++ (v ++ [')'])))
      ([.symbol .comma] ++ ([.symbol .dotDot] ++ (c ++ [.symbol .rightParen]))) := by
    intro z rest hz
    exact Seen.append (seen_commaBreak e3d).1 (Seen.append seen_dotDot (Seen.append (sc _) (seen_symbol (by decide))))
  refine ⟨a, b, c, ha, hb, hc, ⟨_, by rw [hr]; rfl⟩, ?_⟩
  intro z rest hz
  have h3 := (SeenSep.then (SeenSep.then sa (layAll_starts e8) sb) st sclose) z rest hz
  have h4 : Seen eof o [.symbol .leftParen] (f ++ t ++ (cm ++ (['.', '.'] ++ (v ++ [')']))) ++ z :: rest) :=
    (seen_openParenBreak e5).1
  have h5 := Seen.append h4 h3
  simpa using h5

end
end Verif.Format
