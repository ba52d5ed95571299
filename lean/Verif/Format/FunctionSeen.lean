import Verif.Format.DefinitionSeen
import Verif.Format.FunctionSpec

/-!
# A formatted signature is read as its tokens
-/
namespace Verif.Format
open Verif.Lexer Verif.Lexer.Spec Verif.Format.Spec Verif.TypeText
open Verif.Pretty (Doc joinWith)
open Verif.Pretty.Spec (Layout)

/-- The tokens of the names of a parameter. -/
def argNamesToks : ArgNames → List Token
  | .named n => [.name n]
  | .discard n => [.discardName n]
  | .namedLabelled l n => [.name l, .name n]
  | .labelledDiscard l n => [.name l, .discardName n]

/-- The tokens of an annotation after a symbol. -/
def AnnotationToks (s : Symbol) : Option TypeAst → List Token → Prop
  | none, ks => ks = []
  | some t, ks => ∃ a, TypeToks t a ∧ ks = .symbol s :: a

/-- The tokens of a parameter. -/
def ParamToks (a : Arg) (ks : List Token) : Prop :=
  ∃ b, AnnotationToks .colon a.annotation b ∧ ks = argNamesToks a.names ++ b

/-- The tokens of parameters that follow another. -/
def ParamsToks : List Arg → List Token → Prop
  | [], ks => ks = []
  | x :: xs, ks => ∃ a b, ks = .symbol .comma :: (a ++ b) ∧ ParamToks x a ∧ ParamsToks xs b

/-- The tokens of all parameters. -/
def AllArgsToks (xs : List Arg) (ks : List Token) : Prop :=
  (xs = [] ∧ ks = []) ∨ ∃ x more a b c, xs = x :: more ∧ ParamToks x a ∧ ParamsToks more b ∧ MaybeComma c ∧ ks = a ++ (b ++ c)

/-- The tokens of a signature without attributes. -/
def SignatureToks (s : Signature) (ks : List Token) : Prop :=
  ∃ ps r, AllArgsToks s.arguments ps ∧ AnnotationToks .rArrow s.returns r ∧
    ks = (if s.isPublic then [.keyword .pub_] else []) ++
      (.keyword .fn_ :: .name s.name :: .symbol .leftParen :: (ps ++ (.symbol .rightParen :: r)))

section
variable {eof : Nat} {width : List Char → Nat}

theorem argNames_seen {names : ArgNames} (h : ArgNamesOk names) {i : Int} {br : Bool} {out : List Char}
    (hl : Layout (argNamesDoc width names) i br out) {rest : List Char} (hs : Stop rest) :
    Seen eof out (argNamesToks names) rest := by
  cases names with
  | named n => cases hl; exact seen_name hs h
  | discard n => cases hl; exact seen_discard hs h
  | namedLabelled l n =>
    obtain ⟨x, y, z, rfl, e1, e2, e3⟩ := hl
    cases e1
    cases e2
    cases e3
    have g := Seen.append (ks := [.name l]) (seen_name (stop_of (by simp)) h.1)
      (Seen.append (t := [' ']) (ks := []) seen_space (seen_name (eof := eof) hs h.2))
    simpa [argNamesToks] using g
  | labelledDiscard l n =>
    obtain ⟨x, y, z, rfl, e1, e2, e3⟩ := hl
    cases e1
    cases e2
    cases e3
    have g := Seen.append (ks := [.name l]) (seen_name (stop_of (by simp)) h.1)
      (Seen.append (t := [' ']) (ks := []) seen_space (seen_discard (eof := eof) hs h.2))
    simpa [argNamesToks] using g

theorem arg_seen {a : Arg} (h : ArgNamesOk a.names ∧ ∀ t, a.annotation = some t → TypeOk t) (i : Int) (br : Bool)
    (out : List Char) (hl : Layout (argDoc width a) i br out) : ∃ ks, ParamToks a ks ∧ SeenSep eof out ks := by
  obtain ⟨names, annotation⟩ := a
  unfold argDoc at hl
  obtain ⟨br, hl⟩ := layout_grouped hl
  cases annotation with
  | none =>
    refine ⟨_, ⟨[], rfl, rfl⟩, fun z rest hz => ?_⟩
    rw [List.append_nil]
    exact argNames_seen h.1 hl (stop_sep hz)
  | some t =>
    obtain ⟨x, y, rfl, e1, e2⟩ := layout_append hl
    obtain ⟨p, q, rfl, e3, e4⟩ := layout_append e1
    cases e4
    obtain ⟨a, ha, sa⟩ := type_seen (eof := eof) t (h.2 t rfl) _ _ _ e2
    refine ⟨_, ⟨_, ⟨a, ha, rfl⟩, rfl⟩, fun z rest hz => ?_⟩
    have g := Seen.append (t := [':']) (u := [' '] ++ y) (ks := [.symbol .colon]) (ls := [] ++ a) (rest := z :: rest)
      (seen_symbol (by decide)) (Seen.append seen_space (sa z rest hz))
    have g2 := Seen.append (argNames_seen h.1 e3 (stop_open (.inr (.inr (.inr rfl))))) g
    simpa using g2

theorem args_seen (i : Int) (br : Bool) : (xs : List Arg) →
    (∀ a ∈ xs, ArgNamesOk a.names ∧ ∀ t, a.annotation = some t → TypeOk t) →
    ∀ out, LayAll commaBreak i br (xs.map (argDoc width)) out → ∃ ks, ParamsToks xs ks ∧ SeenSep eof out ks
  | [], _, out, hl => by
    rw [List.map_nil, LayAll] at hl
    subst hl
    exact ⟨[], rfl, fun _ _ _ => Seen.nil⟩
  | x :: xs, h, out, hl => by
    obtain ⟨s, u, y, rfl, e1, e2, e3⟩ := hl
    obtain ⟨a, ha, sa⟩ := arg_seen (eof := eof) (h x (by simp)) _ _ _ e2
    obtain ⟨b, hb, sb⟩ := args_seen i br xs (fun g hg => h g (by simp [hg])) _ e3
    refine ⟨_, ⟨a, b, rfl, ha, hb⟩, fun z rest hz => ?_⟩
    exact Seen.append (ks := [.symbol .comma]) (seen_commaBreak e1).1 (SeenSep.then sa (layAll_starts e3) sb z rest hz)

theorem allArgs_seen {xs : List Arg} (h : ∀ a ∈ xs, ArgNamesOk a.names ∧ ∀ t, a.annotation = some t → TypeOk t)
    {i : Int} {br : Bool} {out : List Char} (hl : Layout (wrapArguments width (xs.map (argDoc width))) i br out) :
    ∃ ks, AllArgsToks xs ks ∧ SeenSep eof out (.symbol .leftParen :: (ks ++ [.symbol .rightParen])) ∧ ∃ r, out = '(' :: r := by
  cases xs with
  | nil =>
    cases hl
    refine ⟨[], .inl ⟨rfl, rfl⟩, fun z rest hz => ?_, _, rfl⟩
    exact Seen.append (t := ['(']) (u := [')']) (ks := [.symbol .leftParen]) (seen_symbol (by decide)) (seen_symbol (by decide))
  | cons x more =>
    rw [List.map_cons] at hl
    obtain ⟨a, b, c, ha, hb, hc, hr, sd⟩ := seen_wrap (eof := eof) hl (arg_seen (h x (by simp)))
      (fun i br => args_seen i br more (fun g hg => h g (by simp [hg])))
    refine ⟨a ++ (b ++ c), .inr ⟨x, more, a, b, c, rfl, ha, hb, hc, rfl⟩, ?_, hr⟩
    simpa using sd

theorem signature_seen {s : Signature} (ok : SignatureOk s) {i : Int} {br : Bool} {out : List Char}
    (hl : Layout (signatureDoc width s) i br out) :
    ∃ ks, SignatureToks s ks ∧ SeenSep eof out ks ∧ ∃ c r, out = c :: r ∧ c ≠ byteOrderMark := by
  obtain ⟨attributes, isPublic, name, arguments, returns⟩ := s
  obtain ⟨_, _, _, _, hn, ha, hr⟩ := ok
  have head : ∀ {out : List Char}, Layout ((((pubDoc width isPublic).append (text width "fn ".toList)).append
      (text width name)).append (wrapArguments width (arguments.map (argDoc width)))) i br out →
      ∃ ps, AllArgsToks arguments ps ∧ SeenSep eof out ((if isPublic then [.keyword .pub_] else []) ++
        (.keyword .fn_ :: .name name :: .symbol .leftParen :: (ps ++ [.symbol .rightParen]))) ∧
        ∃ c r, out = c :: r ∧ c ≠ byteOrderMark := by
    intro out hl
    obtain ⟨x, y, rfl, e1, e2⟩ := layout_append hl
    obtain ⟨x, z, rfl, e3, e4⟩ := layout_append e1
    obtain ⟨p, f, rfl, e5, e6⟩ := layout_append e3
    cases e4
    cases e6
    obtain ⟨ps, h1, h2, r, hr⟩ := allArgs_seen (eof := eof) ha e2
    refine ⟨ps, h1, fun z rest hz => ?_, ?_⟩
    · have g1 := Seen.append (ks := [.name name]) (seen_name (by rw [hr]; exact stop_open (.inl rfl)) hn) (h2 z rest hz)
      have g2 := Seen.append (t := "fn ".toList) (ks := [.keyword .fn_]) (seen_keywordSpace .fn_) g1
      have g3 := Seen.append (pub_seen (eof := eof) e5) g2
      simpa using g3
    · cases isPublic with
      | true => cases e5; exact ⟨'p', _, rfl, by decide⟩
      | false => cases e5; exact ⟨'f', _, rfl, by decide⟩
  unfold signatureDoc at hl
  simp only at hl
  cases returns with
  | none =>
    obtain ⟨ps, h1, h2, h3⟩ := head hl
    exact ⟨_, ⟨ps, [], h1, rfl, rfl⟩, h2, h3⟩
  | some t =>
    obtain ⟨x, y, rfl, e1, e2⟩ := layout_append hl
    obtain ⟨x, z, rfl, e3, e4⟩ := layout_append e1
    cases e4
    obtain ⟨ps, h1, h2, c, r, rfl, hb⟩ := head e3
    obtain ⟨a, h4, h5⟩ := type_seen (eof := eof) t (hr t rfl) _ _ _ e2
    refine ⟨_, ⟨ps, _, h1, ⟨a, h4, rfl⟩, rfl⟩, fun z rest hz => ?_, c, _, rfl, hb⟩
    have g1 : Seen eof ([' '] ++ (['-', '>'] ++ ([' '] ++ y))) ([] ++ ([.symbol .rArrow] ++ ([] ++ a))) (z :: rest) :=
      Seen.append seen_space (Seen.append seen_rArrow (Seen.append seen_space (h5 z rest hz)))
    have g2 := Seen.append (h2 ' ' (['-', '>'] ++ ([' '] ++ y) ++ z :: rest) (by simp [Sep])) g1
    simpa using g2

/-- What the tokens after the signature are. -/
def AfterToks (B : List Token → Prop) (body : Option Doc) (ks : List Token) : Prop :=
  match body with
  | none => ks = []
  | some _ => ∃ bs, B bs ∧ ks = .symbol .leftBrace :: (bs ++ [.symbol .rightBrace])

theorem function_seen {s : Signature} (ok : SignatureOk s) {body : Option Doc} {B : List Token → Prop}
    (hb : ∀ b, body = some b → BodyReads b B) {i : Int} {br : Bool} {out : List Char}
    (hl : Layout (functionDoc width s body) i br out) :
    ∃ ks, (∃ a b, SignatureToks s a ∧ AfterToks B body b ∧ ks = a ++ b) ∧ SeenSep eof out (allToks s.attributes ++ ks) ∧
      ∃ c r, out = c :: r ∧ c ≠ byteOrderMark := by
  have hs := attributeDocs_seen (eof := eof) (width := width) (int := s.attributes.internal) ok.1 ok.2.1 ok.2.2.1
  have hat := attributeDocs_startAt (width := width) (dep := s.attributes.deprecated) (erl := s.attributes.erlang)
    (js := s.attributes.javascript) (int := s.attributes.internal)
  rw [allToks_eq]
  unfold functionDoc at hl
  refine targeted_seen (fun i br out hl => ?_) hl
  have join : ∀ {ks : List Token} {x y : List Char}, Layout (attributesDoc (attributeDocs width s.attributes.deprecated
      s.attributes.erlang s.attributes.javascript s.attributes.internal)) i br x → SeenSep eof y ks →
      (∃ c r, y = c :: r ∧ c ≠ byteOrderMark) →
      SeenSep eof (x ++ y) ((attributeToks s.attributes.deprecated s.attributes.erlang s.attributes.javascript
        s.attributes.internal).flatten ++ ks) ∧ ∃ c r, x ++ y = c :: r ∧ c ≠ byteOrderMark := by
    intro ks x y h1 h2 h3
    refine ⟨fun z rest hz => Seen.append (attributesDoc_seen hs h1) (h2 z rest hz), ?_⟩
    rcases attributesDoc_startsAt hat h1 with rfl | ⟨q, rfl⟩
    · exact h3
    · exact ⟨'@', _, rfl, by decide⟩
  cases body with
  | none =>
    simp only at hl
    obtain ⟨x, w, rfl, e1, y, w, rfl, e2, e0⟩ := layout_concat hl
    rw [LayEach] at e0
    subst e0
    rw [List.append_nil]
    obtain ⟨br2, e2⟩ := layout_grouped e2
    obtain ⟨ks, h1, h2, h3⟩ := signature_seen (eof := eof) ok e2
    exact ⟨ks, ⟨ks, [], h1, rfl, by simp⟩, join e1 h2 h3⟩
  | some body =>
    simp only at hl
    obtain ⟨x, w, rfl, e1, y, w, rfl, e2, e0⟩ := layout_concat hl
    rw [LayEach] at e0
    subst e0
    rw [List.append_nil]
    obtain ⟨y, brace, rfl, e3, e4⟩ := layout_append e2
    obtain ⟨y, nl, rfl, e5, e6⟩ := layout_append e3
    obtain ⟨y, inner, rfl, e7, e8⟩ := layout_append e5
    cases e4
    cases e6
    obtain ⟨br2, e7⟩ := layout_grouped e7
    obtain ⟨sg, op, rfl, e9, e10⟩ := layout_append e7
    cases e10
    obtain ⟨br3, e8⟩ := layout_grouped e8
    obtain ⟨nl, b, rfl, e11, e12⟩ := layout_append (show Layout ((Doc.line 1).append body) _ _ inner from e8)
    cases e11
    obtain ⟨ks, h1, h2, c, r, rfl, hc⟩ := signature_seen (eof := eof) ok e9
    obtain ⟨bs, h4, h5⟩ := hb body rfl eof _ _ _ e12
    refine ⟨_, ⟨ks, _, h1, ⟨bs, h4, rfl⟩, rfl⟩, join e1 (fun z rest hz => ?_) ⟨c, _, rfl, hc⟩⟩
    have g1 : Seen eof (('\n' :: List.replicate i.toNat ' ') ++ ['}']) ([] ++ [.symbol .rightBrace]) (z :: rest) :=
      Seen.append (seen_lineEnd _) (seen_brace (by decide))
    have g2 := Seen.append (h5 (List.replicate i.toNat ' ' ++ ['}'] ++ z :: rest)) g1
    have g3 := Seen.append (seen_lineEnd (eof := eof) (i + 2).toNat) g2
    have g4 := Seen.append (t := [' ']) (ks := []) seen_space (Seen.append (t := ['{']) (ks := [.symbol .leftBrace])
      (seen_brace (by decide)) g3)
    have g5 := Seen.append (by simpa using h2 ' ' _ (by simp [Sep])) g4
    simpa using g5

end
end Verif.Format
