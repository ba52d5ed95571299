import Verif.Format.AttributeSeen
import Verif.Format.TypeDefSpec

/-!
# A formatted definition of a type is read as its tokens
-/
namespace Verif.Format
open Verif.Lexer Verif.Lexer.Spec Verif.Format.Spec Verif.TypeText
open Verif.Pretty (Doc joinWith)
open Verif.Pretty.Spec (Layout)

/-- The tokens of the parameters. -/
def ParameterToks (ps : List Name) (ks : List Token) : Prop :=
  (ps = [] ∧ ks = []) ∨ ∃ p more c, ps = p :: more ∧ MaybeComma c ∧
    ks = .symbol .leftParen :: ([.name p] ++ more.flatMap (fun q => [.symbol .comma, .name q]) ++ (c ++ [.symbol .rightParen]))

/-- The tokens of a field. -/
def FieldToks (f : Field) (ks : List Token) : Prop :=
  ∃ a, TypeToks f.type a ∧ ks = (match f.label with
    | some l => [.name l, .symbol .colon]
    | none => []) ++ a

/-- The tokens of fields that follow another. -/
def FieldsToks : List Field → List Token → Prop
  | [], ks => ks = []
  | f :: fs, ks => ∃ a b, ks = .symbol .comma :: (a ++ b) ∧ FieldToks f a ∧ FieldsToks fs b

/-- The tokens of a constructor after its attributes. -/
def ConstructorToks (v : Variant) (ks : List Token) : Prop :=
  match v.fields with
  | [] => ks = [.upName v.name]
  | f :: fs => ∃ a b c, ks = .upName v.name :: .symbol .leftParen :: (a ++ b ++ (c ++ [.symbol .rightParen])) ∧
      FieldToks f a ∧ FieldsToks fs b ∧ MaybeComma c

/-- The tokens of a constructor. -/
def VariantToks (v : Variant) (ks : List Token) : Prop :=
  ∃ body, ks = (attributeToks v.deprecated none none false).flatten ++ body ∧ ConstructorToks v body

/-- The tokens before the name. -/
def headToks (isPublic isOpaque : Bool) : List Token :=
  (if isPublic then [.keyword .pub_] else []) ++ ((if isOpaque then [.keyword .opaque_] else []) ++ [.keyword .type_])

/-- The tokens of a definition. -/
def TypeDefToks : TypeDef → List Token → Prop
  | .custom isPublic isOpaque name parameters variants, ks =>
    ∃ ps body, ks = headToks isPublic isOpaque ++ (.upName name :: (ps ++ body)) ∧ ParameterToks parameters ps ∧
      ((variants = [] ∧ body = []) ∨ ∃ kss, variants ≠ [] ∧ List.Forall₂ VariantToks variants kss ∧
        body = .symbol .leftBrace :: (kss.flatten ++ [.symbol .rightBrace]))
  | .alias_ isPublic name parameters type, ks =>
    ∃ ps a, ks = headToks isPublic false ++ (.upName name :: (ps ++ .symbol .equal :: a)) ∧ ParameterToks parameters ps ∧
      TypeToks type a

section
variable {eof : Nat} {width : List Char → Nat}

theorem seen_equal_space {rest : List Char} : Seen eof ['='] [.symbol .equal] (' ' :: rest) := by
  refine seen_lexes (lexes_token (by simp) fun p he => ?_) rfl
  simp only [List.singleton_append] at he ⊢
  have n1 := next1 he (by decide) (by decide)
  rw [bytes_one (by decide)]
  refine ⟨n1.2, p, (View eof (p + 1) (' ' :: rest)).location0, ?_⟩
  simp only [consumeNormal, view_cons_char0, ne_eq, Char.reduceEq, not_false_eq_true, location_cons, view_cons_char1,
    isUpper, isNameStart, isLower, isNumberStart, isDigit, startsDigit, consumeCharacter, singleSymbol, if_true, if_false,
    emit, n1.1, Option.some.injEq, Bool.and_eq_true, decide_eq_true_eq, lexEqual]
  rfl

theorem seen_equal {rest : List Char} : Seen eof ['='] [.symbol .equal] ('\n' :: rest) := by
  refine seen_lexes (lexes_token (by simp) fun p he => ?_) rfl
  simp only [List.singleton_append] at he ⊢
  have n1 := next1 he (by decide) (by decide)
  rw [bytes_one (by decide)]
  refine ⟨n1.2, p, (View eof (p + 1) ('\n' :: rest)).location0, ?_⟩
  simp only [consumeNormal, view_cons_char0, ne_eq, Char.reduceEq, not_false_eq_true, location_cons, view_cons_char1,
    isUpper, isNameStart, isLower, isNumberStart, isDigit, startsDigit, consumeCharacter, singleSymbol, if_true, if_false,
    emit, n1.1, Option.some.injEq, Bool.and_eq_true, decide_eq_true_eq, lexEqual]
  rfl

/-! ### Parameters -/

theorem names_seen {i : Int} {br : Bool} : {ps : List Name} → (∀ p ∈ ps, IsName p) → ∀ {out : List Char},
    LayAll commaBreak i br (ps.map (text width)) out →
    SeenSep eof out (ps.flatMap fun q => [.symbol .comma, .name q])
  | [], _, out, hl => by
    rw [List.map_nil, LayAll] at hl
    subst hl
    exact fun _ _ _ => Seen.nil
  | p :: ps, h, out, hl => by
    obtain ⟨s, x, y, rfl, e1, e2, e3⟩ := hl
    cases e2
    have h1 := names_seen (fun q hq => h q (by simp [hq])) e3
    have h2 : SeenSep eof p [.name p] := fun z rest hz => seen_name (stop_sep hz) (h p (by simp))
    intro z rest hz
    rw [List.flatMap_cons]
    exact Seen.append (ks := [.symbol .comma]) (seen_commaBreak e1).1 (SeenSep.then h2 (layAll_starts e3) h1 z rest hz)

theorem parameters_seen {ps : List Name} (h : ∀ p ∈ ps, IsName p) (hn : ps ≠ []) {i : Int} {br : Bool} {out : List Char}
    (hl : Layout (wrapArguments width (ps.map (text width))) i br out) :
    ∃ ks, ParameterToks ps ks ∧ SeenSep eof out ks ∧ ∃ r, out = '(' :: r := by
  cases ps with
  | nil => exact absurd rfl hn
  | cons p more =>
    rw [List.map_cons] at hl
    obtain ⟨a, b, c, ha, hb, hc, hr, sd⟩ := seen_wrap (eof := eof) (first := fun ks => ks = [.name p])
      (more := fun ks => ks = more.flatMap fun q => [.symbol .comma, .name q]) hl
      (fun i br x hx => by cases hx; exact ⟨_, rfl, fun z rest hz => seen_name (stop_sep hz) (h p (by simp))⟩)
      (fun i br x hx => ⟨_, rfl, names_seen (fun q hq => h q (by simp [hq])) hx⟩)
    subst ha hb
    exact ⟨_, .inr ⟨p, more, c, rfl, hc, rfl⟩, sd, hr⟩

/-! ### Constructors -/

theorem field_seen {f : Field} (h : (∀ l, f.label = some l → IsName l) ∧ TypeOk f.type) (i : Int) (br : Bool)
    (out : List Char) (hl : Layout (fieldDoc width f) i br out) : ∃ ks, FieldToks f ks ∧ SeenSep eof out ks := by
  obtain ⟨label, t⟩ := f
  unfold fieldDoc at hl
  obtain ⟨br, hl⟩ := layout_grouped hl
  cases label with
  | none =>
    obtain ⟨a, ha, sa⟩ := type_seen (eof := eof) t h.2 _ _ _ hl
    exact ⟨a, ⟨a, ha, rfl⟩, sa⟩
  | some l =>
    obtain ⟨x, y, rfl, e1, e2⟩ := layout_append hl
    obtain ⟨p, q, rfl, e3, e4⟩ := layout_append e1
    cases e3
    cases e4
    obtain ⟨a, ha, sa⟩ := type_seen (eof := eof) t h.2 _ _ _ e2
    refine ⟨_, ⟨a, ha, rfl⟩, fun z rest hz => ?_⟩
    have g := Seen.append (t := [':']) (u := [' '] ++ y) (ks := [.symbol .colon]) (ls := [] ++ a) (rest := z :: rest)
      (seen_symbol (by decide)) (Seen.append seen_space (sa z rest hz))
    have g2 := Seen.append (ks := [.name l]) (seen_name (stop_open (.inr (.inr (.inr rfl)))) (h.1 l rfl)) g
    simpa using g2

theorem fields_seen (i : Int) (br : Bool) : (fs : List Field) → (∀ f ∈ fs, (∀ l, f.label = some l → IsName l) ∧ TypeOk f.type) →
    ∀ out, LayAll commaBreak i br (fs.map (fieldDoc width)) out → ∃ ks, FieldsToks fs ks ∧ SeenSep eof out ks
  | [], _, out, hl => by
    rw [List.map_nil, LayAll] at hl
    subst hl
    exact ⟨[], rfl, fun _ _ _ => Seen.nil⟩
  | f :: fs, h, out, hl => by
    obtain ⟨s, x, y, rfl, e1, e2, e3⟩ := hl
    obtain ⟨a, ha, sa⟩ := field_seen (eof := eof) (h f (by simp)) _ _ _ e2
    obtain ⟨b, hb, sb⟩ := fields_seen i br fs (fun g hg => h g (by simp [hg])) _ e3
    refine ⟨_, ⟨a, b, rfl, ha, hb⟩, fun z rest hz => ?_⟩
    exact Seen.append (ks := [.symbol .comma]) (seen_commaBreak e1).1 (SeenSep.then sa (layAll_starts e3) sb z rest hz)

theorem variant_seen {v : Variant} (h : VariantOk v) {i : Int} {br : Bool} {out : List Char}
    (hl : Layout (variantDoc width v) i br out) : ∃ ks, VariantToks v ks ∧ SeenSep eof out ks := by
  obtain ⟨dep, name, fields⟩ := v
  obtain ⟨h0, h⟩ := h
  unfold variantDoc at hl
  obtain ⟨br, hl⟩ := layout_grouped hl
  have hs := attributeDocs_seen (eof := eof) (width := width) (erl := none) (js := none) (int := false) h0 (by simp) (by simp)
  cases fields with
  | nil =>
    obtain ⟨u, x, rfl, e0, e1⟩ := layout_append hl
    cases e1
    exact ⟨_, ⟨_, rfl, rfl⟩, fun z rest hz => Seen.append (attributesDoc_seen hs e0) (seen_upName (stop_sep hz) h.1)⟩
  | cons f fs =>
    obtain ⟨x, y, rfl, e1, e2⟩ := layout_append hl
    obtain ⟨u, x, rfl, e0, e1⟩ := layout_append e1
    cases e1
    obtain ⟨br, e2⟩ := layout_grouped e2
    rw [List.map_cons] at e2
    obtain ⟨a, b, c, ha, hb, hc, ⟨r, hr⟩, sd⟩ := seen_wrap (eof := eof) e2 (field_seen (h.2 f (by simp)))
      (fun i br => fields_seen i br fs (fun g hg => h.2 g (by simp [hg])))
    refine ⟨_, ⟨_, rfl, a, b, c, rfl, ha, hb, hc⟩, fun z rest hz => ?_⟩
    rw [List.append_assoc]
    refine Seen.append (attributesDoc_seen hs e0) ?_
    refine Seen.append (ks := [.upName name]) (seen_upName ?_ h.1) (sd z rest hz)
    rw [hr]
    exact stop_open (.inl rfl)

theorem variants_seen {blank : Nat → Bool} {i : Int} {br : Bool} : {n : Nat} → (vs : List Variant) → (∀ v ∈ vs, VariantOk v) →
    ∀ {out : List Char}, LayEach i br (variantDocs width blank n vs) out →
    ∃ kss, List.Forall₂ VariantToks vs kss ∧ SeenSep eof out kss.flatten ∧ Starts out
  | n, [], _, out, hl => by
    rw [variantDocs, LayEach] at hl
    subst hl
    exact ⟨[], .nil, fun _ _ _ => Seen.nil, .inl rfl⟩
  | n, v :: vs, h, out, hl => by
    rw [variantDocs] at hl
    obtain ⟨x, y, rfl, e1, e2⟩ := hl
    obtain ⟨kss, h1, h2, h3⟩ := variants_seen vs (fun u hu => h u (by simp [hu])) e2
    obtain ⟨s, t, rfl, e3, e4⟩ := layout_append e1
    obtain ⟨ks, h4, h5⟩ := variant_seen (eof := eof) (h v (by simp)) e4
    have hs : (∃ r, s = '\n' :: r) ∧ ∀ rest, Seen eof s [] rest := by
      split at e3
      · cases e3
        exact ⟨⟨_, rfl⟩, fun rest => Seen.append (t := ['\n']) (ks := []) seen_newline (seen_lineEnd _)⟩
      · cases e3
        exact ⟨⟨_, rfl⟩, fun rest => seen_lineEnd _⟩
    obtain ⟨⟨r, hr⟩, hs⟩ := hs
    refine ⟨ks :: kss, .cons h4 h1, fun z rest hz => ?_, .inr ⟨'\n', r ++ t ++ y, by rw [hr]; simp, by simp [Sep]⟩⟩
    rw [List.flatten_cons, List.append_assoc]
    exact Seen.append (ks := []) (hs _) (SeenSep.then h5 h3 h2 z rest hz)

/-! ### Definitions -/

theorem pub_seen {isPublic : Bool} {i : Int} {br : Bool} {out rest : List Char} (hl : Layout (pubDoc width isPublic) i br out) :
    Seen eof out (if isPublic then [.keyword .pub_] else []) rest := by
  cases isPublic with
  | false => cases hl; exact Seen.nil
  | true => cases hl; exact seen_keywordSpace .pub_

theorem kind_seen {isOpaque : Bool} {i : Int} {br : Bool} {out rest : List Char}
    (hl : Layout (if isOpaque then text width "opaque type ".toList else text width "type ".toList) i br out) :
    Seen eof out ((if isOpaque then [.keyword .opaque_] else []) ++ [.keyword .type_]) rest := by
  cases isOpaque with
  | false => cases hl; exact seen_keywordSpace .type_
  | true =>
    cases hl
    exact Seen.append (t := "opaque ".toList) (u := "type ".toList) (ks := [.keyword .opaque_]) (seen_keywordSpace .opaque_)
      (seen_keywordSpace .type_)

theorem head_ascii {isPublic isOpaque : Bool} {i j : Int} {br br' : Bool} {x y : List Char}
    (h1 : Layout (pubDoc width isPublic) i br x)
    (h2 : Layout (if isOpaque then text width "opaque type ".toList else text width "type ".toList) j br' y) :
    ∃ c r, x ++ y = c :: r ∧ c ≠ byteOrderMark := by
  cases isPublic with
  | true => cases h1; exact ⟨'p', _, rfl, by decide⟩
  | false =>
    cases h1
    cases isOpaque with
    | true => cases h2; exact ⟨'o', _, rfl, by decide⟩
    | false => cases h2; exact ⟨'t', _, rfl, by decide⟩

/-- The name with the parameters. -/
theorem named_seen {name : Name} {ps : List Name} (hn : IsUpName name) {x y : List Char}
    (hx : x = name) {ks : List Token} (h : (ps = [] ∧ y = [] ∧ ks = []) ∨ SeenSep eof y ks ∧ ∃ r, y = '(' :: r) :
    SeenSep eof (x ++ y) (.upName name :: ks) := by
  subst hx
  intro z rest hz
  rcases h with ⟨_, rfl, rfl⟩ | ⟨h, r, hr⟩
  · rw [List.append_nil]
    exact seen_upName (stop_sep hz) hn
  · refine Seen.append (ks := [.upName x]) (seen_upName ?_ hn) (h z rest hz)
    rw [hr]
    exact stop_open (.inl rfl)

theorem typeDef_seen {blank : Nat → Bool} {d : TypeDef} (ok : TypeDefOk d) {i : Int} {br : Bool} {out : List Char}
    (hl : Layout (typeDefDoc width blank d) i br out) :
    ∃ ks, TypeDefToks d ks ∧ SeenSep eof out ks ∧ ∃ c r, out = c :: r ∧ c ≠ byteOrderMark := by
  cases d with
  | custom isPublic isOpaque name parameters variants =>
    obtain ⟨hn, hp, hv⟩ := ok
    have head : ∀ {out : List Char}, Layout (((pubDoc width isPublic).append
        (if isOpaque then text width "opaque type ".toList else text width "type ".toList)).append
          (if parameters.isEmpty then text width name
          else ((text width name).append (wrapArguments width (parameters.map (text width)))).grouped)) i br out →
        ∃ ps, ParameterToks parameters ps ∧ SeenSep eof out (headToks isPublic isOpaque ++ (.upName name :: ps)) ∧
          ∃ c r, out = c :: r ∧ c ≠ byteOrderMark := by
      intro out hl
      obtain ⟨x, y, rfl, e1, e2⟩ := layout_append hl
      obtain ⟨p, q, rfl, e3, e4⟩ := layout_append e1
      obtain ⟨c, r, hc, hb⟩ := head_ascii e3 e4
      have key : ∃ ps, ParameterToks parameters ps ∧ SeenSep eof y (.upName name :: ps) := by
        cases hps : parameters with
        | nil =>
          rw [hps] at e2
          simp only [List.isEmpty_nil, if_true] at e2
          refine ⟨[], .inl ⟨rfl, rfl⟩, ?_⟩
          have := named_seen (eof := eof) (y := []) (ps := []) hn (show y = name from e2) (.inl ⟨rfl, rfl, rfl⟩)
          simpa using this
        | cons a as =>
          rw [← hps]
          rw [if_neg (by simp [hps])] at e2
          obtain ⟨br, e2⟩ := layout_grouped e2
          obtain ⟨u, v, rfl, e5, e6⟩ := layout_append e2
          obtain ⟨ks, h1, h2, h3⟩ := parameters_seen (eof := eof) hp (by simp [hps]) e6
          exact ⟨ks, h1, named_seen (ps := parameters) hn e5 (.inr ⟨h2, h3⟩)⟩
      obtain ⟨ps, h1, h2⟩ := key
      refine ⟨ps, h1, fun z rest hz => ?_, c, r ++ y, by rw [hc]; rfl, hb⟩
      have g := Seen.append (pub_seen (eof := eof) e3) (Seen.append (kind_seen (eof := eof) e4) (h2 z rest hz))
      unfold headToks
      simpa using g
    unfold typeDefDoc at hl
    simp only at hl
    cases hvs : variants with
    | nil =>
      rw [hvs] at hl
      simp only [List.isEmpty_nil, if_true] at hl
      obtain ⟨ps, h1, h2, h3⟩ := head hl
      refine ⟨_, ⟨ps, [], rfl, h1, .inl ⟨rfl, rfl⟩⟩, ?_, h3⟩
      simpa using h2
    | cons w ws =>
      rw [← hvs]
      rw [if_neg (by simp [hvs])] at hl
      obtain ⟨x, y, rfl, e1, e2⟩ := layout_append hl
      obtain ⟨x, nl, rfl, e3, e4⟩ := layout_append e1
      obtain ⟨x, inner, rfl, e5, e6⟩ := layout_append e3
      obtain ⟨x, brace, rfl, e7, e8⟩ := layout_append e5
      cases e2
      cases e4
      cases e8
      obtain ⟨br, e6⟩ := layout_grouped e6
      obtain ⟨ps, h1, h2, c, r, hc, hb⟩ := head e7
      obtain ⟨kss, h3, h4, h5⟩ := variants_seen (eof := eof) variants hv (layout_concat e6)
      refine ⟨_, ⟨ps, _, rfl, h1, .inr ⟨kss, by simp [hvs], h3, rfl⟩⟩, fun z rest hz => ?_, c, _, by rw [hc]; rfl, hb⟩
      have g1 : Seen eof (('\n' :: List.replicate i.toNat ' ') ++ ['}']) ([] ++ [.symbol .rightBrace]) (z :: rest) :=
        Seen.append (seen_lineEnd _) (seen_brace (by decide))
      have g2 := Seen.append (h4 '\n' (List.replicate i.toNat ' ' ++ ['}'] ++ z :: rest) (by simp [Sep])) g1
      have g3 : Seen eof ([' '] ++ (['{'] ++ (inner ++ (('\n' :: List.replicate i.toNat ' ') ++ ['}']))))
          ([] ++ ([.symbol .leftBrace] ++ (kss.flatten ++ ([] ++ [.symbol .rightBrace])))) (z :: rest) :=
        Seen.append seen_space (Seen.append (seen_brace (by decide)) g2)
      have g4 := Seen.append (h2 ' ' (['{'] ++ (inner ++ (('\n' :: List.replicate i.toNat ' ') ++ ['}'])) ++ z :: rest)
        (by simp [Sep])) g3
      simpa using g4
  | alias_ isPublic name parameters type =>
    obtain ⟨hn, hp, ht⟩ := ok
    unfold typeDefDoc at hl
    simp only at hl
    obtain ⟨x, y, rfl, e1, e2⟩ := layout_append hl
    obtain ⟨x, eq, rfl, e3, e4⟩ := layout_append e1
    cases e4
    obtain ⟨br2, e2⟩ := layout_grouped (show Layout ((Doc.line 1).append (typeDoc width type)).grouped _ _ y from e2)
    obtain ⟨nl, t, rfl, e5, e6⟩ := layout_append e2
    cases e5
    obtain ⟨a, ha, sa⟩ := type_seen (eof := eof) type ht _ _ _ e6
    have head : ∃ ps, ParameterToks parameters ps ∧ SeenSep eof x (headToks isPublic false ++ (.upName name :: ps)) ∧
          ∃ c r, x = c :: r ∧ c ≠ byteOrderMark := by
      have plain : ∀ {x : List Char}, Layout (Pretty.concat [.empty, pubDoc width isPublic, text width "type ".toList,
          text width name]) i br x → ∃ p q, x = p ++ q ++ name ∧ Layout (pubDoc width isPublic) i br p ∧
          Layout (text width "type ".toList) i br q := by
        rintro x ⟨e, p, q, n, rfl, h1, h2, h3, h4⟩
        cases h1
        cases h4
        exact ⟨p, q, by simp, h2, h3⟩
      have finish : ∀ {p q n ps : List Char} {ks : List Token}, Layout (pubDoc width isPublic) i br p →
          Layout (text width "type ".toList) i br q → SeenSep eof n (.upName name :: ks) →
          SeenSep eof (p ++ (q ++ n)) (headToks isPublic false ++ (.upName name :: ks)) ∧
            ∃ c r, p ++ (q ++ n) = c :: r ∧ c ≠ byteOrderMark := by
        intro p q n ps ks h1 h2 h3
        have h2' : Layout (if false then text width "opaque type ".toList else text width "type ".toList) i br q := h2
        obtain ⟨c, r, hc, hb⟩ := head_ascii h1 h2'
        refine ⟨fun z rest hz => ?_, c, r ++ n, by rw [← List.append_assoc, hc]; rfl, hb⟩
        have g := Seen.append (pub_seen (eof := eof) h1) (Seen.append (kind_seen (eof := eof) h2') (h3 z rest hz))
        unfold headToks
        simpa using g
      cases hps : parameters with
      | nil =>
        rw [hps] at e3
        simp only [List.isEmpty_nil, if_true] at e3
        obtain ⟨p, q, rfl, h1, h2⟩ := plain e3
        refine ⟨[], .inl ⟨rfl, rfl⟩, ?_⟩
        rw [List.append_assoc]
        refine finish (ps := []) h1 h2 ?_
        have := named_seen (eof := eof) (y := []) (ps := []) hn rfl (.inl ⟨rfl, rfl, rfl⟩)
        simpa using this
      | cons b bs =>
        rw [← hps]
        rw [if_neg (by simp [hps])] at e3
        obtain ⟨u, v, rfl, e7, e8⟩ := layout_append e3
        obtain ⟨br, e8⟩ := layout_grouped e8
        obtain ⟨p, q, rfl, h1, h2⟩ := plain e7
        obtain ⟨ks, h3, h4, h5⟩ := parameters_seen (eof := eof) hp (by simp [hps]) e8
        refine ⟨ks, h3, ?_⟩
        rw [List.append_assoc, List.append_assoc]
        exact finish (ps := []) h1 h2 (named_seen (ps := parameters) hn rfl (.inr ⟨h4, h5⟩))
    obtain ⟨ps, h1, h2, c, r, hc, hb⟩ := head
    refine ⟨_, ⟨ps, a, rfl, h1, ha⟩, fun z rest hz => ?_, c, _, by rw [hc]; rfl, hb⟩
    have g1 := Seen.append (seen_lineEnd (eof := eof) (i + 2).toNat) (sa z rest hz)
    have g2 := Seen.append (t := [' ']) (ks := []) seen_space (Seen.append (ks := [.symbol .equal]) seen_equal g1)
    have g3 := Seen.append (h2 ' ' (['='] ++ (('\n' :: List.replicate (i + 2).toNat ' ') ++ t) ++ z :: rest)
      (by simp [Sep])) g2
    simpa using g3

end
end Verif.Format
