import Verif.Format.PatternSeen
import Verif.Format.Annotation
import Verif.Format.AnnotationSpec

/-!
# A formatted type annotation is read as its tokens
-/
namespace Verif.Format
open Verif.Lexer Verif.Lexer.Spec Verif.Format.Spec Verif.TypeText
open Verif.Pretty (Doc joinWith)
open Verif.Pretty.Spec (Layout)

/-- The tokens of the name of a type. -/
def typeNameToks (module : Option Name) (name : Option Name) : List Token :=
  (match module with
    | some m => [.name m, .symbol .dot]
    | none => []) ++ (match name with
    | some n => [.upName n]
    | none => [])

mutual
/-- The tokens of a formatted annotation: there may be a comma after the last argument. -/
def TypeToks : TypeAst → List Token → Prop
  | .hole name, ks => ks = [.discardName name]
  | .constructor module name arguments _, ks =>
    match arguments with
    | [] => ks = typeNameToks module name
    | a :: as => ∃ x y c, ks = typeNameToks module name ++ .symbol .leftParen :: (x ++ y ++ (c ++ [.symbol .rightParen])) ∧
        TypeToks a x ∧ TypesToks [.symbol .comma] as y ∧ MaybeComma c
  | .fn arguments ret, ks =>
    ∃ a c b, ks = .keyword .fn_ :: .symbol .leftParen :: (a ++ (c ++ .symbol .rightParen :: .symbol .rArrow :: b)) ∧
      TypesToks [] arguments a ∧ MaybeComma c ∧ (arguments = [] → c = []) ∧ TypeToks ret b
  | .var name, ks => ks = [.name name]
  | .tuple elements, ks =>
    ∃ a c, ks = .symbol .hash :: .symbol .leftParen :: (a ++ (c ++ [.symbol .rightParen])) ∧ TypesToks [] elements a ∧
      MaybeComma c ∧ (elements = [] → c = [])

/-- The tokens of annotations, the first of which follows `lead`. -/
def TypesToks (lead : List Token) : List TypeAst → List Token → Prop
  | [], ks => ks = []
  | t :: ts, ks => ∃ a b, ks = lead ++ (a ++ b) ∧ TypeToks t a ∧ TypesToks [.symbol .comma] ts b
end

section
variable {eof : Nat} {width : List Char → Nat}

theorem seen_rArrow {rest : List Char} : Seen eof ['-', '>'] [.symbol .rArrow] rest := by
  refine seen_lexes (lexes_token (by simp) fun p he => ?_) rfl
  simp only [List.cons_append, List.nil_append] at he ⊢
  have n1 := next1 he (by decide) (by decide)
  have n2 := next1 n1.2 (by decide) (by decide)
  have hb : p + bytes ['-', '>'] = p + 1 + 1 := rfl
  rw [hb]
  refine ⟨n2.2, p, (View eof (p + 1 + 1) rest).location0, ?_⟩
  simp only [consumeNormal, view_cons_char0, ne_eq, Char.reduceEq, not_false_eq_true, location_cons, view_cons_char1,
    isUpper, isNameStart, isLower, isNumberStart, isDigit, startsDigit, consumeCharacter, singleSymbol, if_true, if_false,
    emit, n1.1, n2.1, Option.some.injEq, Bool.and_eq_true, decide_eq_true_eq, lexMinus]
  rw [if_neg (by decide), if_neg (by decide), if_neg (by decide)]

theorem seen_fn {rest : List Char} (hs : Stop rest) : Seen eof "fn".toList [.keyword .fn_] rest :=
  seen_lexes (lexes_word (c := 'f') hs rfl (by decide) (keyword_chars .fn_) (by decide)) rfl

theorem seen_breakableSpace {i : Int} {br : Bool} {out rest : List Char} (h : Layout breakableSpace i br out) :
    Seen eof out [] rest := by
  rcases h with ⟨_, rfl⟩ | ⟨_, rfl⟩
  · exact seen_lineEnd _
  · exact seen_space

theorem sep_not_digit {z : Char} (hz : Sep z) : ¬isDigit z := by
  unfold Sep at hz
  revert hz
  revert z
  decide

theorem seen_dotSep {z : Char} {rest : List Char} (hz : Sep z) : Seen eof ['.'] [.symbol .dot] (z :: rest) := by
  refine seen_lexes (lexes_token (by simp) fun p he => ?_) rfl
  have h1 := (sep_char hz).1
  have h2 := (sep_char hz).2.2.1
  have h3 := sep_not_digit hz
  simp only [List.singleton_append] at he ⊢
  have n1 := next1 he (by decide) (by decide)
  rw [bytes_one (by decide)]
  refine ⟨n1.2, p, (View eof (p + 1) (z :: rest)).location0, ?_⟩
  simp only [consumeNormal, view_cons_char0, ne_eq, Char.reduceEq, not_false_eq_true, location_cons, view_cons_char1,
    isUpper, isNameStart, isLower, isNumberStart, isDigit, startsDigit, consumeCharacter, singleSymbol, if_true, if_false,
    emit, n1.1, Option.some.injEq, Bool.and_eq_true, decide_eq_true_eq, lexDot, h1, h2]
  rw [maybeLexDotAccess_done (view_cons_char0 h1) h3]
  rfl

theorem seen_typeName {module : Option Name} {n : Name} (hm : ∀ m, module = some m → IsName m)
    (hn : IsUpName n) {i : Int} {br : Bool} {out rest : List Char} (hs : Stop rest)
    (hl : Layout (typeName width module (some n)) i br out) : Seen eof out (typeNameToks module (some n)) rest := by
  have h : Seen eof out (constructorToks module n) rest := by
    refine seen_constructorName (width := width) (i := i) (br := br) hm hn hs ?_
    cases module with
    | none => exact hl
    | some m => exact hl
  cases module <;> exact h

theorem seen_typeName_none {m : Name} (hm : IsName m) {i : Int} {br : Bool} {out : List Char}
    (hl : Layout (typeName width (some m) none) i br out) : SeenSep eof out (typeNameToks (some m) none) := by
  intro z rest hz
  obtain ⟨x, y, rfl, h1, h2⟩ := layout_append (show Layout (((text width m).append (text width ['.'])).append .empty) i br out from hl)
  obtain ⟨a, b, rfl, h3, h4⟩ := layout_append h1
  cases h2
  cases h3
  cases h4
  rw [List.append_nil]
  exact Seen.append (ks := [.name m]) (seen_name (stop_open (.inr (.inl rfl))) hm) (seen_dotSep hz)

/-- Several documents in parentheses, of which there may be none. -/
theorem seen_parens {ts : List TypeAst} {i : Int} {br : Bool} {out : List Char}
    (hl : Layout (wrapArguments width (typeDocs width ts)) i br out)
    (h : ts = [] ∨ ∃ t rest, ts = t :: rest ∧
      (∀ i br x, Layout (typeDoc width t) i br x → ∃ ks, TypeToks t ks ∧ SeenSep eof x ks) ∧
      (∀ i br x, LayAll commaBreak i br (typeDocs width rest) x → ∃ ks, TypesToks [.symbol .comma] rest ks ∧ SeenSep eof x ks)) :
    ∃ a c, TypesToks [] ts a ∧ MaybeComma c ∧ (ts = [] → c = []) ∧ (∃ r, out = '(' :: r) ∧
      SeenSep eof out (.symbol .leftParen :: (a ++ (c ++ [.symbol .rightParen]))) := by
  rcases h with rfl | ⟨t, rest, rfl, h1, h2⟩
  · rw [typeDocs] at hl
    cases hl
    refine ⟨[], [], by rw [TypesToks], .inl rfl, fun _ => rfl, ⟨_, rfl⟩, fun z rest hz => ?_⟩
    exact Seen.append (t := ['(']) (u := [')']) (ks := [.symbol .leftParen]) (seen_symbol (by decide)) (seen_symbol (by decide))
  · rw [typeDocs] at hl
    obtain ⟨a, b, c, ha, hb, hc, hr, sd⟩ := seen_wrap (eof := eof) hl h1 h2
    refine ⟨a ++ b, c, ?_, hc, (fun h => by cases h), hr, ?_⟩
    · rw [TypesToks]
      exact ⟨a, b, rfl, ha, hb⟩
    · exact sd

theorem fn_seen {ts : List TypeAst} {ret : TypeAst} {i : Int} {br : Bool} {out : List Char}
    (hl : Layout ((((((text width "fn".toList).append (wrapArguments width (typeDocs width ts))).grouped).append
      (text width " ->".toList)).append
        (.nest 2 .increase .always ((breakableSpace.append (typeDoc width ret)).grouped))).grouped) i br out)
    (h : ts = [] ∨ ∃ t rest, ts = t :: rest ∧
      (∀ i br x, Layout (typeDoc width t) i br x → ∃ ks, TypeToks t ks ∧ SeenSep eof x ks) ∧
      (∀ i br x, LayAll commaBreak i br (typeDocs width rest) x → ∃ ks, TypesToks [.symbol .comma] rest ks ∧ SeenSep eof x ks))
    (hr : ∀ i br x, Layout (typeDoc width ret) i br x → ∃ ks, TypeToks ret ks ∧ SeenSep eof x ks) :
    ∃ ks, TypeToks (.fn ts ret) ks ∧ SeenSep eof out ks := by
  obtain ⟨br, hl⟩ := layout_grouped hl
  obtain ⟨x, y, rfl, e1, e2⟩ := layout_append hl
  obtain ⟨x, arrow, rfl, e3, e4⟩ := layout_append e1
  cases e4
  obtain ⟨br, e3⟩ := layout_grouped e3
  obtain ⟨f, args, rfl, e5, e6⟩ := layout_append e3
  cases e5
  obtain ⟨br, e2⟩ := layout_grouped (show Layout (breakableSpace.append (typeDoc width ret)).grouped _ _ y from e2)
  obtain ⟨sp, r, rfl, e7, e8⟩ := layout_append e2
  obtain ⟨b, hb, sb⟩ := hr _ _ _ e8
  obtain ⟨a, c, ha, hc, hn, ⟨q, hq⟩, sa⟩ := seen_parens (eof := eof) e6 h
  refine ⟨_, by rw [TypeToks]; exact ⟨a, c, b, rfl, ha, hc, hn, hb⟩, fun z rest hz => ?_⟩
  have g1 : Seen eof (sp ++ r) ([] ++ b) (z :: rest) := Seen.append (seen_breakableSpace e7) (sb z rest hz)
  have g2 : Seen eof ([' '] ++ (['-', '>'] ++ (sp ++ r))) ([] ++ ([.symbol .rArrow] ++ ([] ++ b))) (z :: rest) :=
    Seen.append seen_space (Seen.append seen_rArrow g1)
  have g3 := Seen.append (sa ' ' (['-', '>'] ++ (sp ++ r) ++ z :: rest) (by simp [Sep])) g2
  have g4 := Seen.append (t := "fn".toList) (ks := [.keyword .fn_]) (rest := z :: rest) (seen_fn ?_) g3
  · simpa using g4
  · rw [hq]
    exact stop_open (.inl rfl)

theorem tuple_seen {ts : List TypeAst} {i : Int} {br : Bool} {out : List Char}
    (hl : Layout (((text width ['#']).append (wrapArguments width (typeDocs width ts))).grouped) i br out)
    (h : ts = [] ∨ ∃ t rest, ts = t :: rest ∧
      (∀ i br x, Layout (typeDoc width t) i br x → ∃ ks, TypeToks t ks ∧ SeenSep eof x ks) ∧
      (∀ i br x, LayAll commaBreak i br (typeDocs width rest) x → ∃ ks, TypesToks [.symbol .comma] rest ks ∧ SeenSep eof x ks)) :
    ∃ ks, TypeToks (.tuple ts) ks ∧ SeenSep eof out ks := by
  obtain ⟨br, hl⟩ := layout_grouped hl
  obtain ⟨x, y, rfl, e1, e2⟩ := layout_append hl
  cases e1
  obtain ⟨a, c, ha, hc, hn, _, sa⟩ := seen_parens (eof := eof) e2 h
  refine ⟨_, by rw [TypeToks]; exact ⟨a, c, rfl, ha, hc, hn⟩, fun z rest hz => ?_⟩
  exact Seen.append (t := ['#']) (ks := [.symbol .hash]) (seen_symbol (by decide)) (sa z rest hz)

mutual
theorem type_seen : (t : TypeAst) → TypeOk t → ∀ i br out, Layout (typeDoc width t) i br out →
    ∃ ks, TypeToks t ks ∧ SeenSep eof out ks
  | .hole name, ok, i, br, out, hl => by
    rw [typeDoc] at hl
    obtain ⟨br, hl⟩ := layout_grouped hl
    cases hl
    rw [TypeOk] at ok
    exact ⟨[.discardName name], by rw [TypeToks], fun z rest hz => seen_discard (stop_sep hz) ok⟩
  | .var name, ok, i, br, out, hl => by
    rw [typeDoc] at hl
    obtain ⟨br, hl⟩ := layout_grouped hl
    cases hl
    rw [TypeOk] at ok
    exact ⟨[.name name], by rw [TypeToks], fun z rest hz => seen_name (stop_sep hz) ok⟩
  | .constructor module name [] p, ok, i, br, out, hl => by
    rw [typeDoc] at hl
    obtain ⟨br, hl⟩ := layout_grouped hl
    rw [TypeOk] at ok
    obtain ⟨hm, hn, hq, _⟩ := ok
    refine ⟨typeNameToks module name, by rw [TypeToks], fun z rest hz => ?_⟩
    cases name with
    | some n => exact seen_typeName hm (hn n rfl) (stop_sep hz) hl
    | none =>
      cases module with
      | none => exact absurd rfl (hq rfl).1
      | some m => exact seen_typeName_none (hm m rfl) hl z rest hz
  | .constructor module name (a :: as) p, ok, i, br, out, hl => by
    rw [typeDoc] at hl
    obtain ⟨br, hl⟩ := layout_grouped hl
    rw [TypeOk, TypesOk] at ok
    obtain ⟨hm, hn, hq, h1, h2⟩ := ok
    obtain ⟨n, rfl⟩ : ∃ n, name = some n := by
      cases name with
      | none => exact absurd (hq rfl).2 (by simp)
      | some n => exact ⟨n, rfl⟩
    obtain ⟨x, y, rfl, e1, e2⟩ := layout_append hl
    obtain ⟨ka, kb, c, ha, hb, hc, ⟨r, hr⟩, sd⟩ := seen_wrap (eof := eof) e2 (type_seen a h1) (types_seen as h2)
    refine ⟨_, by rw [TypeToks]; exact ⟨ka, kb, c, rfl, ha, hb, hc⟩, fun z rest hz => ?_⟩
    refine Seen.append (seen_typeName hm (hn n rfl) ?_ e1) (sd z rest hz)
    rw [hr]
    exact stop_open (.inl rfl)
  | .fn [] ret, ok, i, br, out, hl => by
    rw [typeDoc] at hl
    rw [TypeOk] at ok
    exact fn_seen hl (.inl rfl) (type_seen ret ok.2)
  | .fn (a :: as) ret, ok, i, br, out, hl => by
    rw [typeDoc] at hl
    rw [TypeOk, TypesOk] at ok
    exact fn_seen hl (.inr ⟨a, as, rfl, type_seen a ok.1.1, types_seen as ok.1.2⟩) (type_seen ret ok.2)
  | .tuple [], ok, i, br, out, hl => by
    rw [typeDoc] at hl
    exact tuple_seen hl (.inl rfl)
  | .tuple (a :: as), ok, i, br, out, hl => by
    rw [typeDoc] at hl
    rw [TypeOk, TypesOk] at ok
    exact tuple_seen hl (.inr ⟨a, as, rfl, type_seen a ok.1, types_seen as ok.2⟩)

theorem types_seen : (ts : List TypeAst) → TypesOk ts → ∀ i br out, LayAll commaBreak i br (typeDocs width ts) out →
    ∃ ks, TypesToks [.symbol .comma] ts ks ∧ SeenSep eof out ks
  | [], _, i, br, out, hl => by
    rw [typeDocs, LayAll] at hl
    subst hl
    exact ⟨[], by rw [TypesToks], fun _ _ _ => Seen.nil⟩
  | t :: ts, ok, i, br, out, hl => by
    rw [TypesOk] at ok
    rw [typeDocs] at hl
    obtain ⟨s, x, y, rfl, e1, e2, e3⟩ := hl
    obtain ⟨a, ha, sa⟩ := type_seen t ok.1 _ _ _ e2
    obtain ⟨b, hb, sb⟩ := types_seen ts ok.2 _ _ _ e3
    refine ⟨_, by rw [TypesToks]; exact ⟨a, b, rfl, ha, hb⟩, fun z rest hz => ?_⟩
    exact Seen.append (seen_commaBreak e1).1 (SeenSep.then sa (layAll_starts e3) sb z rest hz)
end

end
end Verif.Format
