import Verif.Format.TypeDefSeen
import Verif.Format.DefinitionSpec

/-!
# A formatted definition of a type with its attributes is read as its tokens
-/
namespace Verif.Format
open Verif.Lexer Verif.Lexer.Spec Verif.Format.Spec Verif.TypeText
open Verif.Pretty (Doc joinWith)
open Verif.Pretty.Spec (Layout)

section
variable {eof : Nat} {width : List Char → Nat}

theorem attributed_seen {ds : List Doc} {kss : List (List Token)} (h : List.Forall₂ (Written eof) ds kss)
    (h' : ∀ d ∈ ds, StartsAt d) {blank : Nat → Bool} {d : TypeDef} (ok : TypeDefOk d) {i : Int} {br : Bool} {out : List Char}
    (hl : Layout ((attributesDoc ds).append (typeDefDoc width blank d)) i br out) :
    ∃ ks, TypeDefToks d ks ∧ SeenSep eof out (kss.flatten ++ ks) ∧ ∃ c r, out = c :: r ∧ c ≠ byteOrderMark := by
  obtain ⟨x, y, rfl, e1, e2⟩ := layout_append hl
  obtain ⟨ks, h1, h2, c, r, rfl, hb⟩ := typeDef_seen (eof := eof) ok e2
  refine ⟨ks, h1, fun z rest hz => Seen.append (attributesDoc_seen h e1) (h2 z rest hz), ?_⟩
  rcases attributesDoc_startsAt h' e1 with rfl | ⟨q, rfl⟩
  · exact ⟨c, r, rfl, hb⟩
  · exact ⟨'@', _, rfl, by decide⟩

theorem target_then_seen {t : List Char} (ht : IsName t) {doc : Doc} {P : List Token → Prop} {before : List Token} {i : Int}
    {br : Bool} {out : List Char} (h : ∀ i br out, Layout doc i br out → ∃ ks, P ks ∧ SeenSep eof out (before ++ ks))
    (hl : Layout (Pretty.concat [text width ("@target(".toList ++ (t ++ [')'])), .line 1, doc]) i br out) :
    ∃ ks, P ks ∧ SeenSep eof out (targetToks t ++ before ++ ks) ∧ ∃ c r, out = c :: r ∧ c ≠ byteOrderMark := by
  obtain ⟨x, y, rfl, e1, x2, y2, rfl, e2, x3, y3, rfl, e3, e4⟩ := layout_concat hl
  rw [LayEach] at e4
  subst e4
  have hx := target_seen (eof := eof) (width := width) ht i br x
  cases e2
  obtain ⟨ks, h1, h2⟩ := h _ _ _ e3
  refine ⟨ks, h1, fun z rest hz => ?_, ?_⟩
  · have g1 : Seen eof ('\n' :: List.replicate i.toNat ' ' ++ x3) ([] ++ (before ++ ks)) (z :: rest) :=
      Seen.append (seen_lineEnd _) (h2 z rest hz)
    have g2 := Seen.append (hx _ e1) g1
    simpa using g2
  · cases e1
    exact ⟨'@', _, rfl, by decide⟩

/-- The tokens of `@target`, if there is one. -/
def targetOptToks : Option Target → List Token
  | none => []
  | some .erlang => targetToks "erlang".toList
  | some .javascript => targetToks "javascript".toList

theorem targeted_seen {target : Option Target} {doc : Doc} {P : List Token → Prop} {before : List Token} {i : Int}
    {br : Bool} {out : List Char} (h : ∀ i br out, Layout doc i br out → ∃ ks, P ks ∧ SeenSep eof out (before ++ ks) ∧
      ∃ c r, out = c :: r ∧ c ≠ byteOrderMark)
    (hl : Layout (targetedDoc width target doc) i br out) :
    ∃ ks, P ks ∧ SeenSep eof out (targetOptToks target ++ before ++ ks) ∧ ∃ c r, out = c :: r ∧ c ≠ byteOrderMark := by
  unfold targetedDoc at hl
  obtain ⟨br, hl⟩ := layout_grouped hl
  have h' : ∀ i br out, Layout doc i br out → ∃ ks, P ks ∧ SeenSep eof out (before ++ ks) := by
    intro i br out hl
    obtain ⟨ks, h1, h2, _⟩ := h i br out hl
    exact ⟨ks, h1, h2⟩
  cases target with
  | none => exact h _ _ _ hl
  | some t =>
    cases t
    · exact target_then_seen (t := "erlang".toList) (isName_of (by decide)) h' hl
    · exact target_then_seen (t := "javascript".toList) (isName_of (by decide)) h' hl

theorem allToks_eq (a : Attributes) :
    allToks a = targetOptToks a.target ++ (attributeToks a.deprecated a.erlang a.javascript a.internal).flatten := by
  obtain ⟨t, _⟩ := a
  rcases t with _ | t
  · rfl
  · cases t <;> rfl

end
end Verif.Format
