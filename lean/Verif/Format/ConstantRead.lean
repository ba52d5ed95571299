import Verif.Format.FunctionProps
import Verif.Format.ConstantSpec
import Verif.Format.PatternSeen

/-!
# A formatted constant is read as the same constant, and a constant that is read can be written
-/
namespace Verif.Format
open Verif.Lexer Verif.Lexer.Spec Verif.Format.Spec Verif.TypeText
open Verif.Pretty (Doc)
open Verif.Pretty.Spec (Layout)

/-- The token of a value. -/
def valueTok : ConstValue → Token
  | .int value number => .int (int value) number
  | .string value => .string value
  | .var name => .name name
  | .constructor_ name => .upName name

/-- The value that a formatted value is read as. -/
def normalValue : ConstValue → ConstValue
  | .int value number => .int (int value) number
  | v => v

/-- The constant that a formatted constant is read as. -/
def normalConstant (c : ModuleConstant) : ModuleConstant :=
  { c with annotation := c.annotation.map normalType, value := normalValue c.value }

theorem sameConstant_normal (c : ModuleConstant) : SameConstant c (normalConstant c) := by
  refine ⟨rfl, rfl, rfl, rfl, ?_⟩
  unfold normalConstant
  simp only
  cases c.value <;> simp [normalValue, SameConstValue]

/-- The tokens of a constant after its attributes. -/
def ConstToks (c : ModuleConstant) (ks : List Token) : Prop :=
  ∃ t, AnnotationToks .colon c.annotation t ∧ ks = (if c.isPublic then [.keyword .pub_] else []) ++
    (.keyword .const_ :: .name c.name :: (t ++ [.symbol .equal, valueTok c.value]))

section
variable {eof : Nat} {width : List Char → Nat}

theorem value_seen {v : ConstValue} (ok : ConstValueOk v) {i : Int} {br : Bool} {out : List Char}
    (hl : Layout (constValueDoc width v) i br out) : SeenSep eof out [valueTok v] := by
  cases v with
  | int value n =>
    cases hl
    obtain ⟨t, ok⟩ := ok
    exact fun z rest hz => seen_int hz (formatted_int_is_same ok).1
  | string value =>
    have hl : Layout (stringDoc width value) i br out := hl
    rw [layout_string hl]
    exact fun z rest hz => seen_string ok
  | var name =>
    cases hl
    exact fun z rest hz => seen_name (stop_sep hz) ok
  | constructor_ name =>
    cases hl
    exact fun z rest hz => seen_upName (stop_sep hz) ok

theorem constHead_seen {c : ModuleConstant} (ok : ConstantOk c) {i : Int} {br : Bool} {out : List Char}
    (hl : Layout (constHeadDoc width c) i br out) :
    ∃ t, AnnotationToks .colon c.annotation t ∧ SeenSep eof out ((if c.isPublic then [.keyword .pub_] else []) ++
        (.keyword .const_ :: .name c.name :: t)) ∧ ∃ c r, out = c :: r ∧ c ≠ byteOrderMark := by
  obtain ⟨attributes, isPublic, name, annotation, value⟩ := c
  obtain ⟨_, _, _, _, hn, ht, _⟩ := ok
  have head : ∀ {out : List Char}, Layout (((pubDoc width isPublic).append (text width "const ".toList)).append
      (text width name)) i br out →
      (∀ rest, Stop rest → Seen eof out ((if isPublic then [.keyword .pub_] else []) ++ [.keyword .const_, .name name]) rest) ∧
        ∃ c r, out = c :: r ∧ c ≠ byteOrderMark := by
    intro out hl
    obtain ⟨x, z, rfl, e3, e4⟩ := layout_append hl
    obtain ⟨p, f, rfl, e5, e6⟩ := layout_append e3
    cases e4
    cases e6
    refine ⟨fun rest hs => ?_, ?_⟩
    · have g2 := Seen.append (t := "const ".toList) (ks := [.keyword .const_]) (seen_keywordSpace .const_)
        (seen_name (eof := eof) hs hn)
      have g3 := Seen.append (pub_seen (eof := eof) e5) g2
      simpa using g3
    · cases isPublic with
      | true => cases e5; exact ⟨'p', _, rfl, by decide⟩
      | false => cases e5; exact ⟨'c', _, rfl, by decide⟩
  unfold constHeadDoc at hl
  simp only at hl
  cases annotation with
  | none =>
    obtain ⟨h1, h2⟩ := head hl
    exact ⟨[], rfl, fun z rest hz => h1 _ (stop_sep hz), h2⟩
  | some t =>
    obtain ⟨x, y, rfl, e1, e2⟩ := layout_append hl
    obtain ⟨p, q, rfl, e3, e4⟩ := layout_append e1
    cases e4
    obtain ⟨h1, c, r, rfl, hb⟩ := head e3
    obtain ⟨a, ha, sa⟩ := type_seen (eof := eof) t (ht t rfl) _ _ _ e2
    refine ⟨_, ⟨a, ha, rfl⟩, fun z rest hz => ?_, c, _, rfl, hb⟩
    have g := Seen.append (t := [':']) (u := [' '] ++ y) (ks := [.symbol .colon]) (ls := [] ++ a) (rest := z :: rest)
      (seen_symbol (by decide)) (Seen.append seen_space (sa z rest hz))
    have g2 := Seen.append (h1 _ (stop_open (.inr (.inr (.inr rfl))))) g
    simpa using g2

theorem constant_seen {c : ModuleConstant} (ok : ConstantOk c) {i : Int} {br : Bool} {out : List Char}
    (hl : Layout (constantDoc width c) i br out) :
    ∃ ks, ConstToks c ks ∧ SeenSep eof out (allToks c.attributes ++ ks) ∧ ∃ c r, out = c :: r ∧ c ≠ byteOrderMark := by
  have he := ok.2.1
  have hj := ok.2.2.1
  have hs := attributeDocs_seen (eof := eof) (width := width) (int := c.attributes.internal) (erl := none) (js := none) ok.1
    (by simp) (by simp)
  have hat := attributeDocs_startAt (width := width) (dep := c.attributes.deprecated) (erl := none)
    (js := none) (int := c.attributes.internal)
  rw [allToks_eq, he, hj]
  unfold constantDoc at hl
  refine targeted_seen (fun i br out hl => ?_) hl
  obtain ⟨h, u, rfl, e1, x2, y2, rfl, e2, x3, y3, rfl, e3, e4⟩ := layout_concat hl
  rw [LayEach] at e4
  subst e4
  obtain ⟨a, b, rfl, e5, e6⟩ := layout_append e1
  obtain ⟨t, ht, sh, c0, r0, rfl, hb⟩ := constHead_seen (eof := eof) ok e6
  cases e2
  obtain ⟨br3, e3⟩ := layout_grouped e3
  have e3 : ∃ j, Layout (breakableSpace.append (constValueDoc width c.value).grouped) j br3 x3 := ⟨_, e3⟩
  obtain ⟨j, e3⟩ := e3
  obtain ⟨s, v, rfl, e7, e8⟩ := layout_append e3
  obtain ⟨br4, e8⟩ := layout_grouped e8
  have sv := value_seen (eof := eof) ok.2.2.2.2.2.2 e8
  refine ⟨_, ⟨t, ht, rfl⟩, fun z rest hz => ?_, ?_⟩
  · have g1 : Seen eof (['='] ++ (s ++ v)) ([.symbol .equal] ++ ([] ++ [valueTok c.value])) (z :: rest) := by
      rcases e7 with ⟨_, rfl⟩ | ⟨_, rfl⟩
      · exact Seen.append seen_equal (Seen.append (seen_lineEnd _) (sv z rest hz))
      · exact Seen.append seen_equal_space (Seen.append seen_space (sv z rest hz))
    have g2 := Seen.append (t := [' ']) (ks := []) seen_space g1
    have g3 := Seen.append (sh ' ' ((['='] ++ (s ++ v)) ++ z :: rest) (by simp [Sep])) g2
    have g4 := Seen.append (attributesDoc_seen hs e5) g3
    simpa using g4
  · rcases attributesDoc_startsAt hat e5 with rfl | ⟨q, rfl⟩
    · exact ⟨c0, _, rfl, hb⟩
    · exact ⟨'@', _, rfl, by decide⟩

end

/-! ### Reading -/

theorem reads_constant {c : ModuleConstant} (ok : ConstantOk c) {ks rest : List Token} (h : ConstToks c ks)
    (hr : NextDef rest) : parseConstant (allToks c.attributes ++ ks ++ rest) = some (normalConstant c, rest) := by
  obtain ⟨attributes, isPublic, name, annotation, value⟩ := c
  obtain ⟨_, he, hj, h0, _, h2, h3⟩ := ok
  obtain ⟨t, ht, rfl⟩ := h
  have h4 : parseConstValue (valueTok value :: rest) = some (normalValue value, rest) := by
    have hend : endsValue rest = true := by
      rcases hr with rfl | ⟨k, r, rfl⟩ | ⟨r, rfl⟩ <;> rfl
    unfold parseConstValue
    cases value <;> (simp only [valueTok, parseConstUnit, normalValue]; rw [if_pos hend])
  have h5 := reads_annotation (rest := .symbol .equal :: valueTok value :: rest) h2 ht (after_symbol (by simp)) (by simp)
  have h6 : parseModuleConst attributes isPublic (.name name :: (t ++ (.symbol .equal :: valueTok value :: rest))) =
      some (normalConstant ⟨attributes, isPublic, name, annotation, value⟩, rest) := by
    unfold parseModuleConst
    simp only
    rw [h5]
    simp only
    rw [h4]
    simp only
    rw [if_neg, if_neg]
    · rfl
    · simp only at he hj
      rw [he, hj]
      simp
    · intro hh
      simp only [Bool.and_eq_true, Bool.not_eq_true'] at hh
      have := h0 hh.1
      simp only at this
      rw [this] at hh
      cases hh.2
  unfold parseConstant
  cases isPublic with
  | false =>
    simp only [Bool.false_eq_true, if_false, List.nil_append, List.append_assoc, List.cons_append] at h6 ⊢
    rw [reads_attributes attributes (by simp)]
    exact h6
  | true =>
    simp only [if_true, List.nil_append, List.append_assoc, List.cons_append] at h6 ⊢
    rw [reads_attributes attributes (by simp)]
    exact h6

theorem parseConstUnit_ok {ks : List Token} (h : Spelled ks) {v : ConstValue} {rest : List Token}
    (e : parseConstUnit ks = some (v, rest)) : ConstValueOk v ∧ Spelled rest := by
  unfold parseConstUnit at e
  split at e
  · cases e; have h1 := spelled_cons h; exact ⟨h1.1, h1.2⟩
  · cases e; have h1 := spelled_cons h; exact ⟨h1.1, h1.2⟩
  · cases e; have h1 := spelled_cons h; exact ⟨spelled_upName h1.1, h1.2⟩
  · cases e; have h1 := spelled_cons h; exact ⟨spelled_name h1.1, h1.2⟩
  · cases e

theorem parseConstValue_ok {ks : List Token} (h : Spelled ks) {v : ConstValue} {rest : List Token}
    (e : parseConstValue ks = some (v, rest)) : ConstValueOk v ∧ Spelled rest := by
  unfold parseConstValue at e
  split at e
  · cases e
  · next e1 =>
    split at e
    · cases e
      exact parseConstUnit_ok h e1
    · cases e

theorem parseConstant_ok {ks : List Token} (h : Spelled ks) {c : ModuleConstant} {rest : List Token}
    (e : parseConstant ks = some (c, rest)) : ConstantOk c ∧ Spelled rest := by
  have key : ∀ {a : Attributes}, StringsOk a → ∀ {isPublic : Bool} {ks : List Token}, Spelled ks →
      ∀ {c rest}, parseModuleConst a isPublic ks = some (c, rest) → ConstantOk c ∧ Spelled rest := by
    intro a ha isPublic ks h c rest e
    unfold parseModuleConst at e
    split at e
    · have h1 := spelled_cons h
      split at e
      · cases e
      · next e1 =>
        have h2 := parseTypeAnnotation_ok h1.2 e1
        split at e
        · split at e
          · cases e
          · next e2 =>
            have h3 := parseConstValue_ok (spelled_cons h2.1).2 e2
            split at e
            · cases e
            · next n1 =>
              split at e
              · cases e
              · next n2 =>
                cases e
                simp only [Bool.or_eq_true, not_or, Bool.not_eq_true, Option.isSome_eq_false_iff, Option.isNone_iff_eq_none] at n2
                exact ⟨⟨ha.1, n2.1, n2.2, by simpa using n1, spelled_name h1.1, h2.2, h3.1⟩, h3.2⟩
        · cases e
    · cases e
  unfold parseConstant at e
  split at e
  · cases e
  · next e1 =>
    obtain ⟨h1, h2⟩ := parseAttributes_ok _ h ⟨by simp [Attributes.default], by simp [Attributes.default],
      by simp [Attributes.default]⟩ e1
    split at e
    · exact key h1 (spelled_cons h2).2 e
    · exact key h1 (spelled_cons (spelled_cons h2).2).2 e
    · cases e

/-! ### The normal form is formatted as it is -/

theorem constValueDoc_normal {width : List Char → Nat} {value : ConstValue} (ok : ConstValueOk value) :
    constValueDoc width (normalValue value) = constValueDoc width value := by
  cases value with
  | int v n =>
    obtain ⟨t, h⟩ := ok
    unfold normalValue constValueDoc
    simp only
    rw [(formatted_int_is_same h).2]
  | string v => rfl
  | var n => rfl
  | constructor_ n => rfl

theorem constantDoc_normal {width : List Char → Nat} {c : ModuleConstant} (ok : ConstantOk c) :
    constantDoc width (normalConstant c) = constantDoc width c := by
  obtain ⟨attributes, isPublic, name, annotation, value⟩ := c
  have h1 := constValueDoc_normal (width := width) ok.2.2.2.2.2.2
  simp only at h1
  have h2 : constHeadDoc width (normalConstant ⟨attributes, isPublic, name, annotation, value⟩) =
      constHeadDoc width ⟨attributes, isPublic, name, annotation, value⟩ := by
    unfold constHeadDoc normalConstant
    cases annotation with
    | none => rfl
    | some t => simp only [Option.map_some, typeDoc_normal]
  unfold constantDoc
  rw [h2]
  unfold normalConstant
  simp only [h1]

end Verif.Format
