import Verif.Format.TypeDefSeen
import Verif.Format.AnnotationRead
import Verif.Format.AttributeRead

/-!
# The tokens of a formatted definition of a type are read as its normal form, and a definition that is read can be written
-/
namespace Verif.Format
open Verif.Lexer Verif.Lexer.Spec Verif.Format.Spec Verif.TypeText

/-! ### Parameters -/

theorem reads_names {rest : List Token} : (ps : List Name) → ∀ {p : Name} {c : List Token}, MaybeComma c →
    parseNames (.name p :: (ps.flatMap (fun q => [.symbol .comma, .name q]) ++ (c ++ .symbol .rightParen :: rest))) =
      some (p :: ps, .symbol .rightParen :: rest)
  | [], p, c, hc => by
    rcases hc with rfl | rfl
    · rw [parseNames.eq_def]; rfl
    · rw [parseNames.eq_def]
      simp only [List.flatMap_nil, List.nil_append, List.cons_append]
      rw [parseNames.eq_def]
      rfl
  | q :: ps, p, c, hc => by
    have h := reads_names (rest := rest) ps (p := q) hc
    rw [parseNames.eq_def]
    simp only [List.flatMap_cons, List.cons_append, List.nil_append]
    rw [h]
    rfl

/-- What may follow the name of a type in its definition. -/
def AfterName (rest : List Token) : Prop :=
  rest.head? ≠ some (.symbol .leftParen) ∧ rest.head? ≠ some (.symbol .less)

theorem reads_typeName {name : Name} {ps : List Name} {ks rest : List Token} (h : ParameterToks ps ks) (ha : AfterName rest) :
    parseTypeName (.upName name :: (ks ++ rest)) = some (name, ps, rest) := by
  rcases h with ⟨rfl, rfl⟩ | ⟨p, more, c, rfl, hc, rfl⟩
  · unfold parseTypeName
    simp only [List.nil_append]
    split
    · simp [AfterName] at ha
    · simp [AfterName] at ha
    · rfl
  · unfold parseTypeName
    have h := reads_names (rest := rest) more (p := p) hc
    simp only [List.cons_append, List.append_assoc, List.nil_append] at h ⊢
    rw [h]
    rfl

/-! ### Constructors -/

/-- An annotation that starts with a name is not followed by a colon at once: the name is no label. -/
theorem not_label {t : TypeAst} (ok : TypeOk t) {ks rest : List Token} (h : TypeToks t ks)
    (hr : rest.head? ≠ some (.symbol .colon)) : ∀ l r, ks ++ rest ≠ .name l :: .symbol .colon :: r := by
  have key : ∀ (module name : Option Name) (more : List Token), (name = none → module ≠ none) →
      ∀ l r, typeNameToks module name ++ more ≠ .name l :: .symbol .colon :: r := by
    intro module name more h l r e
    cases module with
    | some m => cases name <;> simp [typeNameToks] at e
    | none =>
      cases name with
      | some n => simp [typeNameToks] at e
      | none => exact absurd rfl (h rfl)
  intro l r e
  match t with
  | .hole name => rw [TypeToks] at h; subst h; simp at e
  | .var name =>
    rw [TypeToks] at h
    subst h
    simp only [List.cons_append, List.nil_append, List.cons.injEq] at e
    rw [e.2] at hr
    simp at hr
  | .constructor module name [] p =>
    rw [TypeToks] at h
    rw [TypeOk] at ok
    subst h
    exact key module name rest (fun e => (ok.2.2.1 e).1) l r e
  | .constructor module name (a :: as) p =>
    rw [TypeToks] at h
    rw [TypeOk] at ok
    obtain ⟨x, y, c, rfl, _⟩ := h
    rw [List.append_assoc] at e
    exact key module name _ (fun e => (ok.2.2.1 e).1) l r e
  | .fn arguments ret =>
    rw [TypeToks] at h
    obtain ⟨a, c, b, rfl, _⟩ := h
    simp at e
  | .tuple elements =>
    rw [TypeToks] at h
    obtain ⟨a, c, rfl, _⟩ := h
    simp at e

/-- The field with its annotation in its normal form. -/
def normalField (f : Field) : Field := ⟨f.label, normalType f.type⟩

theorem reads_field {f : Field} (ok : TypeOk f.type) {ks rest : List Token} (h : FieldToks f ks) (ha : After rest)
    (hr : rest.head? ≠ some (.symbol .colon)) : parseField (ks ++ rest) = some (some (normalField f), rest) := by
  obtain ⟨a, h, rfl⟩ := h
  obtain ⟨label, t⟩ := f
  cases label with
  | some l =>
    have h1 := reads_type t ok a rest (2 * (a ++ rest).length + 2) h ha (by simp; omega)
    unfold parseField
    simp only [List.cons_append, List.nil_append]
    rw [h1]
    rfl
  | none =>
    have h1 := reads_type t ok a rest (2 * (a ++ rest).length + 2) h ha (by simp; omega)
    unfold parseField
    simp only [List.nil_append]
    split
    · next e => exact absurd e (not_label ok h hr _ _)
    · rw [h1]
      rfl

theorem fieldToks_head {f : Field} (ok : TypeOk f.type) {ks : List Token} (h : FieldToks f ks) :
    ∃ k r, ks = k :: r ∧ k ≠ .symbol .comma := by
  obtain ⟨a, h, rfl⟩ := h
  obtain ⟨label, t⟩ := f
  cases label with
  | some l => exact ⟨_, _, rfl, by simp⟩
  | none => exact typeToks_head ok h

theorem fields_none {fuel : Nat} {rest : List Token} :
    parseFields (fuel + 1) (.symbol .rightParen :: rest) = some ([], .symbol .rightParen :: rest) := by
  rw [parseFields.eq_def]
  simp only
  have h : parseField (.symbol .rightParen :: rest) = some (none, .symbol .rightParen :: rest) := by
    unfold parseField
    simp only
    rw [parseType.eq_def]
  rw [h]

theorem reads_fields {rest : List Token} : (fs : List Field) → ∀ {f : Field} {a b c : List Token} {fuel : Nat},
    (∀ g ∈ f :: fs, TypeOk g.type) → FieldToks f a → FieldsToks fs b → MaybeComma c → fs.length + 1 < fuel →
    parseFields fuel (a ++ (b ++ (c ++ .symbol .rightParen :: rest))) =
      some ((f :: fs).map normalField, .symbol .rightParen :: rest)
  | [], f, a, b, c, fuel, ok, ha, hb, hc, hf => by
    rw [FieldsToks] at hb
    subst hb
    obtain ⟨k, rfl⟩ : ∃ k, fuel = k + 2 := ⟨fuel - 2, by simp at hf; omega⟩
    rw [parseFields.eq_def]
    simp only [List.nil_append]
    rcases hc with rfl | rfl
    · rw [List.nil_append, reads_field (ok f (by simp)) ha (after_symbol (by simp)) (by simp)]
      rfl
    · rw [List.cons_append, List.nil_append, reads_field (ok f (by simp)) ha (after_symbol (by simp)) (by simp)]
      simp only
      rw [fields_none]
      rfl
  | g :: fs, f, a, b, c, fuel, ok, ha, hb, hc, hf => by
    obtain ⟨x, y, rfl, hx, hy⟩ := hb
    simp only [List.length_cons] at hf
    obtain ⟨k, rfl⟩ : ∃ k, fuel = k + 1 := ⟨fuel - 1, by omega⟩
    have h := reads_fields (rest := rest) fs (fuel := k) (fun u hu => ok u (by simp [List.mem_cons.1 hu])) hx hy hc (by omega)
    obtain ⟨t, r, hq, hne⟩ := fieldToks_head (ok g (by simp)) hx
    rw [parseFields.eq_def]
    simp only [List.cons_append, List.append_assoc]
    rw [reads_field (ok f (by simp)) ha (after_symbol (by simp)) (by simp)]
    simp only
    rw [hq] at h ⊢
    simp only [List.cons_append] at h ⊢
    split
    · next e => cases e; exact absurd rfl hne
    · rw [h]
      rfl

theorem fieldsToks_length : (fs : List Field) → ∀ {ks : List Token}, FieldsToks fs ks → fs.length ≤ ks.length
  | [], _, _ => by simp
  | f :: fs, ks, h => by
    obtain ⟨a, b, rfl, _, hb⟩ := h
    have := fieldsToks_length fs hb
    simp only [List.length_cons, List.length_append]
    omega

theorem reads_variant {v : Variant} (ok : VariantOk v) {ks rest : List Token} (h : VariantToks v ks)
    (hr : rest.head? ≠ some (.symbol .leftParen)) : parseVariant (ks ++ rest) = some (some (normalVariant v), rest) := by
  obtain ⟨dep, name, fields⟩ := v
  obtain ⟨_, ok⟩ := ok
  obtain ⟨body, rfl, h⟩ := h
  have hat : ∀ {tail : List Token}, tail.head? ≠ some (.symbol .at_) →
      parseAttributes (((attributeToks dep none none false).flatten ++ tail).length + 1) .default
        ((attributeToks dep none none false).flatten ++ tail) = some (⟨none, dep, none, none, false⟩, tail) := by
    intro tail ht
    refine reads_flatten ?_ ht
    have := flatten_length (dep := dep) (erl := none) (js := none) (int := false)
    rw [List.length_append]
    omega
  cases fields with
  | nil =>
    have h : body = [.upName name] := h
    subst h
    unfold parseVariant
    rw [List.append_assoc, hat (by simp)]
    simp only [List.cons_append, List.nil_append, Option.isSome_none, Bool.or_false, Bool.false_eq_true, if_false]
    split
    · simp at hr
    · rfl
  | cons f fs =>
    obtain ⟨a, b, c, rfl, ha, hb, hc⟩ := h
    obtain ⟨k, r, hk, _⟩ := fieldToks_head (ok.2 f (by simp)).2 ha
    have hl := fieldsToks_length fs hb
    have h1 := reads_fields (rest := rest) fs (fuel := (a ++ (b ++ (c ++ .symbol .rightParen :: rest))).length + 1)
      (fun g hg => (ok.2 g hg).2) ha hb hc (by rw [hk]; simp; omega)
    unfold parseVariant
    rw [List.append_assoc, hat (by simp)]
    simp only [List.cons_append, List.append_assoc, List.nil_append, Option.isSome_none, Bool.or_false, Bool.false_eq_true,
      if_false]
    rw [h1]
    rfl

theorem variantToks_head {v : Variant} {ks : List Token} (h : VariantToks v ks) :
    ∃ k r, ks = k :: r ∧ k ≠ .symbol .leftParen ∧ ∀ n, k ≠ .name n := by
  obtain ⟨dep, name, fields⟩ := v
  obtain ⟨body, rfl, h⟩ := h
  cases dep with
  | some m => exact ⟨.symbol .at_, _, rfl, by simp, by simp⟩
  | none =>
    cases fields with
    | nil => exact ⟨_, _, h, by simp, by simp⟩
    | cons f fs =>
      obtain ⟨a, b, c, rfl, _⟩ := h
      exact ⟨_, _, rfl, by simp, by simp⟩

theorem reads_variants {rest : List Token} : (vs : List Variant) → ∀ {kss : List (List Token)} {fuel : Nat},
    (∀ v ∈ vs, VariantOk v) → List.Forall₂ VariantToks vs kss → vs.length < fuel →
    parseVariants fuel (kss.flatten ++ .symbol .rightBrace :: rest) =
      some (vs.map normalVariant, .symbol .rightBrace :: rest) ∧
    (kss.flatten ++ .symbol .rightBrace :: rest).head? ≠ some (.symbol .leftParen) ∧
    (∀ n, (kss.flatten ++ .symbol .rightBrace :: rest).head? ≠ some (.name n)) ∧ vs.length ≤ kss.flatten.length
  | [], kss, fuel, ok, h, hf => by
    cases h
    obtain ⟨k, rfl⟩ : ∃ k, fuel = k + 1 := ⟨fuel - 1, by simp at hf; omega⟩
    refine ⟨?_, by simp, by simp, by simp⟩
    rw [parseVariants.eq_def]
    rfl
  | v :: vs, _, fuel, ok, .cons h1 h2, hf => by
    simp only [List.length_cons] at hf
    obtain ⟨k, rfl⟩ : ∃ k, fuel = k + 1 := ⟨fuel - 1, by omega⟩
    obtain ⟨h3, h4, h5, h6⟩ := reads_variants (rest := rest) vs (fuel := k) (fun u hu => ok u (by simp [hu])) h2 (by omega)
    have h7 := reads_variant (ok v (by simp)) h1 h4
    obtain ⟨j, r, hr, n1, n2⟩ := variantToks_head h1
    refine ⟨?_, by rw [hr]; simpa using n1, by rw [hr]; simpa using n2, by
      rw [hr, List.flatten_cons, List.length_append, List.length_cons, List.length_cons]; omega⟩
    rw [List.flatten_cons, List.append_assoc, parseVariants.eq_def]
    simp only
    rw [h7]
    simp only
    rw [h3]
    rfl

theorem reads_body {vs : List Variant} {kss : List (List Token)} {rest : List Token} (ok : ∀ v ∈ vs, VariantOk v)
    (h : List.Forall₂ VariantToks vs kss) :
    parseBody (kss.flatten ++ .symbol .rightBrace :: rest) = some (vs.map normalVariant, rest) := by
  obtain ⟨_, _, h3, h4⟩ := reads_variants (rest := rest) vs ok h (Nat.lt_succ_self _)
  have h1 := (reads_variants (rest := rest) vs (fuel := (kss.flatten ++ .symbol .rightBrace :: rest).length + 1) ok h
    (by rw [List.length_append]; omega)).1
  unfold parseBody
  split
  · next n _ e => exact absurd (congrArg List.head? e) (by simpa using h3 n)
  · rw [h1]

/-! ### Definitions -/

theorem parse_head (isPublic isOpaque : Bool) {name : Name} {rest : List Token} :
    parseTypeDef (headToks isPublic isOpaque ++ .upName name :: rest) =
      parseCustomType isPublic isOpaque (.upName name :: rest) := by
  cases isPublic <;> cases isOpaque <;> rfl

/-- What may follow a definition: nothing, a keyword or an attribute. -/
def NextDef (rest : List Token) : Prop :=
  rest = [] ∨ (∃ k r, rest = .keyword k :: r) ∨ ∃ r, rest = .symbol .at_ :: r

theorem nextDef_after {rest : List Token} (h : NextDef rest) : After rest := by
  rcases h with rfl | ⟨k, r, rfl⟩ | ⟨r, rfl⟩
  · exact ⟨⟨by simp, by simp, by simp⟩, by simp⟩
  · exact ⟨⟨by simp, by simp, by simp⟩, by simp⟩
  · exact after_symbol (by simp)

theorem reads_typeDef {d : TypeDef} (ok : TypeDefOk d) {ks : List Token} (h : TypeDefToks d ks) {rest : List Token}
    (hr : NextDef rest) : parseTypeDef (ks ++ rest) = some (normalTypeDef d, rest) := by
  cases d with
  | custom isPublic isOpaque name parameters variants =>
    obtain ⟨ps, body, rfl, hp, hb⟩ := h
    rw [List.append_assoc, List.cons_append, parse_head, List.append_assoc]
    unfold parseCustomType
    rcases hb with ⟨rfl, rfl⟩ | ⟨kss, hne, hv, rfl⟩
    · rcases hr with rfl | ⟨k, r, rfl⟩ | ⟨r, rfl⟩
      · rw [reads_typeName hp (by simp [AfterName])]
        rfl
      · rw [reads_typeName hp (by simp [AfterName])]
        rfl
      · rw [reads_typeName hp (by simp [AfterName])]
        rfl
    · rw [reads_typeName hp (by simp [AfterName])]
      simp only [List.cons_append, List.append_assoc, List.nil_append]
      rw [reads_body ok.2.2 hv]
      rfl
  | alias_ isPublic name parameters type =>
    obtain ⟨ps, a, rfl, hp, ht⟩ := h
    rw [List.append_assoc, List.cons_append, parse_head, List.append_assoc]
    unfold parseCustomType
    rw [reads_typeName hp (by simp [AfterName])]
    simp only [List.cons_append]
    rw [reads_type type ok.2.2 a rest _ ht (nextDef_after hr) (by simp; omega)]
    rfl

/-! ### What is read can be written -/

theorem parseNames_ok : (n : Nat) → ∀ {ks : List Token}, ks.length ≤ n → Spelled ks → ∀ {ps : List Name} {rest : List Token},
    parseNames ks = some (ps, rest) → Spelled rest ∧ ∀ p ∈ ps, IsName p
  | n, ks, hn, h, ps, rest, e => by
    rw [parseNames.eq_def] at e
    split at e
    · cases e
    · obtain ⟨q, e2, e3⟩ := Option.map_eq_some_iff.1 e
      cases e3
      have h1 := spelled_cons h
      cases n with
      | zero => simp at hn
      | succ n =>
        have h2 := parseNames_ok n (by simp at hn; omega) (spelled_cons h1.2).2 e2
        refine ⟨h2.1, fun p hp => ?_⟩
        rcases List.mem_cons.1 hp with rfl | hp
        · exact spelled_name h1.1
        · exact h2.2 p hp
    · cases e
      have h1 := spelled_cons h
      exact ⟨h1.2, fun p hp => by cases List.mem_singleton.1 hp; exact spelled_name h1.1⟩
    · cases e
      exact ⟨h, by simp⟩

theorem parseTypeName_ok {ks : List Token} (h : Spelled ks) {name : Name} {ps : List Name} {rest : List Token}
    (e : parseTypeName ks = some (name, ps, rest)) : IsUpName name ∧ (∀ p ∈ ps, IsName p) ∧ Spelled rest := by
  unfold parseTypeName at e
  split at e
  · have h1 := spelled_cons h
    split at e
    · split at e
      · next e1 =>
        have h2 := parseNames_ok _ (Nat.le_refl _) (spelled_cons h1.2).2 e1
        split at e
        · cases e
        · cases e
          exact ⟨spelled_upName h1.1, h2.2, (spelled_cons h2.1).2⟩
      · cases e
    · cases e
    · cases e
      exact ⟨spelled_upName h1.1, by simp, h1.2⟩
  · cases e

theorem parseField_ok {ks : List Token} (h : Spelled ks) {o : Option Field} {rest : List Token}
    (e : parseField ks = some (o, rest)) :
    Spelled rest ∧ ∀ f, o = some f → (∀ l, f.label = some l → IsName l) ∧ TypeOk f.type := by
  unfold parseField at e
  split at e
  · have h1 := spelled_cons h
    split at e
    · next e1 =>
      cases e
      have h2 := (typeParsers_ok _).1 _ (spelled_cons h1.2).2 _ _ e1
      exact ⟨h2.1, fun f e => by cases e; exact ⟨fun l e => by cases e; exact spelled_name h1.1, h2.2 _ rfl⟩⟩
    · cases e
  · split at e
    · next e1 =>
      cases e
      have h2 := (typeParsers_ok _).1 _ h _ _ e1
      exact ⟨h2.1, fun f e => by cases e; exact ⟨by simp, h2.2 _ rfl⟩⟩
    · next e1 =>
      cases e
      exact ⟨((typeParsers_ok _).1 _ h _ _ e1).1, by simp⟩
    · cases e

theorem parseFields_ok : (fuel : Nat) → ∀ {ks : List Token}, Spelled ks → ∀ {fs : List Field} {rest : List Token},
    parseFields fuel ks = some (fs, rest) → Spelled rest ∧ ∀ f ∈ fs, (∀ l, f.label = some l → IsName l) ∧ TypeOk f.type
  | 0, _, _, _, _, e => by cases e
  | fuel + 1, ks, h, fs, rest, e => by
    rw [parseFields.eq_def] at e
    simp only at e
    split at e
    · cases e
    · next e1 =>
      cases e
      exact ⟨(parseField_ok h e1).1, by simp⟩
    · next e1 =>
      have h1 := parseField_ok h e1
      split at e
      · split at e
        · cases e
        · obtain ⟨q, e2, e3⟩ := Option.map_eq_some_iff.1 e
          cases e3
          have h2 := parseFields_ok fuel (spelled_cons h1.1).2 e2
          refine ⟨h2.1, fun f hf => ?_⟩
          rcases List.mem_cons.1 hf with rfl | hf
          · exact h1.2 _ rfl
          · exact h2.2 f hf
      · cases e
        exact ⟨h1.1, fun f hf => by cases List.mem_singleton.1 hf; exact h1.2 _ rfl⟩

theorem parseVariant_ok {ks : List Token} (h : Spelled ks) {o : Option Variant} {rest : List Token}
    (e : parseVariant ks = some (o, rest)) : Spelled rest ∧ ∀ v, o = some v → VariantOk v := by
  unfold parseVariant at e
  split at e
  · cases e
  · next e0 =>
    obtain ⟨hs, h⟩ := parseAttributes_ok _ h ⟨by simp [Attributes.default], by simp [Attributes.default],
      by simp [Attributes.default]⟩ e0
    split at e
    · cases e
    · split at e
      · have h1 := spelled_cons h
        split at e
        · split at e
          · next e1 =>
            cases e
            have h2 := parseFields_ok _ (spelled_cons h1.2).2 e1
            exact ⟨(spelled_cons h2.1).2, fun v e => by cases e; exact ⟨hs.1, spelled_upName h1.1, h2.2⟩⟩
          · cases e
        · cases e
          exact ⟨h1.2, fun v e => by cases e; exact ⟨hs.1, spelled_upName h1.1, by simp⟩⟩
      · cases e
        exact ⟨h, by simp⟩

theorem parseVariants_ok : (fuel : Nat) → ∀ {ks : List Token}, Spelled ks → ∀ {vs : List Variant} {rest : List Token},
    parseVariants fuel ks = some (vs, rest) → Spelled rest ∧ ∀ v ∈ vs, VariantOk v
  | 0, _, _, _, _, e => by cases e
  | fuel + 1, ks, h, vs, rest, e => by
    rw [parseVariants.eq_def] at e
    simp only at e
    split at e
    · cases e
    · next e1 =>
      cases e
      exact ⟨(parseVariant_ok h e1).1, by simp⟩
    · next e1 =>
      have h1 := parseVariant_ok h e1
      obtain ⟨q, e2, e3⟩ := Option.map_eq_some_iff.1 e
      cases e3
      have h2 := parseVariants_ok fuel h1.1 e2
      refine ⟨h2.1, fun v hv => ?_⟩
      rcases List.mem_cons.1 hv with rfl | hv
      · exact h1.2 _ rfl
      · exact h2.2 v hv

theorem parseBody_ok {ks : List Token} (h : Spelled ks) {vs : List Variant} {rest : List Token}
    (e : parseBody ks = some (vs, rest)) : Spelled rest ∧ ∀ v ∈ vs, VariantOk v := by
  unfold parseBody at e
  split at e
  · cases e
  · split at e
    · next e1 =>
      cases e
      have h1 := parseVariants_ok _ h e1
      exact ⟨(spelled_cons h1.1).2, h1.2⟩
    · cases e

theorem parseCustomType_ok {isPublic isOpaque : Bool} {ks : List Token} (h : Spelled ks) {d : TypeDef} {rest : List Token}
    (e : parseCustomType isPublic isOpaque ks = some (d, rest)) : TypeDefOk d ∧ Spelled rest := by
  unfold parseCustomType at e
  split at e
  · cases e
  · next e1 =>
    obtain ⟨h1, h2, h3⟩ := parseTypeName_ok h e1
    split at e
    · obtain ⟨q, e2, e3⟩ := Option.map_eq_some_iff.1 e
      cases e3
      have h4 := parseBody_ok (spelled_cons h3).2 e2
      exact ⟨⟨h1, h2, h4.2⟩, h4.1⟩
    · split at e
      · cases e
      · split at e
        · next e2 =>
          cases e
          have h4 := (typeParsers_ok _).1 _ (spelled_cons h3).2 _ _ e2
          exact ⟨⟨h1, h2, h4.2 _ rfl⟩, h4.1⟩
        · cases e
    · cases e
      exact ⟨⟨h1, h2, by simp⟩, h3⟩

theorem parseTypeDef_ok {ks : List Token} (h : Spelled ks) {d : TypeDef} {rest : List Token}
    (e : parseTypeDef ks = some (d, rest)) : TypeDefOk d ∧ Spelled rest := by
  unfold parseTypeDef at e
  split at e
  · exact parseCustomType_ok (spelled_cons h).2 e
  · exact parseCustomType_ok (spelled_cons (spelled_cons (spelled_cons h).2).2).2 e
  · exact parseCustomType_ok (spelled_cons (spelled_cons h).2).2 e
  · exact parseCustomType_ok (spelled_cons (spelled_cons h).2).2 e
  · cases e

theorem read_typeDef_ok {source : List Char} {d : TypeDef} {rest : List Token}
    (h : readTypeDef source = some (d, rest)) : TypeDefOk d := by
  have hg : Spelled (visible ((tokens source).1.map (·.token))) := by
    intro k hk
    obtain ⟨h1, h2⟩ := List.mem_filter.1 hk
    obtain ⟨t, ht, rfl⟩ := List.mem_map.1 h1
    obtain ⟨x, hx, _⟩ := span_of_token_is_its_text source t ht (by cases hk : t.token <;> simp_all [Inner])
    exact ⟨x, hx⟩
  unfold readTypeDef at h
  generalize tokens source = r at h hg
  obtain ⟨ts, e⟩ := r
  cases e with
  | some e => cases h
  | none => exact (parseTypeDef_ok hg h).1

end Verif.Format
