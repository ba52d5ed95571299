import Verif.Format.AttributeSeen
import Verif.Format.AnnotationOk

/-!
# The parser reads written attributes, and returns only definitions that can be written
-/
namespace Verif.Format
open Verif.Lexer Verif.Lexer.Spec Verif.Format.Spec Verif.TypeText

theorem reads_one {fuel : Nat} {a b : Attributes} {ts rest : List Token} (h : parseAttribute a ts = some (b, rest)) :
    parseAttributes (fuel + 1) a (.symbol .at_ :: ts) = parseAttributes fuel b rest := by
  rw [parseAttributes.eq_def]
  simp only [h]

theorem reads_deprecated {fuel : Nat} {a : Attributes} (h : a.deprecated = none) (m : List Char) (rest : List Token) :
    parseAttributes (fuel + 1) a (deprecatedToks m ++ rest) =
      parseAttributes fuel { a with deprecated := some m } rest := by
  have e : parseAttribute a ((deprecatedToks m).tail ++ rest) =
      if a.deprecated.isSome then none else some ({ a with deprecated := some m }, rest) := rfl
  simp only [h, Option.isSome_none, Bool.false_eq_true, if_false] at e
  exact reads_one e

theorem reads_erlang {fuel : Nat} {a : Attributes} (h : a.erlang = none) (m f : List Char) (rest : List Token) :
    parseAttributes (fuel + 1) a (externalToks "erlang".toList m f ++ rest) =
      parseAttributes fuel { a with erlang := some (m, f) } rest := by
  have e : parseAttribute a ((externalToks "erlang".toList m f).tail ++ rest) =
      if a.erlang.isSome then none else some ({ a with erlang := some (m, f) }, rest) := rfl
  simp only [h, Option.isSome_none, Bool.false_eq_true, if_false] at e
  exact reads_one e

theorem reads_javascript {fuel : Nat} {a : Attributes} (h : a.javascript = none) (m f : List Char) (rest : List Token) :
    parseAttributes (fuel + 1) a (externalToks "javascript".toList m f ++ rest) =
      parseAttributes fuel { a with javascript := some (m, f) } rest := by
  have e : parseAttribute a ((externalToks "javascript".toList m f).tail ++ rest) =
      if a.javascript.isSome then none else some ({ a with javascript := some (m, f) }, rest) := rfl
  simp only [h, Option.isSome_none, Bool.false_eq_true, if_false] at e
  exact reads_one e

theorem reads_internal {fuel : Nat} {a : Attributes} (h : a.internal = false) (rest : List Token) :
    parseAttributes (fuel + 1) a (internalToks ++ rest) =
      parseAttributes fuel { a with internal := true } rest := by
  have e : parseAttribute a ((internalToks).tail ++ rest) =
      if a.internal then none else some ({ a with internal := true }, rest) := rfl
  simp only [h, Option.isSome_none, Bool.false_eq_true, if_false] at e
  exact reads_one e

theorem reads_target_erlang {fuel : Nat} {a : Attributes} (h : a.target = none) (rest : List Token) :
    parseAttributes (fuel + 1) a (targetToks "erlang".toList ++ rest) =
      parseAttributes fuel { a with target := some .erlang } rest := by
  have e : parseAttribute a ((targetToks "erlang".toList).tail ++ rest) =
      if a.target.isSome then none else some ({ a with target := some .erlang }, rest) := rfl
  simp only [h, Option.isSome_none, Bool.false_eq_true, if_false] at e
  exact reads_one e

theorem reads_target_javascript {fuel : Nat} {a : Attributes} (h : a.target = none) (rest : List Token) :
    parseAttributes (fuel + 1) a (targetToks "javascript".toList ++ rest) =
      parseAttributes fuel { a with target := some .javascript } rest := by
  have e : parseAttribute a ((targetToks "javascript".toList).tail ++ rest) =
      if a.target.isSome then none else some ({ a with target := some .javascript }, rest) := rfl
  simp only [h, Option.isSome_none, Bool.false_eq_true, if_false] at e
  exact reads_one e

/-- The attributes that follow a target. -/
theorem reads_flatten {dep : Option (List Char)} {erl js : Option (List Char × List Char)} {int : Bool} {t : Option Target}
    {rest : List Token} {fuel : Nat} (hf : (attributeToks dep erl js int).length < fuel)
    (hr : rest.head? ≠ some (.symbol .at_)) :
    parseAttributes fuel ⟨t, none, none, none, false⟩ ((attributeToks dep erl js int).flatten ++ rest) =
      some (⟨t, dep, erl, js, int⟩, rest) := by
  obtain ⟨n, rfl⟩ : ∃ n, fuel = n + (attributeToks dep erl js int).length + 1 := ⟨fuel - (attributeToks dep erl js int).length - 1, by omega⟩
  clear hf
  have last : ∀ n a, parseAttributes (n + 1) a rest = some (a, rest) := by
    intro n a
    rw [parseAttributes.eq_def]
    simp only
    split
    · simp at hr
    · rfl
  unfold attributeToks
  rcases dep with _ | m <;> rcases erl with _ | ⟨m1, f1⟩ <;> rcases js with _ | ⟨m2, f2⟩ <;> cases int <;>
    simp only [List.nil_append, List.cons_append, List.append_assoc, List.flatten_cons, List.flatten_nil, List.append_nil,
      if_true, if_false, Bool.false_eq_true, reads_deprecated, reads_erlang, reads_javascript, reads_internal, last,
      List.length_cons, List.length_nil, ← Nat.add_assoc]

theorem flatten_length {dep : Option (List Char)} {erl js : Option (List Char × List Char)} {int : Bool} :
    (attributeToks dep erl js int).length ≤ (attributeToks dep erl js int).flatten.length := by
  unfold attributeToks
  rcases dep with _ | m <;> rcases erl with _ | ⟨m1, f1⟩ <;> rcases js with _ | ⟨m2, f2⟩ <;> cases int <;>
    simp [deprecatedToks, externalToks, internalToks]

theorem reads_attributes (a : Attributes) {rest : List Token} (hr : rest.head? ≠ some (.symbol .at_)) :
    parseAttributes ((allToks a ++ rest).length + 1) .default (allToks a ++ rest) = some (a, rest) := by
  obtain ⟨t, dep, erl, js, int⟩ := a
  have h := flatten_length (dep := dep) (erl := erl) (js := js) (int := int)
  unfold allToks Attributes.default
  cases t with
  | none => exact reads_flatten (by simp only [List.nil_append, List.length_append]; omega) hr
  | some t =>
    cases t
    · rw [List.append_assoc, reads_target_erlang rfl]
      exact reads_flatten (by simp only [List.length_append, targetToks, List.length_cons]; omega) hr
    · rw [List.append_assoc, reads_target_javascript rfl]
      exact reads_flatten (by simp only [List.length_append, targetToks, List.length_cons]; omega) hr

/-! ### What is read can be written -/

/-- The strings are tokens of the language. -/
def StringsOk (a : Attributes) : Prop :=
  (∀ m, a.deprecated = some m → IsString m) ∧ (∀ m f, a.erlang = some (m, f) → IsString m ∧ IsString f) ∧
  (∀ m f, a.javascript = some (m, f) → IsString m ∧ IsString f)

theorem parseExternal_ok {a b : Attributes} {ks rest : List Token} (h : Spelled ks) (ha : StringsOk a)
    (e : parseExternal a ks = some (b, rest)) : StringsOk b ∧ Spelled rest := by
  unfold parseExternal at e
  split at e
  · next n m f tail =>
    have h6 := spelled_cons (spelled_cons (spelled_cons (spelled_cons h).2).2).2
    have h7 := spelled_cons (spelled_cons h6.2).2
    have ht : Spelled (skipComma tail) := by
      unfold skipComma
      split
      · exact (spelled_cons h7.2).2
      · exact h7.2
    generalize skipComma tail = tail' at e ht
    split at e
    · have ht := (spelled_cons ht).2
      split at e
      · split at e
        · cases e
        · cases e
          exact ⟨⟨ha.1, fun m f hh => by cases hh; exact ⟨h6.1, h7.1⟩, ha.2.2⟩, ht⟩
      · split at e
        · cases e
        · cases e
          exact ⟨⟨ha.1, ha.2.1, fun m f hh => by cases hh; exact ⟨h6.1, h7.1⟩⟩, ht⟩
      · cases e
    · cases e
  · cases e

theorem parseTarget_ok {a b : Attributes} {ks rest : List Token} (h : Spelled ks) (ha : StringsOk a)
    (e : parseTargetAttribute a ks = some (b, rest)) : StringsOk b ∧ Spelled rest := by
  unfold parseTargetAttribute at e
  split at e
  · have h2 := (spelled_cons (spelled_cons h).2).2
    split at e
    · cases e
    · split at e
      · cases e
      · split at e
        · cases e
          exact ⟨ha, (spelled_cons h2).2⟩
        · cases e
  · cases e

theorem parseDeprecated_ok {a b : Attributes} {ks rest : List Token} (h : Spelled ks) (ha : StringsOk a)
    (e : parseDeprecated a ks = some (b, rest)) : StringsOk b ∧ Spelled rest := by
  unfold parseDeprecated at e
  split at e
  · split at e
    · cases e
    · split at e
      · cases e
        have h2 := spelled_cons (spelled_cons h).2
        exact ⟨⟨fun m hh => by cases hh; exact h2.1, ha.2⟩, (spelled_cons h2.2).2⟩
      · cases e
  · cases e

theorem parseAttribute_ok {a b : Attributes} {ks rest : List Token} (h : Spelled ks) (ha : StringsOk a)
    (e : parseAttribute a ks = some (b, rest)) : StringsOk b ∧ Spelled rest := by
  unfold parseAttribute at e
  split at e
  · have h2 := (spelled_cons h).2
    split at e
    · exact parseExternal_ok h2 ha e
    · split at e
      · exact parseTarget_ok h2 ha e
      · split at e
        · exact parseDeprecated_ok h2 ha e
        · split at e
          · split at e
            · cases e
            · cases e
              exact ⟨ha, h2⟩
          · cases e
  · cases e

theorem parseAttributes_ok : (fuel : Nat) → ∀ {a b : Attributes} {ks rest : List Token}, Spelled ks → StringsOk a →
    parseAttributes fuel a ks = some (b, rest) → StringsOk b ∧ Spelled rest
  | 0, _, _, _, _, _, _, e => by cases e
  | fuel + 1, a, b, ks, rest, h, ha, e => by
    rw [parseAttributes.eq_def] at e
    simp only at e
    split at e
    · split at e
      · next e2 =>
        obtain ⟨h1, h2⟩ := parseAttribute_ok (spelled_cons h).2 ha e2
        exact parseAttributes_ok fuel h2 h1 e
      · cases e
    · cases e
      exact ⟨ha, h⟩

end Verif.Format
