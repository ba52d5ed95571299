import Verif.Format.AnnotationSpec
import Verif.Format.Annotation
import Verif.Lexer.Props

/-!
# Type annotations that are read are made of tokens of the language
-/
namespace Verif.Format
open Verif.Lexer Verif.Lexer.Spec Verif.Format.Spec Verif.TypeText

/-- Each token has a text. -/
def Spelled (ks : List Token) : Prop := ∀ k ∈ ks, ∃ t, Reads k t

theorem spelled_cons {k : Token} {ks : List Token} (h : Spelled (k :: ks)) : (∃ t, Reads k t) ∧ Spelled ks :=
  ⟨h k (by simp), fun x hx => h x (by simp [hx])⟩

theorem spelled_name {n : Name} (h : ∃ t, Reads (.name n) t) : IsName n := by
  obtain ⟨t, h⟩ := h
  have e : t = n := h.1
  rw [e] at h
  exact h

theorem spelled_upName {n : Name} (h : ∃ t, Reads (.upName n) t) : IsUpName n := by
  obtain ⟨t, h⟩ := h
  have e : t = n := h.1
  rw [e] at h
  exact h

theorem spelled_discard {n : Name} (h : ∃ t, Reads (.discardName n) t) : IsDiscardName n := by
  obtain ⟨t, h⟩ := h
  have e : t = n := h.1
  rw [e] at h
  exact h

/-- The result of a parser of types. -/
def TypeResult (r : Option (Option TypeAst × List Token)) : Prop :=
  ∀ o rest, r = some (o, rest) → Spelled rest ∧ ∀ t, o = some t → TypeOk t

theorem typeResult_none : TypeResult none := fun _ _ h => by cases h

theorem typeResult_some {t : TypeAst} {rest : List Token} (h : Spelled rest) (ht : TypeOk t) :
    TypeResult (some (some t, rest)) := by
  intro o r e
  cases e
  exact ⟨h, fun u e => by cases e; exact ht⟩

/-- What is known of the parsers with some fuel. -/
def TypeParsersOk (fuel : Nat) : Prop :=
  (∀ ks, Spelled ks → TypeResult (parseType fuel ks)) ∧
  (∀ module name ks, (∀ m, module = some m → IsName m) → (∀ n, name = some n → IsUpName n) →
    (name = none → module ≠ none) → Spelled ks → TypeResult (parseTypeNameFinish fuel module name ks)) ∧
  (∀ ks, Spelled ks → ∀ ts rest, parseTypes fuel ks = some (ts, rest) → Spelled rest ∧ TypesOk ts)

theorem parseType_ok {fuel : Nat} (ih : TypeParsersOk fuel) {ks : List Token} (h : Spelled ks) :
    TypeResult (parseType (fuel + 1) ks) := by
  obtain ⟨i1, i2, i3⟩ := ih
  rw [parseType.eq_def]
  simp only
  split
  · have h1 := spelled_cons h
    exact typeResult_some h1.2 (by rw [TypeOk]; exact spelled_discard h1.1)
  · split
    · split
      · next e =>
        have h1 := i3 _ (spelled_cons (spelled_cons h).2).2 _ _ e
        exact typeResult_some (spelled_cons h1.1).2 (by rw [TypeOk]; exact h1.2)
      · exact typeResult_none
    · exact typeResult_none
  · split
    · split
      · next e =>
        have h1 := i3 _ (spelled_cons (spelled_cons h).2).2 _ _ e
        split
        · next e2 =>
          have h2 := i1 _ (spelled_cons (spelled_cons h1.1).2).2 _ _ e2
          exact typeResult_some h2.1 (by rw [TypeOk]; exact ⟨h1.2, h2.2 _ rfl⟩)
        · exact typeResult_none
      · exact typeResult_none
    · exact typeResult_none
  · have h1 := spelled_cons h
    exact i2 _ _ _ (by simp) (fun n e => by cases e; exact spelled_upName h1.1) (by simp) h1.2
  · have h1 := spelled_cons h
    split
    · have h2 := spelled_cons h1.2
      split
      · have h3 := spelled_cons h2.2
        exact i2 _ _ _ (fun m e => by cases e; exact spelled_name h1.1) (fun n e => by cases e; exact spelled_upName h3.1)
          (by simp) h3.2
      · exact i2 _ _ _ (fun m e => by cases e; exact spelled_name h1.1) (by simp) (by simp) h2.2
    · exact typeResult_some h1.2 (by rw [TypeOk]; exact spelled_name h1.1)
  · intro o rest e
    cases e
    exact ⟨h, by simp⟩

theorem finish_ok {fuel : Nat} (ih : TypeParsersOk fuel) {module name : Option Name} {ks : List Token}
    (hm : ∀ m, module = some m → IsName m) (hn : ∀ n, name = some n → IsUpName n) (hq : name = none → module ≠ none)
    (h : Spelled ks) : TypeResult (parseTypeNameFinish (fuel + 1) module name ks) := by
  obtain ⟨i1, i2, i3⟩ := ih
  rw [parseTypeNameFinish.eq_def]
  simp only
  split
  · split
    · exact typeResult_none
    · split
      · next e =>
        have h1 := i3 _ (spelled_cons h).2 _ _ e
        exact typeResult_some (spelled_cons h1.1).2 (by rw [TypeOk]; exact ⟨hm, hn, by simp, h1.2⟩)
      · exact typeResult_none
  · exact typeResult_none
  · exact typeResult_some h (by rw [TypeOk, TypesOk]; exact ⟨hm, hn, fun e => ⟨hq e, rfl⟩, trivial⟩)

theorem parseTypes_ok {fuel : Nat} (ih : TypeParsersOk fuel) {ks : List Token} (h : Spelled ks) {ts : List TypeAst}
    {rest : List Token} (e : parseTypes (fuel + 1) ks = some (ts, rest)) : Spelled rest ∧ TypesOk ts := by
  obtain ⟨i1, i2, i3⟩ := ih
  rw [parseTypes.eq_def] at e
  simp only at e
  split at e
  · cases e
  · next e1 =>
    cases e
    exact ⟨(i1 _ h _ _ e1).1, by rw [TypesOk]; trivial⟩
  · next e1 =>
    have h1 := i1 _ h _ _ e1
    split at e
    · split at e
      · cases e
      · obtain ⟨r, e2, e3⟩ := Option.map_eq_some_iff.1 e
        cases e3
        have h2 := i3 _ (spelled_cons h1.1).2 _ _ e2
        exact ⟨h2.1, by rw [TypesOk]; exact ⟨h1.2 _ rfl, h2.2⟩⟩
    · cases e
      exact ⟨h1.1, by rw [TypesOk, TypesOk]; exact ⟨h1.2 _ rfl, trivial⟩⟩

theorem typeParsers_ok : (fuel : Nat) → TypeParsersOk fuel
  | 0 => by
    refine ⟨fun ks _ => ?_, fun _ _ _ _ _ _ _ => ?_, fun ks _ ts rest e => ?_⟩
    · rw [parseType]; exact typeResult_none
    · rw [parseTypeNameFinish]; exact typeResult_none
    · rw [parseTypes] at e; cases e
  | fuel + 1 =>
    have ih := typeParsers_ok fuel
    ⟨fun _ h => parseType_ok ih h, fun _ _ _ hm hn hq h => finish_ok ih hm hn hq h, fun _ h _ _ e => parseTypes_ok ih h e⟩

theorem read_annotation_ok {source : List Char} {t : TypeAst} {rest : List Token}
    (h : readAnnotation source = some (t, rest)) : TypeOk t := by
  have hg : Spelled (visible ((tokens source).1.map (·.token))) := by
    intro k hk
    obtain ⟨h1, h2⟩ := List.mem_filter.1 hk
    obtain ⟨t, ht, rfl⟩ := List.mem_map.1 h1
    obtain ⟨x, hx, _⟩ := span_of_token_is_its_text source t ht (by cases hk : t.token <;> simp_all [Inner])
    exact ⟨x, hx⟩
  unfold readAnnotation at h
  generalize tokens source = r at h hg
  obtain ⟨ts, e⟩ := r
  cases e with
  | some e => cases h
  | none =>
    simp only at h
    split at h
    · next e1 =>
      cases h
      exact ((typeParsers_ok _).1 _ hg _ _ e1).2 _ rfl
    · cases h

end Verif.Format
