import Verif.Format.DefinitionSeen
import Verif.Format.TypeDefRead

/-!
# The parser reads written definitions, and returns only definitions that can be written
-/
namespace Verif.Format
open Verif.Lexer Verif.Lexer.Spec Verif.Format.Spec Verif.TypeText

theorem typeDefToks_head {d : TypeDef} {ks : List Token} (h : TypeDefToks d ks) : ∃ k r, ks = .keyword k :: r := by
  have : ∀ isPublic isOpaque rest, ∃ k r, headToks isPublic isOpaque ++ rest = .keyword k :: r := by
    intro isPublic isOpaque rest
    cases isPublic <;> cases isOpaque <;> exact ⟨_, _, rfl⟩
  cases d with
  | custom => obtain ⟨ps, body, rfl, _⟩ := h; exact this _ _ _
  | alias_ => obtain ⟨ps, body, rfl, _⟩ := h; exact this _ _ _

theorem normal_isPub (d : TypeDef) : (normalTypeDef d).isPub = d.isPub := by cases d <;> rfl

theorem normal_isAlias (d : TypeDef) : (normalTypeDef d).isAlias = d.isAlias := by cases d <;> rfl

theorem reads_definition {d : Definition} (ok : DefinitionOk d) {ks : List Token} (h : TypeDefToks d.definition ks)
    {rest : List Token} (hr : NextDef rest) :
    parseDefinition (allToks d.attributes ++ ks ++ rest) = some (normalDefinition d, rest) := by
  obtain ⟨a, d⟩ := d
  obtain ⟨ok, _, _, _, h1, h2⟩ := ok
  have h3 := reads_typeDef ok h hr
  obtain ⟨j, r, rfl⟩ := typeDefToks_head h
  unfold parseDefinition
  rw [List.append_assoc, List.cons_append, reads_attributes a (by simp)]
  rw [List.cons_append] at h3
  simp only [h3, normal_isPub, normal_isAlias]
  rw [if_neg, if_neg]
  · rfl
  · intro hh
    simp only [Bool.and_eq_true, Bool.or_eq_true] at hh
    obtain ⟨e1, e2⟩ := h2 hh.1
    simp only at e1 e2
    rw [e1, e2] at hh
    simp at hh
  · intro hh
    simp only [Bool.and_eq_true, Bool.not_eq_true'] at hh
    rw [h1 hh.1] at hh
    cases hh.2

theorem parseDefinition_ok {ks : List Token} (h : Spelled ks) {d : Definition} {rest : List Token}
    (e : parseDefinition ks = some (d, rest)) : DefinitionOk d ∧ Spelled rest := by
  unfold parseDefinition at e
  split at e
  · cases e
  · next a r e1 =>
    obtain ⟨h1, h2⟩ := parseAttributes_ok _ h ⟨by simp [Attributes.default], by simp [Attributes.default],
      by simp [Attributes.default]⟩ e1
    split at e
    · cases e
    · next t r2 e2 =>
      have h3 := (parseTypeDef_ok h2 e2)
      split at e
      · cases e
      · next n1 =>
        split at e
        · cases e
        · next n2 =>
          cases e
          refine ⟨⟨h3.1, h1.1, h1.2.1, h1.2.2, ?_, ?_⟩, h3.2⟩
          · simpa using n1
          · simp only
            intro hi
            rw [hi] at n2
            simpa using n2

theorem read_definition_ok {source : List Char} {d : Definition} {rest : List Token}
    (h : readDefinition source = some (d, rest)) : DefinitionOk d := by
  have hg : Spelled (visible ((tokens source).1.map (·.token))) := by
    intro k hk
    obtain ⟨h1, h2⟩ := List.mem_filter.1 hk
    obtain ⟨t, ht, rfl⟩ := List.mem_map.1 h1
    obtain ⟨x, hx, _⟩ := span_of_token_is_its_text source t ht (by cases hk : t.token <;> simp_all [Inner])
    exact ⟨x, hx⟩
  unfold readDefinition at h
  generalize tokens source = r at h hg
  obtain ⟨ts, e⟩ := r
  cases e with
  | some e => cases h
  | none => exact (parseDefinition_ok hg h).1

end Verif.Format
