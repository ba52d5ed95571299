import Verif.Format.DefinitionRead
import Verif.Format.TypeDefProps

/-!
# C79: the attributes of a definition are kept when it is formatted
-/
namespace Verif.Format
open Verif.Lexer Verif.Lexer.Spec Verif.Format.Spec Verif.TypeText
open Verif.Pretty.Spec (Layout)

theorem definition_seen {eof : Nat} {width : List Char → Nat} {blank : Nat → Bool} {d : Definition} (ok : DefinitionOk d)
    {i : Int} {br : Bool} {out : List Char} (hl : Layout (definitionDoc width blank d) i br out) :
    ∃ ks, TypeDefToks d.definition ks ∧ SeenSep eof out (allToks d.attributes ++ ks) ∧ ∃ c r, out = c :: r ∧ c ≠ byteOrderMark := by
  obtain ⟨⟨t, dep, erl, js, int⟩, d⟩ := d
  obtain ⟨ok, o1, o2, o3, o4, o5⟩ := ok
  unfold definitionDoc at hl
  have hd : (if d.isAlias then attributeDocs width dep none none int else attributeDocs width dep erl js int) =
      attributeDocs width dep erl js int := by
    split
    · next h =>
      obtain ⟨h1, h2⟩ := o5 h
      simp only at h1 h2
      rw [h1, h2]
    · rfl
  simp only [hd] at hl
  have hs := attributeDocs_seen (eof := eof) (width := width) (int := int) o1 o2 o3
  have hat := attributeDocs_startAt (width := width) (dep := dep) (erl := erl) (js := js) (int := int)
  rw [allToks_eq]
  exact targeted_seen (fun i br out hl => attributed_seen hs hat ok hl) hl

theorem definitionDoc_normal {width : List Char → Nat} {blank : Nat → Bool} (d : Definition) :
    definitionDoc width blank (normalDefinition d) = definitionDoc width blank d := by
  unfold definitionDoc normalDefinition
  simp only [typeDefDoc_normal, normal_isAlias]

/-! ### The theorems -/

/-- **C79.** A definition of a type with attributes that is made of tokens of the language is written as a text that is read
as the same attributes and the normal form of the definition, whatever the length of a line, the width of characters and the
empty lines between constructors. Another definition follows. -/
theorem written_definition_is_read {d : Definition} (ok : DefinitionOk d) (width : List Char → Nat) (limit : Int)
    (blank : Nat → Bool) (k : Keyword) :
    readDefinition (formatDefinition width limit blank d ++ '\n' :: keywordText k ++ [' ']) =
      some (normalDefinition d, [.keyword k]) := by
  have hl := Pretty.print_is_layout limit (definitionDoc width blank d)
  generalize hsrc : formatDefinition width limit blank d ++ '\n' :: keywordText k ++ [' '] = source
  obtain ⟨ks, h1, h2, c, r, hc, hb⟩ := definition_seen (eof := endOffset source) ok hl
  have h3 : Seen (endOffset source) source (allToks d.attributes ++ ks ++ [.keyword k]) [] := by
    have h4 : Seen (endOffset source) ('\n' :: keywordText k ++ [' ']) [.keyword k] [] :=
      Seen.append (t := ['\n']) (ks := []) (u := keywordText k ++ [' ']) seen_newline (seen_keywordSpace k)
    have h5 := Seen.append (rest := []) (by simpa using h2 '\n' (keywordText k ++ [' ']) (by simp [Sep])) h4
    rw [← hsrc] at h5 ⊢
    unfold formatDefinition at h5 ⊢
    simpa using h5
  have hb : source.head? ≠ some byteOrderMark := by
    rw [← hsrc]
    unfold formatDefinition
    rw [hc]
    simpa using hb
  obtain ⟨h6, h7⟩ := seen_tokens h3 hb
  have h8 := reads_definition ok h1 (rest := [.keyword k]) (.inr (.inl ⟨_, _, rfl⟩))
  unfold readDefinition
  generalize tokens source = q at h6 h7
  obtain ⟨ts, e⟩ := q
  cases h7
  simp only at h6 ⊢
  rw [h6, h8]

/-- **C79.** A definition of a type that is read from a text, formatted, is read with the same attributes: the same target, the
same message of its deprecation, the same external module and name for each target, and internal if it was. The definition is
the same too, but that an annotation `Foo()` in it is read as `Foo`. -/
theorem formatted_definition_has_the_same_attributes {source : List Char} {d : Definition} {rest : List Token}
    (h : readDefinition source = some (d, rest)) (width : List Char → Nat) (limit : Int) (blank : Nat → Bool) (k : Keyword) :
    ∃ q, readDefinition (formatDefinition width limit blank d ++ '\n' :: keywordText k ++ [' ']) = some (q, [.keyword k]) ∧
      q.attributes = d.attributes ∧ q.definition = normalTypeDef d.definition ∧
      (NoEmptyParenthesesIn d.definition → q = d) :=
  ⟨_, written_definition_is_read (read_definition_ok h) width limit blank k, rfl, rfl, fun hn => by
    unfold normalDefinition
    rw [normalTypeDef_same d.definition hn]⟩

/-- **C79.** A formatted definition is formatted as it is. -/
theorem formatting_a_definition_again_is_same {source : List Char} {d : Definition} {rest : List Token}
    (h : readDefinition source = some (d, rest)) (width : List Char → Nat) (limit : Int) (blank : Nat → Bool) (k : Keyword) :
    ∃ q, readDefinition (formatDefinition width limit blank d ++ '\n' :: keywordText k ++ [' ']) = some (q, [.keyword k]) ∧
      formatDefinition width limit blank q = formatDefinition width limit blank d :=
  ⟨_, written_definition_is_read (read_definition_ok h) width limit blank k,
    congrArg (Pretty.toPrettyString limit) (definitionDoc_normal d)⟩

/-! ### Cases that meet the hypotheses -/

/-- Attributes in an order that the formatter changes. -/
def exampleDefinition : List Char :=
  "@internal @external(javascript,\"./a.mjs\",\"T\",) @target(erl) @deprecated(\"Use \\\"U\\\"\") @external(erlang,\"a\",\"t\") pub type T fn ".toList

example :
    (readDefinition exampleDefinition).map (fun r => (r.1.attributes, formatDefinition List.length 20 (fun _ => false) r.1, r.2)) =
      some (⟨some .erlang, some "Use \\\"U\\\"".toList, some ("a".toList, "t".toList), some ("./a.mjs".toList, "T".toList), true⟩,
        ("@target(erlang)\n@deprecated(\"Use \\\"U\\\"\")\n@external(erlang, \"a\", \"t\")\n" ++
          "@external(javascript, \"./a.mjs\", \"T\")\n@internal\npub type T").toList, [.keyword .fn_]) ∧
    readDefinition "@internal type T fn ".toList = none ∧
    readDefinition "@external(erlang, \"a\", \"b\") type T = Int fn ".toList = none ∧
    readDefinition "@deprecated(\"a\") @deprecated(\"b\") type T fn ".toList = none := by
  decide +kernel

end Verif.Format
