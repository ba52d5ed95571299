import Verif.Format.TypeDefRead
import Verif.Format.AnnotationProps

/-!
# C78: a formatted definition of a type is read as the same definition
-/
namespace Verif.Format
open Verif.Lexer Verif.Lexer.Spec Verif.Format.Spec Verif.TypeText

/-! ### The normal form -/

theorem map_same {α : Type} {f : α → α} : {l : List α} → (∀ a ∈ l, f a = a) → l.map f = l
  | [], _ => rfl
  | a :: l, h => by rw [List.map_cons, h a (by simp), map_same fun b hb => h b (by simp [hb])]

theorem normalTypeDef_same (d : TypeDef) (h : NoEmptyParenthesesIn d) : normalTypeDef d = d := by
  cases d with
  | custom isPublic isOpaque name parameters variants =>
    have : variants.map normalVariant = variants := by
      refine map_same fun v hv => ?_
      obtain ⟨dep, n, fs⟩ := v
      unfold normalVariant
      congr 1
      refine map_same fun f hf => ?_
      rw [normalType_same _ (h _ hv f hf)]
    rw [normalTypeDef, this]
  | alias_ isPublic name parameters type => rw [normalTypeDef, normalType_same type h]

theorem variantDoc_normal {width : List Char → Nat} (v : Variant) : variantDoc width (normalVariant v) = variantDoc width v := by
  obtain ⟨dep, n, fs⟩ := v
  cases fs with
  | nil => rfl
  | cons f fs =>
    have h : ∀ g : Field, fieldDoc width ⟨g.label, normalType g.type⟩ = fieldDoc width g := by
      intro g
      unfold fieldDoc
      simp only [typeDoc_normal]
    unfold variantDoc normalVariant
    simp only [List.map_cons, List.map_map, Function.comp_def, h]

theorem variantDocs_normal {width : List Char → Nat} {blank : Nat → Bool} : (vs : List Variant) → ∀ n,
    variantDocs width blank n (vs.map normalVariant) = variantDocs width blank n vs
  | [], n => rfl
  | v :: vs, n => by rw [List.map_cons, variantDocs, variantDocs, variantDoc_normal, variantDocs_normal vs]

theorem typeDefDoc_normal {width : List Char → Nat} {blank : Nat → Bool} (d : TypeDef) :
    typeDefDoc width blank (normalTypeDef d) = typeDefDoc width blank d := by
  cases d with
  | custom isPublic isOpaque name parameters variants =>
    unfold normalTypeDef typeDefDoc
    simp only [variantDocs_normal, List.isEmpty_map]
  | alias_ isPublic name parameters type =>
    unfold normalTypeDef typeDefDoc
    simp only [typeDoc_normal]

/-! ### The theorems -/

/-- **C78.** A definition of a type that is made of tokens of the language is written as a text that is read as its normal
form, whatever the length of a line, the width of characters and the empty lines between constructors. Another definition
follows. -/
theorem written_type_definition_is_read {d : TypeDef} (ok : TypeDefOk d) (width : List Char → Nat) (limit : Int)
    (blank : Nat → Bool) (k : Keyword) :
    readTypeDef (formatTypeDef width limit blank d ++ '\n' :: keywordText k ++ [' ']) =
      some (normalTypeDef d, [.keyword k]) := by
  have hl := Pretty.print_is_layout limit (typeDefDoc width blank d)
  generalize hsrc : formatTypeDef width limit blank d ++ '\n' :: keywordText k ++ [' '] = source
  obtain ⟨ks, h1, h2, c, r, hc, hb⟩ := typeDef_seen (eof := endOffset source) ok hl
  have h3 : Seen (endOffset source) source (ks ++ [.keyword k]) [] := by
    have h4 : Seen (endOffset source) ('\n' :: keywordText k ++ [' ']) [.keyword k] [] :=
      Seen.append (t := ['\n']) (ks := []) (u := keywordText k ++ [' ']) seen_newline (seen_keywordSpace k)
    have h5 := Seen.append (rest := []) (by simpa using h2 '\n' (keywordText k ++ [' ']) (by simp [Sep])) h4
    rw [← hsrc] at h5 ⊢
    unfold formatTypeDef at h5 ⊢
    simpa using h5
  have hb : source.head? ≠ some byteOrderMark := by
    rw [← hsrc]
    unfold formatTypeDef
    rw [hc]
    simpa using hb
  obtain ⟨h6, h7⟩ := seen_tokens h3 hb
  have h8 := reads_typeDef ok h1 (rest := [.keyword k]) (.inr (.inl ⟨_, _, rfl⟩))
  unfold readTypeDef
  generalize tokens source = q at h6 h7
  obtain ⟨ts, e⟩ := q
  cases h7
  simp only at h6 ⊢
  rw [h6, h8]

/-- **C78.** A definition of a type that is read from a text, formatted, is read as the same definition, but that an
annotation `Foo()` in it is read as `Foo`. -/
theorem formatted_type_definition_is_read {source : List Char} {d : TypeDef} {rest : List Token}
    (h : readTypeDef source = some (d, rest)) (width : List Char → Nat) (limit : Int) (blank : Nat → Bool) (k : Keyword) :
    ∃ q, readTypeDef (formatTypeDef width limit blank d ++ '\n' :: keywordText k ++ [' ']) = some (q, [.keyword k]) ∧
      q = normalTypeDef d ∧ (NoEmptyParenthesesIn d → q = d) :=
  ⟨_, written_type_definition_is_read (read_typeDef_ok h) width limit blank k, rfl, normalTypeDef_same d⟩

/-- **C78.** A formatted definition is formatted as it is. -/
theorem formatting_a_type_definition_again_is_same {source : List Char} {d : TypeDef} {rest : List Token}
    (h : readTypeDef source = some (d, rest)) (width : List Char → Nat) (limit : Int) (blank : Nat → Bool) (k : Keyword) :
    ∃ q, readTypeDef (formatTypeDef width limit blank d ++ '\n' :: keywordText k ++ [' ']) = some (q, [.keyword k]) ∧
      formatTypeDef width limit blank q = formatTypeDef width limit blank d :=
  ⟨_, written_type_definition_is_read (read_typeDef_ok h) width limit blank k,
    congrArg (Pretty.toPrettyString limit) (typeDefDoc_normal d)⟩

/-- An attribute that no constructor follows is read, but it is no part of the definition, so that the formatter drops it. -/
theorem attribute_without_constructor_is_dropped :
    (readTypeDef "type A { B @deprecated(\"x\") } fn ".toList).map
        (fun r => (formatTypeDef List.length 80 (fun _ => false) r.1, r.2)) =
      some ("type A {\n  B\n}".toList, [.keyword .fn_]) := by
  decide +kernel

/-! ### Cases that meet the hypotheses -/

/-- A type with most constructs. -/
def exampleTypeDef : List Char :=
  "pub opaque type Tree(key,value,) { Leaf @deprecated(\"n\") Node(left: Tree(key, value), key, fn(key)->value,) Empty() } fn ".toList

example :
    (readTypeDef exampleTypeDef).map (fun r => (formatTypeDef List.length 80 (fun n => n = 2) r.1, r.2)) =
      some ("pub opaque type Tree(key, value) {\n  Leaf\n  @deprecated(\"n\")\n  Node(left: Tree(key, value), key, fn(key) -> value)\n\n  Empty\n}".toList,
        [.keyword .fn_]) ∧
    (readTypeDef exampleTypeDef).map (fun r => formatTypeDef List.length 40 (fun _ => false) r.1) =
      some ("pub opaque type Tree(key, value) {\n  Leaf\n  @deprecated(\"n\")\n  Node(\n    left: Tree(key, value),\n    key,\n    fn(key) -> value,\n  )\n  Empty\n}").toList ∧
    (readTypeDef "type A(a)=List( a ) type ".toList).map (fun r => formatTypeDef List.length 80 (fun _ => false) r.1) =
      some "type A(a) =\n  List(a)".toList ∧
    (readTypeDef "opaque type A {} type ".toList).map (fun r => formatTypeDef List.length 80 (fun _ => false) r.1) =
      some "opaque type A".toList := by
  decide +kernel

end Verif.Format
