import Verif.Format.TypeDefSpec
import Verif.Format.Definition

/-!
# Specification: definitions of types with attributes that can be written
-/
namespace Verif.Format.Spec
open Verif.Lexer.Spec Verif.Format

/-- The definition and its strings are made of tokens of the language, only a public definition is internal, and only a type
that is no alias is external. -/
def DefinitionOk (d : Definition) : Prop :=
  TypeDefOk d.definition ∧
  (∀ m, d.attributes.deprecated = some m → IsString m) ∧
  (∀ m f, d.attributes.erlang = some (m, f) → IsString m ∧ IsString f) ∧
  (∀ m f, d.attributes.javascript = some (m, f) → IsString m ∧ IsString f) ∧
  (d.attributes.internal = true → d.definition.isPub = true) ∧
  (d.definition.isAlias = true → d.attributes.erlang = none ∧ d.attributes.javascript = none)

/-- The definition with each annotation in its normal form. The attributes are as they were. -/
def normalDefinition (d : Definition) : Definition := ⟨d.attributes, normalTypeDef d.definition⟩

end Verif.Format.Spec
