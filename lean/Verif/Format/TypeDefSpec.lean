import Verif.Format.AnnotationSpec
import Verif.Format.TypeDef

/-!
# Specification: definitions of types that can be written, and the definition a formatted one is read as
-/
namespace Verif.Format.Spec
open Verif.Lexer.Spec Verif.Format

/-- The constructor is made of tokens of the language. -/
def VariantOk (v : Variant) : Prop :=
  (∀ m, v.deprecated = some m → IsString m) ∧ IsUpName v.name ∧ ∀ f ∈ v.fields, (∀ l, f.label = some l → IsName l) ∧ TypeOk f.type

/-- The definition is made of tokens of the language. -/
def TypeDefOk : TypeDef → Prop
  | .custom _ _ name parameters variants =>
    IsUpName name ∧ (∀ p ∈ parameters, IsName p) ∧ ∀ v ∈ variants, VariantOk v
  | .alias_ _ name parameters type => IsUpName name ∧ (∀ p ∈ parameters, IsName p) ∧ TypeOk type

/-- The constructor with each annotation in its normal form. It is deprecated as it was. -/
def normalVariant (v : Variant) : Variant :=
  ⟨v.deprecated, v.name, v.fields.map fun f => ⟨f.label, normalType f.type⟩⟩

/-- The definition with each annotation in its normal form. The rest is as it was: if it is public, if it is opaque, the
names, the constructors and the labels, in order. -/
def normalTypeDef : TypeDef → TypeDef
  | .custom isPublic isOpaque name parameters variants =>
    .custom isPublic isOpaque name parameters (variants.map normalVariant)
  | .alias_ isPublic name parameters type => .alias_ isPublic name parameters (normalType type)

/-- No annotation of the definition has empty parentheses. -/
def NoEmptyParenthesesIn : TypeDef → Prop
  | .custom _ _ _ _ variants => ∀ v ∈ variants, ∀ f ∈ v.fields, NoEmptyParentheses f.type
  | .alias_ _ _ _ type => NoEmptyParentheses type

end Verif.Format.Spec
