import Verif.Format.ImportSpec
import Verif.Format.ConstantSpec
import Verif.Format.File
import Verif.Format.AnnotationOk

/-!
# Specification: the same file
-/
namespace Verif.Format.Spec
open Verif.Lexer Verif.Format

/-- The formatter and the parser keep bodies: what is read meets `Ok`, and each layout of a body that meets `Ok` is read as
`norm` of it, if a brace follows, and `norm` of it is formatted as it is. -/
structure KeepsBodies {β : Type} (F : BodyFormat β) (Ok : β → Prop) (norm : β → β) : Prop where
  reads : ∀ b, Ok b → BodyReads (F.doc b) fun bs =>
    ∀ rest, F.parse (bs ++ .symbol .rightBrace :: rest) = some (norm b, .symbol .rightBrace :: rest)
  ok : ∀ ks b rest, Spelled ks → F.parse ks = some (b, rest) → Ok b ∧ Spelled rest
  again : ∀ b, Ok b → F.doc (norm b) = F.doc b

/-- The same is declared: with the same attributes, names and values, public if it was. Annotations are in their normal form
(`Foo()` is `Foo`), and so are bodies. -/
def SameDeclaration {β : Type} (norm : β → β) : Declaration β → Declaration β → Prop
  | .type_ d, .type_ e => e = normalDefinition d
  | .function s b, .function t c => t = normalSignature s ∧ c = b.map norm
  | .constant c, .constant d => SameConstant c d
  | _, _ => False

/-- The same is imported and used by the same names, and the same is declared in the same order. -/
def SameFile {β : Type} (norm : β → β) (before after : File β) : Prop :=
  SameImports before.imports after.imports ∧ List.Forall₂ (SameDeclaration norm) before.declarations after.declarations

end Verif.Format.Spec
