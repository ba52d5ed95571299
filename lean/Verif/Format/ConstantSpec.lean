import Verif.Format.FunctionSpec
import Verif.Format.Constant

/-!
# Specification: constants that can be written, and the constant a formatted one is read as
-/
namespace Verif.Format.Spec
open Verif.Lexer Verif.Lexer.Spec Verif.Format

/-- The value is a token of the language. -/
def ConstValueOk : ConstValue → Prop
  | .int value number => ∃ t, Reads (.int value number) t
  | .string value => IsString value
  | .var name => IsName name
  | .constructor_ name => IsUpName name

/-- The constant is made of tokens of the language, is internal only if it is public, and is not external. -/
def ConstantOk (c : ModuleConstant) : Prop :=
  (∀ m, c.attributes.deprecated = some m → IsString m) ∧
  c.attributes.erlang = none ∧ c.attributes.javascript = none ∧
  (c.attributes.internal = true → c.isPublic = true) ∧
  IsName c.name ∧ (∀ t, c.annotation = some t → TypeOk t) ∧ ConstValueOk c.value

/-- The same value: an integer may have other digits and underscores, but is the same number. -/
def SameConstValue : ConstValue → ConstValue → Prop
  | .int _ n, .int _ m => n = m
  | a, b => a = b

/-- The same attributes, name and value, public if it was, and the annotation in its normal form. -/
def SameConstant (before after : ModuleConstant) : Prop :=
  after.attributes = before.attributes ∧ after.isPublic = before.isPublic ∧ after.name = before.name ∧
    after.annotation = before.annotation.map normalType ∧ SameConstValue before.value after.value

end Verif.Format.Spec
