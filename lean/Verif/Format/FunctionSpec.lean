import Verif.Format.DefinitionSpec
import Verif.Format.PatternTokens
import Verif.Format.Function

/-!
# Specification: signatures that can be written, and the signature a formatted one is read as
-/
namespace Verif.Format.Spec
open Verif.Lexer Verif.Lexer.Spec Verif.Format
open Verif.TypeText (TypeAst)

/-- The names are tokens of the language. -/
def ArgNamesOk : ArgNames → Prop
  | .named name => IsName name
  | .discard name => IsDiscardName name
  | .namedLabelled label name => IsName label ∧ IsName name
  | .labelledDiscard label name => IsName label ∧ IsDiscardName name

/-- The signature is made of tokens of the language, and is internal only if it is public. -/
def SignatureOk (s : Signature) : Prop :=
  (∀ m, s.attributes.deprecated = some m → IsString m) ∧
  (∀ m f, s.attributes.erlang = some (m, f) → IsString m ∧ IsString f) ∧
  (∀ m f, s.attributes.javascript = some (m, f) → IsString m ∧ IsString f) ∧
  (s.attributes.internal = true → s.isPublic = true) ∧
  IsName s.name ∧
  (∀ a ∈ s.arguments, ArgNamesOk a.names ∧ ∀ t, a.annotation = some t → TypeOk t) ∧
  (∀ t, s.returns = some t → TypeOk t)

/-- The signature with each annotation in its normal form. The rest is as it was: the attributes, if it is public, the name,
and the labels and names of the parameters, in order. -/
def normalSignature (s : Signature) : Signature :=
  { s with
    arguments := s.arguments.map fun a => ⟨a.names, a.annotation.map normalType⟩
    returns := s.returns.map normalType }

/-- No annotation of the signature has empty parentheses. -/
def NoEmptyParenthesesInSignature (s : Signature) : Prop :=
  (∀ a ∈ s.arguments, ∀ t, a.annotation = some t → NoEmptyParentheses t) ∧ ∀ t, s.returns = some t → NoEmptyParentheses t

/-- Each layout of the body is a text that is read as tokens that meet `B`, if the end of a line follows. -/
def BodyReads (body : Pretty.Doc) (B : List Token → Prop) : Prop :=
  ∀ eof i br out, Pretty.Spec.Layout body i br out → ∃ bs, B bs ∧ ∀ rest, Seen eof out bs ('\n' :: rest)

end Verif.Format.Spec
