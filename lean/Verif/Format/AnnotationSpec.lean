import Verif.Format.PatternSpec
import Verif.TypeText.Model

/-!
# Specification: type annotations that can be written, and the annotation a formatted one is read as
-/
namespace Verif.Format.Spec
open Verif.Lexer.Spec Verif.Format
open Verif.TypeText (TypeAst)

mutual
/-- The annotation is made of tokens of the language. The name of a type may be missing, after a module: `wibble.` -/
def TypeOk : TypeAst → Prop
  | .hole name => IsDiscardName name
  | .constructor module name arguments _ =>
    (∀ m, module = some m → IsName m) ∧ (∀ n, name = some n → IsUpName n) ∧
      (name = none → module ≠ none ∧ arguments = []) ∧ TypesOk arguments
  | .fn arguments ret => TypesOk arguments ∧ TypeOk ret
  | .var name => IsName name
  | .tuple elements => TypesOk elements

def TypesOk : List TypeAst → Prop
  | [] => True
  | t :: ts => TypeOk t ∧ TypesOk ts
end

mutual
/-- The annotation a formatted annotation is read as: there are parentheses if there are arguments. -/
def normalType : TypeAst → TypeAst
  | .hole name => .hole name
  | .constructor module name arguments _ => .constructor module name (normalTypes arguments) (!arguments.isEmpty)
  | .fn arguments ret => .fn (normalTypes arguments) (normalType ret)
  | .var name => .var name
  | .tuple elements => .tuple (normalTypes elements)

def normalTypes : List TypeAst → List TypeAst
  | [] => []
  | t :: ts => normalType t :: normalTypes ts
end

mutual
/-- Parentheses stand around arguments only: `Foo()` is not such an annotation. -/
def NoEmptyParentheses : TypeAst → Prop
  | .hole _ => True
  | .constructor _ _ arguments parentheses => parentheses = !arguments.isEmpty ∧ NoEmptyParenthesesAll arguments
  | .fn arguments ret => NoEmptyParenthesesAll arguments ∧ NoEmptyParentheses ret
  | .var _ => True
  | .tuple elements => NoEmptyParenthesesAll elements

def NoEmptyParenthesesAll : List TypeAst → Prop
  | [] => True
  | t :: ts => NoEmptyParentheses t ∧ NoEmptyParenthesesAll ts
end

end Verif.Format.Spec
