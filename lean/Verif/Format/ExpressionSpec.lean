import Verif.Format.Expression
import Verif.Format.ConstantSpec

/-!
# Specification: the same expression
-/
namespace Verif.Format.Spec
open Verif.Lexer Verif.Lexer.Spec Verif.Format

def CalleeOk (c : Callee) : Prop :=
  (∀ r, c.record = some r → IsName r) ∧ if c.isUpper then IsUpName c.name else IsName c.name

mutual
/-- The expression is made of tokens of the language. -/
def ExprOk : Expr → Prop
  | .int value number => ∃ t, Reads (.int value number) t
  | .string value => IsString value
  | .callee c => CalleeOk c
  | .call c arguments => CalleeOk c ∧ ExprsOk arguments

def ExprsOk : List Expr → Prop
  | [] => True
  | e :: es => ExprOk e ∧ ExprsOk es
end

mutual
/-- The same expression: an integer may have other digits and underscores, but is the same number; the same is called with the same
arguments in the same order. -/
def SameExpr : Expr → Expr → Prop
  | .int _ n, .int _ m => n = m
  | .string v, .string w => v = w
  | .callee c, .callee d => c = d
  | .call c as, .call d bs => c = d ∧ SameExprs as bs
  | _, _ => False

def SameExprs : List Expr → List Expr → Prop
  | [], [] => True
  | a :: as, b :: bs => SameExpr a b ∧ SameExprs as bs
  | _, _ => False
end

end Verif.Format.Spec
