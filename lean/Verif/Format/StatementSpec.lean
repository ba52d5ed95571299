import Verif.Format.Statement
import Verif.Format.ExpressionSpec

/-!
# Specification: the same statements
-/
namespace Verif.Format.Spec
open Verif.Lexer Verif.Format

/-- The statement is made of tokens of the language. -/
def StatementOk : Statement → Prop
  | .expression v => ExprOk v
  | .assignment _ target annotation v => AssignNameOk target ∧ (∀ t, annotation = some t → TypeOk t) ∧ ExprOk v
  | .assert_ v => ExprOk v

def BodyOk (b : Body) : Prop := StatementOk b.first ∧ ∀ s ∈ b.more, StatementOk s

/-- The same statement: the same name is given to the same value, asserted if it was, and the annotation is in its normal form
(`Foo()` is `Foo`). -/
def SameStatement : Statement → Statement → Prop
  | .expression v, .expression w => SameExpr v w
  | .assignment a t o v, .assignment b u p w => b = a ∧ u = t ∧ p = o.map normalType ∧ SameExpr v w
  | .assert_ v, .assert_ w => SameExpr v w
  | _, _ => False

/-- The same statements in the same order. -/
def SameBody (before after : Body) : Prop :=
  List.Forall₂ SameStatement (before.first :: before.more) (after.first :: after.more)

end Verif.Format.Spec
