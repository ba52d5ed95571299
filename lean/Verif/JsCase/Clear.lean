import Verif.Case.Orderly
import Verif.JsCase.Spec

/-!
# Clauses whose JavaScript can be trusted
-/

namespace Verif.JsCase

open Verif.Case

variable {B : BitSys}

/-- The alternatives of all clauses in the order of the source, with the numbers of the clauses. -/
def numbered : Nat → List (Clause B) → List (Nat × List (SrcPat B) × Option (List Name))
  | _, [] => []
  | i, c :: cs => (c.alternatives.map fun ps => (i, ps, c.guard)) ++ numbered (i + 1) cs

/-- If a prefix of the later alternative also is a prefix of a string or of a longer prefix that the
earlier one looks for in the same subject, then the earlier one has no guard, looks at nothing else,
and is of an earlier clause. -/
def Clear (e l : Nat × List (SrcPat B) × Option (List Name)) : Prop :=
  ∀ (i : Nat) (p q : SrcPat B), e.2.1[i]? = some p → l.2.1[i]? = some q → ∀ s ∈ q.prefixes,
    ∀ t, (t ∈ p.strings ∨ t ∈ p.prefixes ∧ s ≠ t) → s <+: t →
      Settled e.2.1 e.2.2 ∧ e.1 < l.1

/-- `Bool` is a type with two constructors without fields. -/
def BoolsBinary (ds : Decls) (ctx : Ctx) : Prop :=
  ∀ t, ctx.isBool t = true → ∃ n args inf, t = .named n args inf ∧ constructors ds n args = [[], []]

/-- A `let assert` has no guard, and its pattern binds a variable. -/
def AssertsBind (ctx : Ctx) (clauses : List (Clause B)) : Prop :=
  ctx.letAssert = true → ∀ a ∈ allAlternatives clauses, a.2 = none ∧ SrcPat.bounds a.1 ≠ []

end Verif.JsCase
