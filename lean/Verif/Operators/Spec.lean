/-!
# Specification: grouping of operator expressions

Independent of the model: binary trees, their reading from left to right, and what it means for a tree to be
grouped according to operator priorities with all operators associating to the left.
-/
namespace Verif.Operators.Spec

/-- An expression with every grouping explicit. -/
inductive Tree (Op U : Type) where
  | leaf (u : U)
  | node (op : Op) (left right : Tree Op U)
deriving DecidableEq, Repr

variable {Op U : Type}

/-- First operand when read from left to right. -/
def Tree.first : Tree Op U → U
  | .leaf u => u
  | .node _ l _ => l.first

/-- The rest: each operator with the operand after it. -/
def Tree.rest : Tree Op U → List (Op × U)
  | .leaf _ => []
  | .node op l r => l.rest ++ (op, r.first) :: r.rest

/-- The operators in a tree. -/
def Tree.ops : Tree Op U → List Op
  | .leaf _ => []
  | .node op l r => l.ops ++ op :: r.ops

/-- Grouped by priority (higher binds tighter) and, within equal priority, to the left: an operator is applied to a
left operand all of whose operators bind at least as tightly, and to a right operand all of whose operators bind
strictly more tightly. -/
def Grouped (priority : Op → Nat) : Tree Op U → Prop
  | .leaf _ => True
  | .node op l r =>
    Grouped priority l ∧ Grouped priority r ∧
    (∀ o ∈ l.ops, priority op ≤ priority o) ∧ (∀ o ∈ r.ops, priority op < priority o)

/-- The documented priority table, lowest first
(https://tour.gleam.run: `||`, `&&`, equality, comparison, `<>`, `|>`, addition, multiplication). -/
def priorityTable : List (List String) :=
  [["||"], ["&&"], ["==", "!="], ["<", "<=", "<.", "<=.", ">=", ">", ">=.", ">."], ["<>"], ["|>"],
   ["+", "+.", "-", "-."], ["*", "*.", "/", "/.", "%"]]

/-- Position in the table. -/
def documentedPriority (spelling : String) : Nat := priorityTable.findIdx fun row => row.contains spelling

end Verif.Operators.Spec
