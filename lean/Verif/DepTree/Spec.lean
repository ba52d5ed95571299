/-
What it means for modules to be in order, and for modules to form an import cycle. Independent of the model.
-/
namespace Verif.DepTree

/-- Module `a` imports module `b`, and `b` is one of the modules to be ordered. -/
def Imports (inputs : List (String × List String)) (a b : String) : Prop :=
  (∃ deps, (a, deps) ∈ inputs ∧ b ∈ deps) ∧ ∃ deps, (b, deps) ∈ inputs

/-- `a` is found at some place of the list before a place where `b` is. -/
def Before {α : Type} (order : List α) (a b : α) : Prop := ∃ l r, order = l ++ b :: r ∧ a ∈ l

/-- Every module exactly once, and everything a module imports before that module. -/
def DependenciesFirst (inputs : List (String × List String)) (order : List String) : Prop :=
  order.Perm (inputs.map (·.1)) ∧ ∀ a b, Imports inputs a b → Before order b a

/-- A list of distinct modules in which each module imports the one before it, and the first one imports the last one. -/
def IsCycle {α : Type} (imports : α → α → Prop) (cycle : List α) : Prop :=
  cycle ≠ [] ∧ cycle.Nodup ∧ (∀ l a b r, cycle = l ++ a :: b :: r → imports b a) ∧
  ∀ first last, cycle.head? = some first → cycle.getLast? = some last → imports first last

end Verif.DepTree
