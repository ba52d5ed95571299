/-
What packages a project needs. Independent of the model.
-/
namespace Verif.Project

/-- A package is needed if it is one of the roots or a requirement of a needed package. -/
inductive Needed (roots : String → Prop) (packages : List (String × List String)) : String → Prop where
  | root {name : String} : roots name → Needed roots packages name
  | requirement {name requirement : String} {requirements : List String} : Needed roots packages name →
      (name, requirements) ∈ packages → requirement ∈ requirements → Needed roots packages requirement

/-- The package `a` requires the package `b`. -/
def Requires (packages : List (String × List String)) (a b : String) : Prop := ∃ reqs, (a, reqs) ∈ packages ∧ b ∈ reqs

/-- A chain of at least one requirement leads from `a` to `b`. -/
inductive RequiresChain (packages : List (String × List String)) : String → String → Prop where
  | one {a b : String} : Requires packages a b → RequiresChain packages a b
  | more {a b c : String} : RequiresChain packages a b → Requires packages b c → RequiresChain packages a c

/-- No package requires itself, directly or through others. -/
def Acyclic (packages : List (String × List String)) : Prop := ∀ a, ¬ RequiresChain packages a a

end Verif.Project
