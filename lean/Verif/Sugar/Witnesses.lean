import Verif.Sugar.Props

/-!
# The same name in two patterns of a `use`

In a `case`, a name that stands in two patterns of a clause is an error, and so are two parameters of a function with the same
name. The type checker does not report it for a `use`, if one of the patterns is not a variable. What the name means then depends on
which patterns are variables (`expression.rs:6145-6212`): the last pattern that is not a variable wins, wherever it stands.

```gleam
fn first(k) { k(1, #(2, 3)) }
fn second(k) { k(#(1, 3), 2) }

pub fn one() {
  use x, #(x, _) <- first
  x                          // 2: that of the second pattern
}

pub fn two() {
  use #(x, _), x <- second
  x                          // 1: that of the first pattern
}
```
-/

namespace Verif.Sugar

open Verif.ErlText (Text)
open Verif.ErlGen (Loc Pattern Op M Match Out)
open Verif.ErlGen.Gleam (Panic)
open Verif.ErlGen.Spec (Answers Event gleamWorld runGleam)
open Spec

def repeatedFunctions : List Fun :=
  [⟨name "first", [some (name "k", 0)],
    [.expr (.call (.var (name "k") 0) [.expr (.int 1), .expr (.tuple [.int 2, .int 3])])]⟩,
   ⟨name "second", [some (name "k", 1)],
    [.expr (.call (.var (name "k") 1) [.expr (.tuple [.int 1, .int 3]), .expr (.int 2)])]⟩,
   ⟨name "one", [],
    [.use_ [(.var (name "x") 2, 2), (.tuple [.var (name "x") 3, .discard], 4)] (.fnRef none (name "first") 1) 5,
     .expr (.var (name "x") 3)]⟩,
   ⟨name "two", [],
    [.use_ [(.tuple [.var (name "x") 6, .discard], 7), (.var (name "x") 8, 8)] (.fnRef none (name "second") 1) 9,
     .expr (.var (name "x") 6)]⟩]

def isInt (n : Int) : Out Panic ErlGen.Gleam.Value × List Event → Bool
  | (.val (.int m), []) => decide (m = n)
  | _ => false

/-- The second pattern wins in `one`, the first one in `two`. -/
theorem repeated_names_in_use :
    isInt 2 (runGleam (repeatedFunctions.map typedFun) noAnswers 4 (name "one") [] []) = true ∧
    isInt 1 (runGleam (repeatedFunctions.map typedFun) noAnswers 4 (name "two") [] []) = true := by
  decide +kernel

/-- So the condition that the names of a `use` are different is needed in `notations_keep_meaning_partial`. -/
theorem repeated_names_change_meaning :
    ¬ SameResult (runWritten repeatedFunctions noAnswers 4 (name "one") [] [])
      (runGleam (repeatedFunctions.map typedFun) noAnswers 4 (name "one") [] []) := by
  intro h
  have e : runWritten repeatedFunctions noAnswers 4 (name "one") [] [] = (.val (.int 1), []) := by rfl
  rw [e] at h
  obtain ⟨v', h1, h2⟩ := h
  have h3 := h2 _ rfl
  have h4 := repeated_names_in_use.1
  rw [h1, h3] at h4
  exact absurd h4 (by decide +kernel)

end Verif.Sugar
