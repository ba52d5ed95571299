import Verif.JsGen.Model
import Verif.JsGen.Spec

/-!
# Programs that the generated JavaScript gets wrong

Ways in which the generator of `/repo` goes wrong, found while proving that it is right. Each theorem is about one
program: what Gleam does, and what the generated JavaScript does.
-/

namespace Verif.JsGen

open Verif.ErlGen (Pattern Expr Stmt Clause Fun Gleam.Value Gleam.Panic Out)
open Spec

private def t (s : String) : Text := s.toList

/-- No other modules. -/
def noAnswers : Answers := fun _ _ => none
def noJsAnswers : JsAnswers := fun _ _ => none

/-- Results that can be compared. -/
def isInt (n : Int) : Out Error Value × List JsEvent → Bool
  | (.val (.int m), _) => decide (m = n)
  | _ => false

def isBool (b : Bool) : Out Error Value × List JsEvent → Bool
  | (.val (.bool c), _) => decide (b = c)
  | _ => false

def isReferenceError (x : Text) (k : Nat) : Out Error Value × List JsEvent → Bool
  | (.error (.referenceError n), _) => decide (n = .var x k)
  | _ => false

def gleamInt (n : Int) : Out Gleam.Panic Gleam.Value × List Event → Bool
  | (.val (.int m), _) => decide (m = n)
  | _ => false

def gleamTag (tag : Text) : Out Gleam.Panic Gleam.Value × List Event → Bool
  | (.val (.record u []), _) => decide (u = tag)
  | _ => false

/-- ```gleam
pub fn f(r) {
  case r {
    Ok(y) -> !{ let z = y  z }
    _ -> False
  }
}
``` -/
def negatedBlock : List Fun :=
  [⟨t "f", [some (t "r", 0)],
    [.expr (.case_ [.var (t "r") 0]
      [.mk [.ctor (t "Ok") [.var (t "y") 1]] [] none (.not (.block [.let_ (.var (t "z") 2) (.var (t "y") 1), .expr (.var (t "z") 2)])),
        .mk [.discard] [] none (.ctor (t "False") 0)])]⟩]

/-- The block is lifted out of the `case`: `y` is not declared there. `f(Error(1))` is `False`, and the JavaScript
throws a `ReferenceError`. -/
theorem block_lifted_out_of_case :
    gleamTag (t "False") (runGleam negatedBlock noAnswers 3 (t "f") [.record (t "Error") [.int 1]]) = true ∧
    isReferenceError (t "y") 0 (runJs (genModule (fun _ => false) negatedBlock) noJsAnswers 3 (t "f") [.record (t "Error") [.int 1]]) =
      true := by decide +kernel

/-- ```gleam
pub fn f(x, r) {
  case r {
    Ok(_) -> !{ panic }
    _ -> x
  }
}
```
with a panic in the branch that is not taken. -/
def negatedPanic : List Fun :=
  [⟨t "f", [some (t "x", 0), some (t "r", 1)],
    [.expr (.case_ [.var (t "r") 1]
      [.mk [.ctor (t "Ok") [.discard]] [] none (.not (.fail .panic 4 none)),
        .mk [.discard] [] none (.var (t "x") 0)])]⟩]

def isPanic (line : Nat) : Out Error Value × List JsEvent → Bool
  | (.error (.thrown .panic _ l _), _) => decide (l = line)
  | _ => false

/-- The panic of the branch that is not taken is run. -/
theorem branch_not_taken_is_run :
    gleamTag (t "True") (runGleam negatedPanic noAnswers 3 (t "f") [.record (t "True") [], .record (t "Nil") []]) = true ∧
    isPanic 4 (runJs (genModule (fun _ => false) negatedPanic) noJsAnswers 3 (t "f") [.bool true, .undefined]) = true := by
  decide +kernel

/-- ```gleam
pub fn g(x) { x }
pub fn f(x) {
  case 2 { x -> g(x) }
  x
}
``` -/
def shadowingCase : List Fun :=
  [⟨t "g", [some (t "x", 0)], [.expr (.var (t "x") 0)]⟩,
    ⟨t "f", [some (t "x", 0)],
      [.expr (.case_ [.int 2] [.mk [.var (t "x") 1] [] none (.call (.fnRef none (t "g") 1) [.var (t "x") 1])]),
        .expr (.var (t "x") 0)]⟩]

/-- The variable of the clause stays in scope: `f(1)` is `1`, and `2` in JavaScript. -/
theorem clause_variable_stays_in_scope :
    gleamInt 1 (runGleam shadowingCase noAnswers 3 (t "f") [.int 1]) = true ∧
    isInt 2 (runJs (genModule (fun _ => false) shadowingCase) noJsAnswers 3 (t "f") [.int 1]) = true := by decide +kernel

/-- ```gleam
pub fn g(x) { x }
pub fn f(x) {
  { let x = 2  g(x) }
  x
}
``` -/
def shadowingBlock : List Fun :=
  [⟨t "g", [some (t "x", 0)], [.expr (.var (t "x") 0)]⟩,
    ⟨t "f", [some (t "x", 0)],
      [.expr (.block [.let_ (.var (t "x") 1) (.int 2), .expr (.call (.fnRef none (t "g") 1) [.var (t "x") 1])]),
        .expr (.var (t "x") 0)]⟩]

/-- The variable of the block stays in scope in the generator: `f(1)` is `1`, and the JavaScript throws a
`ReferenceError`. -/
theorem block_variable_stays_in_scope :
    gleamInt 1 (runGleam shadowingBlock noAnswers 3 (t "f") [.int 1]) = true ∧
    isReferenceError (t "x") 1 (runJs (genModule (fun _ => false) shadowingBlock) noJsAnswers 3 (t "f") [.int 1]) = true := by
  decide +kernel

/-- ```gleam
pub fn f(x) {
  let assert #(1, x) = #(2, "") as x
}
``` -/
def capturedMessage : List Fun :=
  [⟨t "f", [some (t "x", 0)],
    [.letAssert (.tuple [.int 1, .var (t "x") 1]) (.tuple [.int 2, .string []]) ⟨2, 0, 0, 0, 0⟩ (some (.var (t "x") 0))]⟩]

def panicMessage (s : List Char) : Out Gleam.Panic Gleam.Value × List Event → Bool
  | (.error p, _) => decide (p.message = s)
  | _ => false

def isStuck : Out Error Value × List JsEvent → Bool
  | (.stuck, _) => true
  | _ => false

/-- The message is that of the pattern's variable, which has no value: `makeError` gets `undefined`. -/
theorem assert_message_has_wrong_variable :
    panicMessage (t "no") (runGleam capturedMessage noAnswers 3 (t "f") [.str (t "no")]) = true ∧
    isStuck (runJs (genModule (fun _ => false) capturedMessage) noJsAnswers 3 (t "f") [.str (t "no")]) = true := by
  decide +kernel

end Verif.JsGen
