import Verif.Infer.Model
import Verif.Infer.Run
import Verif.Infer.Spec

/-!
# Programs that are accepted and go wrong

Three programs that the type checker accepts although they use a value as an integer and as a string. In all of them a generic variable,
made for a type variable that someone wrote, gets into the type of a local variable where it is not rigid: `instantiate`
(`environment.rs:663-745`) then makes a new variable of it at each use.
-/

namespace Verif.Infer

open Verif.Unify

private def plain (x : String) : Param := ⟨some x, none⟩
private def annotated (x a : String) : Param := ⟨some x, some (.var a)⟩
/-- `#(x + 1, x <> "a")` -/
private def misuse (x : String) : Expr := .tuple [.bin .addInt (.var x) (.int 1), .bin .concat (.var x) (.string ['a'])]

/--
```gleam
fn bad(x) {
  let _ = fn(y: b) { [x, y] }
  #(x + 1, x <> "a")
}

fn main() { bad(1) }
```
`x` gets the type `b`. At the end of the function literal `b` is not rigid any more (`expression.rs:380-393`). -/
def forgottenVariable : Module := ⟨"m", [],
  [[⟨"bad", [plain "x"], none,
      [.let_ .discard none (.fn [annotated "y" "b"] none [.expr (.list [.var "x", .var "y"] none)]), .expr (misuse "x")]⟩],
   [⟨"main", [], none, [.expr (.call (.var "bad") [.int 1])]⟩]]⟩

/--
```gleam
fn f(x: a) { g(x) }

fn g(y) {
  let _ = fn() { f(y) }
  let _ = #(y + 1, y <> "a")
  1
}

fn main() { g(2) }
```
`f` gives `y` the type `a`, which is rigid in `f` and not in `g`. -/
def variableOfAnother : Module := ⟨"m", [],
  [[⟨"f", [annotated "x" "a"], none, [.expr (.call (.var "g") [.var "x"])]⟩,
    ⟨"g", [plain "y"], none,
      [.let_ .discard none (.fn [] none [.expr (.call (.var "f") [.var "y"])]), .let_ .discard none (misuse "y"), .expr (.int 1)]⟩],
   [⟨"main", [], none, [.expr (.call (.var "g") [.int 2])]⟩]]⟩

/--
```gleam
fn g(z) { f(1, z) }

fn f(x: a, y) {
  let _ = fn() { g(y) }
  [x, y]
}

fn main() {
  case g("s") {
    [s, ..] -> s <> "a"
    _ -> ""
  }
}
```
The call in `g` is of an instance of the type of `f`, before `f` says that `x` and `y` have the same type. -/
def instanceTooEarly : Module := ⟨"m", [],
  [[⟨"g", [plain "z"], none, [.expr (.call (.var "f") [.int 1, .var "z"])]⟩,
    ⟨"f", [annotated "x" "a", plain "y"], none,
      [.let_ .discard none (.fn [] none [.expr (.call (.var "g") [.var "y"])]), .expr (.list [.var "x", .var "y"] none)]⟩],
   [⟨"main", [], none, [.expr (.case_ [.call (.var "g") [.string ['s']]]
      [.mk [.list [.var "s"] (some .discard)] [] none (.bin .concat (.var "s") (.string ['a'])), .mk [.discard] [] none (.string [])])]⟩]]⟩

/-- The type of a function of an accepted module. -/
def typeOf (n : Nat) (m : Module) (f : String) : Option (Ty Nat) :=
  match inferModule n m with
  | .ok values => values.lookup f
  | .error _ => none

theorem typeOf_some {n : Nat} {m : Module} {f : String} {T : Ty Nat} (h : typeOf n m f = some T) :
    ∃ values, inferModule n m = .ok values ∧ values.lookup f = some T := by
  unfold typeOf at h
  split at h
  · next v hv => exact ⟨v, hv, h⟩
  · cases h

private def isFn0 : Option (Ty Nat) → Bool
  | some (.fn .nil _) => true
  | _ => false

private theorem main_type {n : Nat} {m : Module} (h : isFn0 (typeOf n m "main") = true) :
    ∃ values r, inferModule n m = .ok values ∧ values.lookup "main" = some (.fn .nil r) := by
  unfold isFn0 at h
  split at h
  · next r hr =>
    obtain ⟨values, h1, h2⟩ := typeOf_some hr
    exact ⟨values, r, h1, h2⟩
  · cases h

private def isWrong {α : Type} : Res α → Bool
  | .wrong => true
  | _ => false

private theorem of_isWrong {α : Type} {r : Res α} (h : isWrong r = true) : r = .wrong := by
  cases r <;> first | rfl | cases h

/-- The module is accepted, its `main` has no parameters, and running it goes wrong. -/
def AcceptedAndWrong (m : Module) : Prop :=
  ∃ n values r, inferModule n m = .ok values ∧ values.lookup "main" = some (.fn .nil r) ∧ ∃ k, ∀ M, m.call M k "main" [] = .wrong

theorem forgottenVariable_wrong : AcceptedAndWrong forgottenVariable := by
  obtain ⟨values, r, h1, h2⟩ := main_type (n := 30) (m := forgottenVariable) (by decide +kernel)
  exact ⟨30, values, r, h1, h2, 9, fun M => of_isWrong rfl⟩

theorem variableOfAnother_wrong : AcceptedAndWrong variableOfAnother := by
  obtain ⟨values, r, h1, h2⟩ := main_type (n := 30) (m := variableOfAnother) (by decide +kernel)
  exact ⟨30, values, r, h1, h2, 9, fun M => of_isWrong rfl⟩

theorem instanceTooEarly_wrong : AcceptedAndWrong instanceTooEarly := by
  obtain ⟨values, r, h1, h2⟩ := main_type (n := 30) (m := instanceTooEarly) (by decide +kernel)
  exact ⟨30, values, r, h1, h2, 9, fun M => of_isWrong rfl⟩

end Verif.Infer
