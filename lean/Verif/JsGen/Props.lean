import Verif.JsGen.ApplySim
import Verif.JsGen.Witnesses

/-! # C64: running the generated JavaScript gives the same as evaluating the Gleam program -/

namespace Verif.JsGen

open Verif.ErlGen (Pattern Const Expr Stmt Clause varsAll M Out Match Op Fun)
open Spec

theorem SameHistory.snoc {h : List Event} {h' : List JsEvent} {e : Event} {e' : JsEvent} (hh : SameHistory h h') (he : SameEvent e e') :
    SameHistory (h ++ [e]) (h' ++ [e']) := by
  unfold SameHistory at *
  induction hh with
  | nil => exact .cons he .nil
  | cons h1 _ ih => exact .cons h1 ih

/-- Functions of other modules that agree. -/
theorem agree_outside {single : Text → Bool} {g : List (Text × Nat)} {answers : Answers} {answers' : JsAnswers} (h : Agree answers answers') :
    OutsideRel single g SameHistory (gleamWorld answers) (jsWorld answers') := by
  intro ap ap' _ S m f vs vs' hvs w w' hw
  simp only [gleamWorld, jsWorld]
  cases ha : answers w ⟨m, f, vs⟩ with
  | none => trivial
  | some v =>
    obtain ⟨h1, h2, h3⟩ := h w ⟨m, f, vs⟩ v ha
    have h4 : SameEvent ⟨m, f, vs⟩ ⟨m, f, vs'⟩ := ⟨rfl, rfl, VsRel.encode hvs h1⟩
    rw [h3 w' ⟨m, f, vs'⟩ hw h4]
    obtain ⟨v', h5⟩ := Option.isSome_iff_exists.1 h2
    rw [h5]
    exact ⟨v', S, w' ++ [⟨m, f, vs'⟩], rfl, .refl _ _, VRel.of_encode v h5, SameHistory.snoc hw h4⟩

/-- The JavaScript generated for a module does the same as the module: whichever function is called, with whichever values, to
whichever depth of calls, whatever the functions of other modules return, it returns the value that stands for Gleam's value, or
throws the error that stands for Gleam's panic, and it calls the functions of other modules with the same values in the same order.

Missing: `okModule` leaves out the programs that the generator gets wrong: see `Witnesses`, and for the guards that it leaves out
`guard_variable_redeclared` of C40. -/
theorem js_module_runs_partial (single : Text → Bool) (funs : List Fun) (hok : okModule single funs = true) {answers : Answers}
    {answers' : JsAnswers} (ha : Agree answers answers') (depth : Nat) (f : Text) {vs : List GValue} {vs' : List Value}
    (he : encodeAll vs = some vs') :
    SameOutcome (runGleam funs answers depth f vs) (runJs (genModule single funs) answers' depth f vs') := by
  have h := (apply_sim hok (agree_outside ha) depth).1 [] (.fn none f vs.length) (.fn f) vs vs' (.fn f _) (VsRel.of_encode vs he) [] [] .nil
  unfold runGleam runJs
  beta_reduce at h
  revert h
  generalize ErlGen.Gleam.apply funs (gleamWorld answers) depth (.fn none f vs.length) vs [] = o
  generalize run (genModule single funs) (jsWorld answers') depth (.call (.fn f) vs') ([], []) = o'
  intro h
  obtain ⟨o, w⟩ := o
  cases o with
  | val a =>
    obtain ⟨b, S', w', rfl, _, h1, h2⟩ := h
    exact ⟨b, w', rfl, fun hd => VRel.encode h1 hd, h2⟩
  | error p =>
    obtain ⟨e, S', w', rfl, h1, h2⟩ := h
    exact ⟨e, w', rfl, h1, h2⟩
  | timeout =>
    obtain ⟨S', w', rfl, h2⟩ := h
    exact ⟨w', rfl, h2⟩
  | stuck => trivial

/-- The same for values that are functions or have functions inside, in any store, and for functions of other modules that call
the functions they are given: related functions with related arguments have related outcomes, and the variables that functions
have captured keep their values. -/
theorem js_functions_related_partial (single : Text → Bool) (funs : List Fun) (hok : okModule single funs = true) {W W' : Type}
    (RW : W → W' → Prop) {outside outside'} (ho : OutsideRel single (signatures funs) RW outside outside') (depth : Nat) (S : Store)
    {v : GValue} {v' : Value} {vs : List GValue} {vs' : List Value} (hv : VRel single (signatures funs) S v v')
    (hvs : VsRel single (signatures funs) S vs vs') :
    Sim RW NoCells S (VRel single (signatures funs)) (ErlGen.Gleam.apply funs outside depth v vs)
      (run (genModule single funs) outside' depth (.call v' vs')) :=
  (apply_sim hok ho depth).1 S v v' vs vs' hv hvs

/-! ### An example

```gleam
pub fn sum(list, total) {
  let add = fn(a) { a + total }
  case list {
    [] -> total
    [x, ..rest] -> {
      let total = add(x)
      sum(rest, total)
    }
  }
}

pub fn greet(name) {
  let assert "Hello " as hi <> who = name as "greeting"
  let loud = case who {
    "you" | "me" -> {
      let mark = "!"
      who <> mark
    }
    _ -> io.shout(who)
  }
  #(hi, loud, fn() { sum([1, 2], 0) })
}
```
-/

private def t (s : String) : Text := s.toList
private def chars (s : String) : List Strings.Spec.Piece := s.toList.map Strings.Spec.Piece.char

def sumLoop : Fun where
  name := t "sum"
  parameters := [some (t "list", 0), some (t "total", 1)]
  body :=
    [.let_ (.var (t "add") 2) (.fn [some (t "a", 3)] [.expr (.bin .add (.var (t "a") 3) (.var (t "total") 1))]),
     .expr (.case_ [.var (t "list") 0]
      [.mk [.nil] [] none (.var (t "total") 1),
       .mk [.cons (.var (t "x") 4) (.var (t "rest") 5)] [] none (.block
        [.let_ (.var (t "total") 6) (.call (.var (t "add") 2) [.var (t "x") 4]),
         .expr (.call (.fnRef none (t "sum") 2) [.var (t "rest") 5, .var (t "total") 6])])])]

def greetExample : Fun where
  name := t "greet"
  parameters := [some (t "name", 7)]
  body :=
    [.letAssert (.prefix (chars "Hello ") (some (t "hi", 8)) (some (t "who", 9))) (.var (t "name") 7)
      ⟨12, 200, 239, 211, 232⟩ (some (.string (chars "greeting"))),
     .let_ (.var (t "loud") 10) (.case_ [.var (t "who") 9]
      [.mk [.string (chars "you")] [[.string (chars "me")]] none (.block
        [.let_ (.var (t "mark") 11) (.string (chars "!")),
         .expr (.bin .concat (.var (t "who") 9) (.var (t "mark") 11))]),
       .mk [.discard] [] none (.call (.fnRef (some (t "io")) (t "shout") 1) [.var (t "who") 9])]),
     .expr (.tuple [.var (t "hi") 8, .var (t "loud") 10,
      .fn [] [.expr (.call (.fnRef none (t "sum") 2) [.cons (.int 1) (.cons (.int 2) .nil), .int 0])]])]

/-- `pub fn unwrap(result, default) { case result { Ok(x) -> x  Error(_) -> default } }` -/
def unwrapExample : Fun where
  name := t "unwrap"
  parameters := [some (t "result", 12), some (t "default", 13)]
  body :=
    [.expr (.case_ [.var (t "result") 12]
      [.mk [.ctor (t "Ok") [.var (t "x") 14]] [] none (.var (t "x") 14),
       .mk [.ctor (t "Error") [.discard]] [] none (.var (t "default") 13)])]

/-- ```gleam
pub fn pick(pair, limit) {
  case pair {
    #(x, 0) | #(0, x) if x > limit && !{ limit == 1 } -> {
      let limit = x + limit
      limit
    }
    #(x, y) if x == y -> pick(#(y, 0), limit)
    _ -> limit
  }
}
``` -/
def pickExample : Fun where
  name := t "pick"
  parameters := [some (t "pair", 15), some (t "limit", 16)]
  body :=
    [.expr (.case_ [.var (t "pair") 15]
      [.mk [.tuple [.var (t "x") 17, .int 0]] [[.tuple [.int 0, .var (t "x") 18]]]
        (some (.bin .and (.bin .gt (.var (t "x") 17) (.var (t "limit") 16)) (.not (.block (.bin .eq (.var (t "limit") 16) (.const (.int 1)))))))
        (.block [.let_ (.var (t "limit") 19) (.bin .add (.var (t "x") 17) (.var (t "limit") 16)), .expr (.var (t "limit") 19)]),
       .mk [.tuple [.var (t "x") 20, .var (t "y") 21]] [] (some (.bin .eq (.var (t "x") 20) (.var (t "y") 21)))
        (.call (.fnRef none (t "pick") 2) [.tuple [.var (t "y") 21, .int 0], .var (t "limit") 16]),
       .mk [.discard] [] none (.var (t "limit") 16)])]

def exampleFuns : List Fun := [sumLoop, greetExample, unwrapExample, pickExample]

theorem example_ok : okModule (fun _ => false) exampleFuns = true := by decide +kernel

/-- `sum` and `pick` become loops. -/
example : ((genModule (fun _ => false) exampleFuns).map (·.loop)) = [true, false, false, true] := by decide +kernel

/-- A world in which `io.shout` returns its argument. -/
def echoAnswers : Answers := fun _ e =>
  match e.arguments with
  | [.str s] => if e.module = t "io" then some (.str s) else none
  | _ => none

def echoJsAnswers : JsAnswers := fun _ e =>
  match e.arguments with
  | [.str s] => if e.module = t "io" then some (.str s) else none
  | _ => none

theorem echo_agrees : Agree echoAnswers echoJsAnswers := by
  intro h e v hv
  obtain ⟨m, f, vs⟩ := e
  simp only [echoAnswers] at hv
  split at hv
  · split at hv
    · rename_i hm
      cases hv
      refine ⟨rfl, rfl, fun h' e' _ he => ?_⟩
      obtain ⟨m', f', vs'⟩ := e'
      obtain ⟨h1, h2, h3⟩ := he
      simp only [encodeAll, encode, Option.some.injEq] at h3
      simp only at h1
      subst h1 h3
      simp only [echoJsAnswers, if_pos hm, encode]
    · cases hv
  · cases hv

/-- The theorem says that the loop adds. -/
example (depth : Nat) (xs : List GValue) (xs' : List Value) (h : encodeAll xs = some xs') :
    SameOutcome (runGleam exampleFuns echoAnswers depth (t "sum") xs)
      (runJs (genModule (fun _ => false) exampleFuns) echoJsAnswers depth (t "sum") xs') :=
  js_module_runs_partial _ _ example_ok echo_agrees depth _ h

example : gleamInt 6 (runGleam exampleFuns echoAnswers 9 (t "sum") [.cons (.int 1) (.cons (.int 2) (.cons (.int 3) .nil)), .int 0]) = true ∧
    isInt 6 (runJs (genModule (fun _ => false) exampleFuns) echoJsAnswers 9 (t "sum")
      [.nonEmpty (.int 1) (.nonEmpty (.int 2) (.nonEmpty (.int 3) .empty)), .int 0]) = true := by decide +kernel

/-- The second alternative, for which the guard holds; a loop that ends in the first; a guard that does not hold for either. -/
example : isInt 9 (runJs (genModule (fun _ => false) exampleFuns) echoJsAnswers 9 (t "pick") [.array [.int 0, .int 7], .int 2]) = true ∧
    isInt 5 (runJs (genModule (fun _ => false) exampleFuns) echoJsAnswers 9 (t "pick") [.array [.int 3, .int 3], .int 2]) = true ∧
    isInt 1 (runJs (genModule (fun _ => false) exampleFuns) echoJsAnswers 9 (t "pick") [.array [.int 0, .int 7], .int 1]) = true := by
  decide +kernel

def isGreeting : Out Error Value × List JsEvent → Bool
  | (.val (.array [.str hi, .str loud, .closure _ _ _]), h) => decide (hi = t "Hello " ∧ loud = t "Joe" ∧ h.length = 1)
  | _ => false

example : isGreeting (runJs (genModule (fun _ => false) exampleFuns) echoJsAnswers 9 (t "greet") [.str (t "Hello Joe")]) = true := by
  decide +kernel

def isThrown (message : List Char) (line : Nat) : Out Error Value × List JsEvent → Bool
  | (.error (.thrown .letAssert m l (some (.str _, _))), _) => decide (m = message ∧ l = line)
  | _ => false

example : isThrown (t "greeting") 12 (runJs (genModule (fun _ => false) exampleFuns) echoJsAnswers 9 (t "greet") [.str (t "Bye")]) = true := by
  decide +kernel

/-- Matching on a constructor of a type with several is never outside of what the theorem is about because of how its decision tree looks. -/
theorem cases_on_constructors_are_covered (single : Text → Bool) (tag : Text) (h : single tag = false) (ps : List Pattern)
    (alternatives : List (List Pattern)) (guard : Option Verif.ErlGen.Guard) (body : Expr) (cs : List Clause) :
    okTree single (tree single (.mk [.ctor tag ps] alternatives guard body :: cs)) (.mk [.ctor tag ps] alternatives guard body :: cs) = true := by
  cases guard with
  | some g => simp [tree, irrefutableAll, irrefutable, h, okTree]
  | none => simp [tree, irrefutableAll, irrefutable, h, bare, okTree]

/-- None of the programs that the generator gets wrong is one the theorem is about. -/
example : okModule (fun _ => false) negatedBlock = false ∧ okModule (fun _ => false) negatedPanic = false ∧
    okModule (fun _ => false) shadowingCase = false ∧ okModule (fun _ => false) shadowingBlock = false ∧
    okModule (fun _ => false) capturedMessage = false := by decide +kernel

end Verif.JsGen
