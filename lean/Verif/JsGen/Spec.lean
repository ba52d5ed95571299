import Verif.ErlGen.Gleam
import Verif.JsGen.Js

/-!
# What it means that the JavaScript code does the same as the Gleam code

`ErlGen/Gleam.lean` has the meaning of Gleam programs, `Js.lean` the meaning of JavaScript programs. This file says how values,
errors and calls of other modules correspond. It does not refer to the code generator.
-/

namespace Verif.JsGen.Spec

open Verif.ErlGen (Gleam.Value Gleam.Panic Gleam.Run Fun Out)

/-! ### Values -/

mutual

/-- The values of JavaScript for values that are not functions: `True`, `False` and `Nil` are `true`, `false` and
`undefined`, tuples are arrays, the others are objects. -/
def encode : Gleam.Value → Option Value
  | .int n => some (.int n)
  | .str s => some (.str s)
  | .tuple vs => (encodeAll vs).map .array
  | .nil => some .empty
  | .cons v w =>
    match encode v, encode w with
    | some v', some w' => some (.nonEmpty v' w')
    | _, _ => none
  | .record tag [] =>
    if tag = "True".toList then some (.bool true)
    else if tag = "False".toList then some (.bool false)
    else if tag = "Nil".toList then some .undefined
    else some (.record tag [])
  | .record tag (v :: vs) =>
    match encode v, encodeAll vs with
    | some v', some vs' => some (.record tag (v' :: vs'))
    | _, _ => none
  | .closure _ _ _ => none
  | .ctor _ _ => none
  | .fn _ _ _ => none

def encodeAll : List Gleam.Value → Option (List Value)
  | [] => some []
  | v :: vs =>
    match encode v, encodeAll vs with
    | some v', some vs' => some (v' :: vs')
    | _, _ => none

end

/-- Values that are not functions and have none inside. -/
def IsData (v : Gleam.Value) : Prop := (encode v).isSome

/-! ### Errors -/

/-- The error that is thrown has the kind, the message and the line of the panic; that of a `let assert` also has the value that
did not match (if it has no functions inside) and where the statement and its pattern are. -/
def SameError (p : Gleam.Panic) (e : Error) : Prop :=
  ∃ asserted, e = .thrown p.kind p.message p.line asserted ∧
    (p.asserted = none → asserted = none) ∧
    ∀ v info, p.asserted = some (v, info) → ∃ v', asserted = some (v', info) ∧ (IsData v → encode v = some v')

/-! ### Calls of other modules -/

structure Event where
  module : Text
  function : Text
  arguments : List Gleam.Value

structure JsEvent where
  module : Text
  function : Text
  arguments : List Value

def SameEvent (e : Event) (e' : JsEvent) : Prop :=
  e'.module = e.module ∧ e'.function = e.function ∧ encodeAll e.arguments = some e'.arguments

/-- The calls so far. -/
def SameHistory (h : List Event) (h' : List JsEvent) : Prop := List.Forall₂ SameEvent h h'

/-- What the functions of other modules return, given the calls so far; they are not called with functions. -/
abbrev Answers := List Event → Event → Option Gleam.Value
abbrev JsAnswers := List JsEvent → JsEvent → Option Value

/-- The functions of other modules do the same for both programs: they get and return values without functions. -/
def Agree (answers : Answers) (answers' : JsAnswers) : Prop :=
  ∀ h e v, answers h e = some v → (encodeAll e.arguments).isSome ∧ IsData v ∧
    ∀ h' e', SameHistory h h' → SameEvent e e' → answers' h' e' = encode v

/-- A world that remembers the calls. -/
def gleamWorld (answers : Answers) : (Gleam.Value → List Gleam.Value → Gleam.Run (List Event) Gleam.Value) → Text → Text →
    List Gleam.Value → Gleam.Run (List Event) Gleam.Value :=
  fun _ m f vs h =>
    match answers h ⟨m, f, vs⟩ with
    | some v => (.val v, h ++ [⟨m, f, vs⟩])
    | none => (.stuck, h)

def jsWorld (answers : JsAnswers) : (Value → List Value → Run (List JsEvent) Value) → Text → Text → List Value →
    Run (List JsEvent) Value :=
  fun _ m f vs (s, h) =>
    match answers h ⟨m, f, vs⟩ with
    | some v => (.val v, s, h ++ [⟨m, f, vs⟩])
    | none => (.stuck, s, h)

/-! ### Outcomes -/

/-- The same value (if it has no functions inside), the same error, or neither ends; and the same calls of other modules in
the same order. Nothing is said about programs of Gleam that have no meaning, which the type checker rejects. -/
def SameOutcome : Out Gleam.Panic Gleam.Value × List Event → Out Error Value × List JsEvent → Prop
  | (.val v, h), o => ∃ v' h', o = (.val v', h') ∧ (IsData v → encode v = some v') ∧ SameHistory h h'
  | (.error p, h), o => ∃ e h', o = (.error e, h') ∧ SameError p e ∧ SameHistory h h'
  | (.timeout, h), o => ∃ h', o = (.timeout, h') ∧ SameHistory h h'
  | (.stuck, _), _ => True

/-- Runs a function of a module with values, up to a depth of calls. -/
def runGleam (funs : List Fun) (answers : Answers) (depth : Nat) (f : Text) (vs : List Gleam.Value) :
    Out Gleam.Panic Gleam.Value × List Event :=
  ErlGen.Gleam.apply funs (gleamWorld answers) depth (.fn none f vs.length) vs []

/-- Runs a function of a JavaScript module, with no variables in the beginning. The cells that are left are not looked
at. -/
def runJs (funs : List Function) (answers : JsAnswers) (depth : Nat) (f : Text) (vs : List Value) :
    Out Error Value × List JsEvent :=
  let r := run funs (jsWorld answers) depth (.call (.fn f) vs) ([], [])
  (r.1, r.2.2)

end Verif.JsGen.Spec
