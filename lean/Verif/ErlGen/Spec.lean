import Verif.ErlGen.Gleam
import Verif.ErlGen.Erlang

/-!
# What it means that the Erlang code does the same as the Gleam code

Two languages: `Gleam.lean` has the meaning of Gleam programs, `Erlang.lean` the meaning of Erlang programs. This file
says how values, errors and calls of other modules correspond. It does not refer to the code generator.
-/

namespace Verif.ErlGen.Spec

abbrev Text := List Char

/-! ### Values -/

/-- The atom for a constructor: `MyTag` is `my_tag`. -/
def tagRest : Text → Text
  | [] => []
  | c :: cs => if 'A' ≤ c ∧ c ≤ 'Z' then '_' :: c.toLower :: tagRest cs else c :: tagRest cs

def tagAtom : Text → Text
  | [] => []
  | c :: cs => c.toLower :: tagRest cs

mutual

/-- The values of Erlang for values that are not functions. -/
def encode : Gleam.Value → Option Erlang.Value
  | .int n => some (.int n)
  | .str s => some (.str s)
  | .tuple vs => (encodeAll vs).map .tuple
  | .nil => some .nil
  | .cons v w =>
    match encode v, encode w with
    | some v', some w' => some (.cons v' w')
    | _, _ => none
  | .record tag [] => some (.atom (tagAtom tag))
  | .record tag (v :: vs) =>
    match encode v, encodeAll vs with
    | some v', some vs' => some (.tuple (.atom (tagAtom tag) :: v' :: vs'))
    | _, _ => none
  | .closure _ _ _ => none
  | .ctor _ _ => none
  | .fn _ _ _ => none

def encodeAll : List Gleam.Value → Option (List Erlang.Value)
  | [] => some []
  | v :: vs =>
    match encode v, encodeAll vs with
    | some v', some vs' => some (v' :: vs')
    | _, _ => none

end

/-- The name of a constructor: a capital letter, and then letters and digits. -/
def tagName : Text → Bool
  | [] => false
  | c :: cs => (decide ('A' ≤ c ∧ c ≤ 'Z')) &&
    cs.all fun d => decide (('a' ≤ d ∧ d ≤ 'z') ∨ ('A' ≤ d ∧ d ≤ 'Z') ∨ ('0' ≤ d ∧ d ≤ '9'))

mutual

/-- Values without functions, whose constructors have proper names. -/
def isData : Gleam.Value → Bool
  | .int _ => true
  | .str _ => true
  | .tuple vs => areData vs
  | .nil => true
  | .cons v w => isData v && isData w
  | .record tag vs => tagName tag && areData vs
  | .closure _ _ _ => false
  | .ctor _ _ => false
  | .fn _ _ _ => false

def areData : List Gleam.Value → Bool
  | [] => true
  | v :: vs => isData v && areData vs

end

/-! ### Errors -/

/-- The atom for the kind of a panic. -/
def kindAtom : ErrorKind → String
  | .todo => "todo"
  | .panic => "panic"
  | .letAssert => "let_assert"
  | .assert => "assert"

/-- A panic is a map with the kind, the message and the line. That of a `let assert` also has the value that did not
match (if it is not a function or has one inside), and where the statement and its pattern are. -/
def SameError (p : Gleam.Panic) (e : Erlang.Value) : Prop :=
  ∃ fields, e = .map fields ∧ fields.lookup "gleam_error".toList = some (.atom (kindAtom p.kind).toList) ∧
    fields.lookup "message".toList = some (.str p.message) ∧ fields.lookup "line".toList = some (.int p.line) ∧
    ∀ v info, p.asserted = some (v, info) →
      (isData v = true → fields.lookup "value".toList = encode v) ∧
      fields.lookup "start".toList = some (.int info.start) ∧ fields.lookup "end".toList = some (.int info.stop) ∧
      fields.lookup "pattern_start".toList = some (.int info.patternStart) ∧
      fields.lookup "pattern_end".toList = some (.int info.patternStop)

/-! ### Calls of other modules -/

/-- A call of a function of another module. -/
structure Event where
  module : Text
  function : Text
  arguments : List Gleam.Value

structure ErlangEvent where
  module : Text
  function : Text
  arguments : List Erlang.Value

/-- The names of modules and of functions on Erlang. -/
def moduleAtom (m : Text) : Text := m.map fun c => if c = '/' then '@' else c

def functionAtom (f : Text) : Text := if f = "module_info".toList then "moduleInfo".toList else f

/-- The call of Erlang for a call of Gleam. -/
def SameEvent (e : Event) (e' : ErlangEvent) : Prop :=
  e'.module = moduleAtom e.module ∧ e'.function = functionAtom e.function ∧ encodeAll e.arguments = some e'.arguments

/-- The calls so far. -/
def SameHistory (h : List Event) (h' : List ErlangEvent) : Prop := List.Forall₂ SameEvent h h'

/-- What the functions of other modules return, given the calls so far; they are not called with functions. -/
abbrev Answers := List Event → Event → Option Gleam.Value
abbrev ErlangAnswers := List ErlangEvent → ErlangEvent → Option Erlang.Value

/-- The functions of other modules do the same for both programs: they get and return values without functions. -/
def Agree (answers : Answers) (answers' : ErlangAnswers) : Prop :=
  ∀ h e v, answers h e = some v → areData e.arguments = true ∧ isData v = true ∧
    ∀ h' e', SameHistory h h' → SameEvent e e' → answers' h' e' = encode v

/-- A world that remembers the calls. -/
def gleamWorld (answers : Answers) : (Gleam.Value → List Gleam.Value → Gleam.Run (List Event) Gleam.Value) → Text → Text →
    List Gleam.Value → Gleam.Run (List Event) Gleam.Value :=
  fun _ m f vs h =>
    match answers h ⟨m, f, vs⟩ with
    | some v => (.val v, h ++ [⟨m, f, vs⟩])
    | none => (.stuck, h)

def erlangWorld (answers : ErlangAnswers) : (Erlang.Value → List Erlang.Value → Erlang.Run (List ErlangEvent) Erlang.Value) →
    Text → Text → List Erlang.Value → Erlang.Run (List ErlangEvent) Erlang.Value :=
  fun _ m f vs h =>
    match answers h ⟨m, f, vs⟩ with
    | some v => (.val v, h ++ [⟨m, f, vs⟩])
    | none => (.stuck, h)

/-! ### Outcomes -/

/-- The same value (if it is not a function or has one inside), the same error, or neither ends; and the same calls of
other modules in the same order. Nothing is said about programs of Gleam that have no meaning, which the type checker
rejects. -/
def SameOutcome : Out Gleam.Panic Gleam.Value × List Event → Out Erlang.Value Erlang.Value × List ErlangEvent → Prop
  | (.val v, h), o => ∃ v' h', o = (.val v', h') ∧ (isData v = true → encode v = some v') ∧ SameHistory h h'
  | (.error p, h), o => ∃ e h', o = (.error e, h') ∧ SameError p e ∧ SameHistory h h'
  | (.timeout, h), o => ∃ h', o = (.timeout, h') ∧ SameHistory h h'
  | (.stuck, _), _ => True

/-- Runs a function of a module with values, up to a depth of calls. -/
def runGleam (funs : List Fun) (answers : Answers) (depth : Nat) (f : Text) (vs : List Gleam.Value) :
    Gleam.Run (List Event) Gleam.Value := Gleam.apply funs (gleamWorld answers) depth (.fn none f vs.length) vs

def runErlang (forms : List ErlText.Read.AstForm) (answers : ErlangAnswers) (depth : Nat) (f : Text) (vs : List Erlang.Value) :
    Erlang.Run (List ErlangEvent) Erlang.Value :=
  Erlang.apply forms (erlangWorld answers) depth (.ref none (functionAtom f) vs.length) vs

/-! ### Modules -/

/-- `[f/1, g/2]`. -/
def namesAndArities : ErlText.Read.Ast → List (Text × Nat)
  | .cons (.binary .slash (.atom f) (.int n)) t => (f, n) :: namesAndArities t
  | _ => []

/-- The functions that other modules can call. -/
def exported : List ErlText.Read.AstForm → List (Text × Nat)
  | [] => []
  | .attribute name [e] :: fs => (if name = "export".toList then namesAndArities e else []) ++ exported fs
  | _ :: fs => exported fs

/-- The name of a module. -/
def moduleNamed : List ErlText.Read.AstForm → Option Text
  | .attribute name [.atom m] :: _ => if name = "module".toList then some m else none
  | _ => none

end Verif.ErlGen.Spec
