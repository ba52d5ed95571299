import Verif.Sugar.Meaning
import Verif.ErlGen.Spec

/-!
# What it means that a typed program does the same as the program as it is written

It does not refer to how the compiler takes the notations apart.
-/

namespace Verif.Sugar.Spec

open Verif.ErlText (Text)
open Verif.ErlGen (Out)
open Verif.ErlGen.Gleam (Panic)
open Verif.ErlGen.Spec (Answers Event ErlangEvent SameHistory SameError isData encode)

mutual

/-- Values without functions are the same in both kinds of programs. -/
def data : Value → Option ErlGen.Gleam.Value
  | .int n => some (.int n)
  | .str s => some (.str s)
  | .tuple vs => (dataAll vs).map .tuple
  | .nil => some .nil
  | .cons v w =>
    match data v, data w with
    | some v', some w' => some (.cons v' w')
    | _, _ => none
  | .record tag vs => (dataAll vs).map (.record tag)
  | .ctor _ _ => none
  | .fn _ _ _ => none
  | .closure _ _ _ => none
  | .capture _ _ _ => none
  | .callback _ _ _ _ => none

def dataAll : List Value → Option (List ErlGen.Gleam.Value)
  | [] => some []
  | v :: vs =>
    match data v, dataAll vs with
    | some v', some vs' => some (v' :: vs')
    | _, _ => none

end

mutual

/-- The other way round. -/
def written : ErlGen.Gleam.Value → Option Value
  | .int n => some (.int n)
  | .str s => some (.str s)
  | .tuple vs => (writtenAll vs).map .tuple
  | .nil => some .nil
  | .cons v w =>
    match written v, written w with
    | some v', some w' => some (.cons v' w')
    | _, _ => none
  | .record tag vs => (writtenAll vs).map (.record tag)
  | .ctor _ _ => none
  | .fn _ _ _ => none
  | .closure _ _ _ => none

def writtenAll : List ErlGen.Gleam.Value → Option (List Value)
  | [] => some []
  | v :: vs =>
    match written v, writtenAll vs with
    | some v', some vs' => some (v' :: vs')
    | _, _ => none

end

/-- The functions of other modules get and return values without functions. Their calls are remembered. -/
def world (answers : Answers) : (Value → List Value → Run (List Event) Value) → Text → Text → List Value →
    Run (List Event) Value :=
  fun _ m f vs h =>
    match dataAll vs with
    | some vs' =>
      match (answers h ⟨m, f, vs'⟩).bind written with
      | some v => (.val v, h ++ [⟨m, f, vs'⟩])
      | none => (.stuck, h)
    | none => (.stuck, h)

/-- Runs a function of a module as it is written, up to a depth of calls. -/
def runWritten (funs : List Fun) (answers : Answers) (depth : Nat) (f : Text) (vs : List Value) : Run (List Event) Value :=
  apply funs (world answers) depth (.fn none f vs.length) vs

/-- The same value (if it has no functions inside), the same error, or neither ends; and the same calls of other modules
in the same order. Nothing is said about programs that have no meaning, which the type checker rejects. -/
def SameResult : Out Panic Value × List Event → Out Panic ErlGen.Gleam.Value × List Event → Prop
  | (.val v, h), o => ∃ v', o = (.val v', h) ∧ ∀ d, data v = some d → v' = d
  | (.error p, h), o => o = (.error p, h)
  | (.timeout, h), o => o = (.timeout, h)
  | (.stuck, _), _ => True

/-- The same for a program of Erlang. -/
def SameErlang : Out Panic Value × List Event → Out ErlGen.Erlang.Value ErlGen.Erlang.Value × List ErlangEvent → Prop
  | (.val v, h), o => ∃ v' h', o = (.val v', h') ∧ (∀ d, data v = some d → isData d = true → encode d = some v') ∧
      SameHistory h h'
  | (.error p, h), o => ∃ e h', o = (.error e, h') ∧ SameError p e ∧ SameHistory h h'
  | (.timeout, h), o => ∃ h', o = (.timeout, h') ∧ SameHistory h h'
  | (.stuck, _), _ => True

end Verif.Sugar.Spec
