import Verif.ErlGen.Module
import Verif.ErlGen.TreeLemmas

/-!
# The forms of a module
-/

namespace Verif.ErlGen

open Verif.ErlText (Text Call Form formCalls)

theorem genFunction_eq (c : Context) (f : Fun) : genFunction c f = (tFunction c f).calls := by
  simp [genFunction, tFunction, Form.calls, genStmts_eq]

def tDefinition (m : Module) (d : Definition) : List Form := [.file m.path d.line, tFunction (m.context d.function) d.function]

def tModule (m : Module) : List Form :=
  [.compile compileOptions, .export_ (exports m.definitions), .exportType []] ++ m.definitions.flatMap (tDefinition m)

theorem formCalls_append (as bs : List Form) : formCalls (as ++ bs) = formCalls as ++ formCalls bs := by
  induction as with
  | nil => rfl
  | cons a as ih => simp [formCalls, ih]

theorem genDefinition_eq (m : Module) (d : Definition) : genDefinition m d = formCalls (tDefinition m d) := by
  simp [genDefinition, tDefinition, formCalls, Form.calls, genFunction_eq]

/-- The calls are those of the forms. -/
theorem genModule_eq (m : Module) : genModule m = formCalls (tModule m) := by
  unfold genModule tModule
  rw [formCalls_append]
  congr 1
  generalize m.definitions = ds
  induction ds with
  | nil => rfl
  | cons d ds ih => simp only [List.flatMap_cons, formCalls_append, genDefinition_eq, ih]

end Verif.ErlGen
