import Verif.ErlGen.Model

/-!
# Modules

The model of the part of `module_document` (`erlang.rs:217-264`) that is about functions. Not modelled: the types of a
module (there is no `-type`, and `-export_type` has nothing to export), documentation, `-spec` attributes, external
functions, functions for other targets, unused functions (for which nothing is generated), and the helper functions of
`echo`.
-/

namespace Verif.ErlGen

open Verif.ErlText (Text Call)

/-- A function of a module: whether it is exported (`erlang.rs:3599-3622` `function_export`: it can be imported, or a
constant that can be imported refers to it), and the line of its definition. -/
structure Definition where
  function : Fun
  exported : Bool
  line : Nat

/-- A module: its name, `module_source_path` (`erlang.rs:199-206`), and its functions. -/
structure Module where
  name : Text
  path : Text
  /-- `called_function_purity().is_pure()` of called expressions. -/
  purity : Expr → Bool
  definitions : List Definition

/-- `FunctionGenerator::new`: `erlang.rs:483-500`. -/
def Module.context (m : Module) (f : Fun) : Context := ⟨m.name, m.path, f.name, m.purity⟩

/-- `erlang.rs:227-234`. -/
def compileOptions : List Text :=
  ["no_auto_import".toList, "nowarn_ignored".toList, "nowarn_unused_vars".toList, "nowarn_unused_function".toList,
    "nowarn_nomatch".toList, "inline".toList]

/-- `erlang.rs:236-241`, `3599-3622`. -/
def exports (ds : List Definition) : List (Text × Nat) :=
  (ds.filter Definition.exported).map fun d => (escapeName d.function.name, d.function.parameters.length)

/-- `erlang.rs:612-640` of `module_function`. -/
def genDefinition (m : Module) (d : Definition) : List Call :=
  .file m.path d.line :: genFunction (m.context d.function) d.function

/-- `erlang.rs:225-257` of `module_document`. -/
def genModule (m : Module) : List Call :=
  [.compile compileOptions, .export_ (exports m.definitions), .exportType []] ++ m.definitions.flatMap (genDefinition m)

end Verif.ErlGen
