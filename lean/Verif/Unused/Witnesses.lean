import Verif.Unused.Props

/-
What is reported about the imports of modules is not exact.
-/
namespace Verif.Unused

/-- What is reported: the layer, the name and the kind. -/
def Program.report (p : Program) : List (Entity × Info) :=
  (analyse p).unused (analyse p).public_ ((analyse p).entities.map (·.1))

/--
```
import list
fn map() { list.map }
```
-/
def wrapper : Program where
  imports := [.module_ "list" "list" 0]
  items := [.function "map" false 12 [], .body "map" [.qualifiedValue "list" "list" "map"]]

/-- C72. A private function refers to the module `list`, and `list` is reported as unused: the function has the name of what
it refers to, and that is taken for an item of the import. Without the import the module is rejected. -/
theorem module_in_use_is_reported : wrapper.Ok ∧ (1, 0) ∈ (uses wrapper).uses ∧
    (⟨"list", .module_⟩, ⟨0, .importedModule "list"⟩) ∈ wrapper.report := by
  refine ⟨⟨by decide +kernel, by decide +kernel, by decide +kernel, by decide +kernel, ?_⟩, by decide +kernel, by decide +kernel⟩
  intro before f refs after h
  match before, h with
  | [], h => simp [wrapper] at h
  | [i], h =>
    simp only [wrapper, List.cons_append, List.nil_append, List.cons.injEq, Item.body.injEq] at h
    rw [← h.1, ← h.2.1.1]
    decide +kernel
  | i :: j :: l, h => simp [wrapper] at h

/-- The same function with another name. -/
def wrapper' : Program where
  imports := [.module_ "list" "list" 0]
  items := [.function "my_map" false 12 [], .body "my_map" [.qualifiedValue "list" "list" "map"]]

/-- Under another name, only the function is reported. -/
theorem module_in_use_is_not_reported : wrapper'.report.map (·.1) = [⟨"my_map", .value⟩] := by decide +kernel

/-- `import wobble.{unused}`, and the same for a module `wibble/wobble`. -/
def unusedImport : Program := ⟨[.module_ "wobble" "wobble" 0, .value "unused" "wobble" "wobble" "unused" 15], []⟩
def unusedNestedImport : Program :=
  ⟨[.module_ "wobble" "wibble/wobble" 0, .value "unused" "wibble/wobble" "wibble/wobble" "unused" 22], []⟩

/-- C72. Nothing uses the module or the item, and whether the module is reported depends on whether its name has a slash. -/
theorem nested_module_is_not_reported :
    (⟨"wobble", .module_⟩, ⟨0, .importedModule "wobble"⟩) ∈ unusedImport.report ∧
    unusedNestedImport.report.map (·.1) = [⟨"unused", .value⟩] := by
  constructor <;> decide +kernel

/-- `import maths as pi`, `import circle.{pi}` and `const pi = 3`. -/
def twiceShadowed : Program :=
  ⟨[.aliased "pi" "maths" 0 13, .module_ "circle" "circle" 20, .value "pi" "circle" "circle" "pi" 35], [.constant "pi" true 40 []]⟩

/-- C72. The import of `maths` is lost, and is not reported: what a name stood for is kept under the name only, and the
imported value has the name of the module. -/
theorem shadowed_twice_is_not_reported :
    (uses twiceShadowed).uses = [(3, 2), (1, 0)] ∧ ∀ e, (e, ⟨0, .importedModule "maths"⟩) ∉ twiceShadowed.report := by
  constructor
  · decide +kernel
  · have : ∀ x ∈ twiceShadowed.report, x.2 ≠ ⟨0, .importedModule "maths"⟩ := by decide +kernel
    exact fun e he => this _ he rfl

end Verif.Unused
