import Verif.TypeText.Props

/-
Where a printed type is not read as the type it was printed from (C70): cases that the theorem of `Props.lean` leaves out.
-/
namespace Verif.TypeText
open Lexer Lexer.Spec

namespace Witness

/-- Two modules, `a/shape` and `b/shape`, that each have a type `Shape`, as seen from a module that imports the second. -/
def facts : Facts := ⟨fun m n => if m = preludeName then (preludeTypes.lookup n).getD 0 else 0, fun _ _ => false, fun m => m⟩
def shape : List Decl := [.customType "Shape".toList [] .public_]
def world0 : World := fun m => if m = preludeName then some prelude else none
def envA : Env := (analyse facts world0 "a/shape".toList [] 0 shape).get (by decide +kernel)
def world1 : World := put world0 "a/shape".toList (envA.interface false)
def envB : Env := (analyse facts world1 "b/shape".toList [] 0 shape).get (by decide +kernel)
def world : World := put world1 "b/shape".toList (envB.interface false)
def main : List Decl := [.importModule "b/shape".toList (some "shape".toList)]
def env : Env := (analyse facts world "main".toList [] 0 main).get (by decide +kernel)

theorem shapeOk (m : Name) (hm : m ≠ preludeName) : ∀ d ∈ shape, DeclOk facts m d := by
  intro d hd
  simp only [shape, List.mem_singleton] at hd
  subst hd
  exact ⟨⟨rfl, ⟨_, _, rfl, by decide⟩, by unfold NameChar; decide⟩, by simp [facts, hm]⟩

theorem analysed : Analysed facts world :=
  .module false (.module false (.prelude (by decide +kernel)) (by decide +kernel) (shapeOk _ (by decide)) (Option.some_get _).symm)
    (by decide +kernel) (shapeOk _ (by decide)) (Option.some_get _).symm

/-- A type is `b/shape.Shape`. -/
def isShapeB : Ty → Bool
  | .named m n [] => m = "b/shape".toList && n = "Shape".toList
  | _ => false

/-- A type is a pair of functions from a variable to itself, and both have the same variable. -/
def isSame : Ty → Bool
  | .tuple [.fn [.var i] (.var i'), .fn [.var j] (.var j')] => i = i' && j = j' && i = j
  | _ => false

/-- The names of a module where a function with the annotation `a` was used twice, at the types 5 and 6. -/
def shared : Names := resolveDeferred { env.names with typeVariables := [(0, "a".toList)] } [(0, .link (.var 5)), (0, .var 6)]

/-- A module that imports the internal type of the example, with its module, but not the module with the public name. -/
def rawMain : List Decl := [.importModule "lib/raw".toList (some "raw".toList)]
def rawEnv : Env := (analyse Example.facts Example.world "main".toList Example.order 0 rawMain).get (by decide +kernel)

theorem any_some {α : Type} {o : Option α} {p : α → Bool} (h : o.any p = true) : ∃ a, o = some a ∧ p a = true := by
  cases o with
  | none => cases h
  | some a => exact ⟨a, rfl, h⟩

end Witness

/-- A type of a module that is not imported is printed with the last part of the module's name. If another module with the
same last part is imported, the text is read as a type of that module. The value of type `a/shape.Shape` can come from a
function of a third module. -/
theorem unimported_type_is_another_type : ∃ (facts : Facts) (world : World) (decls : List Decl) (env : Env) (m n m' : Name),
    Analysed facts world ∧ analyse facts world "main".toList [] 0 decls = some env ∧ (∀ d ∈ decls, DeclOk facts "main".toList d) ∧
      (∃ i c, world m = some i ∧ i.types n = some c ∧ c.publicity = .public_ ∧ Means c m n) ∧ m ≠ m' ∧
      ∃ read h, readType env world ⟨[], 0, true, false⟩ (print env.names (Printer.new env.names) (.named m n [])).1 =
          some (read, h) ∧ read.strip = .named m' n [] := by
  refine ⟨Witness.facts, Witness.world, Witness.main, Witness.env, "a/shape".toList, "Shape".toList, "b/shape".toList,
    Witness.analysed, (Option.some_get _).symm, ?_, ?_, by decide, ?_⟩
  · intro d hd
    simp only [Witness.main, List.mem_singleton] at hd
    subst hd
    rintro _ ⟨⟩
    exact ⟨rfl, ⟨_, _, rfl, by decide⟩, by unfold NameChar; decide, by intro k; cases k <;> decide⟩
  · exact ⟨Witness.envA.interface false, ⟨"a/shape".toList, [], .named "a/shape".toList "Shape".toList [], .public_⟩, rfl, rfl,
      rfl, _, rfl, rfl⟩
  · have h : (readType Witness.env Witness.world ⟨[], 0, true, false⟩ (print Witness.env.names (Printer.new Witness.env.names)
        (.named "a/shape".toList "Shape".toList [])).1).any (fun r => Witness.isShapeB r.1) = true := by decide +kernel
    obtain ⟨⟨read, h'⟩, h1, h2⟩ := Witness.any_some h
    refine ⟨read, h', h1, ?_⟩
    simp only at h2
    unfold Witness.isShapeB at h2
    split at h2
    · simp only [Bool.and_eq_true, decide_eq_true_eq] at h2
      rw [h2.1, h2.2]
      rfl
    · cases h2

/-- The names that are made up for variables include the keyword `as`: a type with 45 variables that have no name is printed
with text that is not read as a type. Everything else that the theorem of `Props.lean` asks for holds. -/
theorem forty_five_variables : ∃ type : Ty, type.vars = List.range 45 ∧ (type.All fun _ _ _ => False) ∧
    readType Witness.env Witness.world ⟨[], 0, true, false⟩ (print Witness.env.names (Printer.new Witness.env.names) type).1 =
      none := by
  refine ⟨.tuple ((List.range 45).map .var), by decide +kernel, ?_, by decide +kernel⟩
  rw [Ty.All]
  exact allIn_vars _

/-- A function with a named variable in its annotation, `fn identity(x: a) -> a`, is used twice. The variables of both uses
get the name of the first, so `#(identity, identity)` is printed as if both had the same variable, and is read so. -/
theorem instantiations_share_a_name :
    (print Witness.shared (Printer.new Witness.shared) (.tuple [.fn [.var 5] (.var 5), .fn [.var 6] (.var 6)])).1 =
      "#(fn(a) -> a, fn(a) -> a)".toList ∧
    ∃ read h i, readType Witness.env Witness.world ⟨[], 0, true, false⟩ "#(fn(a) -> a, fn(a) -> a)".toList = some (read, h) ∧
      read = .tuple [.fn [.var i] (.var i), .fn [.var i] (.var i)] := by
  refine ⟨by decide +kernel, ?_⟩
  have h : (readType Witness.env Witness.world ⟨[], 0, true, false⟩ "#(fn(a) -> a, fn(a) -> a)".toList).any
      (fun r => Witness.isSame r.1) = true := by decide +kernel
  obtain ⟨⟨read, h'⟩, h1, h2⟩ := Witness.any_some h
  simp only at h2
  unfold Witness.isSame at h2
  split at h2
  · simp only [Bool.and_eq_true, decide_eq_true_eq] at h2
    obtain ⟨⟨rfl, rfl⟩, rfl⟩ := h2
    exact ⟨_, h', _, h1, rfl⟩
  · cases h2

/-- An internal type with a public name is printed by that name, also in a module of the same package that imports the
type's own module and not the one with the public name: the text is not read. -/
theorem reexport_hides_imported_type :
    analyse Example.facts Example.world "main".toList Example.order 0 Witness.rawMain = some Witness.rawEnv ∧
      Witness.rawEnv.importedModules "raw".toList = some "lib/raw".toList ∧
      (print Witness.rawEnv.names (Printer.new Witness.rawEnv.names) (.named "lib/raw".toList "Raw".toList [.var 0])).1 =
        "lib.Shown(a)".toList ∧
      readType Witness.rawEnv Example.world ⟨[], 0, true, false⟩ "lib.Shown(a)".toList = none ∧
      (readType Witness.rawEnv Example.world ⟨[], 0, true, false⟩ "raw.Raw(a)".toList).isSome = true :=
  ⟨(Option.some_get _).symm, by decide +kernel, by decide +kernel, by decide +kernel, by decide +kernel⟩

/-- A printer that is made without the names of the variables (as code actions do) and that is not told of a name gives it
to another variable. -/
theorem unregistered_name_is_given_twice (names : Names) (h : names.typeVariables = [(7, "a".toList)]) :
    (print names Printer.newWithout (.fn [.var 9] (.var 7))).1 = "fn(a) -> a".toList ∧
      (print names (Printer.newWithout.register "a".toList) (.fn [.var 9] (.var 7))).1 = "fn(b) -> a".toList := by
  have h1 : typeVariable names Printer.newWithout 9 = ("a".toList, ⟨1, [(9, "a".toList)], ["a".toList]⟩) := by
    unfold typeVariable
    rw [h]
    decide +kernel
  have h2 : typeVariable names (Printer.newWithout.register "a".toList) 9 =
      ("b".toList, ⟨2, [(9, "b".toList)], ["b".toList, "a".toList]⟩) := by
    unfold typeVariable
    rw [h]
    decide +kernel
  have h3 : ∀ p, typeVariable names p 7 = ("a".toList, p) := by
    intro p
    unfold typeVariable
    rw [h]
    rfl
  simp only [print, printArguments, h1, h2, h3]
  decide

end Verif.TypeText
