import Verif.Format.PatternSpec
import Verif.Format.Import
import Mathlib.Data.List.Forall2

/-!
# Specification: imports that bring the same names into scope
-/
namespace Verif.Format.Spec
open Verif.Lexer.Spec Verif.Format

/-- The name by which something that is imported is used. -/
def usedName (u : Unqualified) : Name := u.asName.getD u.name

/-- `name` is what stands after the last slash of a path. -/
def LastPart (path name : Name) : Prop := '/' ∉ name ∧ (path = name ∨ ∃ before, path = before ++ '/' :: name)

/-- The module is used by this name: the last part of its path if no other is given. A name that starts with an underscore
is none. -/
def UsedAs (i : Import) (name : Name) : Prop :=
  match i.asName with
  | some (.variable_ n) => n = name
  | some (.discard _) => False
  | none => LastPart i.module name

/-- `sorted` has the elements of `l` in the order of their names. What has the same name keeps its order. -/
def Sorts {α : Type} (name : α → Name) (l sorted : List α) : Prop :=
  sorted.Perm l ∧ sorted.Pairwise (fun a b => name a ≤ name b) ∧
    ∀ n, sorted.filter (fun a => name a = n) = l.filter (fun a => name a = n)

/-- The same is imported and used by the same names. It is in the order of its names. -/
def SameItems (before after : List Unqualified) : Prop :=
  ∃ sorted, Sorts (·.name) before sorted ∧
    List.Forall₂ (fun u v => v.name = u.name ∧ usedName v = usedName u) sorted after

/-- The same module is imported, is used by the same name, and the same of it is imported without its name. -/
def SameImport (before after : Import) : Prop :=
  after.module = before.module ∧ (∀ n, UsedAs after n ↔ UsedAs before n) ∧ SameItems before.types after.types ∧
    SameItems before.values after.values

/-- The same imports, in the order of the modules. -/
def SameImports (before after : List Import) : Prop :=
  ∃ sorted, Sorts (·.module) before sorted ∧ List.Forall₂ SameImport sorted after

end Verif.Format.Spec
