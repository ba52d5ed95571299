import Verif.Fields.Model
/-
Specification of labelled calls. A declaration is the list of its parameters' optional labels.
-/
namespace Verif.Fields.Spec

/-- A declaration is legal if no label occurs twice and unlabelled parameters come first. -/
def LegalDecl (decl : List (Option String)) : Prop :=
  (decl.filterMap id).Nodup ∧
  ∀ i j : Nat, i < j → (∃ l, decl[i]? = some (some l)) → decl[j]? ≠ some none

/-- What reordering must produce for a declaration `decl` and the arguments `args`. -/
structure Reordered {α} (decl : List (Option String)) (args result : List (CallArg α)) : Prop where
  /-- nothing is lost, duplicated or invented -/
  perm : result.Perm args
  /-- every labelled argument is at the position at which its label is declared -/
  placed : ∀ a ∈ args, ∀ l, a.label = some l → ∀ p : Nat, decl[p]? = some (some l) → result[p]? = some a
  /-- the unlabelled arguments keep their order -/
  order : result.filter (·.label.isNone) = args.filter (·.label.isNone)

/-- An explicit unlabelled argument comes after a labelled one. -/
def PositionalAfterLabelled {α} (args : List (CallArg α)) : Prop :=
  ∃ i j : Nat, i < j ∧ (∃ a, args[i]? = some a ∧ a.label.isSome) ∧
    (∃ b, args[j]? = some b ∧ b.label = none ∧ b.implicit = none)

/-- Some label of the declaration is given twice. -/
def DuplicateLabel {α} (decl : List (Option String)) (args : List (CallArg α)) : Prop :=
  ∃ i j : Nat, i < j ∧ ∃ a b l, args[i]? = some a ∧ args[j]? = some b ∧
    a.label = some l ∧ b.label = some l ∧ some l ∈ decl

/-- Some label is not one of the declaration. -/
def UnknownLabel {α} (decl : List (Option String)) (args : List (CallArg α)) : Prop :=
  ∃ a ∈ args, ∃ l, a.label = some l ∧ some l ∉ decl

end Verif.Fields.Spec
