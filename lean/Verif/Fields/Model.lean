/-
Model of `/repo/compiler-core/src/type_/fields.rs`: label → position maps and the reordering of call
arguments. Labels are `String`s; source locations carried by the errors are dropped (simplification).
-/
namespace Verif.Fields

/-- `compiler-core/src/ast.rs:1669-1689` `enum ImplicitCallArgOrigin`. -/
inductive ImplicitOrigin where
  | use | pipe | patternFieldSpread | incorrectArityUse | recordUpdate
deriving DecidableEq, Repr

/-- `compiler-core/src/ast.rs` `struct CallArg<A>` (without its location). -/
structure CallArg (α : Type) where
  label : Option String
  implicit : Option ImplicitOrigin
  value : α
deriving DecidableEq, Repr

/-- `compiler-core/src/ast.rs:1693-1695`. -/
def CallArg.isImplicit {α} (a : CallArg α) : Bool := a.implicit.isSome

/-- `compiler-core/src/ast.rs:1698-1703`. -/
def CallArg.isUseImplicitCallback {α} (a : CallArg α) : Bool :=
  match a.implicit with
  | some .use | some .incorrectArityUse => true
  | _ => false

/-- `fields.rs:12-17` `struct FieldMap`; the `HashMap` is an association list with at most one entry
per key (kept so by `insert`). -/
structure FieldMap where
  arity : Nat
  fields : List (String × Nat)
deriving Repr

/-- `fields.rs:30-35` `FieldMap::insert`: on a duplicate the map is updated and `DuplicateField` is
returned (`false`). -/
def FieldMap.insert (fm : FieldMap) (label : String) (index : Nat) : FieldMap × Bool :=
  ({ fm with fields := (label, index) :: fm.fields.filter (fun e => e.1 != label) },
    (fm.fields.lookup label).isNone)

inductive Err where
  /-- `Error::IncorrectArity`, with the missing labels -/
  | incorrectArity (labels : List String) (expected given : Nat)
  | positionalAfterLabelled
  | duplicateArgument (label : String)
  | unknownLabels (unknown : List String)
  /-- a Rust panic: `expect` on an index, or `Vec::insert` past the end -/
  | panic
deriving DecidableEq, Repr

/-- `Itertools::sorted_by_key` on positions: stable insertion sort. -/
def insertByPos (e : String × Nat) : List (String × Nat) → List (String × Nat)
  | [] => [e]
  | x :: xs => if e.2 ≤ x.2 then e :: x :: xs else x :: insertByPos e xs

def sortByPos : List (String × Nat) → List (String × Nat)
  | [] => []
  | x :: xs => insertByPos x (sortByPos xs)

/-- `fields.rs:164-199` `FieldMap::missing_labels`. -/
def FieldMap.missingLabels {α} (fm : FieldMap) (args : List (CallArg α)) : List String :=
  match (fm.fields.map Prod.snd).min? with
  | none => []
  | some positional =>
    let givenPositional := (args.filter fun a => a.label.isNone && !a.isUseImplicitCallback).length
    let explicit := args.filterMap (·.label)
    ((sortByPos (fm.fields.filter fun e => !explicit.contains e.1)).drop
      (givenPositional - positional)).map Prod.fst

/-- `fields.rs:69-83`: the positional-after-labelled check. -/
def positionalCheck {α} : Bool → List (CallArg α) → Bool
  | _, [] => true
  | labelledGiven, a :: as =>
    match a.label with
    | some _ => positionalCheck true as
    | none => if labelledGiven && !a.isImplicit then false else positionalCheck labelledGiven as

/-- The mutable state of the loop at `fields.rs:88-131`. -/
structure LoopState (α : Type) where
  args : List (CallArg α)
  labelled : List (Nat × CallArg α)
  seen : List String
  unknown : List String

/-- `fields.rs:92-131`: `while i > 0 { i -= 1; ... }`. -/
def collectLoop {α} (fm : FieldMap) : Nat → LoopState α → Except Err (LoopState α)
  | 0, st => .ok st
  | i + 1, st =>
    match st.args[i]? with
    | none => .error .panic
    | some a =>
      match a.label with
      | none => collectLoop fm i st
      | some label =>
        match fm.fields.lookup label with
        | none => collectLoop fm i { st with unknown := st.unknown ++ [label] }
        | some position =>
          if st.seen.contains label then .error (.duplicateArgument label)
          else collectLoop fm i
            { st with
              seen := label :: st.seen
              args := st.args.eraseIdx i
              labelled := (position, a) :: st.labelled.filter (fun e => e.1 != position) }

/-- `fields.rs:134-138`: `for i in 0..number_of_arguments { ... arguments.insert(i, argument) }`,
starting at `i` with `n` iterations left. `Vec::insert` panics past the end. -/
def reinsert {α} (labelled : List (Nat × CallArg α)) : (i n : Nat) → List (CallArg α) → Except Err (List (CallArg α))
  | _, 0, args => .ok args
  | i, n + 1, args =>
    match labelled.lookup i with
    | none => reinsert labelled (i + 1) n args
    | some a =>
      if i ≤ args.length then reinsert labelled (i + 1) n (args.insertIdx i a) else .error .panic

/-- `fields.rs:48-149` `FieldMap::reorder`. -/
def FieldMap.reorder {α} (fm : FieldMap) (args : List (CallArg α)) : Except Err (List (CallArg α)) :=
  if fm.arity ≠ args.length then
    .error (.incorrectArity (fm.missingLabels args) fm.arity args.length)
  else if !positionalCheck false args then .error .positionalAfterLabelled
  else
    match collectLoop fm args.length ⟨args, [], [], []⟩ with
    | .error e => .error e
    | .ok st =>
      match reinsert st.labelled 0 args.length st.args with
      | .error e => .error e
      | .ok args' => if st.unknown.isEmpty then .ok args' else .error (.unknownLabels st.unknown)

/-- `fields.rs:210-214` `struct FieldMapBuilder`. -/
structure Builder where
  index : Nat
  anyLabels : Bool
  fieldMap : FieldMap

inductive BuildErr where
  | duplicateField (label : String)
  | unlabelledAfterLabelled
deriving DecidableEq, Repr

/-- `fields.rs:225-250` `FieldMapBuilder::{add, labelled, unlabelled}`. On an error the `?` returns
before `self.index += 1`, but a duplicate label has already been re-inserted in the map. -/
def Builder.add (b : Builder) : Option String → Builder × Option BuildErr
  | some label =>
    let (fm, fresh) := b.fieldMap.insert label b.index
    if fresh then (⟨b.index + 1, true, fm⟩, none)
    else ({ b with fieldMap := fm }, some (.duplicateField label))
  | none =>
    if b.anyLabels then (b, some .unlabelledAfterLabelled) else ({ b with index := b.index + 1 }, none)

/-- The loops at `compiler-core/src/analyse.rs:1207-1245` and `1619-1628` which feed every declared
argument, in order, to a new builder, recording errors and going on. -/
def Builder.addAll (b : Builder) (errors : List BuildErr) : List (Option String) → Builder × List BuildErr
  | [] => (b, errors)
  | l :: ls =>
    let (b', e) := b.add l
    b'.addAll (errors ++ e.toList) ls

/-- `FieldMapBuilder::new` (`fields.rs:217-223`), all `add`s, then `finish` (without the
`into_option` step, which only turns a map without labels into `None`). -/
def build (decl : List (Option String)) : FieldMap × List BuildErr :=
  let (b, errors) := Builder.addAll ⟨0, false, ⟨decl.length, []⟩⟩ [] decl
  (b.fieldMap, errors)

end Verif.Fields
