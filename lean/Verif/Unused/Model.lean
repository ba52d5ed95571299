import Mathlib.Data.List.Nodup

/-
Model of how the compiler finds out which definitions and imports of a module are unused: `/repo/compiler-core/src/reference.rs`
`ReferenceTracker`, the calls of it in `analyse.rs` and `analyse/imports.rs`, and the part of `type_/environment.rs`
`handle_unused` that gives the positions of the definitions for which no code is generated (`erlang.rs:592-598`,
`javascript.rs:470-476`, `javascript.rs:1092-1098`, `javascript.rs:1156-1162`).

Not modelled: local variables, the locations of references (for renaming), labels, and which references an expression has: a
program is given by its imports and definitions, each with the references that inference registers for it.
-/
namespace Verif.Unused

/-- `reference.rs:256-275` `EntityLayer`. -/
inductive Layer where
  | type
  | value
  | shadowed
  | module_
  deriving DecidableEq, Repr

/-- `reference.rs:277-281` `Entity`. -/
structure Entity where
  name : String
  layer : Layer
  deriving DecidableEq, Repr

/-- `reference.rs:239-250` `EntityKind`. -/
inductive Kind where
  | function
  | constant
  | constructor
  | type
  | importedModule (module_ : String)
  | moduleAlias (module_ : String)
  | importedConstructor (module_ : String)
  | importedType (module_ : String)
  | importedValue (module_ : String)
  deriving DecidableEq, Repr

/-- `reference.rs:231-235` `EntityInformation`. Simplified: of the location only the start. -/
structure Info where
  origin : Nat
  kind : Kind
  deriving DecidableEq, Repr

/-- A bidirectional map, as pairs. -/
abbrev BiMap := List (Entity × Nat)

/-- `bimap` `get_by_left`. -/
def BiMap.left (m : BiMap) (e : Entity) : Option Nat := (m.find? fun p => p.1 = e).map (·.2)

/-- `bimap` `get_by_right`. -/
def BiMap.right (m : BiMap) (i : Nat) : Option Entity := (m.find? fun p => p.2 = i).map (·.1)

/-- `bimap` `insert`: pairs with the same left or right value go. -/
def BiMap.insert (m : BiMap) (e : Entity) (i : Nat) : BiMap := (e, i) :: m.filter fun p => p.1 ≠ e ∧ p.2 ≠ i

/-- What `bimap` `insert` gives back: the pair that had the left value, else the one that had the right value. If there were
both, `Overwritten::Both` has both, and the code takes the first. -/
def BiMap.overwritten (m : BiMap) (e : Entity) (i : Nat) : Option (Entity × Nat) :=
  match m.find? fun p => p.1 = e with
  | some p => some p
  | none => m.find? fun p => p.2 = i

/-- `HashMap::insert` of `entity_information`. -/
def setInfo (m : List (Entity × Info)) (e : Entity) (i : Info) : List (Entity × Info) := (e, i) :: m.filter fun p => p.1 ≠ e

/-- `reference.rs:283-331` `ReferenceTracker`. Simplified: the graph is the number of its nodes, which are never removed, and
the list of its edges; of `type_references` and `value_references` only the keys are kept. -/
structure Tracker where
  nodes : Nat
  edges : List (Nat × Nat)
  entities : BiMap
  current : Nat
  public_ : List Entity
  information : List (Entity × Info)
  valueReferences : List (String × String)
  typeReferences : List (String × String)
  moduleNode : String → Option Nat

/-- `reference.rs:335-337` `new`. -/
def Tracker.new : Tracker := ⟨0, [], [], 0, [], [], [], [], fun _ => none⟩

/-- `reference.rs:339-350` `get_or_create_node`. -/
def Tracker.getOrCreate (t : Tracker) (e : Entity) : Nat × Tracker :=
  match t.entities.left e with
  | some i => (i, t)
  | none => (t.nodes, { t with nodes := t.nodes + 1, entities := t.entities.insert e t.nodes })

/-- `reference.rs:361-382` `create_node_and_maybe_shadow`. -/
def Tracker.createMaybeShadow (t : Tracker) (e : Entity) (i : Nat) : Tracker :=
  match t.entities.overwritten e i with
  | none => { t with entities := t.entities.insert e i }
  | some (old, j) =>
    match t.information.lookup old with
    | none => { t with entities := t.entities.insert e i }
    | some info =>
      { t with
        entities := (t.entities.insert e i).insert ⟨old.name, .shadowed⟩ j
        information := setInfo t.information ⟨old.name, .shadowed⟩ info }

/-- `reference.rs:352-359` `create_node`, and the assignment to `current_node` in the callers. -/
def Tracker.create (t : Tracker) (e : Entity) : Tracker :=
  Tracker.createMaybeShadow { t with nodes := t.nodes + 1, current := t.nodes } e t.nodes

/-- `reference.rs:388-391` `add_reference_edge`. -/
def Tracker.addEdge (t : Tracker) (e : Entity) : Tracker :=
  { (t.getOrCreate e).2 with edges := (t.current, (t.getOrCreate e).1) :: (t.getOrCreate e).2.edges }

/-- `reference.rs:751-758` `register_module_reference_by_module_name`. -/
def Tracker.addModuleEdge (t : Tracker) (module_ : String) : Tracker :=
  match t.moduleNode module_ with
  | none => t
  | some i => { t with edges := (t.current, i) :: t.edges }

/-- `reference.rs:447-462`: the publicity and the information of an entity. `isPublic` also holds of internal ones. -/
def Tracker.describe (t : Tracker) (e : Entity) (isPublic : Bool) (info : Info) : Tracker :=
  { t with
    public_ := if isPublic then e :: t.public_ else t.public_
    information := setInfo t.information e info }

/-- `reference.rs:582-597` `register_module_reference_from_imported_entity`. -/
def Tracker.addImportEdge (t : Tracker) : Kind → Tracker
  | .importedConstructor m => t.addModuleEdge m
  | .importedType m => t.addModuleEdge m
  | .importedValue m => t.addModuleEdge m
  | _ => t

/-- `reference.rs:435-463` `register_value`, `reference.rs:469-497` `register_type`. -/
def Tracker.register (t : Tracker) (e : Entity) (kind : Kind) (origin : Nat) (isPublic : Bool) : Tracker :=
  ((t.create e).addImportEdge kind).describe e isPublic ⟨origin, kind⟩

/-- `reference.rs:409-411` `begin_constant`. -/
def Tracker.beginConstant (t : Tracker) : Tracker := { t with nodes := t.nodes + 1, current := t.nodes }

/-- `reference.rs:413-433` `register_constant`. -/
def Tracker.registerConstant (t : Tracker) (name : String) (origin : Nat) (isPublic : Bool) : Tracker :=
  (t.createMaybeShadow ⟨name, .value⟩ t.current).describe ⟨name, .value⟩ isPublic ⟨origin, .constant⟩

/-- `reference.rs:465-467` `set_current_node`. -/
def Tracker.setCurrent (t : Tracker) (name : String) : Tracker :=
  { (t.getOrCreate ⟨name, .value⟩).2 with current := (t.getOrCreate ⟨name, .value⟩).1 }

/-- `reference.rs:540-580` `register_module`. -/
def Tracker.registerModule (t : Tracker) (used module_ : String) (origin : Nat) : Tracker :=
  let t := t.create ⟨used, .module_⟩
  Tracker.describe { t with moduleNode := fun m => if m = module_ then some t.current else t.moduleNode m } ⟨used, .module_⟩ false
    ⟨origin, .importedModule module_⟩

/-- `reference.rs:499-538` `register_aliased_module`. -/
def Tracker.registerAliased (t : Tracker) (used module_ : String) (origin aliasOrigin : Nat) : Tracker :=
  (((t.registerModule used module_ origin).create ⟨used, .module_⟩).addModuleEdge module_).describe ⟨used, .module_⟩ false
    ⟨aliasOrigin, .moduleAlias module_⟩

/-! ### The analysis of a module -/

/-- An import, or an item that it imports without a qualifier. `module_` is the full name of the module, `used` the name in
this module; `from_` and `name` are the module and the name of the definition that is imported. -/
inductive Import where
  | module_ (used module_ : String) (origin : Nat)
  | aliased (used module_ : String) (origin aliasOrigin : Nat)
  | type (used module_ from_ name : String) (origin : Nat)
  | value (used module_ from_ name : String) (origin : Nat)
  | constructor (used module_ from_ name : String) (origin : Nat)
  deriving Repr

/-- `imports.rs:52-82` `register_import`, `imports.rs:84-147`, `imports.rs:149-275`, `imports.rs:317-343`. -/
def Tracker.import_ (t : Tracker) : Import → Tracker
  | .module_ used m origin => t.registerModule used m origin
  | .aliased used m origin aliasOrigin => t.registerAliased used m origin aliasOrigin
  | .type used m from_ name origin =>
    { t.register ⟨used, .type⟩ (.importedType m) origin false with typeReferences := (from_, name) :: t.typeReferences }
  | .value used m from_ name origin =>
    { t.register ⟨used, .value⟩ (.importedValue m) origin false with valueReferences := (from_, name) :: t.valueReferences }
  | .constructor used m from_ name origin =>
    { t.register ⟨used, .value⟩ (.importedConstructor m) origin false with valueReferences := (from_, name) :: t.valueReferences }

/-- A reference that is registered while a definition is analysed: by name, or qualified with the name of a module here. The
names `from_` and `name` are those of the definition that is referred to. -/
inductive Ref where
  | value (used from_ name : String)
  | type (used from_ name : String)
  | typeOnly (used : String)
  | qualifiedValue (alias_ from_ name : String)
  | qualifiedType (alias_ from_ name : String)
  deriving Repr

/-- `reference.rs:599-630` `register_value_reference`, `reference.rs:632-664` `register_type_reference`,
`reference.rs:733-735` `register_type_reference_in_call_graph`, `reference.rs:742-744` `register_module_reference_by_alias`. -/
def Tracker.refer (t : Tracker) : Ref → Tracker
  | .value used from_ name =>
    { t.addEdge ⟨used, .value⟩ with valueReferences := (from_, name) :: t.valueReferences }
  | .type used from_ name =>
    { t.addEdge ⟨used, .type⟩ with typeReferences := (from_, name) :: t.typeReferences }
  | .typeOnly used => t.addEdge ⟨used, .type⟩
  | .qualifiedValue alias_ from_ name =>
    { t.addEdge ⟨alias_, .module_⟩ with valueReferences := (from_, name) :: t.valueReferences }
  | .qualifiedType alias_ from_ name =>
    { t.addEdge ⟨alias_, .module_⟩ with typeReferences := (from_, name) :: t.typeReferences }

/-- All references of a definition. -/
def Tracker.referAll (t : Tracker) (refs : List Ref) : Tracker := refs.foldl Tracker.refer t

/-- The definitions of a module, in the order in which they are analysed: a custom type or an alias with the types in it, a
constructor with the name of its type and the types of its fields, the head of a function with the types in it, the body
of a function, and a constant. -/
inductive Item where
  | type (name : String) (isPublic : Bool) (origin : Nat) (refs : List Ref)
  | constructor (name type : String) (isPublic : Bool) (origin : Nat) (refs : List Ref)
  | function (name : String) (isPublic : Bool) (origin : Nat) (refs : List Ref)
  | body (name : String) (refs : List Ref)
  | constant (name : String) (isPublic : Bool) (origin : Nat) (refs : List Ref)
  deriving Repr

/-- `analyse.rs:1437-1448` and `analyse.rs:1491-1500` (types and aliases), `analyse.rs:1192-1216` (constructors),
`analyse.rs:1611-1658` (heads of functions), `analyse.rs:605-640` (bodies), `analyse.rs:453-516` (constants).
Simplified: the keys that a definition adds to `type_references` and `value_references` are for this module, and left out:
a module does not import itself. -/
def Tracker.item (t : Tracker) : Item → Tracker
  | .type name isPublic origin refs => (t.register ⟨name, .type⟩ .type origin isPublic).referAll refs
  | .constructor name type isPublic origin refs =>
    ((t.register ⟨name, .value⟩ .constructor origin isPublic).addEdge ⟨type, .type⟩).referAll refs
  | .function name isPublic origin refs => (t.register ⟨name, .value⟩ .function origin isPublic).referAll refs
  | .body name refs => (t.setCurrent name).referAll refs
  | .constant name isPublic origin refs => (t.beginConstant.referAll refs).registerConstant name origin isPublic

/-- A module. -/
structure Program where
  imports : List Import
  items : List Item
  deriving Repr

/-- `analyse.rs:218-340` `infer_module`. -/
def analyse (p : Program) : Tracker := p.items.foldl Tracker.item (p.imports.foldl Tracker.import_ .new)

/-! ### What is unused -/

/-- `graph.neighbors_directed(index, Outgoing)`. -/
def Tracker.neighbours (t : Tracker) (i : Nat) : List Nat := (t.edges.filter fun e => e.1 = i).map (·.2)

/-- `HashMap::remove`. -/
def remove (u : List (Entity × Info)) (e : Entity) : List (Entity × Info) := u.filter fun p => p.1 ≠ e

/-- `reference.rs:789-802` `mark_entity_as_used`. `fuel` bounds the depth of the calls: each removes an entry before the next
one, so one more than there are entries is enough. -/
def Tracker.mark (t : Tracker) : Nat → List (Entity × Info) → Entity → Nat → List (Entity × Info)
  | 0, u, _, _ => u
  | fuel + 1, u, e, i =>
    if (u.lookup e).isSome then
      (t.neighbours i).foldl (fun u j =>
          match t.entities.right j with
          | some e => t.mark fuel u e j
          | none => u)
        (remove u e)
    else u

/-- `reference.rs:789-802`, with enough fuel. -/
def Tracker.markUsed (t : Tracker) (u : List (Entity × Info)) (e : Entity) (i : Nat) : List (Entity × Info) :=
  t.mark (u.length + 1) u e i

/-- `reference.rs:804-848` `mark_referenced_imports_as_used`. -/
def Tracker.markImports (t : Tracker) (u : List (Entity × Info)) (e : Entity) (i : Nat) : List (Entity × Info) :=
  if e.layer = .module_ then u
  else
    (t.neighbours i).foldl (fun u j =>
        match t.entities.right j with
        | some m =>
          if m.layer = .module_ ∧ (m.name, e.name) ∉ t.typeReferences ∧ (m.name, e.name) ∉ t.valueReferences then t.markUsed u m j
          else u
        | none => u)
      u

/-- `reference.rs:760-787` `unused`. `publics` and `all` are the public entities and the entities in the order in which the
hash maps give them: the theorems hold for every order. -/
def Tracker.unused (t : Tracker) (publics all : List Entity) : List (Entity × Info) :=
  all.foldl (fun u e =>
      match t.entities.left e with
      | none => u
      | some i => if e ∈ t.public_ then t.markUsed u e i else t.markImports u e i)
    (publics.foldl (fun u e =>
        match t.entities.left e with
        | none => u
        | some i => t.markUsed u e i)
      t.information)

/-- `environment.rs:842-867`: the positions of the definitions for which no code is generated. -/
def positions (unused : List (Entity × Info)) : List Nat :=
  (unused.filter fun p => p.2.kind = .function ∨ p.2.kind = .constant ∨ p.2.kind = .type).map (·.2.origin)

end Verif.Unused
