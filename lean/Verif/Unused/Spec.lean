import Verif.Unused.Model
import Mathlib.Logic.Relation

/-
What the definitions and imports of a module use. Nothing here mentions the graph.
-/
namespace Verif.Unused

/-- A definition or an import of a module. -/
structure Def where
  name : String
  layer : Layer
  kind : Kind
  isPublic : Bool
  origin : Nat
  deriving DecidableEq, Repr

/-- Something that the module defines, and not an import. -/
def Kind.isDefinition : Kind → Bool
  | .function | .constant | .constructor | .type => true
  | _ => false

/-- A module, as far as it has been read: its definitions and imports, given by their place in the list; what a name of a
layer stands for; the last import of a module; and which definition or import uses which. -/
structure Uses where
  defs : List Def
  scope : Entity → Option Nat
  imports : String → Option Nat
  uses : List (Nat × Nat)

/-- An empty module. -/
def Uses.new : Uses := ⟨[], fun _ => none, fun _ => none, []⟩

/-- The next definition. -/
def Uses.define (s : Uses) (d : Def) : Uses := { s with defs := s.defs ++ [d] }

/-- A name stands for a definition from now on. -/
def Uses.bind (s : Uses) (e : Entity) (a : Nat) : Uses := { s with scope := fun x => if x = e then some a else s.scope x }

/-- `a` uses what `b` is. Names that stand for nothing here are those of the prelude. -/
def Uses.use (s : Uses) (a : Nat) (b : Option Nat) : Uses :=
  match b with
  | some b => { s with uses := (a, b) :: s.uses }
  | none => s

/-- What a reference is by name. -/
def Ref.entity : Ref → Entity
  | .value used _ _ => ⟨used, .value⟩
  | .type used _ _ => ⟨used, .type⟩
  | .typeOnly used => ⟨used, .type⟩
  | .qualifiedValue alias_ _ _ => ⟨alias_, .module_⟩
  | .qualifiedType alias_ _ _ => ⟨alias_, .module_⟩

/-- `a` uses what its references stand for. -/
def Uses.useAll (s : Uses) (a : Nat) (refs : List Ref) : Uses := refs.foldl (fun s r => s.use a (s.scope r.entity)) s

/-- An import: an alias uses the import, and so does an item that is imported without a qualifier. -/
def Uses.import_ (s : Uses) : Import → Uses
  | .module_ used m origin =>
    let s' := (s.define ⟨used, .module_, .importedModule m, false, origin⟩).bind ⟨used, .module_⟩ s.defs.length
    { s' with imports := fun x => if x = m then some s.defs.length else s.imports x }
  | .aliased used m origin aliasOrigin =>
    let s' := (s.define ⟨used, .module_, .importedModule m, false, origin⟩).bind ⟨used, .module_⟩ s.defs.length
    let s' := { s' with imports := fun x => if x = m then some s.defs.length else s.imports x }
    ((s'.define ⟨used, .module_, .moduleAlias m, false, aliasOrigin⟩).bind ⟨used, .module_⟩ (s.defs.length + 1)).use
      (s.defs.length + 1) (some s.defs.length)
  | .type used m _ _ origin =>
    ((s.define ⟨used, .type, .importedType m, false, origin⟩).bind ⟨used, .type⟩ s.defs.length).use s.defs.length (s.imports m)
  | .value used m _ _ origin =>
    ((s.define ⟨used, .value, .importedValue m, false, origin⟩).bind ⟨used, .value⟩ s.defs.length).use s.defs.length (s.imports m)
  | .constructor used m _ _ origin =>
    ((s.define ⟨used, .value, .importedConstructor m, false, origin⟩).bind ⟨used, .value⟩ s.defs.length).use s.defs.length
      (s.imports m)

/-- A definition uses what it refers to; a constructor uses its type. What a constant refers to is not yet the constant. -/
def Uses.item (s : Uses) : Item → Uses
  | .type name isPublic origin refs =>
    ((s.define ⟨name, .type, .type, isPublic, origin⟩).bind ⟨name, .type⟩ s.defs.length).useAll s.defs.length refs
  | .constructor name type isPublic origin refs =>
    let s' := (s.define ⟨name, .value, .constructor, isPublic, origin⟩).bind ⟨name, .value⟩ s.defs.length
    (s'.use s.defs.length (s'.scope ⟨type, .type⟩)).useAll s.defs.length refs
  | .function name isPublic origin refs =>
    ((s.define ⟨name, .value, .function, isPublic, origin⟩).bind ⟨name, .value⟩ s.defs.length).useAll s.defs.length refs
  | .body name refs =>
    match s.scope ⟨name, .value⟩ with
    | some a => s.useAll a refs
    | none => s
  | .constant name isPublic origin refs =>
    ((s.define ⟨name, .value, .constant, isPublic, origin⟩).useAll s.defs.length refs).bind ⟨name, .value⟩ s.defs.length

/-- A whole module. -/
def uses (p : Program) : Uses := p.items.foldl Uses.item (p.imports.foldl Uses.import_ .new)

/-- `a` uses `b`, itself or by others. -/
def Uses.Reaches (s : Uses) : Nat → Nat → Prop := Relation.ReflTransGen fun a b => (a, b) ∈ s.uses

/-- A public definition is or uses `b`, itself or by others. -/
def Uses.Needed (s : Uses) (b : Nat) : Prop := ∃ a d, s.defs[a]? = some d ∧ d.isPublic = true ∧ s.Reaches a b

/-- The names of the modules that are imported, of the types and of the values. -/
def Import.moduleName : Import → Option String
  | .module_ used _ _ => some used
  | .aliased used _ _ _ => some used
  | _ => none
def Import.typeName : Import → Option String
  | .type used _ _ _ _ => some used
  | _ => none
def Import.valueName : Import → Option String
  | .value used _ _ _ _ => some used
  | .constructor used _ _ _ _ => some used
  | _ => none
def Item.typeName : Item → Option String
  | .type name _ _ _ => some name
  | _ => none
def Item.valueName : Item → Option String
  | .constructor name _ _ _ _ => some name
  | .function name _ _ _ => some name
  | .constant name _ _ _ => some name
  | _ => none

/-- What the compiler reports as an error otherwise: names are defined once, a type is not imported and defined under the
same name, and a body is that of a function before it. -/
structure Program.Ok (p : Program) : Prop where
  modules : (p.imports.filterMap Import.moduleName).Nodup
  types : (p.imports.filterMap Import.typeName ++ p.items.filterMap Item.typeName).Nodup
  imported : (p.imports.filterMap Import.valueName).Nodup
  values : (p.items.filterMap Item.valueName).Nodup
  bodies : ∀ before f refs after, p.items = before ++ .body f refs :: after → f ∈ before.filterMap Item.valueName

/-- The names of the definitions of other modules that the module mentions, with their modules. -/
def Import.mentions : Import → List (String × String)
  | .type _ _ from_ name _ => [(from_, name)]
  | .value _ _ from_ name _ => [(from_, name)]
  | .constructor _ _ from_ name _ => [(from_, name)]
  | _ => []
def Ref.mentions : Ref → List (String × String)
  | .value _ from_ name => [(from_, name)]
  | .type _ from_ name => [(from_, name)]
  | .typeOnly _ => []
  | .qualifiedValue _ from_ name => [(from_, name)]
  | .qualifiedType _ from_ name => [(from_, name)]
def Item.refs : Item → List Ref
  | .type _ _ _ refs => refs
  | .constructor _ _ _ _ refs => refs
  | .function _ _ _ refs => refs
  | .body _ refs => refs
  | .constant _ _ _ refs => refs
def Program.mentions (p : Program) : List (String × String) :=
  p.imports.flatMap Import.mentions ++ p.items.flatMap fun i => i.refs.flatMap Ref.mentions

end Verif.Unused
