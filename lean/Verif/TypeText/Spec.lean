import Verif.TypeText.Model
import Verif.Lexer.Spec

/-
What it means that a type is written down and read again. Nothing here mentions the printer.
-/
namespace Verif.TypeText
open Lexer (Token)

mutual
/-- A type without its links: what it is once inference is done. -/
def Ty.strip : Ty → Ty
  | .named m t arguments => .named m t (stripAll arguments)
  | .fn arguments ret => .fn (stripAll arguments) ret.strip
  | .tuple elements => .tuple (stripAll elements)
  | .var id => .var id
  | .link t => t.strip

/-- `strip`, for several types. -/
def stripAll : List Ty → List Ty
  | [] => []
  | t :: ts => t.strip :: stripAll ts
end

mutual
/-- The variables of a type. -/
def Ty.vars : Ty → List Nat
  | .named _ _ arguments => varsAll arguments
  | .fn arguments ret => varsAll arguments ++ ret.vars
  | .tuple elements => varsAll elements
  | .var id => [id]
  | .link t => t.vars

/-- The variables of several types. -/
def varsAll : List Ty → List Nat
  | [] => []
  | t :: ts => t.vars ++ varsAll ts
end

mutual
/-- A type with its links removed and its variables renamed. -/
def Ty.rename (f : Nat → Nat) : Ty → Ty
  | .named m t arguments => .named m t (renameAll f arguments)
  | .fn arguments ret => .fn (renameAll f arguments) (ret.rename f)
  | .tuple elements => .tuple (renameAll f elements)
  | .var id => .var (f id)
  | .link t => t.rename f

/-- `rename`, for several types. -/
def renameAll (f : Nat → Nat) : List Ty → List Ty
  | [] => []
  | t :: ts => t.rename f :: renameAll f ts
end

mutual
/-- Every named type in a type, given by its module, its name and the number of its arguments, has a property. -/
def Ty.All (P : Name → Name → Nat → Prop) : Ty → Prop
  | .named m t arguments => P m t arguments.length ∧ AllIn P arguments
  | .fn arguments ret => AllIn P arguments ∧ ret.All P
  | .tuple elements => AllIn P elements
  | .var _ => True
  | .link t => t.All P

/-- `All`, for several types. -/
def AllIn (P : Name → Name → Nat → Prop) : List Ty → Prop
  | [] => True
  | t :: ts => t.All P ∧ AllIn P ts
end

/-- Every named type has as many arguments as it is declared with parameters. -/
def Ty.WellFormed (facts : Facts) (t : Ty) : Prop := t.All fun m n k => k = facts.arity m n

/-- A name of a type stands for the type `name` of `module`: its parameters are, in order, those of the type. -/
def Means (c : TypeConstructor) (module name : Name) : Prop :=
  ∃ arguments, c.type = .named module name arguments ∧ stripAll arguments = c.parameters.map .var

/-- `shown` is a public name, in the same package, for the internal type `name` of `module`. -/
def Reexports (facts : Facts) (world : World) (by_ shown module name : Name) : Prop :=
  ∃ i c, world by_ = some i ∧ i.isInternal = false ∧ i.aliases shown = some c ∧ c.publicity = .public_ ∧
    Means c module name ∧ facts.package module = facts.package by_ ∧ facts.internal module name = true

/-- A module has been imported and has a name that it can be used by. -/
def Imported (env : Env) (module : Name) : Prop := ∃ a, env.importedModules a = some module

/-- A type has a name in a module: either without a qualifier, or by a module that has been imported. Public names for an
internal type count instead of its own, so each of them must be from a module that has been imported. -/
def Nameable (facts : Facts) (world : World) (env : Env) (module name : Name) : Prop :=
  (∃ n c, env.moduleTypes n = some c ∧ Means c module name) ∨
  ((∀ m a, Reexports facts world m a module name → Imported env m) ∧
    ((∃ m a, Reexports facts world m a module name) ∨
      (Imported env module ∧
        ∃ i c, world module = some i ∧ i.types name = some c ∧ c.publicity.isImportable = true ∧ Means c module name)))

/-- What the parser, and the limits of this model, ask of a declaration: names are written as names, the parameters of a
type are as many as `facts` says, and no type is imported from the prelude without a qualifier. -/
def DeclOk (facts : Facts) (current : Name) : Decl → Prop
  | .importModule _ used => ∀ a, used = some a → Lexer.Spec.Reads (.name a) a
  | .importType m _ a => Lexer.Spec.Reads (.upName a) a ∧ m ≠ preludeName
  | .customType n ps _ => Lexer.Spec.Reads (.upName n) n ∧ ps.length = facts.arity current n
  | .typeAlias n _ _ _ => Lexer.Spec.Reads (.upName n) n

/-- The modules that can be imported have been analysed one after the other, the prelude first. -/
inductive Analysed (facts : Facts) : World → Prop
  | prelude (h : ∀ t ∈ preludeTypes, facts.arity preludeName t.1 = t.2) :
    Analysed facts fun m => if m = preludeName then some prelude else none
  | module {world : World} {current : Name} {order : List (Name × Name)} {next : Nat} {decls : List Decl} {env : Env}
    (isInternal : Bool) (h : Analysed facts world) (hc : world current = none) (hd : ∀ d ∈ decls, DeclOk facts current d)
    (ha : analyse facts world current order next decls = some env) :
    Analysed facts (put world current (env.interface isInternal))

/-- The names that variables were given in the source: they are names, and two variables of the type have two names. -/
structure VariablesOk (given : List (Nat × Name)) (type : Ty) : Prop where
  valid : ∀ i ∈ type.vars, ∀ s, given.lookup i = some s → Lexer.Spec.Reads (.name s) s
  distinct : ∀ i ∈ type.vars, ∀ j ∈ type.vars, ∀ s, given.lookup i = some s → given.lookup j = some s → i = j

/-- The numbers of the variables that have a name in the scope are in use, and no two names have the same number. -/
structure HydratorOk (h : Hydrator) : Prop where
  used : ∀ e ∈ h.created, e.2 < h.next
  distinct : ∀ m n i, h.created.lookup m = some i → h.created.lookup n = some i → m = n

/-- `read` is the type `type`, with the variables renamed by `f`; two variables do not become one, and a variable whose name
is known in the scope becomes the one that it names. -/
structure IsRead (type read : Ty) (name : Nat → Name) (h : Hydrator) (f : Nat → Nat) : Prop where
  same : read.strip = type.rename f
  injective : ∀ i ∈ type.vars, ∀ j ∈ type.vars, f i = f j → i = j
  known : ∀ i ∈ type.vars, ∀ j, h.created.lookup (name i) = some j → f i = j

end Verif.TypeText
