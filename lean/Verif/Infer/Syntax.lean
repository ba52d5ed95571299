import Verif.Unify.Spec

/-!
# Gleam modules before type checking

The part of the untyped syntax tree (`compiler-core/src/ast/untyped.rs`, `ast.rs`) that the model of type inference covers. Left out: labelled
arguments (see `Fields`), record updates, pipelines, `use`, `echo`, bit arrays, module constants, imports, type aliases and external functions.
-/

namespace Verif.Infer

open Verif.Unify (Ty Tys Tree)

/-- `ast.rs` `TypeAst`: annotations. -/
inductive TypeAst where
  | con (name : String) (arguments : List TypeAst)
  | fn (arguments : List TypeAst) (return_ : TypeAst)
  | tuple (elements : List TypeAst)
  | var (name : String)
  | hole

/-- `ast.rs` `BinOp`. -/
inductive Op where
  | and | or | eq | notEq
  | ltInt | leInt | gtInt | geInt
  | ltFloat | leFloat | gtFloat | geFloat
  | addInt | subInt | multInt | divInt | remInt
  | addFloat | subFloat | multFloat | divFloat
  | concat
  deriving DecidableEq, Repr

/-- `ast.rs:3300-3460` `Pattern`. -/
inductive Pattern where
  | discard
  | var (name : String)
  | int (n : Int)
  | float (bits : Nat)
  | string (s : List Char)
  /-- `pattern as name`. -/
  | assign (pattern : Pattern) (name : String)
  | tuple (items : List Pattern)
  | list (items : List Pattern) (tail : Option Pattern)
  | ctor (name : String) (arguments : List Pattern)
  /-- `"…" as left <> right`. -/
  | prefix (s : List Char) (left right : Option String)

/-- `ast.rs` `ClauseGuard`. -/
inductive Guard where
  | var (name : String)
  | int (n : Int)
  | float (bits : Nat)
  | string (s : List Char)
  | block (g : Guard)
  | not (g : Guard)
  | bin (op : Op) (left right : Guard)
  | index (g : Guard) (i : Nat)

/-- A parameter: its name, if it is not discarded, and its annotation. -/
structure Param where
  name : Option String
  annotation : Option TypeAst

mutual

/-- `ast/untyped.rs` `UntypedExpr`. -/
inductive Expr where
  | int (n : Int)
  | float (bits : Nat)
  | string (s : List Char)
  /-- A local variable, a function of the module or a constructor. -/
  | var (name : String)
  | fn (parameters : List Param) (return_ : Option TypeAst) (body : List Stmt)
  | call (called : Expr) (arguments : List Expr)
  | bin (op : Op) (left right : Expr)
  | not (e : Expr)
  | neg (e : Expr)
  | block (body : List Stmt)
  | tuple (items : List Expr)
  | index (e : Expr) (i : Nat)
  | list (items : List Expr) (tail : Option Expr)
  | field (e : Expr) (label : String)
  | case_ (subjects : List Expr) (clauses : List Clause)
  /-- `todo` and `panic`. -/
  | fail (message : Option Expr)

/-- The patterns of a clause, its alternatives, its guard and its body. -/
inductive Clause where
  | mk (patterns : List Pattern) (alternatives : List (List Pattern)) (guard : Option Guard) (body : Expr)

inductive Stmt where
  | expr (e : Expr)
  | let_ (pattern : Pattern) (annotation : Option TypeAst) (value : Expr)
  | letAssert (pattern : Pattern) (annotation : Option TypeAst) (value : Expr) (message : Option Expr)
  | assert (value : Expr) (message : Option Expr)

end

/-- A function of the module. -/
structure Fun where
  name : String
  parameters : List Param
  return_ : Option TypeAst
  body : List Stmt

/-- A variant of a custom type: its name and its fields, with their labels. In the types of the fields, variable `i` is the parameter `i` of
the custom type. -/
structure Variant where
  name : String
  fields : List (Option String × Ty Nat)

/-- A custom type. -/
structure CustomType where
  module : String
  name : String
  parameters : Nat
  variants : List Variant

/-- A module: its custom types, and its functions grouped such that a function calls only functions of its own group and of earlier
groups (`call_graph.rs`, see `CallGraph`). -/
structure Module where
  name : String
  types : List CustomType
  groups : List (List Fun)

def Module.funs (m : Module) : List Fun := m.groups.flatten

/-! ### The prelude -/

/-- `type_/prelude.rs`: the types of the prelude that have constructors. -/
def preludeTypes : List CustomType :=
  [⟨"gleam", "Bool", 0, [⟨"True", []⟩, ⟨"False", []⟩]⟩,
   ⟨"gleam", "Nil", 0, [⟨"Nil", []⟩]⟩,
   ⟨"gleam", "Result", 2, [⟨"Ok", [(none, .var 0)]⟩, ⟨"Error", [(none, .var 1)]⟩]⟩]

/-- All the custom types that a module knows. Its own come first: they are found instead of the prelude's. -/
def Module.allTypes (m : Module) : List CustomType := m.types ++ preludeTypes

def named0 {V : Type} (name : String) : Ty V := .named "gleam" name .nil

def tInt {V : Type} : Ty V := named0 "Int"
def tFloat {V : Type} : Ty V := named0 "Float"
def tString {V : Type} : Ty V := named0 "String"
def tBool {V : Type} : Ty V := named0 "Bool"
def tNil {V : Type} : Ty V := named0 "Nil"
def tList {V : Type} (t : Ty V) : Ty V := .named "gleam" "List" (.cons t .nil)

/-! ### Types of constructors -/

/-- Types for `k` parameters, from `i` on. -/
def parameterTypes {V : Type} (f : Nat → Ty V) (i : Nat) : Nat → Tys V
  | 0 => .nil
  | k + 1 => .cons (f i) (parameterTypes f (i + 1) k)

/-- The custom type, applied to types for its parameters. -/
def CustomType.result {V : Type} (ct : CustomType) (f : Nat → Ty V) : Ty V := .named ct.module ct.name (parameterTypes f 0 ct.parameters)

def fieldTypes {V : Type} (f : Nat → Ty V) : List (Option String × Ty Nat) → Tys V
  | [] => .nil
  | (_, t) :: fs => .cons (t.sub f) (fieldTypes f fs)

/-- `analyse.rs:1246-1252`: the type of a constructor. -/
def constructorType {V : Type} (ct : CustomType) (v : Variant) (f : Nat → Ty V) : Ty V :=
  match v.fields with
  | [] => ct.result f
  | fs => .fn (fieldTypes f fs) (ct.result f)

end Verif.Infer
