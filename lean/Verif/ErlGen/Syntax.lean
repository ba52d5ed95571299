import Verif.Strings.Spec
import Verif.ErlText.Model

/-!
# Typed Gleam expressions

The part of the typed syntax tree (`compiler-core/src/ast/typed.rs`, `ast.rs`, `ast/constant.rs`) that the model of the
Erlang code generator covers. Left out: floats, bit arrays, `echo`.
-/

namespace Verif.ErlGen

open Verif.ErlText (Text)
open Verif.Strings.Spec (Piece)

/-- The place where a variable is defined: `SrcSpan`. Only the identity of the place matters. -/
abbrev Loc := Nat

/-- Module constants, which are inlined: `ast/constant.rs:20-120`. Lists are written as chains. References to other
constants are taken as replaced. -/
inductive Const where
  | int (n : Int)
  | string (pieces : List Piece)
  | tuple (items : List Const)
  | nil
  | cons (head tail : Const)
  /-- A record: the name of its constructor and its fields. -/
  | record (tag : Text) (fields : List Const)

/-- `ast.rs` `BinOp`, without the operators of floats. -/
inductive Op where
  | and | or | eq | notEq
  | lt | le | gt | ge
  | add | sub | mul | div | rem
  | concat
  deriving DecidableEq, Repr

/-- `ast.rs:3300-3460` `Pattern`. Variables have a name and the place of their definition. A list pattern is a chain
that ends with the empty list or with the pattern of its tail. -/
inductive Pattern where
  | discard
  | int (n : Int)
  | string (pieces : List Piece)
  | var (name : Text) (loc : Loc)
  /-- `pattern as name`. -/
  | assign (pattern : Pattern) (name : Text) (loc : Loc)
  | tuple (items : List Pattern)
  | nil
  | cons (head tail : Pattern)
  | ctor (tag : Text) (arguments : List Pattern)
  /-- `"…" as left <> right`. -/
  | prefix (pieces : List Piece) (left right : Option (Text × Loc))

/-- `ast.rs` `ClauseGuard`. -/
inductive Guard where
  | var (name : Text) (loc : Loc)
  | const (c : Const)
  | block (g : Guard)
  | not (g : Guard)
  | bin (op : Op) (left right : Guard)
  | index (g : Guard) (i : Nat)
  | field (g : Guard) (i : Nat)

/-- `todo`, `panic`, `let assert` and `assert`: `erlang.rs:40-50` `RuntimeErrorKind`. -/
inductive ErrorKind where
  | todo | panic | letAssert | assert
  deriving DecidableEq, Repr

/-- The numbers that `let assert` puts into its error: the line, and the start and end of the statement and of the
pattern. -/
structure AssertInfo where
  line : Nat
  start : Nat
  stop : Nat
  patternStart : Nat
  patternStop : Nat

mutual

/-- `ast/typed.rs:20-210` `TypedExpr`. -/
inductive Expr where
  | int (n : Int)
  | string (pieces : List Piece)
  /-- A local variable: its name, and the place where the type checker found its definition. -/
  | var (name : Text) (loc : Loc)
  /-- A constructor that is not called. -/
  | ctor (tag : Text) (arity : Nat)
  /-- A function of a module that is not called; of this module if there is no module name. An external function is
  a function of its Erlang module. -/
  | fnRef (module : Option Text) (name : Text) (arity : Nat)
  | const (c : Const)
  | block (body : List Stmt)
  | not (e : Expr)
  | neg (e : Expr)
  | bin (op : Op) (left right : Expr)
  | nil
  | cons (head tail : Expr)
  | tuple (items : List Expr)
  /-- `e.i` for a tuple. -/
  | index (e : Expr) (i : Nat)
  /-- The access of the field at a position of a record. -/
  | field (e : Expr) (i : Nat)
  /-- A record update. The record is bound to a variable first if it is not a variable already. The arguments are all
  the fields of the new record. -/
  | update (assigned : Option (Text × Loc)) (record : Expr) (tag : Text) (arguments : List Expr)
  /-- An anonymous function; discarded parameters have no name. -/
  | fn (parameters : List (Option (Text × Loc))) (body : List Stmt)
  | call (called : Expr) (arguments : List Expr)
  /-- A step of a pipeline: a value bound to a variable, and the rest of the pipeline. -/
  | pipe (name : Text) (loc : Loc) (value rest : Expr)
  /-- `todo` and `panic` on a line, with a message. -/
  | fail (kind : ErrorKind) (line : Nat) (message : Option Expr)
  | case_ (subjects : List Expr) (clauses : List Clause)

/-- The patterns of a clause (one for each subject), its alternatives, its guard and its body. -/
inductive Clause where
  | mk (patterns : List Pattern) (alternatives : List (List Pattern)) (guard : Option Guard) (body : Expr)

/-- `ast.rs` `Statement`. A `use` is a call. -/
inductive Stmt where
  | expr (e : Expr)
  | let_ (pattern : Pattern) (value : Expr)
  | letAssert (pattern : Pattern) (value : Expr) (info : AssertInfo) (message : Option Expr)

end

/-- A function of the module. -/
structure Fun where
  name : Text
  parameters : List (Option (Text × Loc))
  body : List Stmt

/-! ### Variables of patterns -/

mutual

/-- The variables that a pattern binds, with the places of their definitions. -/
def Pattern.vars : Pattern → List (Text × Loc)
  | .discard => []
  | .int _ => []
  | .string _ => []
  | .var x l => [(x, l)]
  | .assign p x l => p.vars ++ [(x, l)]
  | .tuple ps => varsAll ps
  | .nil => []
  | .cons p q => p.vars ++ q.vars
  | .ctor _ ps => varsAll ps
  | .prefix _ left right => left.toList ++ right.toList

def varsAll : List Pattern → List (Text × Loc)
  | [] => []
  | p :: ps => p.vars ++ varsAll ps

end

end Verif.ErlGen
