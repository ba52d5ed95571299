import Verif.ErlGen.Syntax

/-!
# Programs as they are written

The expressions of `ErlGen/Syntax.lean` with the notations that the parser and the type checker take apart: pipelines, `use`,
captures and record updates with labels. Left out: constants, guards and alternatives of clauses, `let assert`, `assert`,
`echo`, floats and bit arrays. The arguments of a call stand in the order of the parameters (labels: C09).
-/

namespace Verif.Sugar

open Verif.ErlText (Text)
open Verif.Strings.Spec (Piece)
open Verif.ErlGen (Loc Pattern Op ErrorKind)

/-- A parameter of a function: a name and its place, or a discard. -/
abbrev Parameter := Option (Text × Loc)

mutual

/-- `ast/untyped.rs:20-190` `UntypedExpr`. -/
inductive Expr where
  | int (n : Int)
  | string (pieces : List Piece)
  | var (name : Text) (loc : Loc)
  | ctor (tag : Text) (arity : Nat)
  | fnRef (module : Option Text) (name : Text) (arity : Nat)
  | block (body : List Stmt)
  | not (e : Expr)
  | neg (e : Expr)
  | bin (op : Op) (left right : Expr)
  | nil
  | cons (head tail : Expr)
  | tuple (items : List Expr)
  | index (e : Expr) (i : Nat)
  | field (e : Expr) (i : Nat)
  | fn (parameters : List Parameter) (body : List Stmt)
  /-- `f(a, _, b)`: with a hole it is a capture. -/
  | call (called : Expr) (arguments : List Arg)
  /-- `first |> step |> step`, with the place of the first value. -/
  | pipeline (loc : Loc) (first : Expr) (steps : List Step)
  /-- `Tag(..record, label: value)`: the labels of the fields of `Tag` in the order of the fields (a field may have none),
  the place of the record and what is given. -/
  | update (loc : Loc) (record : Expr) (tag : Text) (labels : List (Option Text)) (given : List Given)
  /-- `todo` and `panic` on a line. -/
  | fail (kind : ErrorKind) (line : Nat)
  | case_ (subjects : List Expr) (clauses : List Clause)

/-- `parse.rs` `ParserArg`: an argument, or a hole at a place. -/
inductive Arg where
  | expr (e : Expr)
  | hole (loc : Loc)

/-- A step of a pipeline and its place. If it is a call, `known` is the number of parameters of what is called, if its
type is known to be that of a function. -/
inductive Step where
  | mk (known : Option Nat) (loc : Loc) (e : Expr)

/-- A field of a record update. -/
inductive Given where
  | mk (label : Text) (value : Expr)

/-- The patterns of a clause and its body. -/
inductive Clause where
  | mk (patterns : List Pattern) (body : Expr)

/-- `ast.rs` `Statement`. The patterns of a `use` have places; it is on a line. -/
inductive Stmt where
  | expr (e : Expr)
  | let_ (pattern : Pattern) (value : Expr)
  | use_ (patterns : List (Pattern × Loc)) (call : Expr) (line : Nat)

end

/-- A function of the module. -/
structure Fun where
  name : Text
  parameters : List Parameter
  body : List Stmt

/-- Whether an argument is a hole. -/
def Arg.isHole : Arg → Bool
  | .hole _ => true
  | .expr _ => false

/-- The number of holes of a call. -/
def holes (arguments : List Arg) : Nat := (arguments.filter Arg.isHole).length

/-! ### Programs that the compiler accepts

Only what matters here: names are not those that the compiler makes up itself, a call has at most one hole, a pipeline has a
step, the labels of a record update are labels of the record and are given once, and the patterns of a `use` have different
variables. -/

/-- The names of variables do not start with an underscore. -/
def userName (x : Text) : Bool := x.head? != some '_'

def okPattern (p : Pattern) : Bool := p.vars.all fun v => userName v.1

def okParameters (ps : List Parameter) : Bool := ps.all fun
  | some (x, _) => userName x
  | none => true

/-- No label twice, and all of them labels of fields. -/
def okLabels (labels : List (Option Text)) (given : List Text) : Bool :=
  decide given.Nodup && decide (labels.filterMap id).Nodup && given.all fun l => labels.contains (some l)

def Given.label : Given → Text
  | .mk l _ => l

mutual

def Expr.ok : Expr → Bool
  | .int _ => true
  | .string _ => true
  | .var x _ => userName x
  | .ctor _ _ => true
  | .fnRef _ _ _ => true
  | .block body => stmtsOk body
  | .not e => e.ok
  | .neg e => e.ok
  | .bin _ l r => l.ok && r.ok
  | .nil => true
  | .cons h t => h.ok && t.ok
  | .tuple es => exprsOk es
  | .index e _ => e.ok
  | .field e _ => e.ok
  | .fn ps body => okParameters ps && stmtsOk body
  | .call f es => f.ok && argsOk es && decide (holes es ≤ 1)
  | .pipeline _ e steps => e.ok && stepsOk steps && !steps.isEmpty
  | .update _ e _ labels given => e.ok && givenOk given && okLabels labels (given.map Given.label)
  | .fail _ _ => true
  | .case_ es cs => exprsOk es && clausesOk cs

def exprsOk : List Expr → Bool
  | [] => true
  | e :: es => e.ok && exprsOk es

def argsOk : List Arg → Bool
  | [] => true
  | .expr e :: es => e.ok && argsOk es
  | .hole _ :: es => argsOk es

def stepsOk : List Step → Bool
  | [] => true
  | .mk _ _ e :: ss => e.ok && stepsOk ss

def givenOk : List Given → Bool
  | [] => true
  | .mk _ e :: gs => e.ok && givenOk gs

def clausesOk : List Clause → Bool
  | [] => true
  | .mk ps e :: cs => ps.all okPattern && e.ok && clausesOk cs

def stmtsOk : List Stmt → Bool
  | [] => true
  | .expr e :: ss => e.ok && stmtsOk ss
  | .let_ p e :: ss => okPattern p && e.ok && stmtsOk ss
  | .use_ ps e _ :: ss => ps.all (fun p => okPattern p.1) &&
      decide ((ps.flatMap fun p => p.1.vars.map Prod.fst).Nodup) && e.ok && stmtsOk ss

end

def Fun.ok (f : Fun) : Bool := okParameters f.parameters && stmtsOk f.body

end Verif.Sugar
