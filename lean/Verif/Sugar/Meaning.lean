import Verif.Sugar.Syntax
import Verif.ErlGen.Gleam

/-!
# What the notations mean

An evaluator for programs as they are written, from the language tour (https://tour.gleam.run). It knows nothing about how
the compiler takes the notations apart.

* `a |> f(b, c)`: `a` is evaluated, then `f`, `b` and `c`, and `f` is called with `a`, `b` and `c`. If `f` is known to take two
  arguments only, it is called with `b` and `c`, and what it returns is called with `a`. A step that is not a call is
  evaluated and called with `a`.
* `use p, q <- f(a)` followed by more statements: `f` is called with `a` and a function that, when called with two values, matches
  them with `p` and `q` and runs the statements. If no statements follow, it fails with a `todo`.
* `f(a, _, b)` is a function that evaluates `f`, `a` and `b` when it is called with a value, and calls `f` with `a`, the value
  and `b`.
* `Tag(..r, x: e)` is a record like `r`, with the value of `e` in the field `x`. `r` is evaluated first, and then what is given,
  in the order of the fields.
-/

namespace Verif.Sugar

open Verif.ErlText (Text)
open Verif.Strings.Spec (Piece)
open Verif.ErlGen (Loc Pattern Op ErrorKind M Match)
open Verif.ErlGen.Gleam (Panic both literal stripPrefix)

inductive Value where
  | int (n : Int)
  | str (s : List Char)
  | tuple (vs : List Value)
  | nil
  | cons (head tail : Value)
  | record (tag : Text) (fields : List Value)
  /-- A constructor used as a function. -/
  | ctor (tag : Text) (arity : Nat)
  | fn (module : Option Text) (name : Text) (arity : Nat)
  /-- An anonymous function. -/
  | closure (parameters : List Parameter) (body : List Stmt) (env : List (Text × Value))
  /-- A call with a hole. -/
  | capture (called : Expr) (arguments : List Arg) (env : List (Text × Value))
  /-- What a `use` does with the values it gets. -/
  | callback (patterns : List Pattern) (line : Nat) (rest : List Stmt) (env : List (Text × Value))

abbrev Env := List (Text × Value)

abbrev Run (W α : Type) := M W Panic α

def Value.bool : Bool → Value
  | true => .record "True".toList []
  | false => .record "False".toList []

mutual

/-- `==`. Values of different types and functions are not compared. -/
def Value.eq : Value → Value → Option Bool
  | .int a, .int b => some (decide (a = b))
  | .str a, .str b => some (decide (a = b))
  | .tuple as, .tuple bs => eqAll as bs
  | .nil, .nil => some true
  | .nil, .cons _ _ => some false
  | .cons _ _, .nil => some false
  | .cons a as, .cons b bs => both (a.eq b) (as.eq bs)
  | .record t as, .record u bs => if t = u then eqAll as bs else some false
  | _, _ => none

def eqAll : List Value → List Value → Option Bool
  | [], [] => some true
  | a :: as, b :: bs => both (a.eq b) (eqAll as bs)
  | _, _ => none

end

/-- The operators that evaluate both of their operands. -/
def binary : Op → Value → Value → Option Value
  | .eq, a, b => (a.eq b).map .bool
  | .notEq, a, b => (a.eq b).map fun r => .bool !r
  | .lt, .int a, .int b => some (.bool (decide (a < b)))
  | .le, .int a, .int b => some (.bool (decide (a ≤ b)))
  | .gt, .int a, .int b => some (.bool (decide (b < a)))
  | .ge, .int a, .int b => some (.bool (decide (b ≤ a)))
  | .add, .int a, .int b => some (.int (a + b))
  | .sub, .int a, .int b => some (.int (a - b))
  | .mul, .int a, .int b => some (.int (a * b))
  | .div, .int a, .int b => some (.int (if b = 0 then 0 else a.tdiv b))
  | .rem, .int a, .int b => some (.int (if b = 0 then 0 else a.tmod b))
  | .concat, .str a, .str b => some (.str (a ++ b))
  | _, _, _ => none

/-- Booleans. -/
def Value.isTrue : Value → Option Bool
  | .record tag [] => if tag = "True".toList then some true else if tag = "False".toList then some false else none
  | _ => none

/-- A variable, if there is one. -/
def bindOption : Parameter → Value → Env
  | some (x, _), v => [(x, v)]
  | none, _ => []

mutual

/-- Matches a value with a pattern. -/
def matchOne : Pattern → Value → Match Value
  | .discard, _ => .yes []
  | .int n, .int m => if n = m then .yes [] else .no
  | .string ps, .str s =>
    match literal ps with
    | some t => if s = t then .yes [] else .no
    | none => .bad
  | .var x _, v => .yes [(x, v)]
  | .assign p x _, v =>
    match matchOne p v with
    | .yes b => .yes (b ++ [(x, v)])
    | r => r
  | .tuple ps, .tuple vs => matchAll ps vs
  | .nil, .nil => .yes []
  | .nil, .cons _ _ => .no
  | .cons _ _, .nil => .no
  | .cons p q, .cons v w =>
    match matchOne p v with
    | .yes b =>
      match matchOne q w with
      | .yes c => .yes (b ++ c)
      | r => r
    | .no => .no
    | .bad => .bad
  | .ctor tag ps, .record tag' vs => if tag = tag' then matchAll ps vs else .no
  | .prefix ps left right, .str s =>
    match literal ps with
    | some t =>
      match stripPrefix t s with
      | some rest => .yes (bindOption left (.str t) ++ bindOption right (.str rest))
      | none => .no
    | none => .bad
  | _, _ => .bad

def matchAll : List Pattern → List Value → Match Value
  | [], [] => .yes []
  | p :: ps, v :: vs =>
    match matchOne p v with
    | .yes b =>
      match matchAll ps vs with
      | .yes c => .yes (b ++ c)
      | r => r
    | .no => .no
    | .bad => .bad
  | _, _ => .bad

end

/-- Arguments for parameters. -/
def bindParameters : List Parameter → List Value → Option Env
  | [], [] => some []
  | p :: ps, v :: vs => (bindParameters ps vs).map (bindOption p v ++ ·)
  | _, _ => none

def failure {W α : Type} (kind : ErrorKind) (line : Nat) : Run W α :=
  M.error ⟨kind, (ErlGen.Gleam.ErrorKind.message kind).toList, line, none⟩

/-- One computation after the other. -/
def inOrder {W : Type} : List (Run W Value) → Run W (List Value)
  | [] => M.pure []
  | m :: ms => m.bind fun v => (inOrder ms).bind fun vs => M.pure (v :: vs)

variable {W : Type} (ap : Value → List Value → Run W Value)

/-- A call, given what is called, its evaluation and the evaluation of the arguments. Constructors make records. -/
def calling (called : Expr) (function : Run W Value) (arguments : Run W (List Value)) : Run W Value :=
  match called with
  | .ctor tag _ => arguments.bind fun vs => M.pure (.record tag vs)
  | _ => function.bind fun f => arguments.bind fun vs => ap f vs

/-- The fields of a record update: what is given for a label, or the field of the old record. -/
def updated (old : List Value) (given : List (Text × Run W Value)) (labels : List (Option Text)) : List (Run W Value) :=
  labels.mapIdx fun i label =>
    match label.bind fun l => given.lookup l with
    | some new => new
    | none => M.ofOption old[i]?

mutual

def expr (env : Env) : Expr → Run W Value
  | .int n => M.pure (.int n)
  | .string ps => M.ofOption ((literal ps).map .str)
  | .var x _ => M.ofOption (env.lookup x)
  | .ctor tag 0 => M.pure (.record tag [])
  | .ctor tag (arity + 1) => M.pure (.ctor tag (arity + 1))
  | .fnRef m f arity => M.pure (.fn m f arity)
  | .block body => stmts env body
  | .not e => (expr env e).bind fun v => M.ofOption (v.isTrue.map fun b => .bool !b)
  | .neg e => (expr env e).bind fun v =>
    match v with
    | .int n => M.pure (.int (-n))
    | _ => M.stuck
  | .bin .and l r => (expr env l).bind fun v =>
    match v.isTrue with
    | some true => (expr env r).bind fun w => M.ofOption (w.isTrue.map .bool)
    | some false => M.pure (.bool false)
    | none => M.stuck
  | .bin .or l r => (expr env l).bind fun v =>
    match v.isTrue with
    | some true => M.pure (.bool true)
    | some false => (expr env r).bind fun w => M.ofOption (w.isTrue.map .bool)
    | none => M.stuck
  | .bin op l r => (expr env l).bind fun v => (expr env r).bind fun w => M.ofOption (binary op v w)
  | .nil => M.pure .nil
  | .cons h t => (expr env h).bind fun v => (expr env t).bind fun w => M.pure (.cons v w)
  | .tuple es => (exprs env es).bind fun vs => M.pure (.tuple vs)
  | .index e i => (expr env e).bind fun v =>
    match v with
    | .tuple vs => M.ofOption vs[i]?
    | _ => M.stuck
  | .field e i => (expr env e).bind fun v =>
    match v with
    | .record _ vs => M.ofOption vs[i]?
    | _ => M.stuck
  | .fn params body => M.pure (.closure params body env)
  | .call f es =>
    if holes es = 0 then calling ap f (expr env f) (args env none es) else M.pure (.capture f es env)
  | .pipeline _ e ss => (expr env e).bind fun v => steps env v ss
  | .update _ e tag labels gs => (expr env e).bind fun v =>
    match v with
    | .record _ old => (inOrder (updated old (givens env gs) labels)).bind fun vs => M.pure (.record tag vs)
    | _ => M.stuck
  | .fail kind line => failure kind line
  | .case_ es cs => (exprs env es).bind fun vs => clauses env vs cs

def exprs (env : Env) : List Expr → Run W (List Value)
  | [] => M.pure []
  | e :: es => (expr env e).bind fun v => (exprs env es).bind fun vs => M.pure (v :: vs)

/-- The arguments of a call, with a value for the hole. -/
def args (env : Env) (hole : Option Value) : List Arg → Run W (List Value)
  | [] => M.pure []
  | .expr e :: es => (expr env e).bind fun v => (args env hole es).bind fun vs => M.pure (v :: vs)
  | .hole _ :: es => (M.ofOption hole).bind fun v => (args env hole es).bind fun vs => M.pure (v :: vs)

/-- The steps of a pipeline after a value. -/
def steps (env : Env) (v : Value) : List Step → Run W Value
  | [] => M.pure v
  | .mk known _ (.call f es) :: ss =>
    (if holes es = 0 then
      if known = some es.length then (calling ap f (expr env f) (args env none es)).bind fun g => ap g [v]
      else calling ap f (expr env f) ((args env none es).bind fun vs => M.pure (v :: vs))
    else ap (.capture f es env) [v]).bind fun w => steps env w ss
  | .mk _ _ e :: ss => (calling ap e (expr env e) (M.pure [v])).bind fun w => steps env w ss

/-- What is given in a record update. -/
def givens (env : Env) : List Given → List (Text × Run W Value)
  | [] => []
  | .mk label e :: gs => (label, expr env e) :: givens env gs

/-- Statements; the value of the last one is the value of all. -/
def stmts (env : Env) : List Stmt → Run W Value
  | [] => M.stuck
  | .expr e :: ss =>
    match ss with
    | [] => expr env e
    | s :: ss => (expr env e).bind fun _ => stmts env (s :: ss)
  | .let_ p e :: ss => (expr env e).bind fun v =>
    match matchOne p v with
    | .yes b =>
      match ss with
      | [] => M.pure v
      | s :: ss => stmts (b ++ env) (s :: ss)
    | _ => M.stuck
  | .use_ ps (.call f es) line :: ss =>
    if holes es = 0 then
      calling ap f (expr env f)
        ((args env none es).bind fun vs => M.pure (vs ++ [.callback (ps.map Prod.fst) line ss env]))
    else ap (.capture f es env) [.callback (ps.map Prod.fst) line ss env]
  | .use_ ps e line :: ss => calling ap e (expr env e) (M.pure [.callback (ps.map Prod.fst) line ss env])

/-- The first clause that matches. The type checker makes sure that there is one. -/
def clauses (env : Env) (vs : List Value) : List Clause → Run W Value
  | [] => M.stuck
  | .mk ps body :: cs =>
    if ps.length = vs.length then
      match matchAll ps vs with
      | .yes b => expr (b ++ env) body
      | .no => clauses env vs cs
      | .bad => M.stuck
    else M.stuck

end

/-- Calls of functions, up to a number of nested calls. -/
def apply {W : Type} (funs : List Fun)
    (outside : (Value → List Value → Run W Value) → Text → Text → List Value → Run W Value) :
    Nat → Value → List Value → Run W Value
  | 0, _, _ => M.timeout
  | n + 1, .closure params body env, vs =>
    match bindParameters params vs with
    | some b => stmts (apply funs outside n) (b ++ env) body
    | none => M.stuck
  | n + 1, .capture f es env, [v] =>
    calling (apply funs outside n) f (expr (apply funs outside n) env f) (args (apply funs outside n) env (some v) es)
  | n + 1, .callback ps line rest env, vs =>
    match matchAll ps vs with
    | .yes b =>
      match rest with
      | [] => failure .todo line
      | s :: ss => stmts (apply funs outside n) (b ++ env) (s :: ss)
    | _ => M.stuck
  | _ + 1, .ctor tag arity, vs => if vs.length = arity then M.pure (.record tag vs) else M.stuck
  | n + 1, .fn none f _, vs =>
    match funs.find? fun g => decide (g.name = f) with
    | some g =>
      match bindParameters g.parameters vs with
      | some b => stmts (apply funs outside n) b g.body
      | none => M.stuck
    | none => M.stuck
  | n + 1, .fn (some m) f _, vs => outside (apply funs outside n) m f vs
  | _ + 1, _, _ => M.stuck

end Verif.Sugar
