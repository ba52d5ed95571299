import Verif.ErlGen.Syntax
import Verif.ErlGen.Effects

/-!
# What Gleam programs mean

An evaluator for the expressions of `Syntax.lean`, written from the language tour (https://tour.gleam.run): variables
are resolved by name, the latest definition of a name is the one that counts, functions remember the variables of the
place they are written at, arguments are evaluated from left to right, division by zero is zero, the first clause with
a matching pattern and a true guard is the one that is run. It knows nothing about Erlang.

A program that is not well typed is stuck. Calls are counted, and time is out when the number of nested calls exceeds a
given number. Functions of other modules are given (`outside`), may have effects, and may call the functions they are
given.
-/

namespace Verif.ErlGen.Gleam

open Verif.ErlText (Text)
open Verif.Strings.Spec (Piece)

inductive Value where
  | int (n : Int)
  | str (s : List Char)
  | tuple (vs : List Value)
  | nil
  | cons (head tail : Value)
  | record (tag : Text) (fields : List Value)
  | closure (parameters : List (Option (Text × Loc))) (body : List Stmt) (env : List (Text × Value))
  /-- A constructor used as a function. -/
  | ctor (tag : Text) (arity : Nat)
  | fn (module : Option Text) (name : Text) (arity : Nat)

abbrev Env := List (Text × Value)

/-- A panic: its kind, its message, the line it comes from, and for a `let assert` the value that did not match and the
places in the source. -/
structure Panic where
  kind : ErrorKind
  message : List Char
  line : Nat
  asserted : Option (Value × AssertInfo)

abbrev Run (W α : Type) := M W Panic α

def Value.bool : Bool → Value
  | true => .record "True".toList []
  | false => .record "False".toList []

/-- The characters a literal stands for. -/
def literal : List Piece → Option (List Char)
  | [] => some []
  | p :: ps =>
    match p.value?, literal ps with
    | some c, some cs => some (c :: cs)
    | _, _ => none

/-- Both comparisons have to be possible. -/
def both : Option Bool → Option Bool → Option Bool
  | some a, some b => some (a && b)
  | _, _ => none

mutual

/-- `==`. Values of different types and functions are not compared. -/
def Value.eq : Value → Value → Option Bool
  | .int a, .int b => some (decide (a = b))
  | .str a, .str b => some (decide (a = b))
  | .tuple as, .tuple bs => eqAll as bs
  | .nil, .nil => some true
  | .nil, .cons _ _ => some false
  | .cons _ _, .nil => some false
  | .cons a as, .cons b bs => both (a.eq b) (as.eq bs)
  | .record t as, .record u bs => if t = u then eqAll as bs else some false
  | _, _ => none

def eqAll : List Value → List Value → Option Bool
  | [], [] => some true
  | a :: as, b :: bs => both (a.eq b) (eqAll as bs)
  | _, _ => none

end

/-- The operators that evaluate both of their operands. -/
def binary : Op → Value → Value → Option Value
  | .eq, a, b => (a.eq b).map .bool
  | .notEq, a, b => (a.eq b).map fun r => .bool !r
  | .lt, .int a, .int b => some (.bool (decide (a < b)))
  | .le, .int a, .int b => some (.bool (decide (a ≤ b)))
  | .gt, .int a, .int b => some (.bool (decide (b < a)))
  | .ge, .int a, .int b => some (.bool (decide (b ≤ a)))
  | .add, .int a, .int b => some (.int (a + b))
  | .sub, .int a, .int b => some (.int (a - b))
  | .mul, .int a, .int b => some (.int (a * b))
  | .div, .int a, .int b => some (.int (if b = 0 then 0 else a.tdiv b))
  | .rem, .int a, .int b => some (.int (if b = 0 then 0 else a.tmod b))
  | .concat, .str a, .str b => some (.str (a ++ b))
  | _, _, _ => none

/-- Booleans. -/
def Value.isTrue : Value → Option Bool
  | .record tag [] => if tag = "True".toList then some true else if tag = "False".toList then some false else none
  | _ => none

mutual

def constant : Const → Option Value
  | .int n => some (.int n)
  | .string ps => (literal ps).map .str
  | .tuple cs => (constants cs).map .tuple
  | .nil => some .nil
  | .cons c d =>
    match constant c, constant d with
    | some v, some w => some (.cons v w)
    | _, _ => none
  | .record tag cs => (constants cs).map (.record tag)

def constants : List Const → Option (List Value)
  | [] => some []
  | c :: cs =>
    match constant c, constants cs with
    | some v, some vs => some (v :: vs)
    | _, _ => none

end

/-- The rest of a string after a prefix. -/
def stripPrefix : List Char → List Char → Option (List Char)
  | [], s => some s
  | c :: cs, d :: ds => if c = d then stripPrefix cs ds else none
  | _ :: _, [] => none

/-- A variable, if there is one. -/
def bindOption : Option (Text × Loc) → Value → Env
  | some (x, _), v => [(x, v)]
  | none, _ => []

mutual

/-- Matches a value with a pattern. -/
def Pattern.run : Pattern → Value → Match Value
  | .discard, _ => .yes []
  | .int n, .int m => if n = m then .yes [] else .no
  | .string ps, .str s =>
    match literal ps with
    | some t => if s = t then .yes [] else .no
    | none => .bad
  | .var x _, v => .yes [(x, v)]
  | .assign p x _, v =>
    match Pattern.run p v with
    | .yes b => .yes (b ++ [(x, v)])
    | r => r
  | .tuple ps, .tuple vs => Pattern.runAll ps vs
  | .nil, .nil => .yes []
  | .nil, .cons _ _ => .no
  | .cons _ _, .nil => .no
  | .cons p q, .cons v w =>
    match Pattern.run p v with
    | .yes b =>
      match Pattern.run q w with
      | .yes c => .yes (b ++ c)
      | r => r
    | .no => .no
    | .bad => .bad
  | .ctor tag ps, .record tag' vs => if tag = tag' then Pattern.runAll ps vs else .no
  | .prefix ps left right, .str s =>
    match literal ps with
    | some t =>
      match stripPrefix t s with
      | some rest => .yes (bindOption left (.str t) ++ bindOption right (.str rest))
      | none => .no
    | none => .bad
  | _, _ => .bad

def Pattern.runAll : List Pattern → List Value → Match Value
  | [], [] => .yes []
  | p :: ps, v :: vs =>
    match Pattern.run p v with
    | .yes b =>
      match Pattern.runAll ps vs with
      | .yes c => .yes (b ++ c)
      | r => r
    | .no => .no
    | .bad => .bad
  | _, _ => .bad

end

/-- The value of a guard. -/
def guard (env : Env) : Guard → Option Value
  | .var x _ => env.lookup x
  | .const c => constant c
  | .block g => guard env g
  | .not g => ((guard env g).bind Value.isTrue).map fun b => .bool !b
  | .bin .and l r =>
    ((guard env l).bind Value.isTrue).bind fun b =>
      if b then ((guard env r).bind Value.isTrue).map .bool else some (.bool false)
  | .bin .or l r =>
    ((guard env l).bind Value.isTrue).bind fun b =>
      if b then some (.bool true) else ((guard env r).bind Value.isTrue).map .bool
  | .bin op l r =>
    match guard env l, guard env r with
    | some a, some b => binary op a b
    | _, _ => none
  | .index g i =>
    match guard env g with
    | some (.tuple vs) => vs[i]?
    | _ => none
  | .field g i =>
    match guard env g with
    | some (.record _ vs) => vs[i]?
    | _ => none

/-- Whether a guard holds. -/
def holds (env : Env) : Option Guard → Option Bool
  | none => some true
  | some g => (guard env g).bind Value.isTrue

/-- The first of some alternatives whose patterns match and for which the guard holds. -/
def choose (env : Env) (g : Option Guard) : List (List Pattern) → List Value → Match Value
  | [], _ => .no
  | ps :: rest, vs =>
    if ps.length = vs.length then
      match Pattern.runAll ps vs with
      | .bad => .bad
      | .no => choose env g rest vs
      | .yes b =>
        match holds (b ++ env) g with
        | none => .bad
        | some true => .yes b
        | some false => choose env g rest vs
    else .bad

/-- The message of a panic if none is written. -/
def ErrorKind.message : ErrorKind → String
  | .panic => "`panic` expression evaluated."
  | .assert => "Assertion failed."
  | .letAssert => "Pattern match failed, no pattern matched the value."
  | .todo => "`todo` expression evaluated. This code has not yet been implemented."

/-- Arguments for parameters. -/
def bindParameters : List (Option (Text × Loc)) → List Value → Option Env
  | [], [] => some []
  | p :: ps, v :: vs => (bindParameters ps vs).map (bindOption p v ++ ·)
  | _, _ => none

def panicWith {W α : Type} (kind : ErrorKind) (line : Nat) (asserted : Option (Value × AssertInfo)) : Value → Run W α
  | .str s => M.error ⟨kind, s, line, asserted⟩
  | _ => M.stuck

variable {W : Type} (ap : Value → List Value → Run W Value)

mutual

def expr (env : Env) : Expr → Run W Value
  | .int n => M.pure (.int n)
  | .string ps => M.ofOption ((literal ps).map .str)
  | .var x _ => M.ofOption (env.lookup x)
  | .ctor tag 0 => M.pure (.record tag [])
  | .ctor tag (arity + 1) => M.pure (.ctor tag (arity + 1))
  | .fnRef m f arity => M.pure (.fn m f arity)
  | .const c => M.ofOption (constant c)
  | .block body => stmts env body
  | .not e => (expr env e).bind fun v => M.ofOption (v.isTrue.map fun b => .bool !b)
  | .neg e => (expr env e).bind fun v =>
    match v with
    | .int n => M.pure (.int (-n))
    | _ => M.stuck
  | .bin .and l r => (expr env l).bind fun v =>
    match v.isTrue with
    | some true => (expr env r).bind fun w => M.ofOption (w.isTrue.map .bool)
    | some false => M.pure (.bool false)
    | none => M.stuck
  | .bin .or l r => (expr env l).bind fun v =>
    match v.isTrue with
    | some true => M.pure (.bool true)
    | some false => (expr env r).bind fun w => M.ofOption (w.isTrue.map .bool)
    | none => M.stuck
  | .bin op l r => (expr env l).bind fun v => (expr env r).bind fun w => M.ofOption (binary op v w)
  | .nil => M.pure .nil
  | .cons h t => (expr env h).bind fun v => (expr env t).bind fun w => M.pure (.cons v w)
  | .tuple es => (args env es).bind fun vs => M.pure (.tuple vs)
  | .index e i => (expr env e).bind fun v =>
    match v with
    | .tuple vs => M.ofOption vs[i]?
    | _ => M.stuck
  | .field e i => (expr env e).bind fun v =>
    match v with
    | .record _ vs => M.ofOption vs[i]?
    | _ => M.stuck
  | .update (some (x, _)) record tag es => (expr env record).bind fun v =>
    (args ((x, v) :: env) es).bind fun vs => M.pure (.record tag vs)
  | .update none _ tag es => (args env es).bind fun vs => M.pure (.record tag vs)
  | .fn params body => M.pure (.closure params body env)
  | .call (.ctor tag _) es => (args env es).bind fun vs => M.pure (.record tag vs)
  | .call f es => (expr env f).bind fun v => (args env es).bind fun vs => ap v vs
  | .pipe x _ value rest => (expr env value).bind fun v => expr ((x, v) :: env) rest
  | .fail kind line none => M.error ⟨kind, (ErrorKind.message kind).toList, line, none⟩
  | .fail kind line (some e) => (expr env e).bind fun v => panicWith kind line none v
  | .case_ subjects cs => (args env subjects).bind fun vs => clauses env vs cs

def args (env : Env) : List Expr → Run W (List Value)
  | [] => M.pure []
  | e :: es => (expr env e).bind fun v => (args env es).bind fun vs => M.pure (v :: vs)

/-- Statements; the value of the last one is the value of all. -/
def stmts (env : Env) : List Stmt → Run W Value
  | [] => M.stuck
  | [.expr e] => expr env e
  | .expr e :: s :: ss => (expr env e).bind fun _ => stmts env (s :: ss)
  | [.let_ p e] => (expr env e).bind fun v =>
    match Pattern.run p v with
    | .yes _ => M.pure v
    | _ => M.stuck
  | .let_ p e :: s :: ss => (expr env e).bind fun v =>
    match Pattern.run p v with
    | .yes b => stmts (b ++ env) (s :: ss)
    | _ => M.stuck
  | [.letAssert p e info message] => (expr env e).bind fun v =>
    match Pattern.run p v with
    | .yes _ => M.pure v
    | .no =>
      match message with
      | none => M.error ⟨.letAssert, (ErrorKind.message .letAssert).toList, info.line, some (v, info)⟩
      | some m => (expr env m).bind fun w => panicWith .letAssert info.line (some (v, info)) w
    | .bad => M.stuck
  | .letAssert p e info message :: s :: ss => (expr env e).bind fun v =>
    match Pattern.run p v with
    | .yes b => stmts (b ++ env) (s :: ss)
    | .no =>
      match message with
      | none => M.error ⟨.letAssert, (ErrorKind.message .letAssert).toList, info.line, some (v, info)⟩
      | some m => (expr env m).bind fun w => panicWith .letAssert info.line (some (v, info)) w
    | .bad => M.stuck

/-- The first clause that matches. The type checker makes sure that there is one. -/
def clauses (env : Env) (vs : List Value) : List Clause → Run W Value
  | [] => M.stuck
  | .mk ps alternatives g body :: cs =>
    match choose env g (ps :: alternatives) vs with
    | .yes b => expr (b ++ env) body
    | .no => clauses env vs cs
    | .bad => M.stuck

end

/-- Calls of functions, up to a number of nested calls. -/
def apply {W : Type} (funs : List Fun) 
    (outside : (Value → List Value → Run W Value) → Text → Text → List Value → Run W Value) :
    Nat → Value → List Value → Run W Value
  | 0, _, _ => M.timeout
  | n + 1, .closure params body env, vs =>
    match bindParameters params vs with
    | some b => stmts (apply funs outside n) (b ++ env) body
    | none => M.stuck
  | _ + 1, .ctor tag arity, vs => if vs.length = arity then M.pure (.record tag vs) else M.stuck
  | n + 1, .fn none f _, vs =>
    match funs.find? fun g => decide (g.name = f) with
    | some g =>
      match bindParameters g.parameters vs with
      | some b => stmts (apply funs outside n) b g.body
      | none => M.stuck
    | none => M.stuck
  | n + 1, .fn (some m) f _, vs => outside (apply funs outside n) m f vs
  | _ + 1, _, _ => M.stuck

end Verif.ErlGen.Gleam
