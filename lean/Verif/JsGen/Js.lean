import Verif.ErlGen.Syntax
import Verif.ErlGen.Effects

/-!
# The JavaScript that is generated, and what it means

The part of JavaScript that the generator uses, with variables as JavaScript has them: a block declares all the
variables of its `let`s when it is entered, each gets a cell of its own, reading a cell before its `let` was run is a
`ReferenceError`, functions remember the cells of the place they are written at (not the values), and assignments
change cells. It knows nothing about Gleam's evaluation.

Simplified: numbers are the integers that Gleam's are. The names of variables are a text and a number: that the printed
names are different is theorem `names_distinct` of `JsNames`. The `if`s of a decision tree are one statement that runs the first
clause that matches: that the tree does that is what `JsCase` is about. A function called immediately is run in place.
A call is counted, and so is an iteration of a loop.
-/

namespace Verif.JsGen

open Verif.ErlGen (Pattern Const ErrorKind AssertInfo Match M Out)
open Verif.Strings.Spec (Piece)

abbrev Text := List Char

/-- Variables: `x`, `x$1`, …, and `loop$x`. -/
inductive Name where
  | var (x : Text) (n : Nat)
  | loop (x : Text)
  deriving DecidableEq

/-- Operators, and functions of the prelude that are used as operators. -/
inductive BinOp where
  | and | or
  /-- `===` or `isEqual`, and their negations. -/
  | eq | notEq
  | lt | le | gt | ge
  /-- `+` of numbers and of strings. -/
  | add | sub | mul
  /-- `globalThis.Math.trunc(a / b)` -/
  | truncDiv
  /-- `a % b` -/
  | percent
  /-- `divideInt` and `remainderInt` of the prelude: `templates/prelude.mjs`. -/
  | divideInt | remainderInt
  deriving DecidableEq

mutual

inductive Exp where
  | int (n : Int)
  | str (pieces : List Piece)
  /-- A literal that the compiler writes. -/
  | text (s : List Char)
  | bool (b : Bool)
  | undefined
  | var (n : Name)
  /-- `$module.name` -/
  | ext (module name : Text)
  /-- A constant of the module. -/
  | const (c : Const)
  | arrow (parameters : List (Option Name)) (body : List Stm)
  /-- `(() => { … })()` -/
  | iife (body : List Stm)
  | call (f : Exp) (arguments : List Exp)
  | not (e : Exp)
  | neg (e : Exp)
  | bin (op : BinOp) (left right : Exp)
  /-- The empty list, and `listPrepend`. -/
  | empty
  | prepend (head tail : Exp)
  | array (items : List Exp)
  /-- `e[i]` of an array. -/
  | index (e : Exp) (i : Nat)
  /-- The field at a position of a record. -/
  | field (e : Exp) (i : Nat)
  /-- `new Tag(…)`, or the constant for a record without fields. -/
  | construct (tag : Text) (arguments : List Exp)

inductive Stm where
  | letInit (x : Name) (e : Exp)
  | letUninit (x : Name)
  | assign (x : Name) (e : Exp)
  | ret (e : Exp)
  | expr (e : Exp)
  /-- `throw makeError(kind, …, line, …, message, { value, … })` -/
  | throw (kind : ErrorKind) (line : Nat) (message : Exp)
  | block (body : List Stm)
  /-- The decision tree of a `case`: the first clause whose patterns match is run. -/
  | switch (subjects : List Name) (clauses : List Branch)
  /-- Declares variables for the variables of patterns that match. -/
  | destructure (subjects : List Name) (patterns : List Pattern) (vars : List (Text × Name))
  /-- `if (…) { a = …; b = … } else { throw makeError("let_assert", …) }` -/
  | assertMatch (subject : Name) (pattern : Pattern) (vars : List (Text × Name)) (info : AssertInfo) (message : Exp)

/-- The patterns of a clause, the variables that are declared for those of the patterns, and the statements. If there is a
guard, some of the variables are declared before it, and the others after it. -/
inductive Branch where
  | mk (alternatives : List (List Pattern)) (vars : List (Text × Name)) (body : List Stm)
  | guarded (alternatives : List (List Pattern)) (before : List (Text × Name)) (guard : Exp) (vars : List (Text × Name)) (body : List Stm)

end

/-- A function of a module. The parameters of a loop are the variables that the loop starts with. -/
structure Function where
  name : Text
  parameters : List (Option Name)
  /-- Whether the body is put into `while (true) { … }`. -/
  loop : Bool
  body : List Stm

abbrev Loc := Nat
abbrev Env := List (Name × Loc)

inductive Value where
  | int (n : Int)
  | str (s : List Char)
  | bool (b : Bool)
  | undefined
  | array (vs : List Value)
  | empty
  | nonEmpty (head tail : Value)
  | record (tag : Text) (fields : List Value)
  | closure (parameters : List (Option Name)) (body : List Stm) (env : Env)
  /-- A function of the module, and a function of another one. -/
  | fn (name : Text)
  | ext (module name : Text)

/-- The cell of a variable: its `let` was not run yet; it was run, without a value (reading it gives `undefined`); it has a
value. The cells of the parameters of a loop are marked, which means nothing to the program. -/
inductive Cell where
  | uninit
  | declared
  | val (v : Value)
  | param (v : Value)

abbrev Store := List Cell

/-- What can be thrown. -/
inductive Error where
  | thrown (kind : ErrorKind) (message : List Char) (line : Nat) (asserted : Option (Value × AssertInfo))
  | referenceError (x : Name)
  | typeError

abbrev Run (W α : Type) := M (Store × W) Error α

/-- How a statement ends. -/
inductive Completion where
  | normal
  | ret (v : Value)

/-! ### Cells -/

def alloc {W : Type} (c : Cell) : Run W Loc := fun (s, w) => (.val s.length, s ++ [c], w)

def getCell {W : Type} (l : Loc) : Run W Cell := fun (s, w) =>
  match s[l]? with
  | some c => (.val c, s, w)
  | none => (.stuck, s, w)

def setCell {W : Type} (l : Loc) (c : Cell) : Run W Unit := fun (s, w) => (.val (), s.set l c, w)

/-- The variables that statements declare, not looking into blocks. -/
def declared : List Stm → List Name
  | [] => []
  | .letInit x _ :: ss => x :: declared ss
  | .letUninit x :: ss => x :: declared ss
  | .destructure _ _ vs :: ss => vs.map (·.2) ++ declared ss
  | _ :: ss => declared ss

/-- Cells for variables. -/
def declare {W : Type} (c : Cell) : List Name → Env → Run W Env
  | [], env => M.pure env
  | x :: xs, env => (alloc c).bind fun l => declare c xs ((x, l) :: env)

/-- The value of a variable; functions of the module can be used everywhere. -/
def read {W : Type} (globals : List Text) (env : Env) (x : Name) : Run W Value :=
  match env.lookup x with
  | some l => (getCell l).bind fun c =>
    match c with
    | .uninit => M.error (.referenceError x)
    | .declared => M.pure .undefined
    | .val v => M.pure v
    | .param v => M.pure v
  | none =>
    match x with
    | .var f 0 => if f ∈ globals then M.pure (.fn f) else M.error (.referenceError x)
    | _ => M.error (.referenceError x)

/-- `let x = v`. -/
def initialise {W : Type} (env : Env) (x : Name) (c : Cell) : Run W Unit :=
  match env.lookup x with
  | some l => setCell l c
  | none => M.stuck

/-- `x = v`. -/
def assign {W : Type} (env : Env) (x : Name) (v : Value) : Run W Unit :=
  match env.lookup x with
  | some l => (getCell l).bind fun c =>
    match c with
    | .uninit => M.error (.referenceError x)
    | .declared => setCell l (.val v)
    | .val _ => setCell l (.val v)
    | .param _ => setCell l (.param v)
  | none => M.error (.referenceError x)

def readAll {W : Type} (globals : List Text) (env : Env) : List Name → Run W (List Value)
  | [] => M.pure []
  | x :: xs => (read globals env x).bind fun v => (readAll globals env xs).bind fun vs => M.pure (v :: vs)

/-! ### Values -/

/-- The characters of a literal. -/
def literal : List Piece → Option (List Char)
  | [] => some []
  | p :: ps =>
    match p.value?, literal ps with
    | some c, some cs => some (c :: cs)
    | _, _ => none

def andAlso : Option Bool → Option Bool → Option Bool
  | some a, some b => some (a && b)
  | _, _ => none

mutual

/-- `===` for numbers, strings, booleans and `undefined`, and `isEqual` for everything else; functions are not
compared. -/
def Value.eq : Value → Value → Option Bool
  | .int a, .int b => some (decide (a = b))
  | .str a, .str b => some (decide (a = b))
  | .bool a, .bool b => some (decide (a = b))
  | .undefined, .undefined => some true
  | .bool _, .undefined => some false
  | .bool _, .record _ _ => some false
  | .undefined, .bool _ => some false
  | .undefined, .record _ _ => some false
  | .record _ _, .bool _ => some false
  | .record _ _, .undefined => some false
  | .array as, .array bs => eqAll as bs
  | .empty, .empty => some true
  | .empty, .nonEmpty _ _ => some false
  | .nonEmpty _ _, .empty => some false
  | .nonEmpty a as, .nonEmpty b bs => andAlso (a.eq b) (as.eq bs)
  | .record t as, .record u bs => if t = u then eqAll as bs else some false
  | _, _ => none

def eqAll : List Value → List Value → Option Bool
  | [], [] => some true
  | a :: as, b :: bs => andAlso (a.eq b) (eqAll as bs)
  | _, _ => none

end

def BinOp.run : BinOp → Value → Value → Option Value
  | .eq, a, b => (a.eq b).map .bool
  | .notEq, a, b => (a.eq b).map fun r => .bool !r
  | .lt, .int a, .int b => some (.bool (decide (a < b)))
  | .le, .int a, .int b => some (.bool (decide (a ≤ b)))
  | .gt, .int a, .int b => some (.bool (decide (a > b)))
  | .ge, .int a, .int b => some (.bool (decide (a ≥ b)))
  | .add, .int a, .int b => some (.int (a + b))
  | .add, .str a, .str b => some (.str (a ++ b))
  | .sub, .int a, .int b => some (.int (a - b))
  | .mul, .int a, .int b => some (.int (a * b))
  | .truncDiv, .int a, .int b => if b = 0 then none else some (.int (a.tdiv b))
  | .percent, .int a, .int b => if b = 0 then none else some (.int (a.tmod b))
  | .divideInt, .int a, .int b => some (.int (if b = 0 then 0 else a.tdiv b))
  | .remainderInt, .int a, .int b => some (.int (if b = 0 then 0 else a.tmod b))
  | _, _, _ => none

def tagTrue : Text := "True".toList
def tagFalse : Text := "False".toList
def tagNil : Text := "Nil".toList

/-- The value of a constructor with fields: `Bool` and `Nil` have values of their own. -/
def construct (tag : Text) : List Value → Value
  | [] => if tag = tagTrue then .bool true else if tag = tagFalse then .bool false else if tag = tagNil then .undefined else .record tag []
  | v :: vs => .record tag (v :: vs)

mutual

def constant : Const → Option Value
  | .int n => some (.int n)
  | .string ps => (literal ps).map .str
  | .tuple cs => (constants cs).map .array
  | .nil => some .empty
  | .cons c d =>
    match constant c, constant d with
    | some v, some w => some (.nonEmpty v w)
    | _, _ => none
  | .record tag cs => (constants cs).map (construct tag)

def constants : List Const → Option (List Value)
  | [] => some []
  | c :: cs =>
    match constant c, constants cs with
    | some v, some vs => some (v :: vs)
    | _, _ => none

end

/-- What is left of a string after a prefix. -/
def afterPrefix : List Char → List Char → Option (List Char)
  | [], s => some s
  | c :: cs, d :: ds => if c = d then afterPrefix cs ds else none
  | _ :: _, [] => none

def bindOption : Option (Text × Nat) → Value → List (Text × Value)
  | some (x, _), v => [(x, v)]
  | none, _ => []

def boolTag (b : Bool) : Text := if b then tagTrue else tagFalse

mutual

/-- Whether a value matches a pattern, and the parts of it that the variables of the pattern are. -/
def check : Pattern → Value → Match Value
  | .discard, _ => .yes []
  | .int n, .int m => if n = m then .yes [] else .no
  | .string ps, .str s =>
    match literal ps with
    | some t => if s = t then .yes [] else .no
    | none => .bad
  | .var x _, v => .yes [(x, v)]
  | .assign p x _, v =>
    match check p v with
    | .yes b => .yes (b ++ [(x, v)])
    | r => r
  | .tuple ps, .array vs => checkAll ps vs
  | .nil, .empty => .yes []
  | .nil, .nonEmpty _ _ => .no
  | .cons _ _, .empty => .no
  | .cons p q, .nonEmpty v w =>
    match check p v with
    | .yes b =>
      match check q w with
      | .yes c => .yes (b ++ c)
      | r => r
    | .no => .no
    | .bad => .bad
  | .ctor tag ps, .bool b => if tag = boolTag b then checkAll ps [] else .no
  | .ctor tag ps, .undefined => if tag = tagNil then checkAll ps [] else .no
  | .ctor tag ps, .record tag' vs => if tag = tag' then checkAll ps vs else .no
  | .prefix ps left right, .str s =>
    match literal ps with
    | some t =>
      match afterPrefix t s with
      | some rest => .yes (bindOption left (.str t) ++ bindOption right (.str rest))
      | none => .no
    | none => .bad
  | _, _ => .bad

def checkAll : List Pattern → List Value → Match Value
  | [], [] => .yes []
  | p :: ps, v :: vs =>
    match check p v with
    | .yes b =>
      match checkAll ps vs with
      | .yes c => .yes (b ++ c)
      | r => r
    | .no => .no
    | .bad => .bad
  | _, _ => .bad

end

/-- The first alternative that matches. -/
def checkAny : List (List Pattern) → List Value → Match Value
  | [], _ => .no
  | ps :: rest, vs =>
    if ps.length = vs.length then
      match checkAll ps vs with
      | .no => checkAny rest vs
      | r => r
    else .bad

/-- `let a = …; let b = …;` for the variables of a pattern. -/
def initialiseAll {W : Type} (env : Env) (b : List (Text × Value)) : List (Text × Name) → Run W Unit
  | [] => M.pure ()
  | (x, n) :: vs =>
    match b.lookup x with
    | some v => (initialise env n (.val v)).bind fun _ => initialiseAll env b vs
    | none => M.stuck

/-- The first alternative that matches and passes a test. The test gives the variables it declared. -/
def tryEach {W : Type} (test : List (Text × Value) → Run W (Option Env)) :
    List (List Pattern) → List Value → Run W (Option (List (Text × Value) × Env))
  | [], _ => M.pure none
  | ps :: rest, vs =>
    if ps.length = vs.length then
      match checkAll ps vs with
      | .yes b => (test b).bind fun r =>
        match r with
        | some env => M.pure (some (b, env))
        | none => tryEach test rest vs
      | .no => tryEach test rest vs
      | .bad => M.stuck
    else M.stuck

/-- What an `if` does with the value of its condition. -/
def passes {W : Type} (env : Env) : Value → Run W (Option Env)
  | .bool true => M.pure (some env)
  | .bool false => M.pure none
  | _ => M.stuck

/-- `a = …; b = …;` -/
def assignAll {W : Type} (env : Env) (b : List (Text × Value)) : List (Text × Name) → Run W Unit
  | [] => M.pure ()
  | (x, n) :: vs =>
    match b.lookup x with
    | some v => (assign env n v).bind fun _ => assignAll env b vs
    | none => M.stuck

/-- `throw makeError(…)` -/
def throwWith {W α : Type} (kind : ErrorKind) (line : Nat) (asserted : Option (Value × AssertInfo)) : Value → Run W α
  | .str s => M.error (.thrown kind s line asserted)
  | _ => M.stuck

def Completion.value : Completion → Value
  | .normal => .undefined
  | .ret v => v

variable {W : Type} (globals : List Text) (ap : Value → List Value → Run W Value)

mutual

def eval (env : Env) : Exp → Run W Value
  | .int n => M.pure (.int n)
  | .str ps => M.ofOption ((literal ps).map .str)
  | .text s => M.pure (.str s)
  | .bool b => M.pure (.bool b)
  | .undefined => M.pure .undefined
  | .var x => read globals env x
  | .ext m f => M.pure (.ext m f)
  | .const c => M.ofOption (constant c)
  | .arrow ps body => M.pure (.closure ps body env)
  | .iife body => (declare .uninit (declared body) env).bind fun env => (exec env body).bind fun c => M.pure c.value
  | .call f es => (eval env f).bind fun v => (evalAll env es).bind fun vs => ap v vs
  | .not e => (eval env e).bind fun v =>
    match v with
    | .bool b => M.pure (.bool !b)
    | _ => M.stuck
  | .neg e => (eval env e).bind fun v =>
    match v with
    | .int n => M.pure (.int (-n))
    | _ => M.stuck
  | .bin .and l r => (eval env l).bind fun v =>
    match v with
    | .bool true => eval env r
    | .bool false => M.pure (.bool false)
    | _ => M.stuck
  | .bin .or l r => (eval env l).bind fun v =>
    match v with
    | .bool true => M.pure (.bool true)
    | .bool false => eval env r
    | _ => M.stuck
  | .bin op l r => (eval env l).bind fun v => (eval env r).bind fun w => M.ofOption (op.run v w)
  | .empty => M.pure .empty
  | .prepend h t => (eval env h).bind fun v => (eval env t).bind fun w => M.pure (.nonEmpty v w)
  | .array es => (evalAll env es).bind fun vs => M.pure (.array vs)
  | .index e i => (eval env e).bind fun v =>
    match v with
    | .array vs => M.ofOption vs[i]?
    | _ => M.stuck
  | .field e i => (eval env e).bind fun v =>
    match v with
    | .record _ vs => M.ofOption vs[i]?
    | _ => M.stuck
  | .construct tag es => (evalAll env es).bind fun vs => M.pure (construct tag vs)

def evalAll (env : Env) : List Exp → Run W (List Value)
  | [] => M.pure []
  | e :: es => (eval env e).bind fun v => (evalAll env es).bind fun vs => M.pure (v :: vs)

/-- Statements one after the other, up to a `return`. -/
def exec (env : Env) : List Stm → Run W Completion
  | [] => M.pure .normal
  | s :: ss => (step env s).bind fun c =>
    match c with
    | .normal => exec env ss
    | .ret v => M.pure (.ret v)

def step (env : Env) : Stm → Run W Completion
  | .letInit x e => (eval env e).bind fun v => (initialise env x (.val v)).bind fun _ => M.pure .normal
  | .letUninit x => (initialise env x .declared).bind fun _ => M.pure .normal
  | .assign x e => (eval env e).bind fun v => (assign env x v).bind fun _ => M.pure .normal
  | .ret e => (eval env e).bind fun v => M.pure (.ret v)
  | .expr e => (eval env e).bind fun _ => M.pure .normal
  | .throw kind line e => (eval env e).bind fun v => throwWith kind line none v
  | .block body => (declare .uninit (declared body) env).bind fun env => exec env body
  | .switch subjects cs => (readAll globals env subjects).bind fun vs => branches env vs cs
  | .destructure subjects ps vars => (readAll globals env subjects).bind fun vs =>
    match checkAll ps vs with
    | .yes b => (initialiseAll env b vars).bind fun _ => M.pure .normal
    | _ => M.stuck
  | .assertMatch x p vars info message => (read globals env x).bind fun v =>
    match check p v with
    | .yes b => (assignAll env b vars).bind fun _ => M.pure .normal
    | .no => (eval env message).bind fun m => throwWith .letAssert info.line (some (v, info)) m
    | .bad => M.stuck

def branches (env : Env) (vs : List Value) : List Branch → Run W Completion
  | [] => M.stuck
  | .mk alternatives vars body :: cs =>
    match checkAny alternatives vs with
    | .yes b => (declare .uninit (vars.map (·.2) ++ declared body) env).bind fun env =>
      (initialiseAll env b vars).bind fun _ => exec env body
    | .no => branches env vs cs
    | .bad => M.stuck
  | .guarded alternatives before guard vars body :: cs =>
    (tryEach (fun b => (declare .uninit (before.map (·.2)) env).bind fun env =>
      (initialiseAll env b before).bind fun _ => (eval env guard).bind fun v => passes env v) alternatives vs).bind fun r =>
    match r with
    | some (b, env) => (declare .uninit (vars.map (·.2) ++ declared body) env).bind fun env =>
      (initialiseAll env b vars).bind fun _ => exec env body
    | none => branches env vs cs

end

/-- The arguments in cells of their own. -/
def bindParameters {W : Type} (cell : Value → Cell) : List (Option Name) → List Value → Env → Run W Env
  | [], [], env => M.pure env
  | some x :: ps, v :: vs, env => (alloc (cell v)).bind fun l => bindParameters cell ps vs ((x, l) :: env)
  | none :: ps, _ :: vs, env => bindParameters cell ps vs env
  | _, _, _ => M.stuck

/-- What is run: a call, or the next iteration of the loop of a function. -/
inductive Task where
  | call (f : Value) (vs : List Value)
  | again (body : List Stm) (env : Env)

/-- Calls of functions, up to a number of nested calls and of iterations. -/
def run {W : Type} (funs : List Function)
    (outside : (Value → List Value → Run W Value) → Text → Text → List Value → Run W Value) : Nat → Task → Run W Value
  | 0, _ => M.timeout
  | n + 1, .call (.closure ps body env) vs => (bindParameters .val ps vs env).bind fun env =>
    (declare .uninit (declared body) env).bind fun env =>
      (exec (funs.map (·.name)) (fun f vs => run funs outside n (.call f vs)) env body).bind fun c => M.pure c.value
  | n + 1, .call (.fn f) vs =>
    match funs.find? fun g => decide (g.name = f) with
    | some g =>
      if g.loop then (bindParameters .param g.parameters vs []).bind fun outer =>
        (declare .uninit (declared g.body) outer).bind fun env =>
          (exec (funs.map (·.name)) (fun f vs => run funs outside n (.call f vs)) env g.body).bind fun c =>
            match c with
            | .normal => run funs outside n (.again g.body outer)
            | .ret v => M.pure v
      else (bindParameters .val g.parameters vs []).bind fun env =>
        (declare .uninit (declared g.body) env).bind fun env =>
          (exec (funs.map (·.name)) (fun f vs => run funs outside n (.call f vs)) env g.body).bind fun c => M.pure c.value
    | none => M.error .typeError
  | n + 1, .again body outer => (declare .uninit (declared body) outer).bind fun env =>
      (exec (funs.map (·.name)) (fun f vs => run funs outside n (.call f vs)) env body).bind fun c =>
        match c with
        | .normal => run funs outside n (.again body outer)
        | .ret v => M.pure v
  | n + 1, .call (.ext m f) vs => outside (fun f vs => run funs outside n (.call f vs)) m f vs
  | _ + 1, .call _ _ => M.error .typeError

end Verif.JsGen
