import Verif.JsGen.Js
import Verif.JsNames.Model
import Verif.ErlGen.Gleam

/-!
# The JavaScript code generator

`compiler-core/src/javascript/expression.rs` and `decision.rs`: how expressions, which JavaScript has as statements, are
put in the places where Gleam has them, how variables get their names, and how a function that calls itself last becomes
a loop.

Left out: floats, bit arrays, `echo`, `assert`. The decision tree is one statement that runs the first clause
that matches (its own `$` variables are not there, and the variables of a guard are in a scope of their own, also if the
tree is not in one). Variables of other modules, constructors and field names are not printed.
-/

namespace Verif.JsGen

open Verif.ErlGen (Pattern Const ErrorKind AssertInfo Expr Stmt Clause Guard Op varsAll)
open Verif.Strings.Spec (Piece)

/-! ### Names -/

/-- `expression.rs:142-156` `Scope`: the number of each name, and the highest number that each name had. The fields for
the names the compiler makes up are in the same function. -/
structure Scope where
  counter : Text → Option Nat
  high : Text → Option Nat

/-- The names that the compiler makes up: `ast.rs:44-50`, `decision.rs:32`. -/
def synthetic (x : Text) : Bool := decide (x ∈ JsNames.synthTexts)

/-- `map_or(0, |i| i + 1)` -/
def succ : Option Nat → Nat
  | none => 0
  | some n => n + 1

def setAt (f : Text → Option Nat) (x : Text) (n : Nat) : Text → Option Nat := fun y => if y = x then some n else f y

/-- The number that `expression.rs:202-212` `advance_counter` picks. -/
def Scope.fresh (σ : Scope) (x : Text) : Nat := max (succ (σ.counter x)) (succ (σ.high x))

/-- `expression.rs:334-337` `next_local_var`. -/
def Scope.next (σ : Scope) (x : Text) : Scope :=
  ⟨setAt σ.counter x (σ.fresh x), if synthetic x then σ.high else setAt σ.high x (σ.fresh x)⟩

/-- `expression.rs:322-332` `local_var`. Simplified: a name without a number does not get the number 0 for the code that
follows; all names in scope have a number. -/
def Scope.name (σ : Scope) (x : Text) : Name := .var x ((σ.counter x).getD 0)

/-- `expression.rs:223-225` `restore_user_variables`. -/
def Scope.restore (σ previous : Scope) : Scope :=
  ⟨fun x => if synthetic x then σ.counter x else (previous.counter x).orElse fun _ => σ.counter x, σ.high⟩

/-- `set_counter(name, 0)` for parameters: `expression.rs:294-304`, `1978-1981`. -/
def Scope.parameters (σ : Scope) : List (Option (Text × Nat)) → Scope
  | [] => σ
  | some (x, _) :: ps => Scope.parameters ⟨setAt σ.counter x 0, σ.high⟩ ps
  | none :: ps => σ.parameters ps

/-- `next_local_var` for the variables of patterns: `decision.rs:1440-1470`. -/
def Scope.binds (σ : Scope) : List (Text × Nat) → List (Text × Name) × Scope
  | [] => ([], σ)
  | (x, _) :: xs =>
    let r := (σ.next x).binds xs
    ((x, .var x (σ.fresh x)) :: r.1, r.2)

def subjectText : Text := ['$']
def blockText : Text := "_block".toList

/-- `fun_arguments`: parameters. -/
def parameterNames (ps : List (Option (Text × Nat))) : List (Option Name) := ps.map fun p => p.map fun (x, _) => .var x 0

/-! ### Positions -/

/-- `expression.rs:85-88` `Ordering`. -/
inductive Ord where
  | strict | loose

/-- `expression.rs:17-36` `Position`, without `Expression`. -/
inductive Pos where
  | tail
  | stmt
  | assign (x : Name)

/-- The position of an expression: inside another one, or as a statement. For statements: whether the position in the
function is the last one (`function_position`), and the position in the scope (`scope_position`). -/
inductive Mode where
  | exp (o : Ord)
  | stm (last : Bool) (pos : Pos)

/-- `Position::ordering`, `expression.rs:47-53`, and `not_in_tail_position(None, …)`, `813-839`. -/
def Mode.inner : Mode → Mode
  | .exp o => .exp o
  | .stm _ _ => .exp .loose

/-- `expression.rs:796-811` `wrap_return`. -/
def Pos.give : Pos → Exp → List Stm
  | .tail, e => [.ret e]
  | .stmt, e => [.expr e]
  | .assign x, e => [.assign x e]

/-- What follows an assignment: `expression.rs:1228-1248`, `decision.rs:1156-1179`. -/
def Pos.giveName : Pos → Name → List Stm
  | .tail, x => [.ret (.var x)]
  | .stmt, _ => []
  | .assign b, x => [.assign b (.var x)]

/-- The fields of the generator that change: `current_scope` and `statement_level`. -/
structure State where
  scope : Scope
  level : List Stm

/-- What is generated for an expression: an expression or statements; and `tail_recursion_used`. -/
structure Res where
  exp : Exp
  stms : List Stm
  state : State
  looped : Bool

/-- What is fixed: which constructors are the only ones of their types; the function and its parameters, unless
it is an anonymous one or one of its parameters has its name (`CurrentFunction`, `expression.rs:92-128`). -/
structure Context where
  single : Text → Bool
  self : Option (Text × List (Option (Text × Nat)))

/-- The end of `expression.rs:430-556` `expression` for expressions of JavaScript. -/
def plain (m : Mode) (st : State) (e : Exp) : Res :=
  match m with
  | .exp _ => ⟨e, [], st, false⟩
  | .stm _ pos => ⟨.undefined, pos.give e, st, false⟩

/-- `expression.rs:842-882` `wrap_expression` for what is statements in JavaScript: `927-957`
`immediately_invoked_function_expression` and `959-1000` `wrap_block`. -/
def place (m : Mode) (st : State) (core : Bool → Pos → State → Res) : Res :=
  match m with
  | .exp .strict =>
    let r := core false .tail ⟨st.scope, []⟩
    ⟨.iife (r.state.level ++ r.stms), [], st, false⟩
  | .exp .loose =>
    let b := Name.var blockText (st.scope.fresh blockText)
    let r := core false (.assign b) ⟨st.scope.next blockText, st.level⟩
    ⟨.var b, [], ⟨r.state.scope, r.state.level ++ .letUninit b :: r.stms⟩, false⟩
  | .stm last pos => core last pos st

/-! ### Clauses that return what they match -/

/-- A block around one expression. -/
def unblock : Expr → Expr
  | .block [.expr e] => unblock e
  | e => e

def sameVar (x : Text) : Expr → Bool
  | .var y _ => decide (x = y)
  | _ => false

def samePieces : List Piece → List Piece → Bool
  | [], [] => true
  | .char c :: ps, .char d :: qs => decide (c = d) && samePieces ps qs
  | .newline :: ps, .newline :: qs => samePieces ps qs
  | .carriageReturn :: ps, .carriageReturn :: qs => samePieces ps qs
  | .formFeed :: ps, .formFeed :: qs => samePieces ps qs
  | .tab :: ps, .tab :: qs => samePieces ps qs
  | .quote :: ps, .quote :: qs => samePieces ps qs
  | .backslash :: ps, .backslash :: qs => samePieces ps qs
  | .unicode a :: ps, .unicode b :: qs => decide (a = b) && samePieces ps qs
  | _, _ => false

mutual

/-- `ast.rs:2185-2430` `pattern_and_expression_are_the_same`. A constructor that is not called has no fields (the types of the
pattern and the body are the same if they are not functions). -/
def same : Pattern → Expr → Bool
  | .var x _, e => sameVar x (unblock e)
  | .int n, e =>
    match unblock e with
    | .int m => decide (n = m)
    | _ => false
  | .string ps, e =>
    match unblock e with
    | .string qs => samePieces ps qs
    | _ => false
  | .prefix ps left right, e =>
    match unblock e with
    | .bin .concat l r =>
      (match l with
        | .string qs => samePieces ps qs
        | l =>
          match left with
          | some (x, _) => sameVar x l
          | none => false) &&
      match right with
      | some (x, _) => sameVar x r
      | none => false
    | _ => false
  | .tuple ps, e =>
    match unblock e with
    | .tuple es => sameAll ps es
    | _ => false
  | .nil, e =>
    match unblock e with
    | .nil => true
    | _ => false
  | .cons p q, e =>
    match unblock e with
    | .cons h t => same p h && same q t
    | _ => false
  | .ctor tag ps, e =>
    match unblock e with
    | .call (.ctor tag' _) es => decide (tag = tag') && sameAll ps es
    | .ctor tag' 0 => decide (tag = tag') && ps.isEmpty
    | _ => false
  | .assign p x _, e =>
    match unblock e with
    | .var y _ => decide (x = y)
    | e => same p e
  | .discard, _ => false

def sameAll : List Pattern → List Expr → Bool
  | [], [] => true
  | p :: ps, e :: es => same p e && sameAll ps es
  | _, _ => false

end

/-- The first pattern that is the same as the body. -/
def findSame (body : Expr) : List Pattern → List Name → Option Name
  | p :: ps, x :: xs => if same p body then some x else findSame body ps xs
  | _, _ => none

/-- `ast.rs:2121-2131` `returned_subject`. -/
def returned (ps : List Pattern) (alternatives : List (List Pattern)) (body : Expr) (names : List Name) : Option Name :=
  if alternatives.isEmpty then findSame body ps names else none

/-! ### Decision trees without a choice -/

/-- Patterns that are looked at without a `Decision::Switch`. -/
def bare : Pattern → Bool
  | .discard => true
  | .var _ _ => true
  | .assign p _ _ => bare p
  | _ => false

mutual

/-- Patterns that every value of their type matches. -/
def irrefutable (single : Text → Bool) : Pattern → Bool
  | .discard => true
  | .var _ _ => true
  | .assign p _ _ => irrefutable single p
  | .tuple ps => irrefutableAll single ps
  | .ctor tag ps => single tag && irrefutableAll single ps
  | _ => false

def irrefutableAll (single : Text → Bool) : List Pattern → Bool
  | [] => true
  | p :: ps => irrefutable single p && irrefutableAll single ps

end

/-- The kinds of decision trees: `Decision::Run` at the root, a `Decision::Switch` with no choices that ends with one, and
the others. -/
inductive Tree where
  | run | direct | switch

def tree (single : Text → Bool) : List Clause → Tree
  | .mk ps _ none _ :: _ => if ps.all bare then .run else if irrefutableAll single ps then .direct else .switch
  | _ => .switch

/-! ### Operators -/

/-- `expression.rs:2066-2095` `bin_op`, `2097-2143` `div_int`, `2145-2200` `remainder_int`. A literal that is divided is a
number. -/
def operator (op : Op) (left right : Expr) (l r : Exp) : Exp :=
  match op with
  | .and => .bin .and l r
  | .or => .bin .or l r
  | .eq => .bin .eq l r
  | .notEq => .bin .notEq l r
  | .lt => .bin .lt l r
  | .le => .bin .le l r
  | .gt => .bin .gt l r
  | .ge => .bin .ge l r
  | .add => .bin .add l r
  | .concat => .bin .add l r
  | .sub => .bin .sub l r
  | .mul => .bin .mul l r
  | .div =>
    match left, right with
    | .int _, .int n => if n = 0 then .int 0 else .bin .truncDiv l r
    | _, .int n => if n = 0 then .bin .divideInt l r else .bin .truncDiv l r
    | _, _ => .bin .divideInt l r
  | .rem =>
    match left, right with
    | .int _, .int n => if n = 0 then .int 0 else .bin .percent l r
    | _, .int n => if n = 0 then .bin .remainderInt l r else .bin .percent l r
    | _, _ => .bin .remainderInt l r

/-- The operator of JavaScript that is used if it is not a division by a literal; in guards, it is used always:
`expression.rs:3109-3230` `guard_expression`. -/
def jsOp : Op → BinOp
  | .and => .and
  | .or => .or
  | .eq => .eq
  | .notEq => .notEq
  | .lt => .lt
  | .le => .le
  | .gt => .gt
  | .ge => .ge
  | .add => .add
  | .concat => .add
  | .sub => .sub
  | .mul => .mul
  | .div => .divideInt
  | .rem => .remainderInt

/-! ### Guards -/

/-- `ast.rs:2657-2673` `referenced_variables`. -/
def guardTexts : Guard → List Text
  | .var x _ => [x]
  | .const _ => []
  | .block g => guardTexts g
  | .not g => guardTexts g
  | .bin _ l r => guardTexts l ++ guardTexts r
  | .index g _ => guardTexts g
  | .field g _ => guardTexts g

/-- `expression.rs:3109-3275` `guard_expression`. Simplified: a comparison with a constructor without fields, which is an
`instanceof`, is an equality. -/
def genGuard (σ : Scope) : Guard → Exp
  | .var x _ => .var (σ.name x)
  | .const c => .const c
  | .block g => genGuard σ g
  | .not g => .not (genGuard σ g)
  | .bin op l r => .bin (jsOp op) (genGuard σ l) (genGuard σ r)
  | .index g i => .index (genGuard σ g) i
  | .field g i => .field (genGuard σ g) i

/-- The variables of a pattern that a guard refers to: `decision.rs:886-945` `decision_guard`. -/
def guardVars (gd : Guard) (vs : List (Text × Nat)) : List (Text × Nat) := vs.filter fun v => decide (v.1 ∈ guardTexts gd)

/-- The others. -/
def otherVars (gd : Guard) (vs : List (Text × Nat)) : List (Text × Nat) := vs.filter fun v => !decide (v.1 ∈ guardTexts gd)

/-- `var0`, `var1`, …: `expression.rs:3510-3540`. -/
def fieldText (i : Nat) : Text := "var".toList ++ Nat.toDigits 10 i

/-- `(var0, var1) => { return new Tag(var0, var1); }` -/
def constructorFunction (tag : Text) (arity : Nat) : Exp :=
  let names := (List.range arity).map fun i => Name.var (fieldText i) 0
  .arrow (names.map some) [.ret (.construct tag (names.map .var))]

/-- The call of the function by itself at its end: `expression.rs:1890-1933`. -/
def selfCall (c : Context) (σ : Scope) (last : Bool) (called : Expr) : Option (List (Option (Text × Nat))) :=
  match c.self with
  | none => none
  | some (f, ps) =>
    match called with
    | .fnRef none g _ => if last && decide (g = f) && decide (σ.counter g = some 0) then some ps else none
    | .var g _ => if last && decide (g = f) && decide (σ.counter g = some 0) then some ps else none
    | _ => none

/-- `loop$x = e;` -/
def loopAssignments : List Exp → List (Option (Text × Nat)) → List Stm
  | e :: es, some (x, _) :: ps => .assign (.loop x) e :: loopAssignments es ps
  | e :: es, none :: ps => .expr e :: loopAssignments es ps
  | _, _ => []

/-- The message of a panic: `expression.rs:2560-2587`, `decision.rs:972`. -/
def defaultMessage : ErrorKind → List Char
  | .panic => "`panic` expression evaluated.".toList
  | .todo => "`todo` expression evaluated. This code has not yet been implemented.".toList
  | .letAssert => "Pattern match failed, no pattern matched the value.".toList
  | .assert => "Assertion failed.".toList

/-- The statements of a block inside another expression or as a statement: `expression.rs:1128-1163`. -/
def placeBlock (m : Mode) (st : State) (body : Bool → Pos → Scope → Res) : Res :=
  match m with
  | .exp .strict => ⟨.iife (body false .tail st.scope).stms, [], st, false⟩
  | .exp .loose =>
    let b := Name.var blockText (st.scope.fresh blockText)
    let σ := st.scope.next blockText
    ⟨.var b, [], ⟨σ, st.level ++ [.letUninit b, .block (body false (.assign b) σ).stms]⟩, false⟩
  | .stm last pos =>
    let r := body last pos st.scope
    ⟨.undefined, [.block r.stms], ⟨r.state.scope, st.level⟩, r.looped⟩

/-- `decision.rs:1315-1329` `assign_let_subject`, given the code of a value that is not a variable. -/
def letSubject (st : State) (e : Expr) (value : State → Res) : List Stm × Name × State :=
  match e with
  | .var x _ => ([], st.scope.name x, st)
  | _ =>
    let n := Name.var subjectText (st.scope.fresh subjectText)
    let r := value ⟨st.scope.next subjectText, st.level⟩
    ([.letInit n r.exp], n, r.state)

/-- Statements of a block without braces: `expression.rs:1090-1101` `expression_flattening_blocks`. -/
def inBlock (level : List Stm) (r : Res) : Res := ⟨.undefined, r.stms, ⟨r.state.scope, level⟩, r.looped⟩

mutual

/-- `expression.rs:430-556` `expression`, with `wrap_expression` and `child_expression`. -/
def gen (c : Context) (m : Mode) (st : State) : Expr → Res
  | .int n => plain m st (.int n)
  | .string ps => plain m st (.str ps)
  | .var x _ => plain m st (.var (st.scope.name x))
  | .ctor tag 0 => plain m st (.construct tag [])
  | .ctor tag (arity + 1) => plain m st (constructorFunction tag (arity + 1))
  | .fnRef none f _ => plain m st (.var (st.scope.name f))
  | .fnRef (some module) f _ => plain m st (.ext module f)
  | .const k => plain m st (.const k)
  -- `expression.rs:1103-1149` `block`
  | .block [.expr e] => gen c m st e
  | .block [.let_ _ e] => gen c m st e
  | .block body => placeBlock m st fun last pos σ => genStmts c last pos σ body
  -- `expression.rs:565-574` `negate_with`
  | .not e =>
    let r := gen c m.inner st e
    plain m r.state (.not r.exp)
  | .neg e =>
    let r := gen c m.inner st e
    plain m r.state (.neg r.exp)
  -- `expression.rs:2460-2490` `print_bin_op`
  | .bin op left right =>
    plain m st (operator op left right (gen c (.exp .strict) ⟨st.scope, []⟩ left).exp (gen c (.exp .strict) ⟨st.scope, []⟩ right).exp)
  -- `expression.rs:440-468`
  | .nil => plain m st .empty
  | .cons h t =>
    plain m st (.prepend (gen c (.exp .strict) ⟨st.scope, []⟩ h).exp (gen c (.exp .strict) ⟨st.scope, []⟩ t).exp)
  -- `expression.rs:1820-1833` `tuple`
  | .tuple es => plain m st (.array (genArgs c st.scope es))
  -- `expression.rs:2052-2064` `tuple_index`, `2000-2024` `record_access`, `positional_access`
  | .index e i =>
    let r := gen c m.inner st e
    plain m r.state (.index r.exp i)
  | .field e i =>
    let r := gen c m.inner st e
    plain m r.state (.field r.exp i)
  -- `expression.rs:2026-2050` `record_update`
  | .update (some (x, _)) record tag es => place m st fun _ pos st =>
    let r := gen c (.exp .loose) st record
    let n := Name.var x (r.state.scope.fresh x)
    let σ := r.state.scope.next x
    ⟨.undefined, .letInit n r.exp :: pos.give (.construct tag (genArgs c σ es)), ⟨σ, r.state.level⟩, false⟩
  | .update none _ tag es => plain m st (.construct tag (genArgs c st.scope es))
  -- `expression.rs:1959-1998` `fn_`
  | .fn ps body =>
    plain m st (.arrow (parameterNames ps) (genStmts { c with self := none } true .tail (st.scope.parameters ps) body).stms)
  -- `expression.rs:1835-1957` `call`
  | .call (.ctor tag _) es => plain m st (.construct tag (genArgs c st.scope es))
  | .call f es =>
    match m with
    | .exp o =>
      let r := gen c (.exp o) st f
      ⟨.call r.exp (genArgs c st.scope es), [], r.state, false⟩
    | .stm last pos =>
      match selfCall c st.scope last f with
      | some ps => ⟨.undefined, loopAssignments (genArgs c st.scope es) ps, st, true⟩
      | none =>
        let r := gen c (.exp .loose) st f
        ⟨.undefined, pos.give (.call r.exp (genArgs c st.scope es)), r.state, false⟩
  -- `expression.rs:1020-1088` `pipeline`
  | .pipe x _ value rest => place m st fun last pos st =>
    let r := gen c (.exp .loose) st value
    let n := Name.var x (r.state.scope.fresh x)
    let s := gen c (.stm last pos) ⟨r.state.scope.next x, []⟩ rest
    ⟨.undefined, r.state.level ++ .letInit n r.exp :: (s.state.level ++ s.stms), ⟨s.state.scope, []⟩, s.looped⟩
  -- `expression.rs:2558-2634` `todo`, `panic`, `throw_error`
  | .fail kind line none => place m st fun _ _ st => ⟨.undefined, [.throw kind line (.text (defaultMessage kind))], st, false⟩
  | .fail kind line (some e) => place m st fun _ _ st =>
    let r := gen c (.exp .loose) st e
    ⟨.undefined, [.throw kind line r.exp], r.state, false⟩
  -- `decision.rs:34-103` `case`
  | .case_ subjects cs => place m st fun last pos st =>
    let s := genSubjects c st.scope subjects
    match tree c.single cs with
    | .switch =>
      let r := genClauses c last pos s.2.1 s.2.2 st.level cs
      ⟨.undefined, s.1 ++ [.switch s.2.1 r.1], ⟨s.2.2, r.2.1⟩, r.2.2⟩
    | .direct =>
      let r := genFirst c last pos s.2.1 ⟨s.2.2, st.level⟩ cs
      ⟨.undefined, s.1 ++ r.stms, ⟨r.state.scope.restore s.2.2, r.state.level⟩, r.looped⟩
    | .run =>
      let r := genFirst c last pos s.2.1 ⟨s.2.2, st.level⟩ cs
      ⟨.undefined, s.1 ++ r.stms, r.state, r.looped⟩

/-- Expressions whose order matters: each is put into a function of its own if it is statements, so that nothing of
the state changes. -/
def genArgs (c : Context) (σ : Scope) : List Expr → List Exp
  | [] => []
  | e :: es => (gen c (.exp .strict) ⟨σ, []⟩ e).exp :: genArgs c σ es

/-- `decision.rs:1284-1309` `assign_case_subjects`, `2423-2456` `assign_subject`. -/
def genSubjects (c : Context) (σ : Scope) : List Expr → List Stm × List Name × Scope
  | [] => ([], [], σ)
  | .var x _ :: es =>
    let r := genSubjects c σ es
    (r.1, σ.name x :: r.2.1, r.2.2)
  | e :: es =>
    let n := Name.var subjectText (σ.fresh subjectText)
    let r := genSubjects c (σ.next subjectText) es
    (.letInit n (gen c (.exp .strict) ⟨σ.next subjectText, []⟩ e).exp :: r.1, n :: r.2.1, r.2.2)

/-- `expression.rs:1165-1208` `statements`. -/
def genStmts (c : Context) (last : Bool) (pos : Pos) (σ : Scope) : List Stmt → Res
  | [] => ⟨.undefined, [], ⟨σ, []⟩, false⟩
  | s :: ss =>
    match ss with
    | [] =>
      let r := genStmt c last pos ⟨σ, []⟩ s
      ⟨.undefined, r.state.level ++ r.stms, ⟨r.state.scope, []⟩, r.looped⟩
    | ss =>
      let r := genStmt c false .stmt ⟨σ, []⟩ s
      let rest := genStmts c last pos r.state.scope ss
      ⟨.undefined, r.state.level ++ r.stms ++ rest.stms, rest.state, rest.looped⟩

/-- `expression.rs:396-409` `statement`, `1210-1252` `simple_variable_assignment`, `1254-1283` `assignment`,
`decision.rs:1074-1180` `let_`. A pattern that always matches declares its variables. -/
def genStmt (c : Context) (last : Bool) (pos : Pos) (st : State) : Stmt → Res
  | .expr e => gen c (.stm last pos) st e
  | .let_ (.var x _) e =>
    let r := gen c (.exp .loose) st e
    let n := Name.var x (r.state.scope.fresh x)
    ⟨.undefined, .letInit n r.exp :: pos.giveName n, ⟨r.state.scope.next x, r.state.level⟩, false⟩
  | .letAssert (.var x _) e _ _ =>
    let r := gen c (.exp .loose) st e
    let n := Name.var x (r.state.scope.fresh x)
    ⟨.undefined, .letInit n r.exp :: pos.giveName n, ⟨r.state.scope.next x, r.state.level⟩, false⟩
  | .let_ p e =>
    let r := letSubject st e fun st => gen c (.exp .loose) st e
    let b := r.2.2.scope.binds p.vars
    ⟨.undefined, r.1 ++ .destructure [r.2.1] [p] b.1 :: pos.giveName r.2.1, ⟨b.2, r.2.2.level⟩, false⟩
  | .letAssert p e info none =>
    let r := letSubject st e fun st => gen c (.exp .loose) st e
    let b := r.2.2.scope.binds p.vars
    ⟨.undefined, r.1 ++ b.1.map (fun v => .letUninit v.2) ++
      .assertMatch r.2.1 p b.1 info (.text (defaultMessage .letAssert)) :: pos.giveName r.2.1, ⟨b.2, r.2.2.level⟩, false⟩
  | .letAssert p e info (some message) =>
    let r := letSubject st e fun st => gen c (.exp .loose) st e
    let b := r.2.2.scope.binds p.vars
    ⟨.undefined, r.1 ++ b.1.map (fun v => .letUninit v.2) ++
      .assertMatch r.2.1 p b.1 info (gen c (.exp .strict) ⟨b.2, []⟩ message).exp :: pos.giveName r.2.1,
      ⟨b.2, r.2.2.level⟩, false⟩

/-- The first clause, without a block: `decision.rs:322-365`, `525-560` `body_expression`, `562-613`. -/
def genFirst (c : Context) (last : Bool) (pos : Pos) (names : List Name) (st : State) : List Clause → Res
  | [] => ⟨.undefined, [], st, false⟩
  | .mk ps alternatives _ body :: _ =>
    let b := st.scope.binds (varsAll ps)
    match returned ps alternatives body names with
    | some x => ⟨.undefined, pos.give (.var x), ⟨b.2, st.level⟩, false⟩
    | none =>
      let r :=
        match body with
        | .block ss => inBlock st.level (genStmts c last pos b.2 ss)
        | body => gen c (.stm last pos) ⟨b.2, st.level⟩ body
      ⟨.undefined, .destructure names ps b.1 :: r.stms, r.state, r.looped⟩

/-- The clauses, each in a block: `decision.rs:615-850`, `852-884` `inside_new_scope`, `886-945` `decision_guard`. What is at
the level of the statement goes on to the next clause. -/
def genClauses (c : Context) (last : Bool) (pos : Pos) (names : List Name) (σ : Scope) (level : List Stm) :
    List Clause → List Branch × List Stm × Bool
  | [] => ([], level, false)
  | .mk ps alternatives none body :: cs =>
    match returned ps alternatives body names with
    | some x =>
      let rest := genClauses c last pos names σ level cs
      (.mk (ps :: alternatives) [] (pos.give (.var x)) :: rest.1, rest.2)
    | none =>
      let b := σ.binds (varsAll ps)
      let r :=
        match body with
        | .block ss => inBlock level (genStmts c last pos b.2 ss)
        | body => gen c (.stm last pos) ⟨b.2, level⟩ body
      let rest := genClauses c last pos names σ r.state.level cs
      (.mk (ps :: alternatives) b.1 r.stms :: rest.1, rest.2.1, r.looped || rest.2.2)
  | .mk ps alternatives (some gd) body :: cs =>
    let a := σ.binds (guardVars gd (varsAll ps))
    match returned ps alternatives body names with
    | some x =>
      let rest := genClauses c last pos names σ level cs
      (.guarded (ps :: alternatives) a.1 (genGuard a.2 gd) [] (pos.give (.var x)) :: rest.1, rest.2)
    | none =>
      let b := a.2.binds (otherVars gd (varsAll ps))
      let r :=
        match body with
        | .block ss => inBlock level (genStmts c last pos b.2 ss)
        | body => gen c (.stm last pos) ⟨b.2, level⟩ body
      let rest := genClauses c last pos names σ r.state.level cs
      (.guarded (ps :: alternatives) a.1 (genGuard a.2 gd) b.1 r.stms :: rest.1, rest.2.1, r.looped || rest.2.2)

end

/-- The scope of the module: `javascript.rs:1240-1265`. -/
def moduleScope (funs : List Text) : Scope := ⟨fun x => if x ∈ funs then some 0 else none, fun _ => none⟩

/-- `let x = loop$x;`: `expression.rs:353-380` `tail_call_loop`. -/
def loopLets : List (Option (Text × Nat)) → List Stm
  | [] => []
  | some (x, _) :: ps => .letInit (.var x 0) (.var (.loop x)) :: loopLets ps
  | none :: ps => loopLets ps

def loopNames (ps : List (Option (Text × Nat))) : List (Option Name) := ps.map fun p => p.map fun (x, _) => .loop x

/-- `javascript.rs:1060-1145` `module_function`, `expression.rs:277-320` `Generator::new`, `339-351` `function_body`. -/
def genFunction (single : Text → Bool) (names : List Text) (f : ErlGen.Fun) : Function :=
  let self := if (f.parameters.any fun p => p.any fun (x, _) => decide (x = f.name)) then none else some (f.name, f.parameters)
  let r := genStmts ⟨single, self⟩ true .tail ((moduleScope names).parameters f.parameters) f.body
  if r.looped then ⟨f.name, loopNames f.parameters, true, loopLets f.parameters ++ r.stms⟩
  else ⟨f.name, parameterNames f.parameters, false, r.stms⟩

/-- The functions of a module. -/
def genModule (single : Text → Bool) (funs : List ErlGen.Fun) : List Function :=
  funs.map (genFunction single (funs.map (·.name)))

end Verif.JsGen
