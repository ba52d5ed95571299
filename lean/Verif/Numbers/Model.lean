import Mathlib.Data.Rat.Floor

/-
Model of the code generated for integer arithmetic: `/repo/compiler-core/src/erlang.rs` (Erlang) and
`/repo/compiler-core/src/javascript/expression.rs` with `/repo/compiler-core/templates/prelude.mjs` (JavaScript).

The generated code is modelled as a syntax tree together with an evaluator that follows the target language. Layout,
parentheses and source locations are left out.
-/
namespace Verif.Numbers

/-- The integer operators of `BinOp` (`ast.rs`). -/
inductive Op where
  | add | sub | mul | div | rem
deriving DecidableEq, Repr

/-- The integer expressions of `TypedExpr` (`ast/typed.rs`) that matter here. Calls have one argument. The flag of a call is
`called_function_purity().is_pure()` of the called function. `field` stands for `RecordAccess` and `TupleIndex`, `block` for a block
with one expression. -/
inductive Expr where
  | lit (n : Int)
  | var (name : String)
  | call (function : String) (isPure : Bool) (argument : Expr)
  | field (index : Nat) (record : Expr)
  | neg (value : Expr)
  | block (value : Expr)
  | bin (op : Op) (left right : Expr)
deriving DecidableEq, Repr

/-- What is outside the expression: what functions do (they may change the state of the world and may crash) and which number
is found in a field of a record (records are represented by numbers, as values are opaque to the compiler). -/
structure World (σ : Type) where
  call : String → Int → σ → Option Int × σ
  field : Nat → Int → Int

/-- `ast/typed.rs:1026-1105` `is_pure_value_constructor`. -/
def Expr.isPureValueConstructor : Expr → Bool
  | .lit _ => true
  | .var _ => true
  | .bin _ _ _ => true
  | .field _ _ => true
  | .neg value => value.isPureValueConstructor
  | .call _ isPure argument => isPure && argument.isPureValueConstructor
  | .block value => value.isPureValueConstructor

/-- `ast/typed.rs:695-722` `is_non_zero_compile_time_number`. -/
def Expr.isNonZeroNumber : Expr → Bool
  | .lit n => n != 0
  | _ => false

/-- `ast/typed.rs:724-751` `is_zero_compile_time_number`. -/
def Expr.isZeroNumber : Expr → Bool
  | .lit n => n == 0
  | _ => false

/-- `ast/typed.rs:883-930` `is_literal`, of integer expressions. -/
def Expr.isLiteral : Expr → Bool
  | .lit _ => true
  | _ => false

/-! ### Erlang -/

/-- `erlang.rs:3506-3532` `HowToDivide`. -/
inductive HowToDivide where
  | plainErlangDivision
  | replaceWithZero
  | evaluateLeftAndReturnZero
  | matchOnRight (isLeftPure : Bool)
deriving DecidableEq, Repr

/-- `erlang.rs:3534-3564` `how_to_divide`. -/
def howToDivide (left right : Expr) : HowToDivide :=
  if right.isNonZeroNumber then .plainErlangDivision
  else if left.isPureValueConstructor then
    if right.isZeroNumber then .replaceWithZero else .matchOnRight true
  else if right.isZeroNumber then .evaluateLeftAndReturnZero
  else .matchOnRight false

/-- Erlang expressions. `gen` is a variable made by `new_generated_variable`; `assign` is `V = E`; `caseZero` is
`case E of 0 -> 0; V -> Body end`; `seq` is `begin A, B end`; `malformed` marks two expressions where the syntax asks for one. -/
inductive EExpr where
  | int (n : Int)
  | var (name : String)
  | gen (k : Nat)
  | call (function : String) (argument : EExpr)
  | element (index : Nat) (record : EExpr)
  | neg (value : EExpr)
  | bin (op : Op) (left right : EExpr)
  | assign (k : Nat) (value : EExpr)
  | caseZero (subject : EExpr) (k : Nat) (body : EExpr)
  | seq (first second : EExpr)
  | malformed
deriving DecidableEq, Repr

/-- What `expression` hands to the builder: one or two Erlang expressions. -/
inductive ESeq where
  | one (e : EExpr)
  | two (first second : EExpr)
deriving DecidableEq, Repr

/-- What the builder makes of a sequence where it expects one expression. -/
def ESeq.operand : ESeq → EExpr
  | .one e => e
  | .two _ _ => .malformed

/-- `start_block .. end_block`. -/
def ESeq.block : ESeq → EExpr
  | .one e => e
  | .two a b => .seq a b

/-- `erlang.rs:3784-3841` `needs_begin_end_wrapping`. -/
def needsBlock : Expr → Bool
  | .bin .div left right | .bin .rem left right =>
    match howToDivide left right with
    | .matchOnRight false | .evaluateLeftAndReturnZero => true
    | _ => false
  | _ => false

/-- `erlang.rs:1249-1261` `maybe_block_expr`, given the code of the expression. -/
def maybeBlock (e : Expr) (code : ESeq) : EExpr :=
  if needsBlock e then code.block else code.operand

/-- `erlang.rs:2853-2935` `int_division`, given the functions that generate the code of the operands. The number is the state of
`new_generated_variable` (`erlang.rs:568-`). -/
def intDivision (op : Op) (l r : Expr) (erlL erlR : Nat → ESeq × Nat) (k : Nat) : ESeq × Nat :=
  match howToDivide l r with
  | .replaceWithZero => (.one (.int 0), k)
  | .evaluateLeftAndReturnZero =>
    let (l', k) := erlL k
    (.two (maybeBlock l l') (.int 0), k)
  | .plainErlangDivision =>
    let (l', k) := erlL k
    let (r', k) := erlR k
    (.one (.bin op (maybeBlock l l') (maybeBlock r r')), k)
  | .matchOnRight false =>
    let leftName := k
    let (l', k) := erlL (k + 1)
    let (r', k) := erlR k
    (.two (.assign leftName (maybeBlock l l')) (.caseZero (maybeBlock r r') k (.bin op (.gen leftName) (.gen k))), k + 1)
  | .matchOnRight true =>
    let (r', k) := erlR k
    let denominator := k
    let (l', k) := erlL (k + 1)
    (.one (.caseZero (maybeBlock r r') denominator (.bin op (maybeBlock l l') (.gen denominator))), k)

/-- `erlang.rs:840-` `expression`, for these expressions, and `erlang.rs:2731-2773` `binary_operator`. -/
def erl : Expr → Nat → ESeq × Nat
  | .lit n, k => (.one (.int n), k)
  | .var x, k => (.one (.var x), k)
  | .call f _ a, k =>
    let (a', k) := erl a k
    (.one (.call f (maybeBlock a a')), k)
  | .field i e, k =>
    let (e', k) := erl e k
    (.one (.element i (maybeBlock e e')), k)
  | .neg e, k =>
    let (e', k) := erl e k
    (.one (.neg (maybeBlock e e')), k)
  | .block e, k =>
    let (e', k) := erl e k
    (.one (maybeBlock e e'), k)
  | .bin .div l r, k => intDivision .div l r (erl l) (erl r) k
  | .bin .rem l r, k => intDivision .rem l r (erl l) (erl r) k
  | .bin op l r, k =>
    let (l', k) := erl l k
    let (r', k) := erl r k
    (.one (.bin op (maybeBlock l l') (maybeBlock r r')), k)

/-- The values of the generated variables. -/
abbrev Env := Nat → Option Int

def Env.set (env : Env) (k : Nat) (v : Int) : Env := fun j => if j = k then some v else env j

/-- Matching a variable against a value: an unbound variable is bound, a bound one must have that value. -/
def Env.match (env : Env) (k : Nat) (v : Int) : Option Env :=
  match env k with
  | none => some (env.set k v)
  | some u => if u = v then some env else none

/-- Erlang's arithmetic on integers of any size; `div` and `rem` truncate, and crash for zero. -/
def erlangOp : Op → Int → Int → Option Int
  | .add, a, b => some (a + b)
  | .sub, a, b => some (a - b)
  | .mul, a, b => some (a * b)
  | .div, a, b => if b = 0 then none else some (a.tdiv b)
  | .rem, a, b => if b = 0 then none else some (a.tmod b)

/-- Evaluation of Erlang expressions; `none` is an exception. Operands are evaluated from left to right. -/
def EExpr.eval {σ : Type} (w : World σ) (ρ : String → Int) : EExpr → Env → σ → Option (Int × Env) × σ
  | .int n, env, s => (some (n, env), s)
  | .var x, env, s => (some (ρ x, env), s)
  | .gen k, env, s => ((env k).map fun v => (v, env), s)
  | .call f a, env, s =>
    match a.eval w ρ env s with
    | (none, s) => (none, s)
    | (some (v, env), s) =>
      match w.call f v s with
      | (none, s) => (none, s)
      | (some r, s) => (some (r, env), s)
  | .element i e, env, s =>
    match e.eval w ρ env s with
    | (none, s) => (none, s)
    | (some (v, env), s) => (some (w.field i v, env), s)
  | .neg e, env, s =>
    match e.eval w ρ env s with
    | (none, s) => (none, s)
    | (some (v, env), s) => (some (-v, env), s)
  | .bin op l r, env, s =>
    match l.eval w ρ env s with
    | (none, s) => (none, s)
    | (some (a, env), s) =>
      match r.eval w ρ env s with
      | (none, s) => (none, s)
      | (some (b, env), s) => ((erlangOp op a b).map fun v => (v, env), s)
  | .assign k e, env, s =>
    match e.eval w ρ env s with
    | (none, s) => (none, s)
    | (some (v, env), s) => ((env.match k v).map fun env => (v, env), s)
  | .caseZero e k body, env, s =>
    match e.eval w ρ env s with
    | (none, s) => (none, s)
    | (some (v, env), s) =>
      if v = 0 then (some (0, env), s)
      else
        match env.match k v with
        | none => (none, s)
        | some env => body.eval w ρ env s
  | .seq a b, env, s =>
    match a.eval w ρ env s with
    | (none, s) => (none, s)
    | (some (_, env), s) => b.eval w ρ env s
  | .malformed, _, s => (none, s)

/-- A function body made of one or two expressions. -/
def ESeq.eval {σ : Type} (w : World σ) (ρ : String → Int) (code : ESeq) (env : Env) (s : σ) : Option (Int × Env) × σ :=
  code.block.eval w ρ env s

/-- Running the Erlang code of an expression that is the body of a function. -/
def runErlang {σ : Type} (w : World σ) (ρ : String → Int) (e : Expr) (s : σ) : Option Int × σ :=
  match (erl e 0).1.eval w ρ (fun _ => none) s with
  | (r, s) => (r.map (·.1), s)

/-! ### JavaScript -/

/-- JavaScript expressions; `divideInt` and `remainderInt` are calls of the functions of the prelude, `trunc` of `Math.trunc`. -/
inductive JExpr where
  | num (n : Int)
  | var (name : String)
  | call (function : String) (argument : JExpr)
  | member (index : Nat) (record : JExpr)
  | neg (value : JExpr)
  | bin (op : Op) (left right : JExpr)
  | trunc (value : JExpr)
  | divideInt (left right : JExpr)
  | remainderInt (left right : JExpr)
deriving DecidableEq, Repr

/-- `javascript/expression.rs:2121-2164` `div_int`, given the code of the operands. -/
def divInt (left right : Expr) (l r : JExpr) : JExpr :=
  if left.isLiteral && right.isZeroNumber then .num 0
  else if right.isNonZeroNumber then .trunc (.bin .div l r)
  else .divideInt l r

/-- `javascript/expression.rs:2166-2203` `remainder_int`, given the code of the operands. -/
def remInt (left right : Expr) (l r : JExpr) : JExpr :=
  if left.isLiteral && right.isZeroNumber then .num 0
  else if right.isNonZeroNumber then .bin .rem l r
  else .remainderInt l r

/-- `javascript/expression.rs` `expression` and `bin_op` (2094-2119). -/
def js : Expr → JExpr
  | .lit n => .num n
  | .var x => .var x
  | .call f _ a => .call f (js a)
  | .field i e => .member i (js e)
  | .neg e => .neg (js e)
  | .block e => js e
  | .bin .div l r => divInt l r (js l) (js r)
  | .bin .rem l r => remInt l r (js l) (js r)
  | .bin op l r => .bin op (js l) (js r)

/-- `Math.trunc`. -/
def trunc (q : ℚ) : ℚ := if 0 ≤ q then ⌊q⌋ else ⌈q⌉

/-- The exact result of JavaScript's `%` on integers. -/
def exactRem (a b : ℚ) : ℚ := a - b * trunc (a / b)

/-- JavaScript's operators on finite numbers: the exact result, rounded. -/
def jsOp (round : ℚ → ℚ) : Op → ℚ → ℚ → ℚ
  | .add, a, b => round (a + b)
  | .sub, a, b => round (a - b)
  | .mul, a, b => round (a * b)
  | .div, a, b => round (a / b)
  | .rem, a, b => round (exactRem a b)

/-- `prelude.mjs:1586-1592` `divideFloat`. -/
def divideFloat (round : ℚ → ℚ) (a b : ℚ) : ℚ := if b = 0 then 0 else jsOp round .div a b

/-- `prelude.mjs:1582-1584` `divideInt`. -/
def divideInt (round : ℚ → ℚ) (a b : ℚ) : ℚ := trunc (divideFloat round a b)

/-- `prelude.mjs:1574-1580` `remainderInt`. -/
def remainderInt (round : ℚ → ℚ) (a b : ℚ) : ℚ := if b = 0 then 0 else jsOp round .rem a b

/-- What a function does when called with a number: Gleam's integers are whole numbers on this target. -/
def World.callNumber {σ : Type} (w : World σ) (f : String) (q : ℚ) (s : σ) : Option ℚ × σ :=
  match w.call f q.num s with
  | (none, s) => (none, s)
  | (some n, s) => (some (n : ℚ), s)

/-- Evaluation of JavaScript expressions; `none` is an exception. Only finite numbers are covered, and the two zeros are
not told apart (`===` does not tell them apart either). -/
def JExpr.eval {σ : Type} (round : ℚ → ℚ) (w : World σ) (ρ : String → Int) : JExpr → σ → Option ℚ × σ
  | .num n, s => (some (round n), s)
  | .var x, s => (some (ρ x : ℚ), s)
  | .call f a, s =>
    match a.eval round w ρ s with
    | (none, s) => (none, s)
    | (some v, s) => w.callNumber f v s
  | .member i e, s =>
    match e.eval round w ρ s with
    | (none, s) => (none, s)
    | (some v, s) => (some (w.field i v.num : ℚ), s)
  | .neg e, s =>
    match e.eval round w ρ s with
    | (none, s) => (none, s)
    | (some v, s) => (some (-v), s)
  | .bin op l r, s =>
    match l.eval round w ρ s with
    | (none, s) => (none, s)
    | (some a, s) =>
      match r.eval round w ρ s with
      | (none, s) => (none, s)
      | (some b, s) => (some (jsOp round op a b), s)
  | .trunc e, s =>
    match e.eval round w ρ s with
    | (none, s) => (none, s)
    | (some v, s) => (some (Numbers.trunc v), s)
  | .divideInt l r, s =>
    match l.eval round w ρ s with
    | (none, s) => (none, s)
    | (some a, s) =>
      match r.eval round w ρ s with
      | (none, s) => (none, s)
      | (some b, s) => (some (Numbers.divideInt round a b), s)
  | .remainderInt l r, s =>
    match l.eval round w ρ s with
    | (none, s) => (none, s)
    | (some a, s) =>
      match r.eval round w ρ s with
      | (none, s) => (none, s)
      | (some b, s) => (some (Numbers.remainderInt round a b), s)

/-- Running the JavaScript code of an expression. -/
def runJs {σ : Type} (round : ℚ → ℚ) (w : World σ) (ρ : String → Int) (e : Expr) (s : σ) : Option ℚ × σ :=
  (js e).eval round w ρ s

/-! ### Guards -/

/-- The integer part of `TypedClauseGuard`. -/
inductive GExpr where
  | lit (n : Int)
  | var (name : String)
  | bin (op : Op) (left right : GExpr)
deriving DecidableEq, Repr

inductive Cmp where
  | lt | le | gt | ge | eq | ne
deriving DecidableEq, Repr

inductive Guard where
  | cmp (c : Cmp) (left right : GExpr)
  | and (left right : Guard)
  | or (left right : Guard)
  | not (g : Guard)
deriving DecidableEq, Repr

def Cmp.holds : Cmp → Int → Int → Bool
  | .lt, a, b => a < b
  | .le, a, b => a ≤ b
  | .gt, a, b => b < a
  | .ge, a, b => b ≤ a
  | .eq, a, b => a == b
  | .ne, a, b => a != b

/-- `erlang.rs:3129-3155` in `clause_guard`: the operators are printed as Erlang's own. An exception is `none`. -/
def GExpr.evalErlang (ρ : String → Int) : GExpr → Option Int
  | .lit n => some n
  | .var x => some (ρ x)
  | .bin op l r =>
    match l.evalErlang ρ, r.evalErlang ρ with
    | some a, some b => erlangOp op a b
    | _, _ => none

/-- `orelse` and `andalso` do not evaluate the right side when the left side decides. -/
def Guard.evalErlang (ρ : String → Int) : Guard → Option Bool
  | .cmp c l r =>
    match l.evalErlang ρ, r.evalErlang ρ with
    | some a, some b => some (c.holds a b)
    | _, _ => none
  | .and l r =>
    match l.evalErlang ρ with
    | some true => r.evalErlang ρ
    | other => other
  | .or l r =>
    match l.evalErlang ρ with
    | some false => r.evalErlang ρ
    | other => other
  | .not g => (g.evalErlang ρ).map (!·)

/-- An exception in an Erlang guard makes the guard fail. -/
def Guard.runErlang (ρ : String → Int) (g : Guard) : Bool := g.evalErlang ρ == some true

/-- `javascript/expression.rs:3109-3230` `guard_expression`: division goes through the functions of the prelude. -/
def GExpr.evalJs (round : ℚ → ℚ) (ρ : String → Int) : GExpr → ℚ
  | .lit n => round n
  | .var x => (ρ x : ℚ)
  | .bin .div l r => divideInt round (l.evalJs round ρ) (r.evalJs round ρ)
  | .bin .rem l r => remainderInt round (l.evalJs round ρ) (r.evalJs round ρ)
  | .bin op l r => jsOp round op (l.evalJs round ρ) (r.evalJs round ρ)

def Cmp.holdsNumber : Cmp → ℚ → ℚ → Bool
  | .lt, a, b => a < b
  | .le, a, b => a ≤ b
  | .gt, a, b => b < a
  | .ge, a, b => b ≤ a
  | .eq, a, b => a == b
  | .ne, a, b => a != b

def Guard.runJs (round : ℚ → ℚ) (ρ : String → Int) : Guard → Bool
  | .cmp c l r => c.holdsNumber (l.evalJs round ρ) (r.evalJs round ρ)
  | .and l r => l.runJs round ρ && r.runJs round ρ
  | .or l r => l.runJs round ρ || r.runJs round ρ
  | .not g => !g.runJs round ρ

/-! ### Equality on Erlang -/

/-- Erlang terms, as far as comparison goes. A float is a sign and a magnitude, so that `-0.0` is `flt true 0`. -/
inductive Term where
  | int (n : Int)
  | flt (negative : Bool) (magnitude : ℚ)
  | bin (bytes : List UInt8)
  | nil
  | cons (head tail : Term)
  | tuple (elements : Term)
deriving DecidableEq

/-- Erlang's `=:=` from OTP 27 on: the two zeros differ. -/
def Term.exactlyEqual (a b : Term) : Bool := decide (a = b)

/-- The number a term stands for. -/
def Term.number : Term → Option ℚ
  | .int n => some n
  | .flt negative m => some (if negative then -m else m)
  | _ => none

/-- Erlang's `==`: numbers are compared by value, everywhere in a term. -/
def Term.numericallyEqual : Term → Term → Bool
  | .cons a as, .cons b bs => a.numericallyEqual b && as.numericallyEqual bs
  | .tuple a, .tuple b => a.numericallyEqual b
  | .nil, .nil => true
  | .bin a, .bin b => a == b
  | a, b =>
    match a.number, b.number with
    | some x, some y => x == y
    | _, _ => false

/-- `erlang.rs:2744`: `==` is printed as `=:=`, in expressions as in guards (3135). -/
def erlangEq (a b : Term) : Bool := a.exactlyEqual b

/-- `erlang.rs:2745`: `!=` is printed as `/=` in expressions. -/
def erlangNotEq (a b : Term) : Bool := !a.numericallyEqual b

/-- `erlang.rs:3136`: `!=` is printed as `=/=` in guards. -/
def erlangGuardNotEq (a b : Term) : Bool := !a.exactlyEqual b

end Verif.Numbers
