import Verif.Numbers.Model

/-
What integer arithmetic means in Gleam, written without looking at either target: operands are evaluated once each, from left to
right, division truncates towards zero, the remainder has the sign of the dividend, and dividing by zero gives zero.
-/
namespace Verif.Numbers

/-- The outcome of evaluating an expression. `outOfRange` is only used for a range of integers, see `evalSpec`. -/
inductive Out where
  | value (n : Int)
  | crash
  | outOfRange
deriving DecidableEq, Repr

/-- Gleam's operators: truncating division, the remainder that goes with it, and zero when dividing by zero. -/
def gleamOp : Op → Int → Int → Int
  | .add, a, b => a + b
  | .sub, a, b => a - b
  | .mul, a, b => a * b
  | .div, a, b => if b = 0 then 0 else a.sign * b.sign * (a.natAbs / b.natAbs : Nat)
  | .rem, a, b => if b = 0 then 0 else a.sign * (a.natAbs % b.natAbs : Nat)

/-- A value, or `outOfRange` if it is not in the range. -/
def inRange (range : Int → Bool) (n : Int) : Out := if range n then .value n else .outOfRange

/-- What an expression means, as long as all values that occur are in the given range. -/
def evalSpec {σ : Type} (range : Int → Bool) (w : World σ) (ρ : String → Int) : Expr → σ → Out × σ
  | .lit n, s => (inRange range n, s)
  | .var x, s => (inRange range (ρ x), s)
  | .call f _ a, s =>
    match evalSpec range w ρ a s with
    | (.value v, s) =>
      match w.call f v s with
      | (some r, s) => (inRange range r, s)
      | (none, s) => (.crash, s)
    | other => other
  | .field i e, s =>
    match evalSpec range w ρ e s with
    | (.value v, s) => (inRange range (w.field i v), s)
    | other => other
  | .neg e, s =>
    match evalSpec range w ρ e s with
    | (.value v, s) => (inRange range (-v), s)
    | other => other
  | .block e, s => evalSpec range w ρ e s
  | .bin op l r, s =>
    match evalSpec range w ρ l s with
    | (.value a, s) =>
      match evalSpec range w ρ r s with
      | (.value b, s) => (inRange range (gleamOp op a b), s)
      | other => other
    | other => other

/-- No limit on integers. -/
def unlimited (_ : Int) : Bool := true

/-- JavaScript's safe integers. -/
def safe (n : Int) : Bool := decide (n.natAbs < 2 ^ 53)

/-- The functions marked as pure behave as pure functions: they return a value that depends on the argument only, and do nothing
else. -/
def HonestCalls {σ : Type} (w : World σ) : Expr → Prop
  | .lit _ => True
  | .var _ => True
  | .call f isPure a => HonestCalls w a ∧ (isPure = true → ∃ g : Int → Int, ∀ v s, w.call f v s = (some (g v), s))
  | .field _ e => HonestCalls w e
  | .neg e => HonestCalls w e
  | .block e => HonestCalls w e
  | .bin _ l r => HonestCalls w l ∧ HonestCalls w r

/-- No call of a function that is not marked as pure. -/
def CallsPureOnly : Expr → Prop
  | .lit _ => True
  | .var _ => True
  | .call _ isPure a => isPure = true ∧ CallsPureOnly a
  | .field _ e => CallsPureOnly e
  | .neg e => CallsPureOnly e
  | .block e => CallsPureOnly e
  | .bin _ l r => CallsPureOnly l ∧ CallsPureOnly r

/-- An operator or a field access, perhaps negated, in a block, or given to a pure function. -/
inductive OperatorAtHead : Expr → Prop
  | bin (op : Op) (l r : Expr) : OperatorAtHead (.bin op l r)
  | field (i : Nat) (e : Expr) : OperatorAtHead (.field i e)
  | neg {e : Expr} : OperatorAtHead e → OperatorAtHead (.neg e)
  | block {e : Expr} : OperatorAtHead e → OperatorAtHead (.block e)
  | call {e : Expr} (f : String) : OperatorAtHead e → OperatorAtHead (.call f true e)

/-- The condition under which the Erlang code is right: a dividend with an operator or a field access at its head calls no
function that is not pure. -/
def DividendsPure : Expr → Prop
  | .lit _ => True
  | .var _ => True
  | .call _ _ a => DividendsPure a
  | .field _ e => DividendsPure e
  | .neg e => DividendsPure e
  | .block e => DividendsPure e
  | .bin op l r =>
    DividendsPure l ∧ DividendsPure r ∧ ((op = .div ∨ op = .rem) → OperatorAtHead l → CallsPureOnly l)

/-- Doubles: 53 bits times a power of two. Only finite ones are described. -/
def IsDouble (q : ℚ) : Prop := ∃ m e : ℤ, |m| < 2 ^ 53 ∧ -1074 ≤ e ∧ e ≤ 971 ∧ q = m * (2 : ℚ) ^ e

/-- Rounding to a nearest double, with any rule for ties. -/
def RoundsToNearest (round : ℚ → ℚ) : Prop :=
  ∀ q, |q| ≤ 2 ^ 200 → IsDouble (round q) ∧ ∀ d, IsDouble d → |round q - q| ≤ |d - q|

/-- The outcome of running a program, for comparing with `Out`. -/
def Out.ofErlang : Option Int → Out
  | some n => .value n
  | none => .crash

/-- A number stands for an integer outcome. -/
def Out.Shows : Option ℚ → Out → Prop
  | some q, .value n => q = n
  | none, .crash => True
  | _, _ => False

/-- What integer guards mean. -/
def GExpr.spec (range : Int → Bool) (ρ : String → Int) : GExpr → Option Int
  | .lit n => if range n then some n else none
  | .var x => if range (ρ x) then some (ρ x) else none
  | .bin op l r =>
    match l.spec range ρ, r.spec range ρ with
    | some a, some b => if range (gleamOp op a b) then some (gleamOp op a b) else none
    | _, _ => none

def Guard.spec (range : Int → Bool) (ρ : String → Int) : Guard → Option Bool
  | .cmp c l r =>
    match l.spec range ρ, r.spec range ρ with
    | some a, some b =>
      some (match c with | .lt => a < b | .le => a ≤ b | .gt => a > b | .ge => a ≥ b | .eq => a = b | .ne => a ≠ b)
    | _, _ => none
  | .and l r => match l.spec range ρ, r.spec range ρ with | some a, some b => some (a && b) | _, _ => none
  | .or l r => match l.spec range ρ, r.spec range ρ with | some a, some b => some (a || b) | _, _ => none
  | .not g => (g.spec range ρ).map (!·)

/-- No divisor is zero. -/
def GExpr.NoZeroDivisor (ρ : String → Int) : GExpr → Prop
  | .lit _ => True
  | .var _ => True
  | .bin op l r => l.NoZeroDivisor ρ ∧ r.NoZeroDivisor ρ ∧ ((op = .div ∨ op = .rem) → r.spec unlimited ρ ≠ some 0)

def Guard.NoZeroDivisor (ρ : String → Int) : Guard → Prop
  | .cmp _ l r => l.NoZeroDivisor ρ ∧ r.NoZeroDivisor ρ
  | .and l r => l.NoZeroDivisor ρ ∧ r.NoZeroDivisor ρ
  | .or l r => l.NoZeroDivisor ρ ∧ r.NoZeroDivisor ρ
  | .not g => g.NoZeroDivisor ρ

/-- Values of one Gleam type: integers and floats never meet. -/
def NumbersAlike : Term → Term → Prop
  | .int _, .flt _ _ => False
  | .flt _ _, .int _ => False
  | .cons h t, .cons h' t' => NumbersAlike h h' ∧ NumbersAlike t t'
  | .tuple e, .tuple e' => NumbersAlike e e'
  | _, _ => True

/-- No negative zero, and magnitudes are magnitudes. -/
def Term.Normal : Term → Prop
  | .int _ => True
  | .flt negative m => 0 ≤ m ∧ (m = 0 → negative = false)
  | .bin _ => True
  | .nil => True
  | .cons h t => h.Normal ∧ t.Normal
  | .tuple e => e.Normal

end Verif.Numbers
