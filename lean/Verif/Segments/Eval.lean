import Verif.Segments.Model
import Verif.BitArrays.Spec

/-!
# What the tests of bit array patterns compute

A bit array is the list of its bits.  What the generated code computes for an offset, a read action
and a test (compiler-core/src/javascript/decision.rs) is stated here on that list.
-/

namespace Verif.Segments

open Verif.Case (Name)

/-- What the meaning of a pattern depends on besides the bit array: the values of the variables in
scope around the `case`, which floats the literals stand for, and which float is written by some
bits (first argument: big endian; `none` is infinity or not a number). -/
structure World where
  vars : Name → Int
  floatLit : String → Nat
  floatOf : Bool → List Bool → Option Nat

/-- Integer operators as in Gleam: division truncates, dividing by zero gives zero.  Numbers are
unbounded. -/
def IntOperator.apply : IntOperator → Int → Int → Int
  | .add, a, b => a + b
  | .subtract, a, b => a - b
  | .multiply, a, b => a * b
  | .divide, a, b => if b = 0 then 0 else Int.tdiv a b
  | .remainder, a, b => if b = 0 then 0 else Int.tmod a b

/-- The `size` bits from `start` on, if there are so many. -/
def slice (b : List Bool) (start size : Int) : Option (List Bool) :=
  if 0 ≤ start ∧ 0 ≤ size ∧ start + size ≤ b.length then some ((b.drop start.toNat).take size.toNat) else none

/-- The integer written by some bits. -/
def intOf (big signed : Bool) (bits : Option (List Bool)) : Int :=
  match bits with
  | some bits => BitArrays.readInt big signed bits
  | none => 0

mutual
/-- The number of bits of a segment, decision.rs 1870-1920 (`read_size_to_doc`). -/
def ReadSize.eval (w : World) (b : List Bool) : ReadSize → Int
  | .constantBits n => n
  | .variableBits usage unit => usage.eval w b * unit
  | .binaryOperator left right operator => operator.apply (left.eval w b) (right.eval w b)
  | .remainingBits => 0
  | .remainingBytes => 0
termination_by structural x => x
/-- A variable used in a size: its value outside or the integer of an earlier segment. -/
def VariableUsage.eval (w : World) (b : List Bool) : VariableUsage → Int
  | .patternSegment _ action => action.int w b
  | .outsideVariable name => w.vars name
termination_by structural x => x
/-- The integer read by a read action, decision.rs 1708-1788 (`read_action_to_doc`); a read outside of
the bit array, never reached by the generated code, is `0`. -/
def ReadAction.int (w : World) (b : List Bool) : ReadAction → Int
  | .mk start size _ big signed => intOf big signed (slice b (start.eval w b) (size.eval w b))
termination_by structural x => x
/-- decision.rs 1801-1864 (`offset_to_doc`). -/
def Offset.eval (w : World) (b : List Bool) : Offset → Int
  | .mk c vs cs => c + vs.eval w b + cs.eval w b
termination_by structural x => x
def Variables.eval (w : World) (b : List Bool) : Variables → Int
  | .nil => 0
  | .cons usage times rest => usage.eval w b * times + rest.eval w b
termination_by structural x => x
def Calculations.eval (w : World) (b : List Bool) : Calculations → Int
  | .nil => 0
  | .cons left right operator rest => operator.apply (left.eval w b) (right.eval w b) + rest.eval w b
termination_by structural x => x
end

/-- The bits a read action reads. -/
def ReadAction.bits (w : World) (b : List Bool) (a : ReadAction) : Option (List Bool) :=
  match a.size with
  | .remainingBits => slice b (a.start.eval w b) (b.length - a.start.eval w b)
  | .remainingBytes => slice b (a.start.eval w b) (b.length - a.start.eval w b)
  | size => slice b (a.start.eval w b) (size.eval w b)

/-- The segment is the literal, decision.rs 2078-2238: strings are compared byte by byte, integers
byte by byte or by their value, floats by their value. -/
def MatchedValue.holds (w : World) (a : ReadAction) (bits : List Bool) : MatchedValue → Bool
  | .literalFloat text => decide (w.floatOf a.big bits = some (w.floatLit text))
  | .literalInt value => decide (BitArrays.readInt a.big a.signed bits = value)
  | .literalString utf => decide (bits = utf.flatMap byteBits)
  | .assign _ value => value.holds w a bits

/-- decision.rs 1528-1639 (`runtime_check`): the outcome of a test. -/
def BitTest.holds (w : World) (b : List Bool) : BitTest → Bool
  | .size .greaterEqual s => decide (s.eval w b ≤ b.length)
  | .size .equal s => decide (s.eval w b = b.length)
  | .matches value a => (a.bits w b).elim false fun bits => value.holds w a bits
  | .catchAllIsBytes sizeSoFar => decide (((b.length : Int) - sizeSoFar.eval w b) % 8 = 0)
  | .readSizeIsNotNegative s => decide (0 ≤ s.eval w b)
  | .segmentIsFiniteFloat a => (a.bits w b).elim false fun bits => (w.floatOf a.big bits).isSome

/-- The value of a segment, as it is bound to a name. -/
def ReadAction.value (w : World) (b : List Bool) (a : ReadAction) : Case.Val (List Bool) :=
  match a.type with
  | .int => .int (intOf a.big a.signed (a.bits w b))
  | .float => .float ((w.floatOf a.big ((a.bits w b).getD [])).getD 0)
  | _ => .bits ((a.bits w b).getD [])

end Verif.Segments
