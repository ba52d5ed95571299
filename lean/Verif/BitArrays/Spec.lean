import Verif.BitArrays.Ints
import Mathlib.Algebra.Order.Group.Unbundled.Int

/-
What a bit array is: a sequence of bits. Everything else is stated about that sequence.
-/
namespace Verif.BitArrays

/-- Bit `i` of a buffer, counting from the high bit of the first byte. -/
def bufferBit (buffer : List Nat) (i : Nat) : Bool := (buffer.getD (i / 8) 0).testBit (7 - i % 8)

/-- The bits of a bit array. -/
def BitArray.bits (b : BitArray) : List Bool := (List.range b.bitSize).map fun i => bufferBit b.rawBuffer (b.bitOffset + i)

/-- The bits of a byte, high bit first. -/
def byteBits (byte : Nat) : List Bool := (List.range 8).map fun i => byte.testBit (7 - i)

/-- Buffers hold bytes. -/
def Bytes (buffer : List Nat) : Prop := ∀ byte ∈ buffer, byte < 256

/-- What the constructor guarantees. -/
structure BitArray.Valid (b : BitArray) : Prop where
  bytes : Bytes b.rawBuffer
  offset : b.bitOffset ≤ 7
  length : b.rawBuffer.length = (b.bitOffset + b.bitSize + 7) / 8

/-- The bits a segment stands for: numbers are bytes modulo 256. -/
def Segment.toBits : Segment → List Bool
  | .number n => byteBits (n % 256).toNat
  | .bytes buffer => buffer.flatMap byteBits
  | .bits b => b.bits

def Segment.Valid : Segment → Prop
  | .number _ => True
  | .bytes buffer => Bytes buffer
  | .bits b => b.Valid

end Verif.BitArrays

/-! ### Integers as bits -/
namespace Verif.BitArrays

/-- The number written by some bits, high bit first. -/
def valueBig (bits : List Bool) : Nat := bits.foldl (fun value bit => 2 * value + bit.toNat) 0

/-- Little endian: the first byte is the lowest; fewer than eight bits at the end are the highest ones. -/
def valueLittle (bits : List Bool) : Nat :=
  if bits.length < 8 then valueBig bits else valueBig (bits.take 8) + 256 * valueLittle (bits.drop 8)
termination_by bits.length

def valueOf (isBigEndian : Bool) (bits : List Bool) : Nat := if isBigEndian then valueBig bits else valueLittle bits

/-- Two's complement in `size` bits. -/
def asSigned (size value : Nat) : Int := if 2 ^ size ≤ 2 * value then (value : Int) - 2 ^ size else value

/-- The integer read from some bits. -/
def readInt (isBigEndian isSigned : Bool) (bits : List Bool) : Int :=
  if isSigned then asSigned bits.length (valueOf isBigEndian bits) else valueOf isBigEndian bits

/-- The low `n` bits of an integer, high bit first. -/
def bitsBig (v : Int) (n : Nat) : List Bool := (List.range n).map fun i => decide (v / 2 ^ (n - 1 - i) % 2 = 1)

def bitsLittle (v : Int) (n : Nat) : List Bool :=
  if n < 8 then bitsBig v n else bitsBig v 8 ++ bitsLittle (v / 256) (n - 8)
termination_by n

/-- The bits of an integer segment. -/
def writeInt (isBigEndian : Bool) (v : Int) (n : Nat) : List Bool := if isBigEndian then bitsBig v n else bitsLittle v n

/-- Integers that a JavaScript number holds exactly. -/
def IsNumber (v : Int) : Prop := ∃ (m : Int) (e : Nat), |m| < 2 ^ 53 ∧ v = m * 2 ^ e

/-- Converting a `BigInt` to a number: exact where there is such a number, unless it is too large. -/
def Converts (number : Int → Option Int) : Prop :=
  ∀ (m : Int) (e : Nat), |m| < 2 ^ 53 → number (m * 2 ^ e) = some (m * 2 ^ e) ∨ (971 < e ∧ number (m * 2 ^ e) = none)

end Verif.BitArrays
