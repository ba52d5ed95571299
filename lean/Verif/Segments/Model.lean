import Verif.Case.Model
import Mathlib.Data.Nat.Size

/-!
# The tests of bit array patterns

Model of the part of `compiler-core/src/exhaustiveness.rs` that turns the segments of a bit array
pattern into tests and relates these tests to each other.
-/

namespace Verif.Segments

open Verif.Case (Name)

/-- ast.rs `IntOperator`, the operators allowed in the size of a segment. -/
inductive IntOperator
  | add
  | subtract
  | multiply
  | divide
  | remainder
deriving DecidableEq

/-- exhaustiveness.rs 1685-1691 (`ReadType`). -/
inductive ReadType
  | float
  | int
  | string
  | bitArray
  | utfCodepoint
deriving DecidableEq

mutual
/-- exhaustiveness.rs 1909-1960 (`ReadSize`). -/
inductive ReadSize
  | constantBits (bits : Int)
  | variableBits (usage : VariableUsage) (unit : Nat)
  | binaryOperator (left right : ReadSize) (operator : IntOperator)
  | remainingBits
  | remainingBytes
/-- exhaustiveness.rs 2014-2021 (`VariableUsage`). -/
inductive VariableUsage
  | patternSegment (name : Name) (action : ReadAction)
  | outsideVariable (name : Name)
/-- exhaustiveness.rs 1660-1677 (`ReadAction`); `big` is `endianness`. -/
inductive ReadAction
  | mk (start : Offset) (size : ReadSize) (type : ReadType) (big signed : Bool)
/-- exhaustiveness.rs 1735-1746 (`Offset`). -/
inductive Offset
  | mk (constant : Int) (vars : Variables) (calculations : Calculations)
/-- The hash map `variables` of an offset.  It is kept as a list without repeated keys, sorted by
some order, so that equal maps are equal lists. -/
inductive Variables
  | nil
  | cons (usage : VariableUsage) (times : Nat) (rest : Variables)
/-- The vector `calculations` of an offset, exhaustiveness.rs 1748-1753 (`OffsetCalculation`). -/
inductive Calculations
  | nil
  | cons (left right : Offset) (operator : IntOperator) (rest : Calculations)
end

deriving instance DecidableEq for ReadSize, VariableUsage, ReadAction, Offset, Variables, Calculations

def ReadAction.start : ReadAction → Offset | .mk start _ _ _ _ => start
def ReadAction.size : ReadAction → ReadSize | .mk _ size _ _ _ => size
def ReadAction.type : ReadAction → ReadType | .mk _ _ type _ _ => type
def ReadAction.big : ReadAction → Bool | .mk _ _ _ big _ => big
def ReadAction.signed : ReadAction → Bool | .mk _ _ _ _ signed => signed

/-! ### The order used to sort the variables of an offset

It stands for nothing in the code, see `Variables`. -/

def IntOperator.rank : IntOperator → Nat
  | .add => 0
  | .subtract => 1
  | .multiply => 2
  | .divide => 3
  | .remainder => 4

def ReadType.rank : ReadType → Nat
  | .float => 0
  | .int => 1
  | .string => 2
  | .bitArray => 3
  | .utfCodepoint => 4

mutual
def ReadSize.cmp : ReadSize → ReadSize → Ordering
  | .constantBits n, .constantBits m => compare n m
  | .constantBits _, _ => .lt
  | .variableBits v u, .variableBits w u' => (v.cmp w).then (compare u u')
  | .variableBits _ _, .constantBits _ => .gt
  | .variableBits _ _, _ => .lt
  | .binaryOperator l r o, .binaryOperator l' r' o' =>
    (l.cmp l').then ((r.cmp r').then (compare o.rank o'.rank))
  | .binaryOperator _ _ _, .remainingBits => .lt
  | .binaryOperator _ _ _, .remainingBytes => .lt
  | .binaryOperator _ _ _, _ => .gt
  | .remainingBits, .remainingBits => .eq
  | .remainingBits, .remainingBytes => .lt
  | .remainingBits, _ => .gt
  | .remainingBytes, .remainingBytes => .eq
  | .remainingBytes, _ => .gt
termination_by structural x => x
def VariableUsage.cmp : VariableUsage → VariableUsage → Ordering
  | .patternSegment n a, .patternSegment m b => (compare n m).then (a.cmp b)
  | .patternSegment _ _, .outsideVariable _ => .lt
  | .outsideVariable _, .patternSegment _ _ => .gt
  | .outsideVariable n, .outsideVariable m => compare n m
termination_by structural x => x
def ReadAction.cmp : ReadAction → ReadAction → Ordering
  | .mk f s t b g, .mk f' s' t' b' g' =>
    (f.cmp f').then ((s.cmp s').then ((compare t.rank t'.rank).then ((compare b b').then (compare g g'))))
termination_by structural x => x
def Offset.cmp : Offset → Offset → Ordering
  | .mk c vs cs, .mk c' vs' cs' => (compare c c').then ((vs.cmp vs').then (cs.cmp cs'))
termination_by structural x => x
def Variables.cmp : Variables → Variables → Ordering
  | .nil, .nil => .eq
  | .nil, _ => .lt
  | _, .nil => .gt
  | .cons v n r, .cons v' n' r' => (v.cmp v').then ((compare n n').then (r.cmp r'))
termination_by structural x => x
def Calculations.cmp : Calculations → Calculations → Ordering
  | .nil, .nil => .eq
  | .nil, _ => .lt
  | _, .nil => .gt
  | .cons l r o c, .cons l' r' o' c' =>
    (l.cmp l').then ((r.cmp r').then ((compare o.rank o'.rank).then (c.cmp c')))
termination_by structural x => x
end

/-! ### Offsets -/

/-- The number of occurrences of a variable, `im::HashMap::get`. -/
def Variables.get : Variables → VariableUsage → Option Nat
  | .nil, _ => none
  | .cons w n rest, v => if w = v then some n else rest.get v

/-- A variable that is there occurs `unit` more times. -/
def Variables.increase : Variables → VariableUsage → Nat → Variables
  | .nil, _, _ => .nil
  | .cons w n rest, v, unit => if w = v then .cons w (n + unit) rest else .cons w n (rest.increase v unit)

/-- A new variable. -/
def Variables.insert : Variables → VariableUsage → Nat → Variables
  | .nil, v, unit => .cons v unit .nil
  | .cons w n rest, v, unit =>
    if v.cmp w = .lt then .cons v unit (.cons w n rest) else .cons w n (rest.insert v unit)

/-- exhaustiveness.rs 1776-1783: the variable occurs `unit` more times (`im::HashMap::alter`). -/
def Variables.add (vs : Variables) (v : VariableUsage) (unit : Nat) : Variables :=
  if (vs.get v).isSome then vs.increase v unit else vs.insert v unit

/-- exhaustiveness.rs 4085-4095 (`superset`). -/
def Variables.superset (one : Variables) : Variables → Bool
  | .nil => true
  | .cons key occurrences rest => decide (occurrences ≤ (one.get key).getD 0 ∧ (one.get key).isSome) && one.superset rest

/-- `push_back`. -/
def Calculations.push : Calculations → Offset → Offset → IntOperator → Calculations
  | .nil, l, r, o => .cons l r o .nil
  | .cons l' r' o' rest, l, r, o => .cons l' r' o' (rest.push l r o)

/-- exhaustiveness.rs 1756-1762 (`Offset::constant`). -/
def Offset.ofConstant (value : Int) : Offset := .mk value .nil .nil

/-- exhaustiveness.rs 1768-1806 (`Offset::add_size`); 1764-1766 is `from_size`. -/
def Offset.addSize : Offset → ReadSize → Offset
  | .mk c vs cs, .constantBits value => .mk (c + value) vs cs
  | .mk c vs cs, .variableBits usage unit => .mk c (vs.add usage unit) cs
  | o, .remainingBits => o
  | o, .remainingBytes => o
  | o, .binaryOperator left right .add => (o.addSize left).addSize right
  | .mk c vs cs, .binaryOperator left right operator =>
    .mk c vs (cs.push ((Offset.ofConstant 0).addSize left) ((Offset.ofConstant 0).addSize right) operator)
termination_by structural _ s => s

def Offset.fromSize (size : ReadSize) : Offset := (Offset.ofConstant 0).addSize size

/-- exhaustiveness.rs 1820-1833 (`Offset::greater`). -/
def Offset.greater : Offset → Offset → Bool
  | .mk c vs cs, .mk c' vs' cs' =>
    decide (c' < c) && decide (cs = .nil) && decide (cs' = .nil) && vs.superset vs'

/-- exhaustiveness.rs 1838-1851 (`Offset::greater_equal`). -/
def Offset.greaterEqual : Offset → Offset → Bool
  | .mk c vs cs, .mk c' vs' cs' =>
    decide (Offset.mk c vs cs = .mk c' vs' cs') ||
      (decide (c' ≤ c) && decide (cs = .nil) && decide (cs' = .nil) && vs.superset vs')

/-- exhaustiveness.rs 1856-1858 (`Offset::different`). -/
def Offset.different (self other : Offset) : Bool := self.greater other || other.greater self

/-- exhaustiveness.rs 1866-1872 (`Offset::constant_bits`). -/
def Offset.knownBits : Offset → Option Int
  | .mk c .nil .nil => some c
  | _ => none

/-- exhaustiveness.rs 1964-1972 (`ReadSize::constant_bits`). -/
def ReadSize.knownBits : ReadSize → Option Int
  | .constantBits value => some value
  | _ => none

/-- exhaustiveness.rs 1992-2010 (`ReadSize::can_be_negative`). -/
def ReadSize.canBeNegative : ReadSize → Bool
  | .constantBits value => decide (value < 0)
  | .variableBits (.patternSegment _ action) _ => action.signed
  | .variableBits (.outsideVariable _) _ => true
  | .binaryOperator left right operator =>
    decide (operator = .subtract) || left.canBeNegative || right.canBeNegative
  | .remainingBits => false
  | .remainingBytes => false

/-! ### The bits of a literal integer -/

/-- The bits of a byte, high bit first: how `BitVec<u8, Msb0>` orders them. -/
def byteBits (byte : Nat) : List Bool := (List.range 8).map fun i => byte.testBit (7 - i)

/-- exhaustiveness.rs 4098-4135 (`representable_with_bits`).  `BigInt::bits` is the number of bits of
the magnitude, `trailing_zeros` equals the number of bits less one exactly for powers of two. -/
def representableWithBits (value : Int) (bits : Nat) (signed : Bool) : Bool :=
  if bits = 0 then false
  else if value = 0 then decide (1 ≤ bits)
  else if 0 < value then decide ((if signed then Nat.size value.natAbs + 1 else Nat.size value.natAbs) ≤ bits)
  else if signed then
    decide ((if value.natAbs = 2 ^ (Nat.size value.natAbs - 1) then Nat.size value.natAbs
      else Nat.size value.natAbs + 1) ≤ bits)
  else false

/-- The number of bytes of num-bigint's `to_bytes_be` (at least one) and `to_signed_bytes_be` (the
sign needs a bit of its own unless the value is a negative power of two). -/
def byteCount (value : Int) (signed : Bool) : Nat :=
  max 1 (((if signed then
    (if value < 0 ∧ value.natAbs = 2 ^ (Nat.size value.natAbs - 1) then Nat.size value.natAbs
      else Nat.size value.natAbs + 1)
    else Nat.size value.natAbs) + 7) / 8)

/-- exhaustiveness.rs 3947-3954 (`int_to_bytes`).  Without a sign num-bigint gives the bytes of the
magnitude, with a sign those of the two's complement; little endian, see `intToBytes`. -/
def littleBytes (value : Int) (signed : Bool) : List Nat :=
  (List.range (byteCount value signed)).map fun i =>
    ((if signed then value else (value.natAbs : Int)) / 256 ^ i % 256).toNat

def intToBytes (value : Int) (big signed : Bool) : List Nat :=
  if big then (littleBytes value signed).reverse else littleBytes value signed

/-- exhaustiveness.rs 3956-3961 (`IntToBitsError`). -/
inductive IntToBitsError
  | unrepresentable (size : Nat)
  | exceedsMaximumSize
  | nonConstantSize
deriving DecidableEq

/-- exhaustiveness.rs 3922-3931: the bits of the last byte move up, the bits that are not needed are cut off. -/
def shiftLast (bytes : List Nat) (by_ : Nat) : List Nat :=
  bytes.dropLast ++ (bytes.getLast?.map fun last => last * 2 ^ by_ % 256).toList

/-- exhaustiveness.rs 3900-3943: the bytes of the value adjusted to `size` bits. -/
def adjustBits (bytes : List Nat) (size : Nat) (big pad : Bool) : List Bool :=
  if bytes.length * 8 = size then bytes.flatMap byteBits
  else if size < bytes.length * 8 then
    if big then (bytes.flatMap byteBits).drop (bytes.length * 8 - size)
    else if size % 8 = 0 then bytes.flatMap byteBits
    else ((shiftLast bytes (8 - size % 8)).flatMap byteBits).take size
  else
    if big then List.replicate (size - bytes.length * 8) pad ++ bytes.flatMap byteBits
    else bytes.flatMap byteBits ++ List.replicate (size - bytes.length * 8) pad

/-- `BigInt::to_u32`. -/
def toU32 (n : Int) : Option Nat := if 0 ≤ n ∧ n < 2 ^ 32 then some n.toNat else none

/-- `BigInt::to_usize` on a 64 bit machine. -/
def toUsize (n : Int) : Option Nat := if 0 ≤ n ∧ n < 2 ^ 64 then some n.toNat else none

/-- exhaustiveness.rs 1347-1351 (`MAX_BITS_INTERFERENCE`). -/
def maxBitsInterference : Nat := 65535

/-- exhaustiveness.rs 3882-3945 (`int_to_bits`). -/
def intToBits (value : Int) (size : ReadSize) (big signed : Bool) : Except IntToBitsError (List Bool) :=
  match size.knownBits with
  | none => .error .nonConstantSize
  | some bits =>
    match toU32 bits with
    | none => .error .exceedsMaximumSize
    | some n =>
      if representableWithBits value n signed = false then .error (.unrepresentable n)
      else if maxBitsInterference < n then .error .exceedsMaximumSize
      else .ok (adjustBits (intToBytes value big signed) n big (decide (value < 0)))

/-! ### Tests -/

/-- exhaustiveness.rs 1317-1342 (`BitArrayMatchedValue`) without variables and discards, which are
no tests that can fail.  The bits that a literal integer carries are computed where they are used:
they depend on its value and its read action only (3832-3846).  `utf` are the bytes of a string. -/
inductive MatchedValue
  | literalFloat (text : String)
  | literalInt (value : Int)
  | literalString (utf : List Nat)
  | assign (name : Name) (value : MatchedValue)
deriving DecidableEq

/-- exhaustiveness.rs 1365-1379 (`constant_bits`). -/
def MatchedValue.constantBits (action : ReadAction) : MatchedValue → Option (List Bool)
  | .literalString utf => some (utf.flatMap byteBits)
  | .assign _ value => value.constantBits action
  | .literalInt value => (intToBits value action.size action.big action.signed).toOption
  | .literalFloat _ => none

/-- exhaustiveness.rs 1420-1462 (`checking_same_value`). -/
def MatchedValue.checkingSameValue : MatchedValue → MatchedValue → Bool
  | .literalInt one, .literalInt other => decide (one = other)
  | .literalFloat one, .literalFloat other => decide (one = other)
  | .literalString one, .literalString other => decide (one = other)
  | .assign _ one, .assign _ other => one.checkingSameValue other
  | _, _ => false

/-- exhaustiveness.rs 1382-1409 (`is_impossible_segment`). -/
def MatchedValue.impossible (action : ReadAction) : MatchedValue → Bool
  | .assign _ value => value.impossible action
  | .literalInt value =>
    match intToBits value action.size action.big action.signed with
    | .error (.unrepresentable _) => true
    | _ => false
  | _ => false

/-- The value without the names it is given (333-336). -/
def MatchedValue.unalias : MatchedValue → MatchedValue
  | .assign _ value => value
  | value => value

/-- exhaustiveness.rs 1638-1642 (`SizeOperator`). -/
inductive SizeOperator
  | greaterEqual
  | equal
deriving DecidableEq

/-- exhaustiveness.rs 996-1024 (`BitArrayTest`), 1073-1077 (`SizeTest`), 1133-1141 (`MatchTest`). -/
inductive BitTest
  | size (operator : SizeOperator) (size : Offset)
  | matches (value : MatchedValue) (action : ReadAction)
  | catchAllIsBytes (sizeSoFar : Offset)
  | readSizeIsNotNegative (size : ReadSize)
  | segmentIsFiniteFloat (action : ReadAction)
deriving DecidableEq

/-- exhaustiveness.rs 1205-1215 (`Interference`). -/
structure Interference where
  bitsEqual : Bool
  firstEnclosesSecond : Bool
  secondEnclosesFirst : Bool

/-- exhaustiveness.rs 1305-1310 (`range_contains`); the ranges are inclusive. -/
def rangeContains (start stop start' stop' : Nat) : Bool :=
  decide (start ≤ start' ∧ start' ≤ stop) && decide (start ≤ stop' ∧ stop' ≤ stop)

/-- exhaustiveness.rs 1286-1301: the interference of two literals at known places. -/
def interferenceAt (o1 s1 o2 s2 : Nat) (bits1 bits2 : List Bool) : Interference where
  bitsEqual := decide (((bits1.drop (o2 - o1)).take (min (o2 + s2) (o1 + s1) - o2)) =
    bits2.take (min (o2 + s2) (o1 + s1) - o2))
  firstEnclosesSecond := rangeContains o1 (o1 + s1) o2 (o2 + s2)
  secondEnclosesFirst := rangeContains o2 (o2 + s2) o1 (o1 + s1)

/-- exhaustiveness.rs 1268-1302 (`interfering_bits`). -/
def interferingBits (v1 : MatchedValue) (a1 : ReadAction) (v2 : MatchedValue) (a2 : ReadAction) :
    Option Interference := do
  let o1 ← toUsize (← a1.start.knownBits)
  let o2 ← toUsize (← a2.start.knownBits)
  if o2 < o1 then none
  else
    let s1 ← toUsize (← a1.size.knownBits)
    let s2 ← toUsize (← a2.size.knownBits)
    if o1 + s1 ≤ o2 then none
    else
      let bits1 ← v1.constantBits a1
      let bits2 ← v2.constantBits a2
      some (interferenceAt o1 s1 o2 s2 bits1 bits2)

/-- exhaustiveness.rs 1489-1521 (`equivalent_to`). -/
def BitTest.equivalentTo : BitTest → BitTest → Bool
  | .size o s, .size o' s' => decide (o = o' ∧ s = s')
  | .matches v a, .matches v' a' => v.checkingSameValue v' && decide (a = a')
  | .catchAllIsBytes s, .catchAllIsBytes s' => decide (s = s')
  | .readSizeIsNotNegative s, .readSizeIsNotNegative s' => decide (s = s')
  | .segmentIsFiniteFloat a, .segmentIsFiniteFloat a' => decide (a = a')
  | _, _ => false

/-- exhaustiveness.rs 1086-1094 (`SizeTest::succeeds_if_succeeding`), for the test `o s` knowing about
the succeeding test `o' s'`. -/
def sizeSucceedsIfSucceeding (o : SizeOperator) (s : Offset) (o' : SizeOperator) (s' : Offset) : Bool :=
  match o', o with
  | .equal, .equal => decide (s' = s)
  | _, .greaterEqual => s'.greaterEqual s
  | _, _ => false

/-- exhaustiveness.rs 1102-1108 (`SizeTest::fails_if_failing`). -/
def sizeFailsIfFailing (o : SizeOperator) (s : Offset) (o' : SizeOperator) (s' : Offset) : Bool :=
  match o', o with
  | .greaterEqual, _ => s.greaterEqual s'
  | _, _ => decide (o = o' ∧ s = s')

/-- exhaustiveness.rs 1116-1127 (`SizeTest::fails_if_succeeding`). -/
def sizeFailsIfSucceeding (o : SizeOperator) (s : Offset) (o' : SizeOperator) (s' : Offset) : Bool :=
  match o', o with
  | .greaterEqual, .equal => s'.greater s
  | .equal, .greaterEqual => s.greater s'
  | .equal, .equal => s'.different s
  | _, _ => false

/-- exhaustiveness.rs 1529-1555 (`BitArrayTest::succeeds_if_succeeding`). -/
def BitTest.succeedsIfSucceeding (test succeeding : BitTest) : Bool :=
  succeeding.equivalentTo test ||
    match succeeding, test with
    | .size o' s', .size o s => sizeSucceedsIfSucceeding o s o' s'
    | .matches v' a', .matches v a =>
      match interferingBits v' a' v a with
      | some i => i.bitsEqual && i.firstEnclosesSecond
      | none => false
    | _, _ => false

/-- exhaustiveness.rs 1563-1590 (`BitArrayTest::fails_if_failing`). -/
def BitTest.failsIfFailing (test failing : BitTest) : Bool :=
  failing.equivalentTo test ||
    match failing, test with
    | .size o' s', .size o s => sizeFailsIfFailing o s o' s'
    | .matches v' a', .matches v a =>
      match interferingBits v' a' v a with
      | some i => i.bitsEqual && i.secondEnclosesFirst
      | none => false
    | _, _ => false

/-- exhaustiveness.rs 1599-1621 (`BitArrayTest::fails_if_succeeding`). -/
def BitTest.failsIfSucceeding (test succeeding : BitTest) : Bool :=
  match succeeding, test with
  | .size o' s', .size o s => sizeFailsIfSucceeding o s o' s'
  | .matches v' a', .matches v a =>
    match interferingBits v' a' v a with
    | some i => !i.bitsEqual
    | none => false
  | _, _ => false

def BitTest.impossible : BitTest → Bool
  | .matches value action => value.impossible action
  | _ => false

def BitTest.unalias : BitTest → BitTest
  | .matches value action => .matches value.unalias action
  | test => test

/-! ### From segments to tests -/

/-- ast.rs `BitArraySize`, the size of a segment of a pattern; a block is the expression inside it. -/
inductive SizeExpr
  | int (value : Int)
  | variable (name : Name)
  | binaryOperator (left right : SizeExpr) (operator : IntOperator)
deriving DecidableEq

/-- The literals allowed in a segment; `utf` are the bytes of the string `text` in its encoding. -/
inductive Literal
  | int (value : Int)
  | float (text : String)
  | string (text : List Char) (utf : List Nat)
deriving DecidableEq

/-- The pattern of a segment: a literal, a variable or a discard, which may have a name (`as`). -/
inductive SegmentValue
  | literal (value : Literal) (as : Option Name)
  | variable (name : Name)
  | discard (as : Option Name)
deriving DecidableEq

/-- The type of a segment. `bits` and `bytes` are bit arrays, with these options. -/
inductive SegmentType
  | int
  | float
  | string
  | bits
  | bytes
  | utfCodepoint
deriving DecidableEq

/-- ast.rs `TypedPatternBitArraySegment`. -/
structure Segment where
  value : SegmentValue
  size : Option SizeExpr
  unit : Nat
  type : SegmentType
  big : Bool
  signed : Bool
deriving DecidableEq

/-- exhaustiveness.rs 3757-3764. -/
def SegmentType.readType : SegmentType → ReadType
  | .int => .int
  | .float => .float
  | .string => .string
  | .bits => .bitArray
  | .bytes => .bitArray
  | .utfCodepoint => .utfCodepoint

/-- The hash map `pattern_variables`, latest first. -/
abbrev PatternVariables := List (Name × ReadAction)

/-- exhaustiveness.rs 4037-4043. -/
def variableUsage (vars : PatternVariables) (name : Name) : VariableUsage :=
  match vars.lookup name with
  | some action => .patternSegment name action
  | none => .outsideVariable name

/-- exhaustiveness.rs 4029-4079 (`bit_array_size`). -/
def bitArraySize (unit : Nat) (vars : PatternVariables) : SizeExpr → ReadSize
  | .int value => .constantBits (value * unit)
  | .variable name => .variableBits (variableUsage vars name) unit
  | .binaryOperator left right operator =>
    if unit = 1 then .binaryOperator (bitArraySize 1 vars left) (bitArraySize 1 vars right) operator
    else .binaryOperator (.binaryOperator (bitArraySize 1 vars left) (bitArraySize 1 vars right) operator)
      (.constantBits unit) .multiply

/-- exhaustiveness.rs 3989-4025: the size of a segment without the option `size`.  The lengths of the
three encodings of a string times their unit are eight times the number of bytes. -/
def defaultSize : SegmentType → SegmentValue → ReadSize
  | .bits, _ => .remainingBits
  | .bytes, _ => .remainingBytes
  | .int, _ => .constantBits 8
  | _, .literal (.string _ utf) _ => .constantBits (8 * utf.length)
  | _, _ => .constantBits 64

/-- exhaustiveness.rs 3963-4026 (`segment_size`). -/
def segmentSize (vars : PatternVariables) (s : Segment) : ReadSize :=
  match s.size with
  | some size => bitArraySize s.unit vars size
  | none => defaultSize s.type s.value

/-- exhaustiveness.rs 3820-3880 (`segment_matched_value`), for literals. -/
def Literal.matched : Literal → MatchedValue
  | .int value => .literalInt value
  | .float text => .literalFloat text
  | .string _ utf => .literalString utf

/-- exhaustiveness.rs 3769-3776. -/
def readAction (vars : PatternVariables) (previousEnd : Offset) (s : Segment) : ReadAction :=
  .mk previousEnd (segmentSize vars s) s.type.readType s.big s.signed

/-- exhaustiveness.rs 3736-3740: the size must not be negative. -/
def negativeTests (size : ReadSize) : List BitTest :=
  if size.canBeNegative then [.readSizeIsNotNegative size] else []

/-- exhaustiveness.rs 3751: `%` of Rust on the constant. -/
def Offset.normalised : Offset → Offset
  | .mk c vs cs => .mk (Int.tmod c 8) vs cs

/-- exhaustiveness.rs 3746-3768: the test on the size of the bit array. -/
def sizeTests (previousEnd : Offset) (isLast : Bool) (size : ReadSize) : List BitTest :=
  match size with
  | .remainingBits => []
  | .remainingBytes => [.catchAllIsBytes previousEnd.normalised]
  | _ => [.size (if isLast then .equal else .greaterEqual) (previousEnd.addSize size)]

/-- exhaustiveness.rs 3800-3809: floats that are no literals must be finite. -/
def floatTests (s : Segment) (action : ReadAction) : List BitTest :=
  match s.type, s.value with
  | .float, .variable _ => [.segmentIsFiniteFloat action]
  | .float, .discard _ => [.segmentIsFiniteFloat action]
  | _, _ => []

/-- exhaustiveness.rs 3784-3796: the name a segment is known by in the sizes that follow. -/
def SegmentValue.name : SegmentValue → Option Name
  | .literal _ as => as
  | .variable name => some name
  | .discard as => as

/-- The tests of a pattern: a segment bound to a name, a discarded segment, and a test that can fail,
with the name of the literal it is about (`Match(Assign)`). -/
inductive SegmentTest
  | bind (name : Name) (action : ReadAction)
  | discard
  | check (as : Option (Name × Literal)) (test : BitTest)
deriving DecidableEq

/-- exhaustiveness.rs 3780, 3810: the match test of a segment. -/
def matchTest (action : ReadAction) : SegmentValue → SegmentTest
  | .literal value none => .check none (.matches value.matched action)
  | .literal value (some name) => .check (some (name, value)) (.matches (.assign name value.matched) action)
  | .variable name => .bind name action
  | .discard (some name) => .bind name action
  | .discard none => .discard

/-- exhaustiveness.rs 3731-3813: the tests of one segment, in their order. -/
def segmentTests (vars : PatternVariables) (previousEnd : Offset) (isLast : Bool) (s : Segment) : List SegmentTest :=
  (negativeTests (segmentSize vars s) ++ sizeTests previousEnd isLast (segmentSize vars s) ++
    floatTests s (readAction vars previousEnd s)).map (.check none) ++ [matchTest (readAction vars previousEnd s) s.value]

/-- exhaustiveness.rs 3784-3796. -/
def nextVariables (vars : PatternVariables) (previousEnd : Offset) (s : Segment) : PatternVariables :=
  match s.value.name with
  | some name => (name, readAction vars previousEnd s) :: vars
  | none => vars

/-- exhaustiveness.rs 3731-3815: the loop over the segments. -/
def testsFrom (vars : PatternVariables) (previousEnd : Offset) : List Segment → List SegmentTest
  | [] => []
  | s :: more => segmentTests vars previousEnd more.isEmpty s ++
    testsFrom (nextVariables vars previousEnd s) (previousEnd.addSize (segmentSize vars s)) more

/-- exhaustiveness.rs 3707-3817 (`bit_array_to_tests`). -/
def bitArrayToTests (segments : List Segment) : List SegmentTest :=
  if segments = [] then [.check none (.size .equal (Offset.ofConstant 0))]
  else testsFrom [] (Offset.ofConstant 0) segments

end Verif.Segments
