import Verif.Segments.Eval
import Verif.Case.Spec

/-!
# Which tests occur, and the tests as a parameter of `Verif.Case`
-/

namespace Verif.Segments

/-- The variable is never negative, as far as that is known from how it is read. -/
def VariableUsage.unsigned : VariableUsage → Bool
  | .patternSegment _ a => !a.signed
  | .outsideVariable _ => true

def Variables.unsigned : Variables → Bool
  | .nil => true
  | .cons v _ rest => v.unsigned && rest.unsigned

/-- No key twice: the list is a map. -/
def Variables.distinct : Variables → Bool
  | .nil => true
  | .cons v _ rest => (rest.get v).isNone && rest.distinct

def Offset.vars : Offset → Variables
  | .mk _ vs _ => vs

/-- A literal that the type checker lets through (bit_array.rs 271-345): a string has exactly the
size of its bytes, and an integer whose size is known has at least one bit. -/
def MatchedValue.fits (a : ReadAction) : MatchedValue → Bool
  | .literalFloat _ => true
  | .literalInt _ => a.size.knownBits.all fun n => decide (0 < n)
  | .literalString utf => decide (a.size = .constantBits (8 * utf.length))
  | .assign _ value => value.fits a

/-- The sizes of the pattern are sums of constants, segments read without a sign, and variables from
outside.  (Differences, products and quotients can occur besides.) -/
def BitTest.plain : BitTest → Bool
  | .size _ s => s.vars.distinct && s.vars.unsigned
  | .matches value a => value.fits a
  | _ => true

/-- All the tests, with what they compute and the relations between them. -/
def allTests (w : World) : Case.BitSys where
  Bits := List Bool
  Test := BitTest
  Read := ReadAction
  holds t b := t.holds w b
  read a b := a.value w b
  failsIfSucceeding := BitTest.failsIfSucceeding
  failsIfFailing := BitTest.failsIfFailing
  succeedsIfSucceeding := BitTest.succeedsIfSucceeding
  impossible := BitTest.impossible
  unalias := BitTest.unalias

theorem BitTest.unalias_plain {t : BitTest} (h : t.plain = true) : t.unalias.plain = true := by
  cases t with
  | «matches» value a => cases value <;> exact h
  | _ => exact h

/-- The same for plain tests only. -/
def plainTests (w : World) : Case.BitSys where
  Bits := List Bool
  Test := {t : BitTest // t.plain = true}
  Read := ReadAction
  holds t b := t.1.holds w b
  read a b := a.value w b
  failsIfSucceeding t p := t.1.failsIfSucceeding p.1
  failsIfFailing t p := t.1.failsIfFailing p.1
  succeedsIfSucceeding t p := t.1.succeedsIfSucceeding p.1
  impossible t := t.1.impossible
  unalias t := ⟨t.1.unalias, BitTest.unalias_plain t.2⟩

/-! ### What a bit array pattern means

Stated without tests: the pattern is read from left to right, every segment takes its bits from the
front of what is left, and nothing may be left at the end. -/

/-- The value of a size; the variables are named by earlier segments, or come from outside. -/
def SizeExpr.value (w : World) (names : List (Case.Name × Int)) : SizeExpr → Int
  | .int value => value
  | .variable name => (names.lookup name).getD (w.vars name)
  | .binaryOperator left right operator => operator.apply (left.value w names) (right.value w names)

/-- The first `n` bits and the others. -/
def splitBits (n : Int) (rest : List Bool) : Option (List Bool × List Bool) :=
  if 0 ≤ n ∧ n ≤ rest.length then some (rest.take n.toNat, rest.drop n.toNat) else none

/-- The bits a segment takes: as many as its size and unit say; everything for `bits`; everything for
`bytes`, which must be whole bytes; 8 for an integer, the length of a string, 64 for anything else. -/
def Segment.take (w : World) (names : List (Case.Name × Int)) (s : Segment) (rest : List Bool) : Option (List Bool × List Bool) :=
  match s.size, s.type, s.value with
  | some size, _, _ => splitBits (size.value w names * s.unit) rest
  | none, .bits, _ => some (rest, [])
  | none, .bytes, _ => if rest.length % 8 = 0 then some (rest, []) else none
  | none, .int, _ => splitBits 8 rest
  | none, _, .literal (.string _ utf) _ => splitBits (8 * utf.length) rest
  | none, _, _ => splitBits 64 rest

/-- The bits of a segment are the literal; a float that is no literal has to be finite. -/
def Segment.accepts (w : World) (s : Segment) (bits : List Bool) : Bool :=
  match s.value, s.type with
  | .literal (.int value) _, _ => decide (BitArrays.readInt s.big s.signed bits = value)
  | .literal (.float text) _, _ => decide (w.floatOf s.big bits = some (w.floatLit text))
  | .literal (.string _ utf) _, _ => decide (bits = utf.flatMap BitArrays.byteBits)
  | _, .float => (w.floatOf s.big bits).isSome
  | _, _ => true

/-- The value of some bits in a segment. -/
def Segment.read (w : World) (s : Segment) (bits : List Bool) : Case.Val (List Bool) :=
  match s.type with
  | .int => .int (BitArrays.readInt s.big s.signed bits)
  | .float => .float ((w.floatOf s.big bits).getD 0)
  | _ => .bits bits

def Literal.value (w : World) : Literal → Case.Val (List Bool)
  | .int value => .int value
  | .float text => .float (w.floatLit text)
  | .string text _ => .str text

/-- The name a segment binds and its value. -/
def Segment.binds (w : World) (s : Segment) (bits : List Bool) : List (Case.Name × Case.Val (List Bool)) :=
  match s.value with
  | .literal value as => (as.map fun name => (name, value.value w)).toList
  | .variable name => [(name, s.read w bits)]
  | .discard as => (as.map fun name => (name, s.read w bits)).toList

/-- The name a segment gives to what it reads. -/
def SegmentValue.given : SegmentValue → Option Case.Name
  | .literal _ name | .discard name => name
  | .variable name => some name

theorem SegmentValue.given_eq (v : SegmentValue) : v.given = v.name := by cases v <;> rfl

/-- The names that later sizes can use. -/
def Segment.named (s : Segment) (bits : List Bool) (names : List (Case.Name × Int)) : List (Case.Name × Int) :=
  match s.value.given with
  | some name => (name, BitArrays.readInt s.big s.signed bits) :: names
  | none => names

/-- Matches a bit array with segments. -/
def matchSegments (w : World) (names : List (Case.Name × Int)) : List Segment → List Bool →
    Option (List (Case.Name × Case.Val (List Bool)))
  | [], rest => if rest = [] then some [] else none
  | s :: more, rest =>
    (s.take w names rest).bind fun (bits, left) =>
      if s.accepts w bits then (matchSegments w (s.named bits names) more left).map fun l => s.binds w bits ++ l
      else none

/-- Only the last segment takes everything (type_/pattern.rs, `SegmentMustHaveSize` in bit_array.rs). -/
def Sized : List Segment → Bool
  | [] => true
  | [_] => true
  | s :: more => (s.size.isSome || (s.type != .bits && s.type != .bytes)) && Sized more

/-- The tests of the model as tests of `Verif.Case`. -/
def SegmentTest.toBTest (w : World) : SegmentTest → Case.BTest (allTests w)
  | .bind name action => .bind name action
  | .discard => .discard
  | .check as test => .check (as.map fun (name, value) => (name, value.value w)) test

/-! ### `case` expressions on bit arrays -/

/-- The number of bits of a segment if the pattern says it. -/
def Segment.bitCount (s : Segment) : Option Int :=
  match s.size, s.type with
  | some (.int n), _ => some (n * s.unit)
  | some _, _ => none
  | none, .int => some 8
  | none, _ => none

/-- A segment of the part of the language the theorems are about: a segment with a name is read
without a sign, an integer has the type `Int` and at least one bit, a string has no size. -/
def Segment.plain (s : Segment) : Bool :=
  (!s.signed || s.value.given.isNone) &&
    match s.value with
    | .literal (.int _) _ => decide (s.type = .int) && s.bitCount.all fun n => decide (0 < n)
    | .literal (.string _ _) _ => decide (s.type = .string ∧ s.size = none)
    | _ => true

/-- The integer `v` can be written with `n` bits. -/
def IntFits (v : Int) (n : Nat) (signed : Bool) : Prop :=
  if signed then 0 < n ∧ -2 ^ (n - 1) ≤ v ∧ v < 2 ^ (n - 1) else 0 ≤ v ∧ v < 2 ^ n

/-- A literal without a name that fits its segment. -/
def Segment.simple (s : Segment) : Prop :=
  match s.value with
  | .literal (.int v) as => as = none ∧ ∀ n : Nat, s.bitCount = some (n : Int) → IntFits v n s.signed
  | .literal _ as => as = none
  | _ => True

/-- A clause of a `case` expression on a bit array: a pattern, and the names the guard mentions. -/
structure BitClause where
  segments : List Segment
  guard : Option (List Case.Name)

/-- The type checker accepts the clause, and it is in the part of the language described above. -/
def BitClause.Plain (c : BitClause) : Prop := Sized c.segments = true ∧ ∀ s ∈ c.segments, s.plain = true

/-- Which clause a bit array selects, and the variables of its body: the first one whose pattern
matches and whose guard holds. -/
def firstMatch (w : World) (guards : Nat → (Case.Name → Option (Case.Val (List Bool))) → Bool) (b : List Bool) :
    Nat → List BitClause → Option (Nat × (Case.Name → Option (Case.Val (List Bool))))
  | _, [] => none
  | i, c :: cs =>
    match matchSegments w [] c.segments b with
    | none => firstMatch w guards b (i + 1) cs
    | some l =>
      if c.guard.isNone || guards i (fun x => l.lookup x) then some (i, fun x => l.lookup x)
      else firstMatch w guards b (i + 1) cs

/-- The tests of the model as plain tests. -/
def SegmentTest.toPlain (w : World) : SegmentTest → Case.BTest (plainTests w)
  | .bind name action => .bind name action
  | .discard => .discard
  | .check as test =>
    if h : test.plain = true then .check (as.map fun (name, value) => (name, value.value w)) ⟨test, h⟩ else .discard

/-- The clause as the compiler sees it. -/
def BitClause.compile (w : World) (c : BitClause) : Case.Clause (plainTests w) :=
  ⟨[[.bits ((bitArrayToTests c.segments).map (SegmentTest.toPlain w))]], c.guard⟩

end Verif.Segments
