import Verif.Etf.Model
/-!
# Specification: Erlang terms and the External Term Format

Terms, the sequence of builder calls that describes a term, and a reader written from
<https://www.erlang.org/doc/apps/erts/erl_ext_dist.html> (the tags the builder can emit).
-/
namespace Verif.Etf.Spec

/-- Erlang terms. A float is its eight IEEE bytes, an atom its UTF-8 text. -/
inductive Term where
  | int (n : Int)
  | float (bytes : List UInt8)
  | atom (name : List UInt8)
  | binary (bytes : List UInt8)
  | tuple (elements : List Term)
  | list (elements : List Term)

/-- How a user of the builder writes a tuple header. -/
def tupleHeader (b : TermBuilder) (arity : Nat) : TermBuilder :=
  if arity ≤ 255 then b.smallTuple arity else b.largeTuple arity

mutual
/-- How a user of the builder writes a term. -/
def write (b : TermBuilder) : Term → TermBuilder
  | .int n => b.bigint n
  | .float bs => b.newFloat bs
  | .atom name => b.atom name
  | .binary bs => b.binary bs.length bs
  | .tuple es => writeAll (tupleHeader b es.length) es
  | .list es =>
    if es.length = 0 then b.emptyList
    else (writeAll b.startList.1 es).endList b.startList.2 es.length
/-- Several terms in a row. -/
def writeAll (b : TermBuilder) : List Term → TermBuilder
  | [] => b
  | t :: ts => writeAll (write b t) ts
end

/-! ### The reader -/

/-- Big-endian unsigned number. -/
def fromBe (bs : List UInt8) : Nat := bs.foldl (fun a b => a * 256 + b.toNat) 0

/-- Little-endian unsigned number. -/
def fromLe : List UInt8 → Nat
  | [] => 0
  | b :: bs => b.toNat + 256 * fromLe bs

/-- Split off `n` bytes. -/
def takeN (n : Nat) (bs : List UInt8) : Option (List UInt8 × List UInt8) :=
  if n ≤ bs.length then some (bs.take n, bs.drop n) else none

/-- Signed big integer: sign byte (0 positive, 1 negative) then `n` little-endian bytes. -/
def readBig (n : Nat) : List UInt8 → Option (Int × List UInt8)
  | [] => none
  | s :: r => match takeN n r with
    | none => none
    | some (ds, r) =>
      if s = 0 then some ((fromLe ds : Int), r) else if s = 1 then some (-(fromLe ds : Int), r) else none

/-- Two's complement on 32 bits. -/
def toSigned (n : Nat) : Int := if n < 2147483648 then n else (n : Int) - 4294967296

/-- Read with a big-endian count of `k` bytes, then continue with `f`. -/
def withCount (k : Nat) (bs : List UInt8) (f : Nat → List UInt8 → Option α) : Option α :=
  match takeN k bs with
  | none => none
  | some (c, r) => f (fromBe c) r

/-- `count` terms in a row read by `dec`. -/
def readMany (dec : List UInt8 → Option (Term × List UInt8)) : Nat → List UInt8 → Option (List Term × List UInt8)
  | 0, bs => some ([], bs)
  | n + 1, bs => match dec bs with
    | none => none
    | some (t, r) => match readMany dec n r with
      | none => none
      | some (ts, r) => some (t :: ts, r)

/-- One term, reading nested terms to depth at most `fuel`. -/
def decodeTerm : Nat → List UInt8 → Option (Term × List UInt8)
  | 0, _ => none
  | _ + 1, [] => none
  | fuel + 1, tag :: bs =>
    if tag = 97 then -- SMALL_INTEGER_EXT
      withCount 1 bs fun n r => some (.int n, r)
    else if tag = 98 then -- INTEGER_EXT
      withCount 4 bs fun n r => some (.int (toSigned n), r)
    else if tag = 70 then -- NEW_FLOAT_EXT
      (takeN 8 bs).map fun p => (.float p.1, p.2)
    else if tag = 110 then -- SMALL_BIG_EXT
      withCount 1 bs fun n r => (readBig n r).map fun p => (.int p.1, p.2)
    else if tag = 111 then -- LARGE_BIG_EXT
      withCount 4 bs fun n r => (readBig n r).map fun p => (.int p.1, p.2)
    else if tag = 119 then -- SMALL_ATOM_UTF8_EXT
      withCount 1 bs fun n r => (takeN n r).map fun p => (.atom p.1, p.2)
    else if tag = 118 then -- ATOM_UTF8_EXT
      withCount 2 bs fun n r => (takeN n r).map fun p => (.atom p.1, p.2)
    else if tag = 109 then -- BINARY_EXT
      withCount 4 bs fun n r => (takeN n r).map fun p => (.binary p.1, p.2)
    else if tag = 104 then -- SMALL_TUPLE_EXT
      withCount 1 bs fun n r => (readMany (decodeTerm fuel) n r).map fun p => (.tuple p.1, p.2)
    else if tag = 105 then -- LARGE_TUPLE_EXT
      withCount 4 bs fun n r => (readMany (decodeTerm fuel) n r).map fun p => (.tuple p.1, p.2)
    else if tag = 106 then -- NIL_EXT
      some (.list [], bs)
    else if tag = 108 then -- LIST_EXT: a count, the elements, the tail (a proper list ends in nil)
      withCount 4 bs fun n r => match readMany (decodeTerm fuel) n r with
        | none => none
        | some (ts, r) => match decodeTerm fuel r with
          | some (.list [], r) => some (.list ts, r)
          | _ => none
    else none

/-- A whole binary: version byte, then one term (nesting is at most the length). -/
def decode : List UInt8 → Option (Term × List UInt8)
  | v :: bs => if v = 131 then decodeTerm bs.length bs else none
  | [] => none

mutual
/-- The sizes the format can carry. -/
def Encodable : Term → Prop
  | .int n => n.natAbs < 256 ^ 255
  | .float bs => bs.length = 8
  | .atom name => name.length < 65536
  | .binary bs => bs.length < 4294967296
  | .tuple es => es.length < 4294967296 ∧ AllEncodable es
  | .list es => es.length < 4294967296 ∧ AllEncodable es
def AllEncodable : List Term → Prop
  | [] => True
  | t :: ts => Encodable t ∧ AllEncodable ts
end

end Verif.Etf.Spec
