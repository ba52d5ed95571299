/-
Model of `/repo/erlang-term-format/src/lib.rs`: the Erlang External Term Format writer.

The buffer `Vec<u8>` is a `List UInt8`; `as u8`, `as u16`, `as u32`, `as i32` are the wrapping conversions
the code performs. A `&str` is the list of its UTF-8 bytes, an `f64` the list of its eight bytes (`to_be_bytes`).
`num_bigint::BigInt` is `Int`. The debug-only "list not closed" assertion of `ListEnder` is not modelled.
-/
namespace Verif.Etf

/-- `lib.rs:62` `ERLANG_TERM_FORMAT_VERSION_NUMBER`. -/
def versionNumber : UInt8 := 131

/-- `u32::to_be_bytes` of `n as u32`. -/
def be4 (n : Nat) : List UInt8 :=
  [UInt8.ofNat (n / 16777216), UInt8.ofNat (n / 65536), UInt8.ofNat (n / 256), UInt8.ofNat n]

/-- `u16::to_be_bytes` of `n as u16`. -/
def be2 (n : Nat) : List UInt8 := [UInt8.ofNat (n / 256), UInt8.ofNat n]

/-- `lib.rs:67-70` `struct TermBuilder`. -/
structure TermBuilder where
  bytes : List UInt8
deriving Repr, DecidableEq

/-- `lib.rs:79-83` `TermBuilder::new`. -/
def TermBuilder.new : TermBuilder := ⟨[versionNumber]⟩

/-- `lib.rs:86-88` `into_vec`. -/
def TermBuilder.intoVec (b : TermBuilder) : List UInt8 := b.bytes

/-- `lib.rs:90-92` `push`. -/
def TermBuilder.push (b : TermBuilder) (x : UInt8) : TermBuilder := ⟨b.bytes ++ [x]⟩

/-- `lib.rs:94-96` `extend`. -/
def TermBuilder.extend (b : TermBuilder) (xs : List UInt8) : TermBuilder := ⟨b.bytes ++ xs⟩

/-- `lib.rs:120-133` `start_list`; the returned `ListEnder` is the `size_index`. -/
def TermBuilder.startList (b : TermBuilder) : TermBuilder × Nat :=
  let b := b.push 108
  let sizeIndex := b.bytes.length
  (((((b.push 0).push 0).push 0).push 0), sizeIndex)

/-- `slice[i..i+4].copy_from_slice(new)` (Rust std). -/
def overwrite (bytes : List UInt8) (i : Nat) (new : List UInt8) : List UInt8 :=
  bytes.take i ++ new ++ bytes.drop (i + new.length)

/-- `lib.rs:216-218` `empty_list`. -/
def TermBuilder.emptyList (b : TermBuilder) : TermBuilder := b.push 106

/-- `lib.rs:135-140` `end_list`. -/
def TermBuilder.endList (b : TermBuilder) (sizeIndex : Nat) (numberOfElements : Nat) : TermBuilder :=
  let b := b.emptyList
  ⟨overwrite b.bytes sizeIndex (be4 numberOfElements)⟩

/-- `lib.rs:259-263` `small_atom_utf8`. -/
def TermBuilder.smallAtomUtf8 (b : TermBuilder) (name : List UInt8) : TermBuilder :=
  ((b.push 119).push (UInt8.ofNat name.length)).extend name

/-- `lib.rs:266-270` `atom_utf8`. -/
def TermBuilder.atomUtf8 (b : TermBuilder) (name : List UInt8) : TermBuilder :=
  ((b.push 118).extend (be2 name.length)).extend name

/-- `lib.rs:143-153` `atom`. -/
def TermBuilder.atom (b : TermBuilder) (name : List UInt8) : TermBuilder :=
  if name.length ≤ 255 then b.smallAtomUtf8 name else b.atomUtf8 name

/-- `lib.rs:179-182` `small_integer`. -/
def TermBuilder.smallInteger (b : TermBuilder) (value : Nat) : TermBuilder :=
  (b.push 97).push (UInt8.ofNat value)

/-- `value as i32` followed by `to_be_bytes`: two's complement on 32 bits. -/
def i32Bytes (value : Int) : List UInt8 := be4 (value % 4294967296).toNat

/-- `lib.rs:185-188` `integer`. -/
def TermBuilder.integer (b : TermBuilder) (value : Int) : TermBuilder :=
  (b.push 98).extend (i32Bytes value)

/-- `BigInt::to_bytes_le` (num-bigint): little-endian base-256 digits of the magnitude, `[0]` for zero. -/
def magnitudeLe (n : Nat) : List UInt8 :=
  if h : n < 256 then [UInt8.ofNat n] else UInt8.ofNat n :: magnitudeLe (n / 256)
decreasing_by omega

/-- The sign byte at `lib.rs:231-234` and `244-247`. -/
def signByte (n : Int) : UInt8 := if n < 0 then 1 else 0

/-- `lib.rs:227-236` `small_big`: the length is cast `as u8`. -/
def TermBuilder.smallBig (b : TermBuilder) (n : Int) : TermBuilder :=
  let bytes := magnitudeLe n.natAbs
  (((b.push 110).push (UInt8.ofNat bytes.length)).push (signByte n)).extend bytes

/-- `lib.rs:239-248` `large_big` (a public method). -/
def TermBuilder.largeBig (b : TermBuilder) (n : Int) : TermBuilder :=
  let bytes := magnitudeLe n.natAbs
  (((b.push 111).extend (be4 bytes.length)).push (signByte n)).extend bytes

/-- `lib.rs:156-164` `bigint`; `to_u8`, `to_i32` succeed exactly on their ranges. -/
def TermBuilder.bigint (b : TermBuilder) (value : Int) : TermBuilder :=
  if 0 ≤ value ∧ value ≤ 255 then b.smallInteger value.toNat
  else if -2147483648 ≤ value ∧ value ≤ 2147483647 then b.integer value
  else b.smallBig value

/-- `lib.rs:168-174` `usize`. -/
def TermBuilder.usize (b : TermBuilder) (value : Nat) : TermBuilder :=
  if value ≤ 255 then b.smallInteger value else b.integer value

/-- `lib.rs:191-194` `new_float`. -/
def TermBuilder.newFloat (b : TermBuilder) (value : List UInt8) : TermBuilder := (b.push 70).extend value

/-- `lib.rs:197-200` `small_tuple` (`arity : u8`). -/
def TermBuilder.smallTuple (b : TermBuilder) (arity : Nat) : TermBuilder :=
  (b.push 104).push (UInt8.ofNat arity)

/-- `lib.rs:203-206` `large_tuple` (`arity : u32`). -/
def TermBuilder.largeTuple (b : TermBuilder) (arity : Nat) : TermBuilder := (b.push 105).extend (be4 arity)

/-- `lib.rs:221-225` `binary`. -/
def TermBuilder.binary (b : TermBuilder) (bytesCount : Nat) (bytes : List UInt8) : TermBuilder :=
  ((b.push 109).extend (be4 bytesCount)).extend bytes

end Verif.Etf
