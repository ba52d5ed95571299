import Verif.BitArrays.Model

/-
Model of integers in bit arrays: `/repo/compiler-core/templates/prelude.mjs:465-540` and `738-1215`.

`number` is the conversion from `BigInt` to a JavaScript number, which may round and gives `none` for an infinite result. The
arithmetic on JavaScript numbers is exact here: every intermediate value of the `UsingNumber` functions is an integer below 2^53.
-/
namespace Verif.BitArrays

/-- `ToInt32`: what the bit operators make of a number. -/
def toInt32 (n : Int) : Int := (n + 2 ^ 31) % 2 ^ 32 - 2 ^ 31

/-- `<<` on numbers. -/
def shl32 (n : Int) (k : Nat) : Int := toInt32 (toInt32 n * 2 ^ k)

/-- `>>` on numbers. -/
def shr32 (n : Int) (k : Nat) : Int := toInt32 n / 2 ^ k

/-- What `Uint8Array` stores for a number that may be infinite. -/
def storeNumber : Option Int → Nat
  | some n => toUint8 n
  | none => 0

/-- `for (; i >= 0; i--) { buffer[i] = value; value >>= 8 }` with `n` steps left (`prelude.mjs:783-786`, `815-818`), for a way to store a
value and a way to shift it. The bytes are listed in the order they end up in. -/
def fillDown (store : Int → Nat) (shift : Int → Int) : Nat → Int → List Nat
  | 0, _ => []
  | n + 1, value => fillDown store shift n (shift value) ++ [store value]

/-- `for (; i < wholeByteCount; i++) { buffer[i] = value; value >>= 8 }` (`prelude.mjs:791-794`, `823-826`). -/
def fillUp (store : Int → Nat) (shift : Int → Int) : Nat → Int → List Nat
  | 0, _ => []
  | n + 1, value => store value :: fillUp store shift n (shift value)

/-- The value that is left when `fillUp` is done. -/
def leftOver (shift : Int → Int) : Nat → Int → Int
  | 0, value => value
  | n + 1, value => leftOver shift n (shift value)

/-- `prelude.mjs:765-802`: sizes from 9 to 32, with the number type. -/
def sizedIntNumber (value : Int) (size : Nat) (isBigEndian : Bool) : List Nat :=
  let trailingBitsCount := size % 8
  let unusedBitsCount := 8 - trailingBitsCount
  let wholeByteCount := size / 8
  if isBigEndian then
    if trailingBitsCount ≠ 0 then
      fillDown toUint8 (shr32 · 8) wholeByteCount (shr32 value trailingBitsCount) ++ [toUint8 (shl32 value unusedBitsCount)]
    else fillDown toUint8 (shr32 · 8) wholeByteCount value
  else
    fillUp toUint8 (shr32 · 8) wholeByteCount value ++
      if trailingBitsCount ≠ 0 then [toUint8 (shl32 (leftOver (shr32 · 8) wholeByteCount value) unusedBitsCount)] else []

/-- `prelude.mjs:803-838`: sizes above 32, with the `BigInt` type. -/
def sizedIntBigInt (number : Int → Option Int) (value : Int) (size : Nat) (isBigEndian : Bool) : List Nat :=
  let trailingBitsCount := size % 8
  let unusedBitsCount := 8 - trailingBitsCount
  let wholeByteCount := size / 8
  let store := fun n => storeNumber (number n)
  if isBigEndian then
    if trailingBitsCount ≠ 0 then
      fillDown store (· / 2 ^ 8) wholeByteCount (value / 2 ^ trailingBitsCount) ++ [store (value * 2 ^ unusedBitsCount)]
    else fillDown store (· / 2 ^ 8) wholeByteCount value
  else
    fillUp store (· / 2 ^ 8) wholeByteCount value ++
      if trailingBitsCount ≠ 0 then [store (leftOver (· / 2 ^ 8) wholeByteCount value * 2 ^ unusedBitsCount)] else []

/-- `prelude.mjs:738-847` `sizedInt`. -/
def sizedInt (number : Int → Option Int) (value : Int) (size : Int) (isBigEndian : Bool) : Option Segment :=
  if size ≤ 0 then some (.bytes [])
  else
    let size := size.toNat
    if size = 8 then some (.bytes [toUint8 value])
    else if size < 8 then (BitArray.new [toUint8 (shl32 value (8 - size))] size 0).map .bits
    else
      let buffer := if size ≤ 32 then sizedIntNumber value size isBigEndian else sizedIntBigInt number value size isBigEndian
      if size % 8 ≠ 0 then (BitArray.new buffer size 0).map .bits else some (.bytes buffer)

/-! ### Reading -/

/-- "if the high bit is set reinterpret as two's complement". -/
def reinterpret (isSigned : Bool) (size : Nat) (value : Nat) : Int :=
  if isSigned && decide (value ≥ 2 ^ (size - 1)) then (value : Int) - 2 ^ (size - 1) * 2 else value

/-- `prelude.mjs:889-897`, `937-945`: reading whole bytes `start..end`. -/
def alignedValue (buffer : List Nat) (start stop : Nat) (isBigEndian : Bool) : Nat :=
  if isBigEndian then (List.range (stop - start)).foldl (fun value i => value * 256 + at_ buffer (start + i)) 0
  else (List.range (stop - start)).foldl (fun value i => value * 256 + at_ buffer (stop - 1 - i)) 0

/-- `prelude.mjs:854-964` `intFromAlignedSlice`, `intFromAlignedSliceUsingNumber` and `intFromAlignedSliceUsingBigInt`. -/
def intFromAlignedSlice (number : Int → Option Int) (buffer : List Nat) (start stop : Nat) (isBigEndian isSigned : Bool) : Option Int :=
  let byteSize := stop - start
  let value := reinterpret isSigned (byteSize * 8) (alignedValue buffer start stop isBigEndian)
  if byteSize ≤ 6 then some value else number value

/-- `prelude.mjs:1001-1006`: whole bytes while at least 8 bits are left; then the trailing bits (`1008-1012`). -/
def bigLoop (buffer : List Nat) (value byteIndex size : Nat) : Nat :=
  if size < 8 then
    if size > 0 then value * 2 ^ size + (at_ buffer byteIndex >>> (8 - size)) else value
  else bigLoop buffer (value * 256 + at_ buffer byteIndex) (byteIndex + 1) (size - 8)
termination_by size

/-- `prelude.mjs:1017-1031`: little endian from an aligned start. -/
def littleAligned (buffer : List Nat) (value scale byteIndex size : Nat) : Nat :=
  if size < 8 then value + (at_ buffer byteIndex >>> (8 - size)) * scale
  else littleAligned buffer (value + at_ buffer byteIndex * scale) (scale * 256) (byteIndex + 1) (size - 8)
termination_by size

/-- `prelude.mjs:1057-1075`: the trailing bits, which may cross a byte boundary. -/
def trailingByte (buffer : List Nat) (lowBitsCount byteIndex size : Nat) : Nat :=
  let lowBitsUsed := size - (size - lowBitsCount)
  let byte := (at_ buffer byteIndex &&& ((1 <<< lowBitsCount) - 1)) >>> (lowBitsCount - lowBitsUsed)
  let size := size - lowBitsUsed
  if size > 0 then byte * 2 ^ size + (at_ buffer (byteIndex + 1) >>> (8 - size)) else byte

/-- `prelude.mjs:1036-1077`: little endian from an unaligned start. -/
def littleUnaligned (buffer : List Nat) (highBitsCount value scale byteIndex size : Nat) : Nat :=
  let lowBitsCount := 8 - highBitsCount
  if size < 8 then
    if size > 0 then value + trailingByte buffer lowBitsCount byteIndex size * scale else value
  else
    let byte := (at_ buffer byteIndex <<< highBitsCount) ||| (at_ buffer (byteIndex + 1) >>> lowBitsCount)
    littleUnaligned buffer highBitsCount (value + (byte &&& 0xff) * scale) (scale * 256) (byteIndex + 1) (size - 8)
termination_by size

/-- `prelude.mjs:981-1090` `intFromUnalignedSliceUsingNumber`, before the sign is looked at. -/
def unalignedValue (buffer : List Nat) (start stop : Nat) (isBigEndian : Bool) : Nat :=
  let size := stop - start
  let byteIndex := start / 8
  if isBigEndian then
    if start % 8 ≠ 0 then
      let leadingBitsCount := 8 - start % 8
      bigLoop buffer (at_ buffer byteIndex &&& ((1 <<< leadingBitsCount) - 1)) (byteIndex + 1) (size - leadingBitsCount)
    else bigLoop buffer 0 byteIndex size
  else if start % 8 = 0 then littleAligned buffer 0 1 byteIndex size
  else littleUnaligned buffer (start % 8) 0 1 byteIndex size

/-- `prelude.mjs:1128-1140`: the `BigInt` form of `bigLoop`. -/
def bigLoopBig (buffer : List Nat) (value byteIndex size : Nat) : Nat :=
  if size < 8 then
    if size > 0 then (value <<< size) + (at_ buffer byteIndex >>> (8 - size)) else value
  else bigLoopBig buffer (value * 256 + at_ buffer byteIndex) (byteIndex + 1) (size - 8)
termination_by size

/-- `prelude.mjs:1145-1158`: the `BigInt` form of `littleAligned`. -/
def littleAlignedBig (buffer : List Nat) (value shift byteIndex size : Nat) : Nat :=
  if size < 8 then value + ((at_ buffer byteIndex >>> (8 - size)) <<< shift)
  else littleAlignedBig buffer (value + (at_ buffer byteIndex <<< shift)) (shift + 8) (byteIndex + 1) (size - 8)
termination_by size

/-- `prelude.mjs:1184-1200`: the `BigInt` form of `trailingByte`. -/
def trailingByteBig (buffer : List Nat) (lowBitsCount byteIndex size : Nat) : Nat :=
  let lowBitsUsed := size - (size - lowBitsCount)
  let byte := (at_ buffer byteIndex &&& ((1 <<< lowBitsCount) - 1)) >>> (lowBitsCount - lowBitsUsed)
  let size := size - lowBitsUsed
  if size > 0 then (byte <<< size) + (at_ buffer (byteIndex + 1) >>> (8 - size)) else byte

/-- `prelude.mjs:1159-1203`: the `BigInt` form of `littleUnaligned`. -/
def littleUnalignedBig (buffer : List Nat) (highBitsCount value shift byteIndex size : Nat) : Nat :=
  let lowBitsCount := 8 - highBitsCount
  if size < 8 then
    if size > 0 then value + (trailingByteBig buffer lowBitsCount byteIndex size <<< shift) else value
  else
    let byte := (at_ buffer byteIndex <<< highBitsCount) ||| (at_ buffer (byteIndex + 1) >>> lowBitsCount)
    littleUnalignedBig buffer highBitsCount (value + ((byte &&& 0xff) <<< shift)) (shift + 8) (byteIndex + 1) (size - 8)
termination_by size

/-- `prelude.mjs:1106-1217` `intFromUnalignedSliceUsingBigInt`, before the sign is looked at. -/
def unalignedValueBig (buffer : List Nat) (start stop : Nat) (isBigEndian : Bool) : Nat :=
  let size := stop - start
  let byteIndex := start / 8
  if isBigEndian then
    if start % 8 ≠ 0 then
      let leadingBitsCount := 8 - start % 8
      bigLoopBig buffer (at_ buffer byteIndex &&& ((1 <<< leadingBitsCount) - 1)) (byteIndex + 1) (size - leadingBitsCount)
    else bigLoopBig buffer 0 byteIndex size
  else if start % 8 = 0 then littleAlignedBig buffer 0 0 byteIndex size
  else littleUnalignedBig buffer (start % 8) 0 0 byteIndex size

/-- `prelude.mjs:465-540` `bitArraySliceToInt`, after the range check. -/
def sliceToIntNat (number : Int → Option Int) (b : BitArray) (start stop : Nat) (isBigEndian isSigned : Bool) : Option Int :=
  if start = stop then some 0
  else
    let start := start + b.bitOffset
    let stop := stop + b.bitOffset
    if start % 8 = 0 ∧ stop % 8 = 0 then intFromAlignedSlice number b.rawBuffer (start / 8) (stop / 8) isBigEndian isSigned
    else
      let size := stop - start
      if start / 8 = (stop - 1) / 8 then
        let mask := 0xff >>> (start % 8)
        let unusedLowBitCount := (8 - stop % 8) % 8
        some (reinterpret isSigned size ((at_ b.rawBuffer (start / 8) &&& mask) >>> unusedLowBitCount))
      else if size ≤ 53 then some (reinterpret isSigned size (unalignedValue b.rawBuffer start stop isBigEndian))
      else number (reinterpret isSigned size (unalignedValueBig b.rawBuffer start stop isBigEndian))

/-- `prelude.mjs:465-540` `bitArraySliceToInt`. The outer `none` is an exception, the inner one an infinite number. -/
def sliceToInt (number : Int → Option Int) (b : BitArray) (start stop : Int) (isBigEndian isSigned : Bool) : Option (Option Int) :=
  if validRange b start stop then some (sliceToIntNat number b start.toNat stop.toNat isBigEndian isSigned) else none

end Verif.BitArrays
