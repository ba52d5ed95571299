/-
Model of the bit arrays of the JavaScript runtime: `/repo/compiler-core/templates/prelude.mjs:97-700`.

Bytes are natural numbers below 256 and buffers lists of them. Reading outside a buffer gives `undefined`, which every bit operation
turns into zero, so it is modelled as zero. Views of a shared `ArrayBuffer` are modelled as copies: the runtime never changes a
buffer after it has been made. Exceptions are `none`.
-/
namespace Verif.BitArrays

/-- `prelude.mjs:97-160` `BitArray`; `byteSize` is computed from the other fields. -/
structure BitArray where
  rawBuffer : List Nat
  bitSize : Nat
  bitOffset : Nat
deriving DecidableEq, Repr

/-- `buffer[i]`. -/
def at_ (buffer : List Nat) (i : Nat) : Nat := buffer.getD i 0

/-- `prelude.mjs:149-181` the constructor, with its checks. The sizes are not negative here, so only the last two checks are left. -/
def BitArray.new (buffer : List Nat) (bitSize bitOffset : Nat) : Option BitArray :=
  if bitOffset > 7 then none
  else if buffer.length ≠ (bitOffset + bitSize + 7) / 8 then none
  else some ⟨buffer, bitSize, bitOffset⟩

/-- The constructor without the optional arguments (`prelude.mjs:156-158`). -/
def BitArray.ofBytes (buffer : List Nat) : BitArray := ⟨buffer, buffer.length * 8, 0⟩

/-- `prelude.mjs:319-328` `bitArrayByteAt`. -/
def byteAt (buffer : List Nat) (bitOffset index : Nat) : Nat :=
  if bitOffset = 0 then at_ buffer index
  else ((at_ buffer index <<< bitOffset) &&& 0xff) ||| (at_ buffer (index + 1) >>> (8 - bitOffset))

/-- `prelude.mjs:200-262` `equals`. -/
def BitArray.equals (this other : BitArray) : Bool :=
  if this.bitSize ≠ other.bitSize then false
  else
    let wholeByteCount := this.bitSize / 8
    let trailingBitsCount := this.bitSize % 8
    let unusedLowBitCount := 8 - trailingBitsCount
    if this.bitOffset = 0 ∧ other.bitOffset = 0 then
      ((List.range wholeByteCount).all fun i => at_ this.rawBuffer i == at_ other.rawBuffer i) &&
      (trailingBitsCount == 0 ||
        at_ this.rawBuffer wholeByteCount >>> unusedLowBitCount == at_ other.rawBuffer wholeByteCount >>> unusedLowBitCount)
    else
      ((List.range wholeByteCount).all fun i => byteAt this.rawBuffer this.bitOffset i == byteAt other.rawBuffer other.bitOffset i) &&
      (trailingBitsCount == 0 ||
        byteAt this.rawBuffer this.bitOffset wholeByteCount >>> unusedLowBitCount ==
          byteAt other.rawBuffer other.bitOffset wholeByteCount >>> unusedLowBitCount)

/-- `prelude.mjs:1312-1325` `bitArrayValidateRange`; true if nothing is thrown. -/
def validRange (b : BitArray) (start stop : Int) : Bool :=
  !(decide (start < 0) || decide (start > b.bitSize) || decide (stop < start) || decide (stop > b.bitSize))

/-- `prelude.mjs:348-388` `bitArraySlice`, after the range check. -/
def sliceNat (b : BitArray) (start stop : Nat) : Option BitArray :=
  if start = stop then some (.ofBytes [])
  else if start = 0 ∧ stop = b.bitSize then some b
  else
    let start := start + b.bitOffset
    let stop := stop + b.bitOffset
    let startByteIndex := start / 8
    let endByteIndex := (stop + 7) / 8
    let byteLength := endByteIndex - startByteIndex
    let buffer :=
      if startByteIndex = 0 ∧ byteLength = b.rawBuffer.length then b.rawBuffer
      else (b.rawBuffer.drop startByteIndex).take byteLength
    BitArray.new buffer (stop - start) (start % 8)

/-- `prelude.mjs:348-388` `bitArraySlice`. -/
def slice (b : BitArray) (start : Int) (stop : Option Int) : Option BitArray :=
  let stop := stop.getD b.bitSize
  if validRange b start stop then sliceNat b start.toNat stop.toNat else none

/-! ### Joining segments -/

/-- The arguments of `toBitArray`. Numbers are integers of any size, stored modulo 256 by `Uint8Array`. -/
inductive Segment where
  | number (n : Int)
  | bytes (buffer : List Nat)
  | bits (b : BitArray)

/-- What `Uint8Array` stores for an integer. -/
def toUint8 (n : Int) : Nat := (n % 256).toNat

/-- The buffer that is written, and the position in bits. -/
structure Writer where
  buffer : List Nat
  cursor : Nat

/-- `buffer[i] = byte`. Writing outside a typed array has no effect. -/
def put (buffer : List Nat) (i byte : Nat) : List Nat := buffer.set i byte

/-- `buffer.set(bytes, i)`. -/
def putAll (buffer : List Nat) (i : Nat) : List Nat → List Nat
  | [] => buffer
  | byte :: bytes => putAll (put buffer i byte) (i + 1) bytes

/-- `prelude.mjs:650-691`: the loop of `appendUnalignedBits`, at step `i` of at most `fuel` more; `size` bits are left. -/
def appendLoop (bits : List Nat) (offset highBitsCount : Nat) : (fuel i size byteIndex : Nat) → Writer → Writer
  | 0, _, _, _, w => w
  | fuel + 1, i, size, byteIndex, w =>
    let lowBitsCount := 8 - highBitsCount
    let byte := byteAt bits offset i
    let byte := if size < 8 then ((byte >>> (8 - size)) <<< (8 - size)) % 256 else byte
    let buffer := put w.buffer byteIndex (at_ w.buffer byteIndex ||| (byte >>> highBitsCount))
    let appended := size - (size - lowBitsCount)
    let size := size - appended
    let cursor := w.cursor + appended
    if size = 0 then ⟨buffer, cursor⟩
    else
      let buffer := put buffer (byteIndex + 1) ((byte <<< lowBitsCount) % 256)
      let appended := size - (size - highBitsCount)
      appendLoop bits offset highBitsCount fuel (i + 1) (size - appended) (byteIndex + 1) ⟨buffer, cursor + appended⟩

/-- `prelude.mjs:650-691` `appendUnalignedBits`. The number of steps is `Math.trunc(size + 7 / 8)`, which is `size`. -/
def appendUnaligned (w : Writer) (bits : List Nat) (size offset : Nat) : Writer :=
  if size = 0 then w else appendLoop bits offset (w.cursor % 8) size 0 size (w.cursor / 8) w

/-- `prelude.mjs:628-635`: zero the unused bits of the last byte. -/
def zeroTrailing (w : Writer) (bitSize : Nat) : Writer :=
  let trailing := bitSize % 8
  if trailing = 0 then w
  else
    let last := w.cursor / 8
    ⟨put w.buffer last (((at_ w.buffer last >>> (8 - trailing)) <<< (8 - trailing)) % 256), w.cursor⟩

/-- `prelude.mjs:618-664`: one segment. -/
def append (w : Writer) : Segment → Writer
  | .bits b =>
    if w.cursor % 8 = 0 ∧ b.bitOffset = 0 then
      zeroTrailing ⟨putAll w.buffer (w.cursor / 8) b.rawBuffer, w.cursor + b.bitSize⟩ b.bitSize
    else appendUnaligned w b.rawBuffer b.bitSize b.bitOffset
  | .bytes buffer =>
    if w.cursor % 8 = 0 then ⟨putAll w.buffer (w.cursor / 8) buffer, w.cursor + buffer.length * 8⟩
    else appendUnaligned w buffer (buffer.length * 8) 0
  | .number n =>
    if w.cursor % 8 = 0 then ⟨put w.buffer (w.cursor / 8) (toUint8 n), w.cursor + 8⟩
    else appendUnaligned w [toUint8 n] 8 0

/-- `prelude.mjs:583-596`: the number of bits of a segment. -/
def Segment.size : Segment → Nat
  | .number _ => 8
  | .bytes buffer => buffer.length * 8
  | .bits b => b.bitSize

def Segment.isNumber : Segment → Bool
  | .number _ => true
  | _ => false

def Segment.numberByte : Segment → Nat
  | .number n => toUint8 n
  | _ => 0

/-- `prelude.mjs:556-694` `toBitArray`. -/
def toBitArray (segments : List Segment) : Option BitArray :=
  match segments with
  | [] => some (.ofBytes [])
  | [.bits b] => some b
  | [.bytes buffer] => some (.ofBytes buffer)
  | [.number n] => some (.ofBytes [toUint8 n])
  | segments =>
    let bitSize := (segments.map Segment.size).sum
    if segments.all Segment.isNumber then some (.ofBytes (segments.map Segment.numberByte))
    else
      let w := segments.foldl append ⟨List.replicate ((bitSize + 7) / 8) 0, 0⟩
      BitArray.new w.buffer bitSize 0

end Verif.BitArrays
