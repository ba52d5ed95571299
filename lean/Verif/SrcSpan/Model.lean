/-
Model of `/repo/src-span/src/lib.rs`: source spans and byte-offset/line/column conversion.

Texts are `List Char` (Lean's `Char` is exactly a Unicode scalar value, as Rust's `char`).
`u32` offsets are `Nat` (simplification: files are assumed shorter than 4 GiB, so the `as u32`
casts and the additions do not wrap).
-/
namespace Verif.SrcSpan

/-- `char::len_utf8` (Rust std). -/
def lenUtf8 (c : Char) : Nat :=
  if c.toNat < 0x80 then 1 else if c.toNat < 0x800 then 2 else if c.toNat < 0x10000 then 3 else 4

/-- `char::len_utf16` (Rust std). -/
def lenUtf16 (c : Char) : Nat := if c.toNat < 0x10000 then 1 else 2

/-- `src-span/src/lib.rs:23-26` `struct SrcSpan`. -/
structure SrcSpan where
  start : Nat
  stop : Nat
deriving DecidableEq, Repr

/-- `src-span/src/lib.rs:33-35` `SrcSpan::contains` (both ends inclusive). -/
def SrcSpan.contains (s : SrcSpan) (byteIndex : Nat) : Bool :=
  decide (byteIndex ≥ s.start) && decide (byteIndex ≤ s.stop)

/-- `src-span/src/lib.rs:37-39` `SrcSpan::contains_span`. -/
def SrcSpan.containsSpan (s t : SrcSpan) : Bool := s.contains t.start && s.contains t.stop

/-- `src-span/src/lib.rs:52-57` `SrcSpan::merge`. -/
def SrcSpan.merge (s t : SrcSpan) : SrcSpan := ⟨min s.start t.start, max s.stop t.stop⟩

/-- `src-span/src/lib.rs:63-65` `SrcSpan::len`: `end - start` panics on underflow (debug builds),
which is the `none` case. -/
def SrcSpan.len (s : SrcSpan) : Option Nat := if s.start ≤ s.stop then some (s.stop - s.start) else none

/-- `src-span/src/lib.rs:104-109` `struct Character`. -/
structure Character where
  lengthUtf8 : Nat
  lengthUtf16 : Nat
deriving DecidableEq, Repr

/-- `src-span/src/lib.rs:79-100` `struct LineNumbers`; the `HashMap` is an association list with
the most recent insertion first. -/
structure LineNumbers where
  lineStarts : List Nat
  length : Nat
  mapping : List (Nat × Character)
deriving Repr

/-- `str::char_indices` (Rust std), starting at byte `i`. -/
def charIndices : Nat → List Char → List (Nat × Char)
  | _, [] => []
  | i, c :: cs => (i, c) :: charIndices (i + lenUtf8 c) cs

/-- `str::len` (Rust std): number of UTF-8 bytes. -/
def byteLen : List Char → Nat
  | [] => 0
  | c :: cs => lenUtf8 c + byteLen cs

/-- `src-span/src/lib.rs:122-139` `LineNumbers::mapping`: insert an entry for every character whose
UTF-8 length is not one. -/
def mappingOf (src : List Char) : List (Nat × Character) :=
  (charIndices 0 src).foldl (fun map (i, c) =>
    if lenUtf8 c ≠ 1 then (i, ⟨lenUtf8 c, lenUtf16 c⟩) :: map else map) []

/-- `src-span/src/lib.rs:112-120` `LineNumbers::new`. `match_indices('\n')` yields the byte index
of every newline. -/
def LineNumbers.new (src : List Char) : LineNumbers where
  length := byteLen src
  lineStarts := 0 :: ((charIndices 0 src).filter (fun p => p.2 == '\n')).map (fun p => p.1 + 1)
  mapping := mappingOf src

/-- `slice::binary_search` (Rust std), by its documented contract on sorted slices without
duplicates: `Ok` of the index of the element, or `Err` of the insertion point. -/
def binarySearch (l : List Nat) (x : Nat) : Except Nat Nat :=
  let i := l.countP (fun y => decide (y < x))
  if l[i]? = some x then .ok i else .error i

/-- `src-span/src/lib.rs:142-147` `LineNumbers::line_number`; `none` models the panic of
`next_line - 1` on underflow. -/
def LineNumbers.lineNumber (ln : LineNumbers) (byteIndex : Nat) : Option Nat :=
  match binarySearch ln.lineStarts byteIndex with
  | .ok i => some (i + 1)
  | .error 0 => none
  | .error (n + 1) => some (n + 1)

/-- `src-span/src/lib.rs:70-73` `struct LineColumn`. -/
structure LineColumn where
  line : Nat
  column : Nat
deriving DecidableEq, Repr

/-- `src-span/src/lib.rs:151-163` `line_and_utf8_column_number`; the subtraction panics on
underflow (`none`). -/
def LineNumbers.lineAndUtf8Column (ln : LineNumbers) (byteIndex : Nat) : Option LineColumn :=
  match ln.lineNumber byteIndex with
  | none => none
  | some line =>
    let lineStart := (ln.lineStarts[line - 1]?).getD 0
    if lineStart ≤ byteIndex then some ⟨line, byteIndex - lineStart⟩ else none

/-- `src-span/src/lib.rs:178-190` the loop of `line_and_utf16_column_number`. The loop has no bound in
the source; `fuel` bounds it here and `none` means that it had not finished. -/
def utf16Loop (mapping : List (Nat × Character)) (byteIndex : Nat) :
    (fuel : Nat) → (u8 u16 : Nat) → Option Nat
  | 0, _, _ => none
  | fuel + 1, u8, u16 =>
    if u8 ≥ byteIndex then some u16
    else match mapping.lookup u8 with
      | some len => utf16Loop mapping byteIndex fuel (u8 + len.lengthUtf8) (u16 + len.lengthUtf16)
      | none => utf16Loop mapping byteIndex fuel (u8 + 1) (u16 + 1)

/-- `src-span/src/lib.rs:167-196` `line_and_utf16_column_number`. -/
def LineNumbers.lineAndUtf16Column (ln : LineNumbers) (byteIndex : Nat) : Option LineColumn :=
  match ln.lineNumber byteIndex with
  | none => none
  | some line =>
    let lineStart := (ln.lineStarts[line - 1]?).getD 0
    match utf16Loop ln.mapping byteIndex (byteIndex + 1) lineStart 0 with
    | none => none
    | some u16 => some ⟨line, u16 + 1⟩

/-- `src-span/src/lib.rs:209-221` the loop of `byte_index`. -/
def byteIndexLoop (mapping : List (Nat × Character)) (character : Nat) :
    (fuel : Nat) → (u8 u16 : Nat) → Option Nat
  | 0, _, _ => none
  | fuel + 1, u8, u16 =>
    if u16 ≥ character then some u8
    else match mapping.lookup u8 with
      | some len => byteIndexLoop mapping character fuel (u8 + len.lengthUtf8) (u16 + len.lengthUtf16)
      | none => byteIndexLoop mapping character fuel (u8 + 1) (u16 + 1)

/-- `src-span/src/lib.rs:200-224` `LineNumbers::byte_index`; the argument is a zero-based LSP
`Position` (line, UTF-16 character). -/
def LineNumbers.byteIndex (ln : LineNumbers) (line character : Nat) : Option Nat :=
  match ln.lineStarts[line]? with
  | none => some ln.length
  | some lineStart => byteIndexLoop ln.mapping character (character + 1) lineStart 0

/-- `src-span/src/lib.rs:228-232` `LineNumbers::spans_entire_line`. -/
def LineNumbers.spansEntireLine (ln : LineNumbers) (span : SrcSpan) : Bool :=
  ln.lineStarts.any fun lineStart => lineStart == span.start && ln.lineStarts.contains (span.stop + 1)

end Verif.SrcSpan
