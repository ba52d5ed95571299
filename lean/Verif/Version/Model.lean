import Verif.Common.Decimal

/-!
# Model of `hexpm/src/version.rs`, `version/lexer.rs`, `version/parser.rs`

Text is a `List Char`. All parse errors are collapsed into `none`: the properties are about which
texts are accepted and what they mean, not about error messages. A panic (arithmetic overflow when
bumping a version number) is also `none`.
-/
namespace Verif.Version

open Verif.Decimal

/-- hexpm/src/version.rs:228-232 `enum Identifier`. The derived `Ord` is `Identifier.cmp` below. -/
inductive Identifier where
  | numeric (n : Nat)
  | alphaNumeric (s : List Char)
  deriving DecidableEq, Repr

/-- hexpm/src/version.rs:38-44 `struct Version`. The `u32` fields are `Nat`; `u32Max` bounds them. -/
structure Version where
  major : Nat
  minor : Nat
  patch : Nat
  pre : List Identifier
  build : Option (List Char)
  deriving DecidableEq, Repr

/-- `u32::MAX`. -/
def u32Max : Nat := 4294967295

/-! ### Ordering -/

/-- Rust `str` comparison (bytes of UTF-8, which agrees with code point order). -/
def cmpChars : List Char → List Char → Ordering
  | [], [] => .eq
  | [], _ :: _ => .lt
  | _ :: _, [] => .gt
  | a :: as, b :: bs => (compare a.toNat b.toNat).then (cmpChars as bs)

/-- hexpm/src/version.rs:228 `#[derive(Ord)]` on `Identifier`: variants in declaration order. -/
def Identifier.cmp : Identifier → Identifier → Ordering
  | .numeric a, .numeric b => compare a b
  | .numeric _, .alphaNumeric _ => .lt
  | .alphaNumeric _, .numeric _ => .gt
  | .alphaNumeric a, .alphaNumeric b => cmpChars a b

/-- Rust's lexicographic slice comparison, used at hexpm/src/version.rs:355. -/
def cmpIds : List Identifier → List Identifier → Ordering
  | [], [] => .eq
  | [], _ :: _ => .lt
  | _ :: _, [] => .gt
  | a :: as, b :: bs => (a.cmp b).then (cmpIds as bs)

/-- hexpm/src/version.rs:346-358 `impl Ord for PreOrder`. -/
def cmpPre (a b : List Identifier) : Ordering :=
  if a.isEmpty && b.isEmpty then .eq
  else if a.isEmpty then .gt
  else if b.isEmpty then .lt
  else cmpIds a b

/-- hexpm/src/version.rs:125-132, 195-199 `Version::tuple` and `Ord::cmp` (tuple comparison). -/
def Version.cmp (a b : Version) : Ordering :=
  (compare a.major b.major).then ((compare a.minor b.minor).then
    ((compare a.patch b.patch).then (cmpPre a.pre b.pre)))

def Version.le (a b : Version) : Bool := a.cmp b != .gt
def Version.lt (a b : Version) : Bool := a.cmp b == .lt

/-- hexpm/src/version.rs:57-65 `bump_major` (`none` = overflow of `u32`). -/
def Version.bumpMajor (v : Version) : Option Version :=
  if v.major = u32Max then none else some ⟨v.major + 1, 0, 0, [], none⟩

/-- hexpm/src/version.rs:67-75 `bump_minor`. -/
def Version.bumpMinor (v : Version) : Option Version :=
  if v.minor = u32Max then none else some ⟨v.major, v.minor + 1, 0, [], none⟩

/-- hexpm/src/version.rs:77-85 `bump_patch`. -/
def Version.bumpPatch (v : Version) : Option Version :=
  if v.patch = u32Max then none else some ⟨v.major, v.minor, v.patch + 1, [], none⟩

/-- hexpm/src/version.rs:121-123 `lowest`. -/
def Version.lowest : Version := ⟨0, 0, 0, [], none⟩

/-! ### Printing -/

/-- hexpm/src/version.rs:234-241 `Display for Identifier`. -/
def Identifier.show : Identifier → List Char
  | .numeric n => showNat n
  | .alphaNumeric s => s

/-- The loop at hexpm/src/version.rs:214-219. -/
def showPre : List Identifier → List Char
  | [] => []
  | [i] => i.show
  | i :: is => i.show ++ '.' :: showPre is

/-- hexpm/src/version.rs:221-223. -/
def showBuild : Option (List Char) → List Char
  | none => []
  | some b => '+' :: b

/-- hexpm/src/version.rs:209-226 `Display for Version`. -/
def Version.show (v : Version) : List Char :=
  showNat v.major ++ '.' :: (showNat v.minor ++ '.' :: (showNat v.patch ++
    ((if v.pre.isEmpty then [] else '-' :: showPre v.pre) ++ showBuild v.build)))

/-! ### Lexer -/

/-- hexpm/src/version/lexer.rs:41-74 `enum Token`. The span carried by `Whitespace` is dropped
(it is never used). -/
inductive Token where
  | eq | notEq | gt | lt | ltEq | gtEq | pessimistic | dot | hyphen | plus | or | and
  | whitespace
  | numeric (n : Nat)
  | alphaNumeric (s : List Char)
  | leadingZero (s : List Char)
  deriving DecidableEq, Repr

/-- The character class at hexpm/src/version/lexer.rs:169 and 249. -/
def isAlnum (c : Char) : Bool :=
  isDigit c || (65 ≤ c.toNat && c.toNat ≤ 90) || (97 ≤ c.toNat && c.toNat ≤ 122)

/-- The whitespace class at hexpm/src/version/lexer.rs:204 and 240. -/
def isWs (c : Char) : Bool := c = ' ' || c = '\t' || c = '\n' || c = '\r'

/-- `str::parse::<u32>` on text made of ASCII alphanumerics. -/
def parseU32 (s : List Char) : Option Nat :=
  if s.isEmpty then none
  else if s.all isDigit then (if readNat s ≤ u32Max then some (readNat s) else none)
  else none

/-- The classification in hexpm/src/version/lexer.rs:170-189 `component`, after scanning. -/
def classify (input : List Char) : Token :=
  if input = ['0'] then .numeric 0
  else match parseU32 input with
    | some n => if input.head? ≠ some '0' then .numeric n else .leadingZero input
    | none => .alphaNumeric input

/-- hexpm/src/version/lexer.rs:168-190 `component`; `start` is the text already consumed. -/
def component (start rest : List Char) : Token × List Char :=
  (classify (start ++ rest.takeWhile isAlnum), rest.dropWhile isAlnum)

/-- hexpm/src/version/lexer.rs:212-262 `Iterator::next`, lines 237-260 (single characters). The
outer option is `None` for end of input, the inner one an unexpected character. -/
def nextOne : List Char → Option (Option (Token × List Char))
  | [] => none
  | c :: rest =>
    if isWs c then some (some (.whitespace, rest.dropWhile isWs))
    else if c = '>' then some (some (.gt, rest))
    else if c = '<' then some (some (.lt, rest))
    else if c = '.' then some (some (.dot, rest))
    else if c = '-' then some (some (.hyphen, rest))
    else if c = '+' then some (some (.plus, rest))
    else if isAlnum c then some (some (component [c] rest))
    else some none

/-- hexpm/src/version/lexer.rs:212-262 `Iterator::next`. -/
def next : List Char → Option (Option (Token × List Char))
  | '~' :: '>' :: rest => some (some (.pessimistic, rest))
  | '!' :: '=' :: rest => some (some (.notEq, rest))
  | '<' :: '=' :: rest => some (some (.ltEq, rest))
  | '>' :: '=' :: rest => some (some (.gtEq, rest))
  | '=' :: '=' :: rest => some (some (.eq, rest))
  | 'o' :: 'r' :: rest => some (some (.or, rest))
  -- lexer.rs:192-200 `and`
  | 'a' :: 'n' :: 'd' :: rest => some (some (.and, rest))
  | 'a' :: 'n' :: rest => some (some (component ['a', 'n'] rest))
  | s => nextOne s

/-- All tokens of the input; `none` when the lexer meets an unexpected character. The Rust parser
pulls tokens on demand and stops at the first lexer error, so a text containing one is never accepted.
`fuel` is the input length: each token consumes at least one character. -/
def lexLoop : Nat → List Char → Option (List Token)
  | 0, s => if s.isEmpty then some [] else none
  | fuel + 1, s => match next s with
    | none => some []
    | some none => none
    | some (some (t, rest)) => (lexLoop fuel rest).map (t :: ·)

def lex (s : List Char) : Option (List Token) := lexLoop s.length s

/-! ### Parser: each function takes the remaining tokens and returns the rest. -/

/-- hexpm/src/version/parser.rs:110-116 `skip_whitespace`. -/
def skipWs : List Token → List Token
  | .whitespace :: ts => ts
  | ts => ts

/-- hexpm/src/version/parser.rs:118-124 `expect_whitespace`. -/
def expectWs : List Token → Option (List Token)
  | .whitespace :: ts => some ts
  | _ => none

/-- hexpm/src/version/parser.rs:126-132 `numeric`. -/
def numeric : List Token → Option (Nat × List Token)
  | .numeric n :: ts => some (n, ts)
  | _ => none

/-- hexpm/src/version/parser.rs:141-145 `dot_numeric`. -/
def dotNumeric : List Token → Option (Nat × List Token)
  | .dot :: ts => numeric ts
  | _ => none

/-- hexpm/src/version.rs:243-253 `Identifier::concat`. -/
def Identifier.concat (i : Identifier) (s : List Char) : Identifier :=
  match i with
  | .numeric n => .alphaNumeric (showNat n ++ s)
  | .alphaNumeric t => .alphaNumeric (t ++ s)

/-- hexpm/src/version/parser.rs:150-170 `identifier`. -/
def identifier : List Token → Option (Identifier × List Token)
  | .alphaNumeric s :: .hyphen :: ts =>
    (identifier ts).map fun (i, r) => (((Identifier.alphaNumeric s).concat ['-']).concat i.show, r)
  | .numeric n :: .hyphen :: ts =>
    (identifier ts).map fun (i, r) => (((Identifier.numeric n).concat ['-']).concat i.show, r)
  | .alphaNumeric s :: ts => some (.alphaNumeric s, ts)
  | .numeric n :: ts => some (.numeric n, ts)
  | _ => none

/-- hexpm/src/version/parser.rs:187-199 `parts`; fuel is the number of tokens. -/
def parts : Nat → List Token → Option (List Identifier × List Token)
  | 0, _ => none
  | fuel + 1, ts => match identifier ts with
    | none => none
    | some (i, .dot :: r) => (parts fuel r).map fun (is, r') => (i :: is, r')
    | some (i, r) => some ([i], r)

/-- hexpm/src/version/parser.rs:175-184 `pre`. -/
def pre : List Token → Option (List Identifier × List Token)
  | .hyphen :: ts => parts ts.length ts
  | ts => some ([], ts)

/-- The loop at hexpm/src/version/parser.rs:212-222: reads to the end of input. -/
def buildLoop : List Token → Option (List Char)
  | [] => some []
  | .leadingZero s :: ts => (buildLoop ts).map (s ++ ·)
  | .alphaNumeric s :: ts => (buildLoop ts).map (s ++ ·)
  | .numeric n :: ts => (buildLoop ts).map (showNat n ++ ·)
  | .dot :: ts => (buildLoop ts).map ('.' :: ·)
  | _ :: _ => none

/-- hexpm/src/version/parser.rs:204-229 `plus_build_metadata`. -/
def plusBuild : List Token → Option (Option (List Char) × List Token)
  | .plus :: ts => match buildLoop ts with
    | none => none
    | some b => if b.isEmpty then none else some (some b, [])
  | ts => some (none, ts)

/-- hexpm/src/version/parser.rs:234-256 `version`. -/
def version (ts : List Token) : Option (Version × List Token) := do
  let ts := skipWs ts
  let (major, ts) ← numeric ts
  let (minor, ts) ← dotNumeric ts
  let (patch, ts) ← dotNumeric ts
  let (p, ts) ← pre ts
  let (b, ts) ← plusBuild ts
  let ts := skipWs ts
  some (⟨major, minor, patch, p, b⟩, ts)

/-- hexpm/src/version.rs:88-102 `Version::parse`. -/
def parse (s : List Char) : Option Version := do
  let ts ← lex s
  let (v, ts) ← version ts
  if ts.isEmpty then some v else none

/-! ### Ranges -/

/-- `std::ops::Bound`. -/
inductive Bound where
  | included (v : Version)
  | excluded (v : Version)
  | unbounded
  deriving DecidableEq, Repr

/-- `pubgrub::Range<Version>` (external crate): a union of segments. The crate keeps the segments
sorted and merges overlapping ones; here they are kept as produced. Only membership and the lower
bounds of non-empty segments are observable in the modelled code. -/
abbrev Range := List (Bound × Bound)

def belowLower : Bound → Version → Bool
  | .included l, v => v.lt l
  | .excluded l, v => v.le l
  | .unbounded, _ => false

def aboveUpper : Bound → Version → Bool
  | .included u, v => u.lt v
  | .excluded u, v => u.le v
  | .unbounded, _ => false

/-- `pubgrub::Range::contains`. -/
def Range.contains (r : Range) (v : Version) : Bool :=
  r.any fun (l, u) => !belowLower l v && !aboveUpper u v

/-- pubgrub's validity of a segment: an empty segment is not kept. -/
def validSegment : Bound → Bound → Bool
  | .included s, .included e => s.le e
  | .included s, .excluded e => s.lt e
  | .excluded s, .included e => s.lt e
  | .excluded s, .excluded e => s.lt e
  | .unbounded, _ => true
  | _, .unbounded => true

/-- The greater of two lower bounds. -/
def maxLower : Bound → Bound → Bound
  | .unbounded, b => b
  | a, .unbounded => a
  | .included a, .included b => if a.le b then .included b else .included a
  | .included a, .excluded b => if a.le b then .excluded b else .included a
  | .excluded a, .included b => if b.le a then .excluded a else .included b
  | .excluded a, .excluded b => if a.le b then .excluded b else .excluded a

/-- The smaller of two upper bounds. -/
def minUpper : Bound → Bound → Bound
  | .unbounded, b => b
  | a, .unbounded => a
  | .included a, .included b => if a.le b then .included a else .included b
  | .included a, .excluded b => if b.le a then .excluded b else .included a
  | .excluded a, .included b => if a.le b then .excluded a else .included b
  | .excluded a, .excluded b => if a.le b then .excluded a else .excluded b

/-- `pubgrub::Range::intersection`. -/
def Range.inter (a b : Range) : Range :=
  a.flatMap fun (l₁, u₁) => b.filterMap fun (l₂, u₂) =>
    let l := maxLower l₁ l₂
    let u := minUpper u₁ u₂
    if validSegment l u then some (l, u) else none

/-- `pubgrub::Range::union`. -/
def Range.union (a b : Range) : Range := a ++ b

def Range.singleton (v : Version) : Range := [(.included v, .included v)]
/-- `pubgrub::Range::higher_than`: `>= v`. -/
def Range.higherThan (v : Version) : Range := [(.included v, .unbounded)]
/-- `pubgrub::Range::strictly_lower_than`: `< v`. -/
def Range.strictlyLowerThan (v : Version) : Range := [(.unbounded, .excluded v)]

/-- The optional third number, hexpm/src/version/parser.rs:283-293: whether it was given, its
value, the remaining tokens. -/
def optionalPatch : List Token → Option (Bool × Nat × List Token)
  | .dot :: r => (numeric r).map fun (p, r) => (true, p, r)
  | r => some (false, 0, r)

/-- hexpm/src/version/parser.rs:282-313 `pessimistic_version_constraint`. -/
def pessimistic (ts : List Token) : Option (Range × List Token) := do
  let (major, ts) ← numeric ts
  let (minor, ts) ← dotNumeric ts
  let (includedPatch, patch, ts) ← optionalPatch ts
  let (p, ts) ← pre ts
  let (b, ts) ← plusBuild ts
  let lower : Version := ⟨major, minor, patch, p, b⟩
  let upper ← if includedPatch then lower.bumpMinor else lower.bumpMajor
  some (Range.inter (.higherThan lower) (.strictlyLowerThan upper), ts)

/-- One comparator: the `match` at hexpm/src/version/parser.rs:326-377 (without the end-of-input
arm, which leaves the loop). -/
def comparator : List Token → Option (Range × List Token)
  | ts@(.numeric _ :: _) => (version ts).map fun (v, r) => (.singleton v, r)
  | .eq :: ts => (version ts).map fun (v, r) => (.singleton v, r)
  | .notEq :: ts => do
    let (v, r) ← version ts
    let bumped ← v.bumpPatch
    some (Range.union (.strictlyLowerThan v) (.higherThan bumped), r)
  | .gt :: ts => do
    let (v, r) ← version ts
    let bumped ← v.bumpPatch
    some (.higherThan bumped, r)
  | .gtEq :: ts => (version ts).map fun (v, r) => (.higherThan v, r)
  | .lt :: ts => (version ts).map fun (v, r) => (.strictlyLowerThan v, r)
  | .ltEq :: ts => do
    let (v, r) ← version ts
    let bumped ← v.bumpPatch
    some (.strictlyLowerThan bumped, r)
  | .pessimistic :: ts => pessimistic (skipWs ts)
  | _ => none

/-- hexpm/src/version/parser.rs:318-323, the closure `and`. -/
def andRange : Option Range → Range → Range
  | none, c => c
  | some r, c => r.inter c

/-- hexpm/src/version/parser.rs:315-389 `range_ands_section`. -/
def andsLoop : Nat → Option Range → List Token → Option (Range × List Token)
  | 0, _, _ => none
  | fuel + 1, acc, ts =>
    match skipWs ts with
    | [] => acc.map fun r => (r, [])
    | ts => do
      let (c, ts) ← comparator ts
      match skipWs ts with
      | .and :: r => do
        let r ← expectWs r
        andsLoop fuel (some (andRange acc c)) r
      | r => some (andRange acc c, skipWs r)

/-- The accumulation at hexpm/src/version/parser.rs:266-269. -/
def orRange : Option Range → Range → Range
  | none, c => c
  | some r, c => r.union c

/-- hexpm/src/version/parser.rs:261-280 `range`. -/
def rangeLoop : Nat → Option Range → List Token → Option (Range × List Token)
  | 0, _, _ => none
  | fuel + 1, acc, ts => do
    let (c, ts) ← andsLoop (ts.length + 1) none ts
    let acc := orRange acc c
    match ts with
    | .or :: r => do
      let r ← expectWs r
      rangeLoop fuel (some acc) r
    | r => some (acc, skipWs r)

/-- hexpm/src/version.rs:105-119 `parse_range`. -/
def parseRange (s : List Char) : Option Range := do
  let ts ← lex s
  let (r, ts) ← rangeLoop (ts.length + 1) none ts
  if ts.isEmpty then some r else none

/-- `Iterator::min` over versions. -/
def minVersion : List Version → Option Version
  | [] => none
  | v :: vs => match minVersion vs with
    | none => some v
    | some w => if v.le w then some v else some w

/-- The closure at hexpm/src/version.rs:145-149. -/
def lowerCandidate : Bound → Option Version
  | .included v => some v
  | .excluded _ => none
  | .unbounded => some .lowest

/-- hexpm/src/version.rs:142-152 `LowestVersion::lowest_version`. -/
def Range.lowestVersion (r : Range) : Option Version := minVersion (r.filterMap fun s => lowerCandidate s.1)

end Verif.Version
