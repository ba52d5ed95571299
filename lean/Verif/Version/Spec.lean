import Verif.Version.Model

/-!
# Specification of version order, readable versions and requirements

Only the data types `Version` and `Identifier` are shared with the model.
-/
namespace Verif.Version.Spec

open Verif.Decimal (isDigit readNat showNat)

/-! ### Semantic-versioning precedence -/

/-- Dictionary order: a proper prefix comes first, otherwise the first difference decides. -/
def DictLt (R : α → α → Prop) (a b : List α) : Prop :=
  (∃ c cs, b = a ++ c :: cs) ∨ ∃ p x y s t, a = p ++ x :: s ∧ b = p ++ y :: t ∧ R x y

/-- Identifiers: numbers numerically, numbers below words, words in ASCII order. -/
def IdLt : Identifier → Identifier → Prop
  | .numeric m, .numeric n => m < n
  | .numeric _, .alphaNumeric _ => True
  | .alphaNumeric _, .numeric _ => False
  | .alphaNumeric s, .alphaNumeric t => DictLt (fun a b => a.toNat < b.toNat) s t

/-- A pre-release is below its release; pre-releases compare identifier by identifier. -/
def PreLt (a b : List Identifier) : Prop :=
  (a ≠ [] ∧ b = []) ∨ (a ≠ [] ∧ b ≠ [] ∧ DictLt IdLt a b)

/-- Semver precedence. -/
def Precedes (a b : Version) : Prop :=
  a.major < b.major ∨ a.major = b.major ∧ (a.minor < b.minor ∨ a.minor = b.minor ∧
    (a.patch < b.patch ∨ a.patch = b.patch ∧ PreLt a.pre b.pre))

/-- Equal apart from build metadata. -/
def SameRelease (a b : Version) : Prop :=
  a.major = b.major ∧ a.minor = b.minor ∧ a.patch = b.patch ∧ a.pre = b.pre

/-! ### Readable versions -/

def maxU32 : Nat := 2 ^ 32 - 1

/-- Letters and digits. -/
def Alnum (c : Char) : Prop :=
  ('0'.toNat ≤ c.toNat ∧ c.toNat ≤ '9'.toNat) ∨ ('A'.toNat ≤ c.toNat ∧ c.toNat ≤ 'Z'.toNat) ∨
    ('a'.toNat ≤ c.toNat ∧ c.toNat ≤ 'z'.toNat)

/-- A run of letters and digits that the reader does not mistake for the words `or` / `and`. -/
def PlainWord (s : List Char) : Prop :=
  (∀ c ∈ s, Alnum c) ∧ ¬ ['o', 'r'] <+: s ∧ ¬ ['a', 'n', 'd'] <+: s

/-- A number that fits 32 bits. -/
def IsNumber (s : List Char) : Prop := s ≠ [] ∧ (∀ c ∈ s, isDigit c = true) ∧ readNat s ≤ maxU32

/-- A number written with superfluous leading zeros. -/
def ZeroPadded (s : List Char) : Prop := IsNumber s ∧ s.head? = some '0' ∧ s ≠ ['0']

/-- Text pieces joined by a separator. -/
def join (sep : Char) : List (List Char) → List Char
  | [] => []
  | [s] => s
  | s :: ss => s ++ sep :: join sep ss

/-- A pre-release identifier the parser can read: hyphen-separated non-empty words. -/
def ReadableId : Identifier → Prop
  | .numeric n => n ≤ maxU32
  | .alphaNumeric s => ∃ words, words ≠ [] ∧ s = join '-' words ∧ ¬ IsNumber s ∧
      ∀ w ∈ words, w ≠ [] ∧ PlainWord w ∧ ¬ ZeroPadded w

/-- Build metadata the parser can read: dot-separated words. -/
def ReadableBuild : Option (List Char) → Prop
  | none => True
  | some b => b ≠ [] ∧ ∃ words, words ≠ [] ∧ b = join '.' words ∧ ∀ w ∈ words, PlainWord w

def Readable (v : Version) : Prop :=
  v.major ≤ maxU32 ∧ v.minor ≤ maxU32 ∧ v.patch ≤ maxU32 ∧ (∀ i ∈ v.pre, ReadableId i) ∧
    ReadableBuild v.build

/-- Identifiers the semantic versioning grammar allows: `[0-9A-Za-z-]+`; all-digit ones are numbers
without leading zeros. -/
def SemverId : Identifier → Prop
  | .numeric n => n ≤ maxU32
  | .alphaNumeric s => s ≠ [] ∧ (∀ c ∈ s, Alnum c ∨ c = '-') ∧ ∃ c ∈ s, isDigit c = false

/-- Versions of the semantic versioning grammar, without build metadata. -/
def SemverVersion (v : Version) : Prop :=
  v.major ≤ maxU32 ∧ v.minor ≤ maxU32 ∧ v.patch ≤ maxU32 ∧ (∀ i ∈ v.pre, SemverId i) ∧ v.build = none

/-! ### Requirements -/

/-- A comparator of a requirement. `approx2` is `~> major.minor[-pre]`, `approx3` is `~> v` with
all three numbers. -/
inductive Comparator where
  | bare (v : Version)
  | eq (v : Version)
  | ne (v : Version)
  | gt (v : Version)
  | ge (v : Version)
  | lt (v : Version)
  | le (v : Version)
  | approx2 (major minor : Nat) (pre : List Identifier)
  | approx3 (v : Version)

/-- The documented meaning of a comparator. -/
def Satisfies (v : Version) : Comparator → Prop
  | .bare w => SameRelease v w
  | .eq w => SameRelease v w
  | .ne w => ¬ SameRelease v w
  | .gt w => Precedes w v
  | .ge w => ¬ Precedes v w
  | .lt w => Precedes v w
  | .le w => ¬ Precedes w v
  | .approx2 major minor pre =>
    ¬ Precedes v ⟨major, minor, 0, pre, none⟩ ∧ Precedes v ⟨major + 1, 0, 0, [], none⟩
  | .approx3 w => ¬ Precedes v w ∧ Precedes v ⟨w.major, w.minor + 1, 0, [], none⟩

/-- A requirement: alternatives (`or`), each a list of comparators (`and`). -/
def SatisfiesAny (v : Version) (req : List (List Comparator)) : Prop :=
  ∃ alt ∈ req, ∀ c ∈ alt, Satisfies v c

/-- The text of a version without build metadata. -/
def versionText (v : Version) : List Char :=
  showNat v.major ++ ['.'] ++ showNat v.minor ++ ['.'] ++ showNat v.patch ++ preText v.pre
where
  idText : Identifier → List Char
    | .numeric n => showNat n
    | .alphaNumeric s => s
  preText (p : List Identifier) : List Char := match p with
    | [] => []
    | p => '-' :: join '.' (p.map idText)

/-- The text of a comparator, with `w` (possibly empty white space) after the operator. -/
def Comparator.text (w : List Char) : Comparator → List Char
  | .bare v => versionText v
  | .eq v => "==".toList ++ w ++ versionText v
  | .ne v => "!=".toList ++ w ++ versionText v
  | .gt v => ">".toList ++ w ++ versionText v
  | .ge v => ">=".toList ++ w ++ versionText v
  | .lt v => "<".toList ++ w ++ versionText v
  | .le v => "<=".toList ++ w ++ versionText v
  | .approx2 major minor pre =>
    "~>".toList ++ w ++ showNat major ++ ['.'] ++ showNat minor ++ versionText.preText pre
  | .approx3 v => "~>".toList ++ w ++ versionText v

/-- Pieces joined by white space, a keyword, white space. -/
def joinKw (sp kw : List Char) : List (List Char) → List Char
  | [] => []
  | [s] => s
  | s :: ss => s ++ sp ++ kw ++ sp ++ joinKw sp kw ss

/-- The text of a requirement; `sp` is the non-empty white space around keywords. -/
def requirementText (sp w : List Char) (req : List (List Comparator)) : List Char :=
  joinKw sp "or".toList (req.map fun alt => joinKw sp "and".toList (alt.map (·.text w)))

/-- Comparators the reader accepts: readable versions without build metadata whose numbers can be
incremented within 32 bits. -/
def ReadableComparator : Comparator → Prop
  | .bare v | .eq v | .ge v | .lt v => Readable v ∧ v.build = none
  | .ne v | .gt v | .le v => Readable v ∧ v.build = none ∧ v.patch < maxU32
  | .approx2 major minor pre => major < maxU32 ∧ minor ≤ maxU32 ∧ ∀ i ∈ pre, ReadableId i
  | .approx3 v => Readable v ∧ v.build = none ∧ v.minor < maxU32

end Verif.Version.Spec
