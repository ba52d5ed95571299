import Mathlib.Init

/-!
# Model: how the formatter writes numbers

`format/src/lib.rs`. A text is a list of characters. The numbers of a source text are ASCII, so that a number of bytes is
a number of characters. A document that is a single piece of text is that text.
-/
namespace Verif.Format

/-- `format/src/lib.rs:1505-1517`, the loop of `underscore_integer_string`: `i` characters have been visited, and `j` of
them were not underscores. The result is in the order in which `new_value` receives its characters. -/
def pushed (insertUnderscores : Bool) (len : Nat) : Nat → Nat → List Char → List Char
  | _, _, [] => []
  | i, j, character :: rest =>
    if character = '_' then pushed insertUnderscores len (i + 1) j rest
    else if insertUnderscores && i != 0 && character != '-' && decide (i < len) && j % 3 == 0 then
      '_' :: character :: pushed insertUnderscores len (i + 1) (j + 1) rest
    else character :: pushed insertUnderscores len (i + 1) (j + 1) rest

/-- `format/src/lib.rs:1491-1520` `underscore_integer_string`. -/
def underscoreIntegerString (value : List Char) : List Char :=
  let len := value.length
  let underscoreCount := value.count '_'
  let reformatWatershed := if value.head? = some '-' then 6 else 5
  let insertUnderscores := decide (reformatWatershed ≤ len - underscoreCount)
  (pushed insertUnderscores len 0 0 value.reverse).reverse

/-- `format/src/lib.rs:1482-1489` `int`. -/
def int (value : List Char) : List Char :=
  let digits := value.dropWhile (· == '-')
  if ['0', 'x'].isPrefixOf digits || ['0', 'b'].isPrefixOf digits || ['0', 'o'].isPrefixOf digits then value
  else underscoreIntegerString value

/-- `str::trim_end_matches` with a character. -/
def trimEnd (c : Char) (text : List Char) : List Char := (text.reverse.dropWhile (· == c)).reverse

/-- `format/src/lib.rs:1454-1480` `float`. -/
def float (value : List Char) : List Char :=
  let integerPart := value.takeWhile (· != '.')
  let floatingPart := ((value.dropWhile (· != '.')).drop 1).takeWhile (· != '.')
  let fractionalPart := floatingPart.takeWhile (· != 'e')
  let scientificPart := floatingPart.dropWhile (· != 'e')
  let fractionalPart := trimEnd '0' fractionalPart
  let fractionalPart := if fractionalPart = [] then ['0'] else fractionalPart
  underscoreIntegerString integerPart ++ '.' :: fractionalPart ++ scientificPart

end Verif.Format
