import Verif.Lexer.Spec

/-!
# Specification: the number a literal denotes

Integers and floats of a source text, and the numbers they denote. `Digits` and `Integer` are those of the specification
of the lexer.
-/
namespace Verif.Format.Spec
open Verif.Lexer.Spec

/-- How many digits a text has that is made of digits and underscores. -/
def digitCount (t : List Char) : Nat := (t.filter (· ≠ '_')).length

/-- The digits after the dot of a float, perhaps none: their value and their number. -/
inductive Fraction : List Char → Nat → Nat → Prop
  | none : Fraction [] 0 0
  | some {t : List Char} {n : Nat} : LooseDigits 10 t n → Fraction t n (digitCount t)

/-- The exponent of a float, perhaps none. -/
inductive Exponent : List Char → Int → Prop
  | none : Exponent [] 0
  | pos {t : List Char} {n : Nat} : LooseDigits 10 t n → Exponent ('e' :: t) n
  | neg {t : List Char} {n : Nat} : LooseDigits 10 t n → Exponent ('e' :: '-' :: t) (-n)

/-- `FloatDenotes t negative mantissa places exponent`: the text denotes the number
`mantissa / 10 ^ places * 10 ^ exponent`, or its negation. -/
def FloatDenotes (t : List Char) (negative : Bool) (mantissa places : Nat) (exponent : Int) : Prop :=
  ∃ whole fraction scientific w f, t = (if negative then ['-'] else []) ++ whole ++ '.' :: fraction ++ scientific ∧
    Digits 10 whole w ∧ Fraction fraction f places ∧ Exponent scientific exponent ∧ mantissa = w * 10 ^ places + f

/-- No underscore stands before zeros that end the digits after the dot: `1.5_0` and `1._0` are not such floats. -/
def PlainZeros (t : List Char) : Prop :=
  ¬∃ before zeros after, t = before ++ '_' :: zeros ++ after ∧ '.' ∈ before ∧ zeros ≠ [] ∧ (∀ c ∈ zeros, c = '0') ∧
    'e' ∉ before ∧ (after = [] ∨ after.head? = some 'e')

/-- The underscores of a number, if it has any, separate groups of three digits, counted from its end. -/
inductive Grouped : List Char → Prop
  | first {t : List Char} : t ≠ [] → t.length ≤ 3 → '_' ∉ t → Grouped t
  | more {t : List Char} {a b c : Char} : Grouped t → a ≠ '_' → b ≠ '_' → c ≠ '_' → Grouped (t ++ ['_', a, b, c])

/-- How a decimal integer is written by the formatter: up to four digits without underscores, and more digits in groups
of three. -/
def Tidy (t : List Char) : Prop := if digitCount t ≤ 4 then '_' ∉ t else Grouped t

end Verif.Format.Spec
