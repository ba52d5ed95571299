/-
Specification vocabulary for source positions, independent of the model: a position in a text is a
split of the text into a part before and a part after.
-/
namespace Verif.SrcSpan.Spec

/-- UTF-8 length of a text, from Lean's own `Char.utf8Size`. -/
def utf8Len (p : List Char) : Nat := (p.map Char.utf8Size).sum

/-- UTF-16 length of a character: two units beyond the basic multilingual plane. -/
def utf16Size (c : Char) : Nat := if c.toNat ≤ 0xFFFF then 1 else 2

/-- UTF-16 length of a text. -/
def utf16Len (p : List Char) : Nat := (p.map utf16Size).sum

/-- How many lines were completed in `p`. -/
def newlines (p : List Char) : Nat := p.count '\n'

/-- The part of `p` on its last (unfinished) line. -/
def currentLine (p : List Char) : List Char := (p.reverse.takeWhile (· ≠ '\n')).reverse

/-- Number of newline characters of the text that start strictly before byte `i`. -/
def newlinesBefore : List Char → Nat → Nat
  | [], _ => 0
  | c :: cs, i => if i = 0 then 0 else (if c = '\n' then 1 else 0) + newlinesBefore cs (i - c.utf8Size)

end Verif.SrcSpan.Spec
