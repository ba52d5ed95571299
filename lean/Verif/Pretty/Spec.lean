import Verif.Pretty.Model
/-!
# Specification of pretty printing

Uses the document type of the model only.
-/
namespace Verif.Pretty.Spec

open Verif.Pretty

/-- `Layout d indent broken out`: `out` is a possible layout of `d` at this indentation, inside a group that is broken or
not. The only freedom is in the groups, each of which is broken or not as a whole, and in the flexible breaks of broken
groups. -/
def Layout : Doc → Int → Bool → List Char → Prop
  | .empty, _, _, out => out = []
  | .observer _, _, _, out => out = []
  | .str s _, _, _, out => out = s
  | .zeroWidth s, _, _, out => out = s
  | .line n, i, _, out => out = List.replicate n '\n' ++ List.replicate i.toNat ' '
  | .brk b u kind, i, broken, out =>
    (broken = true ∧ out = b ++ '\n' :: List.replicate i.toNat ' ') ∨
    ((broken = false ∨ kind = .flex) ∧ out = u)
  | .join a b, i, broken, out => ∃ x y, out = x ++ y ∧ Layout a i broken x ∧ Layout b i broken y
  | .join3 a b c, i, broken, out =>
    ∃ x y z, out = x ++ y ++ z ∧ Layout a i broken x ∧ Layout b i broken y ∧ Layout c i broken z
  | .join4 a b c d, i, broken, out =>
    ∃ x y z w, out = x ++ y ++ z ++ w ∧ Layout a i broken x ∧ Layout b i broken y ∧ Layout c i broken z ∧
      Layout d i broken w
  | .nest n .increase .always d, i, broken, out => Layout d (i + n) broken out
  | .nest n .set .always d, _, broken, out => Layout d n broken out
  | .nest n .increase .ifBroken d, i, broken, out => Layout d (if broken then i + n else i) broken out
  | .nest n .set .ifBroken d, i, broken, out => Layout d (if broken then n else i) broken out
  | .group d, i, _, out => ∃ broken, Layout d i broken out
  | .forceBroken d, i, broken, out => Layout d i broken out
  | .nextBreakFits d _, i, broken, out => Layout d i broken out

/-- Text without spaces and newlines. -/
def content (s : List Char) : List Char := s.filter fun c => c != ' ' && c != '\n'

/-- The texts of a document in order, without spaces and newlines, breaks being unbroken. -/
def docContent : Doc → List Char
  | .str s _ => content s
  | .zeroWidth s => content s
  | .brk _ u _ => content u
  | .join a b => docContent a ++ docContent b
  | .join3 a b c => docContent a ++ docContent b ++ docContent c
  | .join4 a b c d => docContent a ++ docContent b ++ docContent c ++ docContent d
  | .nest _ _ _ d => docContent d
  | .group d => docContent d
  | .forceBroken d => docContent d
  | .nextBreakFits d _ => docContent d
  | _ => []

/-- Every break is the same text, up to spaces, broken or not (no trailing commas). -/
def BreaksAgree : Doc → Prop
  | .brk b u _ => content b = content u
  | .join a b => BreaksAgree a ∧ BreaksAgree b
  | .join3 a b c => BreaksAgree a ∧ BreaksAgree b ∧ BreaksAgree c
  | .join4 a b c d => BreaksAgree a ∧ BreaksAgree b ∧ BreaksAgree c ∧ BreaksAgree d
  | .nest _ _ _ d => BreaksAgree d
  | .group d => BreaksAgree d
  | .forceBroken d => BreaksAgree d
  | .nextBreakFits d _ => BreaksAgree d
  | _ => True

/-! ### The first line of a document printed flat -/

/-- A document printed with no break broken, up to its first newline: the text, the number of columns, whether there is
a newline, and whether a break is forced before it. -/
structure Flat where
  text : List Char
  columns : Nat
  newline : Bool
  forced : Bool

/-- One after the other. -/
def Flat.andThen (a b : Flat) : Flat :=
  if a.newline then a else ⟨a.text ++ b.text, a.columns + b.columns, b.newline, a.forced || b.forced⟩

def flat : Doc → Flat
  | .str s g => ⟨s, g, false, false⟩
  | .zeroWidth s => ⟨s, 0, false, false⟩
  | .brk _ u _ => ⟨u, byteLen u, false, false⟩
  | .line _ => ⟨[], 0, true, false⟩
  | .join a b => (flat a).andThen (flat b)
  | .join3 a b c => (flat a).andThen ((flat b).andThen (flat c))
  | .join4 a b c d => (flat a).andThen ((flat b).andThen ((flat c).andThen (flat d)))
  | .nest _ _ _ d => flat d
  | .group d => flat d
  | .nextBreakFits d _ => flat d
  | .forceBroken d => { flat d with forced := true }
  | .observer _ => ⟨[], 0, false, false⟩
  | .empty => ⟨[], 0, false, false⟩

/-- No part of the document asks for its next break to be taken as fitting. -/
def Plain : Doc → Prop
  | .nextBreakFits d mode => mode = .disabled ∧ Plain d
  | .join a b => Plain a ∧ Plain b
  | .join3 a b c => Plain a ∧ Plain b ∧ Plain c
  | .join4 a b c d => Plain a ∧ Plain b ∧ Plain c ∧ Plain d
  | .nest _ _ _ d => Plain d
  | .group d => Plain d
  | .forceBroken d => Plain d
  | _ => True

/-- Mandatory newlines are at least one newline, indentations are not negative, and texts hold no newline. -/
def Sane : Doc → Prop
  | .line n => 0 < n
  | .str s _ => '\n' ∉ s
  | .zeroWidth s => '\n' ∉ s
  | .brk b u _ => '\n' ∉ b ∧ '\n' ∉ u
  | .nest n _ _ d => 0 ≤ n ∧ Sane d
  | .join a b => Sane a ∧ Sane b
  | .join3 a b c => Sane a ∧ Sane b ∧ Sane c
  | .join4 a b c d => Sane a ∧ Sane b ∧ Sane c ∧ Sane d
  | .group d => Sane d
  | .forceBroken d => Sane d
  | .nextBreakFits d _ => Sane d
  | _ => True

/-! ### Contexts -/

/-- A document with a hole. -/
inductive Ctx where
  | hole
  | joinL (c : Ctx) (b : Doc) | joinR (a : Doc) (c : Ctx)
  | join3A (c : Ctx) (x y : Doc) | join3B (x : Doc) (c : Ctx) (y : Doc) | join3C (x y : Doc) (c : Ctx)
  | join4A (c : Ctx) (x y z : Doc) | join4B (x : Doc) (c : Ctx) (y z : Doc) | join4C (x y : Doc) (c : Ctx) (z : Doc)
  | join4D (x y z : Doc) (c : Ctx)
  | nest (n : Int) (m : NestMode) (k : NestCondition) (c : Ctx)
  | group (c : Ctx) | force (c : Ctx) | next (c : Ctx) (m : NextBreakFitsMode)

def Ctx.fill : Ctx → Doc → Doc
  | .hole, d => d
  | .joinL c b, d => .join (c.fill d) b
  | .joinR a c, d => .join a (c.fill d)
  | .join3A c x y, d => .join3 (c.fill d) x y
  | .join3B x c y, d => .join3 x (c.fill d) y
  | .join3C x y c, d => .join3 x y (c.fill d)
  | .join4A c x y z, d => .join4 (c.fill d) x y z
  | .join4B x c y z, d => .join4 x (c.fill d) y z
  | .join4C x y c z, d => .join4 x y (c.fill d) z
  | .join4D x y z c, d => .join4 x y z (c.fill d)
  | .nest n m k c, d => .nest n m k (c.fill d)
  | .group c, d => .group (c.fill d)
  | .force c, d => .forceBroken (c.fill d)
  | .next c m, d => .nextBreakFits (c.fill d) m

/-- Two documents print alike wherever they occur, whatever the limit, including what observers are told. -/
def PrintAlike (a b : Doc) : Prop := ∀ (c : Ctx) (limit : Int), print limit (c.fill a) = print limit (c.fill b)

/-- Nothing in the document can start a new line. -/
def NoBreaks : Doc → Prop
  | .line _ => False
  | .brk _ _ _ => False
  | .join a b => NoBreaks a ∧ NoBreaks b
  | .join3 a b c => NoBreaks a ∧ NoBreaks b ∧ NoBreaks c
  | .join4 a b c d => NoBreaks a ∧ NoBreaks b ∧ NoBreaks c ∧ NoBreaks d
  | .nest _ _ _ d => NoBreaks d
  | .group d => NoBreaks d
  | .forceBroken d => NoBreaks d
  | .nextBreakFits d _ => NoBreaks d
  | _ => True

/-! ### Positions -/

/-- The position after an event: newlines start a line at column 0, everything else moves right. -/
def after (p : Pos) : Ev → Pos
  | .newline => ⟨p.line + 1, 0⟩
  | .spaces n => ⟨p.line, p.width + n⟩
  | .text _ w => ⟨p.line, p.width + w⟩
  | .observed _ _ _ => p

/-- Every notification carries the position reached by what was written before it. -/
def Truthful : Pos → List Ev → Prop
  | _, [] => True
  | p, .observed id line width :: evs => line = p.line ∧ width = p.width ∧ Truthful p evs
  | p, e :: evs => Truthful (after p e) evs

/-- The number of newlines in a text, and the characters after the last one. -/
def lineOf (s : List Char) : Nat := s.count '\n'
def columnText (s : List Char) : List Char := (s.reverse.takeWhile (· ≠ '\n')).reverse

end Verif.Pretty.Spec
