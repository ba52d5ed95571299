import Verif.Format.Pattern
import Verif.Format.Spec

/-!
# Specification: patterns that can be written, and the pattern a formatted pattern is read as

Uses the data types of patterns and the texts of tokens only.
-/
namespace Verif.Format.Spec
open Verif.Lexer.Spec Verif.Format

/-- The name is that of a variable. -/
def IsName (n : Name) : Prop := Reads (.name n) n

/-- The name is that of a constructor. -/
def IsUpName (n : Name) : Prop := Reads (.upName n) n

/-- The name is that of something that is ignored. -/
def IsDiscardName (n : Name) : Prop := Reads (.discardName n) n

def AssignNameOk : AssignName → Prop
  | .variable_ n => IsName n
  | .discard n => IsDiscardName n

/-- A string as it is written between its quotes. -/
def IsString (value : List Char) : Prop := ∃ t, Reads (.string value) t

def IsAssign : Pat → Prop
  | .assign _ _ => True
  | _ => False

mutual
/-- The pattern is made of tokens of the language, no float has an underscore before zeros at its end, and no pattern is
given two names. -/
def Ok : Pat → Prop
  | .int value n => ∃ t, Reads (.int value n) t
  | .float value => Reads (.float value) value ∧ PlainZeros value
  | .string value => IsString value
  | .var name => IsName name
  | .discard name => IsDiscardName name
  | .assign name p => IsName name ∧ ¬IsAssign p ∧ Ok p
  | .stringPrefix left leftName right => IsString left ∧ (∀ n, leftName = some n → IsName n) ∧ AssignNameOk right
  | .tuple elements => AllOk elements
  | .list elements tail => AllOk elements ∧ ∀ t, tail = some t → AssignNameOk t
  | .ctor module name arguments _ => (∀ m, module = some m → IsName m) ∧ IsUpName name ∧ ArgsOk arguments

def AllOk : Pats → Prop
  | .nil => True
  | .cons p rest => Ok p ∧ AllOk rest

def ArgsOk : Args → Prop
  | .nil => True
  | .plain p rest => Ok p ∧ ArgsOk rest
  | .labelled label p rest => IsName label ∧ Ok p ∧ ArgsOk rest
  | .shorthand label rest => IsName label ∧ ArgsOk rest
end

/-- An ignored pattern. -/
def IsIgnored : Pat → Bool
  | .discard _ => true
  | _ => false

mutual
/-- The pattern a formatted pattern is read as, given how numbers are written: a list pattern that is only a tail is that
tail, the tail of a list that is ignored loses its name, and an ignored pattern with a name is a variable. -/
def normal (int float : List Char → List Char) : Pat → Pat
  | .int value n => .int (int value) n
  | .float value => .float (float value)
  | .string value => .string value
  | .var name => .var name
  | .discard name => .discard name
  | .assign name p => if IsIgnored p then .var name else .assign name (normal int float p)
  | .stringPrefix left leftName right => .stringPrefix left leftName right
  | .tuple elements => .tuple (normals int float elements)
  | .list .nil (some (.variable_ name)) => .var name
  | .list .nil (some (.discard name)) => .discard name
  | .list elements none => .list (normals int float elements) none
  | .list elements (some (.variable_ name)) => .list (normals int float elements) (some (.variable_ name))
  | .list elements (some (.discard _)) => .list (normals int float elements) (some (.discard ['_']))
  | .ctor module name arguments spread => .ctor module name (normalArgs int float arguments) spread

def normals (int float : List Char → List Char) : Pats → Pats
  | .nil => .nil
  | .cons p rest => .cons (normal int float p) (normals int float rest)

def normalArgs (int float : List Char → List Char) : Args → Args
  | .nil => .nil
  | .plain p rest => .plain (normal int float p) (normalArgs int float rest)
  | .labelled label p rest => .labelled label (normal int float p) (normalArgs int float rest)
  | .shorthand label rest => .shorthand label (normalArgs int float rest)
end

mutual
/-- No list pattern, at any depth, is only a tail. -/
def NoBareTail : Pat → Prop
  | .assign _ p => NoBareTail p
  | .tuple elements => NoBareTails elements
  | .list elements tail => (elements = .nil → tail = none) ∧ NoBareTails elements
  | .ctor _ _ arguments _ => NoBareTailArgs arguments
  | _ => True

def NoBareTails : Pats → Prop
  | .nil => True
  | .cons p rest => NoBareTail p ∧ NoBareTails rest

def NoBareTailArgs : Args → Prop
  | .nil => True
  | .plain p rest => NoBareTail p ∧ NoBareTailArgs rest
  | .labelled _ p rest => NoBareTail p ∧ NoBareTailArgs rest
  | .shorthand _ rest => NoBareTailArgs rest
end

/-! ### What patterns match -/

/-- Values. `F` is the type of floats. -/
inductive Val (F : Type) where
  | int (n : Int)
  | float (x : F)
  | string (s : List Char)
  | tuple (elements : List (Val F))
  | list (elements : List (Val F))
  | record (constructor : Nat) (fields : List (Val F))

/-- What the meaning of a pattern depends on: the floats and the strings that literals stand for, and the fields of a record
that arguments with the given labels are for: `fields module constructor labels spread value found`. -/
structure Meaning (F : Type) where
  float : List Char → F
  string : List Char → List Char
  fields : Option Name → Name → List (Option Name) → Bool → Val F → List (Val F) → Prop

/-- Floats that denote the same number have the same meaning. -/
def Meaning.Sound {F : Type} (m : Meaning F) : Prop :=
  ∀ t u negative mantissa places mantissa' places' exponent, FloatDenotes t negative mantissa places exponent →
    FloatDenotes u negative mantissa' places' exponent → mantissa * 10 ^ places' = mantissa' * 10 ^ places →
    m.float t = m.float u

def labels : Args → List (Option Name)
  | .nil => []
  | .plain _ rest => none :: labels rest
  | .labelled label _ rest => some label :: labels rest
  | .shorthand label rest => some label :: labels rest

/-- The variable that is bound by a name. -/
def bound {F : Type} (v : Val F) : AssignName → List (Name × Val F)
  | .variable_ n => [(n, v)]
  | .discard _ => []

mutual
/-- The pattern matches the value and binds these variables. -/
def Matches {F : Type} (m : Meaning F) : Pat → Val F → List (Name × Val F) → Prop
  | .int _ n, v, b => v = .int n ∧ b = []
  | .float t, v, b => v = .float (m.float t) ∧ b = []
  | .string t, v, b => v = .string (m.string t) ∧ b = []
  | .var n, v, b => b = [(n, v)]
  | .discard _, _, b => b = []
  | .assign n p, v, b => ∃ b', b = b' ++ [(n, v)] ∧ Matches m p v b'
  | .stringPrefix left leftName right, v, b =>
    ∃ after, v = .string (m.string left ++ after) ∧
      b = (match leftName with | some n => [(n, .string (m.string left))] | none => []) ++ bound (.string after) right
  | .tuple elements, v, b => ∃ vs, v = .tuple vs ∧ AllMatch m elements vs b
  | .list elements tail, v, b =>
    ∃ vs after b', v = .list (vs ++ after) ∧ AllMatch m elements vs b' ∧
      (match tail with | some t => b = b' ++ bound (.list after) t | none => after = [] ∧ b = b')
  | .ctor module name arguments spread, v, b =>
    ∃ vs, m.fields module name (labels arguments) spread v vs ∧ ArgsMatch m arguments vs b

/-- The patterns match the values. -/
def AllMatch {F : Type} (m : Meaning F) : Pats → List (Val F) → List (Name × Val F) → Prop
  | .nil, vs, b => vs = [] ∧ b = []
  | .cons p rest, vs, b => ∃ v vs' b1 b2, vs = v :: vs' ∧ b = b1 ++ b2 ∧ Matches m p v b1 ∧ AllMatch m rest vs' b2

/-- The arguments match the values. -/
def ArgsMatch {F : Type} (m : Meaning F) : Args → List (Val F) → List (Name × Val F) → Prop
  | .nil, vs, b => vs = [] ∧ b = []
  | .plain p rest, vs, b => ∃ v vs' b1 b2, vs = v :: vs' ∧ b = b1 ++ b2 ∧ Matches m p v b1 ∧ ArgsMatch m rest vs' b2
  | .labelled _ p rest, vs, b => ∃ v vs' b1 b2, vs = v :: vs' ∧ b = b1 ++ b2 ∧ Matches m p v b1 ∧ ArgsMatch m rest vs' b2
  | .shorthand label rest, vs, b => ∃ v vs' b2, vs = v :: vs' ∧ b = (label, v) :: b2 ∧ ArgsMatch m rest vs' b2
end

end Verif.Format.Spec
