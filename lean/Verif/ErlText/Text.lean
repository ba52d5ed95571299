import Verif.ErlText.Tree

/-!
# The text of a term

What the calls of a term print, as a function of the term and of where it stands.
-/

namespace Verif.ErlText

open Verif.Decimal (showNat)

/-- Where a term stands: as an operand, as the value of a segment, or as the rest of a list. -/
structure Ctx where
  operand : Bool := false
  value : Bool := false
  tail : Bool := false

def plain : Ctx := {}

def paren (b : Bool) (t : Text) : Text := if b then "(".toList ++ t ++ ")".toList else t

/-- The rest of a list that is not itself a list. -/
def Ctx.rest (c : Ctx) (t : Text) : Text := if c.tail then " | ".toList ++ t ++ "]".toList else t

/-- Terms printed without parentheses as the value or the size of a segment. -/
def Term.bare (k : Kind) : Term → Bool
  | .var _ => true
  | .discard => true
  | .int _ => true
  | .float _ _ _ => true
  | .string _ => true
  | .bits _ => k = .expression
  | _ => false

def Term.isCall : Term → Bool
  | .call _ _ => true
  | .remote _ _ _ => true
  | _ => false

def Term.isList : Term → Bool
  | .nil => true
  | .cons _ _ => true
  | _ => false

def commaFirst (first : Bool) : Text := if first then [] else ", ".toList

def lineFirst (first : Bool) : Text := if first then "\n".toList else ",\n".toList

def clauseFirst (first : Bool) : Text := if first then " of\n".toList else ";\n\n".toList

mutual

def Term.text (k : Kind) (c : Ctx) (i : Nat) : Term → Text
  | .var name => c.rest name
  | .discard => c.rest ['_']
  | .int n => c.rest (showInt n)
  | .float sign whole fraction => c.rest (sign.text ++ whole ++ ".".toList ++ fraction)
  | .string content =>
    c.rest ((if c.value then "\"".toList else "~\"".toList) ++ Strings.escapeErlang 0 content ++ "\"".toList)
  | .atom name => c.rest (quoteAtomName name)
  | .nil => if c.tail then "]".toList else "[]".toList
  | .cons head tail =>
    (if c.tail then ", ".toList else "[".toList) ++ head.text k plain i ++ tail.text k { tail := true } i
  | .tuple items => c.rest ("{".toList ++ textAll k [] ", ".toList i items ++ "}".toList)
  | .bits segments => c.rest ("<<".toList ++ segmentText k true i segments ++ ">>".toList)
  | .map fields => c.rest ("#{".toList ++ fieldText true (i + INDENT) fields ++ endLine i "}".toList)
  | .block body =>
    c.rest ("begin".toList ++
      textAll .expression (statementStart true (i + INDENT)) (statementStart false (i + INDENT)) (i + INDENT) body ++
      endLine i "end".toList)
  | .call called arguments =>
    c.rest (paren called.isCall (called.text .expression plain i) ++
      textAll .expression "(".toList ", ".toList i arguments ++
      (if arguments.isEmpty then "()".toList else ")".toList))
  | .remote module function arguments =>
    c.rest (quoteAtomName module ++ ":".toList ++ quoteAtomName function ++
      textAll .expression "(".toList ", ".toList i arguments ++
      (if arguments.isEmpty then "()".toList else ")".toList))
  | .function parameters body =>
    c.rest ("fun(".toList ++ commaSeparated parameters ++ ") ->".toList ++
      textAll .expression (statementStart true (i + INDENT)) (statementStart false (i + INDENT)) (i + INDENT) body ++
      endLine i "end".toList)
  | .reference module name arity =>
    c.rest ("fun ".toList ++
      (match module with
        | some m => quoteAtomName m ++ ":".toList
        | none => []) ++ quoteAtomName name ++ "/".toList ++ showNat arity)
  | .unary op operand => c.rest (op.text ++ " ".toList ++ operand.text .expression { operand := true, value := c.value } i)
  | .binary op left right =>
    c.rest (paren c.operand (left.text .expression { operand := true } i ++ (" ".toList ++ op.text ++ " ".toList) ++
      right.text .expression { operand := true } i))
  | .bind left right => c.rest (left.text .pattern plain i ++ " = ".toList ++ right.text k { value := c.value } i)
  | .case_ subject clauses =>
    c.rest ("case ".toList ++ subject.text .expression plain i ++ clauseText true (i + INDENT) clauses ++
      endLine i "end".toList)

/-- Terms, the first after one text and the others after another. -/
def textAll (k : Kind) (first rest : Text) (i : Nat) : List Term → Text
  | [] => []
  | t :: ts => first ++ t.text k plain i ++ textAll k rest rest i ts

def segmentText (k : Kind) (first : Bool) (i : Nat) : List Segment → Text
  | [] => []
  | .mk value none specs :: ss =>
    commaFirst first ++ paren (!value.bare k) (value.text k { value := true } i) ++ specsText true (sortSpecs specs) ++
      segmentText k false i ss
  | .mk value (some size) specs :: ss =>
    commaFirst first ++ paren (!value.bare k) (value.text k { value := true } i) ++ ":".toList ++
      paren (!size.bare .expression) (size.text .expression plain i) ++ specsText true (sortSpecs specs) ++
      segmentText k false i ss

def fieldText (first : Bool) (i : Nat) : List Field → Text
  | [] => []
  | .mk key value :: fs =>
    lineFirst first ++ spaces i ++ key.text .expression plain i ++ " => ".toList ++
      value.text .expression plain i ++ fieldText false i fs

def clauseText (first : Bool) (i : Nat) : List Clause → Text
  | [] => []
  | .mk pattern none body :: cs =>
    clauseFirst first ++ spaces i ++ pattern.text .pattern plain i ++ " ->".toList ++
      textAll .expression (statementStart true (i + INDENT)) (statementStart false (i + INDENT)) (i + INDENT) body ++
      clauseText false i cs
  | .mk pattern (some guard) body :: cs =>
    clauseFirst first ++ spaces i ++ pattern.text .pattern plain i ++ " when ".toList ++
      guard.text .expression plain i ++ " ->".toList ++
      textAll .expression (statementStart true (i + INDENT)) (statementStart false (i + INDENT)) (i + INDENT) body ++
      clauseText false i cs

end

end Verif.ErlText
