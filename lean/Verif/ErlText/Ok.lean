import Verif.ErlText.Tree
import Verif.ErlText.Spec

/-!
# The terms that can be printed

The conditions under which the theorems hold: what the code generator has to respect when it calls the printer.
-/

namespace Verif.ErlText

/-- The name of a variable. -/
def VarName (n : Text) : Prop :=
  ∃ c cs, n = c :: cs ∧ (Read.isCapital c || c = '_') = true ∧ cs.all Read.isNameChar = true

/-- The name of an atom that can be put between single quotes as it is. -/
def AtomText (n : Text) : Prop := '\'' ∉ n ∧ '\\' ∉ n

/-- The text between the quotes of a string literal: no quote without a backslash before it, and no backslash
without a character after it. -/
def wellQuoted : Text → Bool
  | [] => true
  | ['\\'] => false
  | '\\' :: _ :: r => wellQuoted r
  | c :: r => c ≠ '"' && wellQuoted r

def Digits (ds : Text) : Prop := ds ≠ [] ∧ ds.all Read.isDigit = true

/-- Terms that may stand before an argument list. -/
def Term.callable : Term → Bool
  | .int n => 0 ≤ n
  | .float sign _ _ => sign = .none
  | .map _ => false
  | .unary _ _ => false
  | .binary _ _ _ => false
  | .bind _ _ => false
  | _ => true

/-- Terms that may stand after an operator. -/
def Term.operandLike : Term → Bool
  | .bind _ _ => false
  | _ => true

/-- Terms that may be the size of a segment. -/
def Term.sizeLike : Term → Bool
  | .int n => 0 ≤ n
  | .float sign _ _ => sign = .none
  | _ => true

mutual

def Term.Ok (k : Kind) : Term → Prop
  | .var name => VarName name
  | .discard => k = .pattern
  | .int _ => True
  | .float _ whole fraction => Digits whole ∧ Digits fraction
  | .string content => wellQuoted content = true
  | .atom name => AtomText name
  | .nil => True
  | .cons head tail => head.Ok k ∧ tail.Ok k
  | .tuple items => OkAll k items
  | .bits segments => OkSegments k segments
  | .map fields => k = .expression ∧ OkFields fields
  | .block body => k = .expression ∧ body ≠ [] ∧ OkAll .expression body
  | .call called arguments =>
    k = .expression ∧ called.callable = true ∧ called.Ok .expression ∧ OkAll .expression arguments
  | .remote module function arguments =>
    k = .expression ∧ AtomText module ∧ AtomText function ∧ OkAll .expression arguments
  | .function parameters body =>
    k = .expression ∧ (∀ p ∈ parameters, VarName p) ∧ body ≠ [] ∧ OkAll .expression body
  | .reference module name _ => k = .expression ∧ (∀ m, module = some m → AtomText m) ∧ AtomText name
  | .unary _ operand => k = .expression ∧ operand.operandLike = true ∧ operand.Ok .expression
  | .binary _ left right =>
    k = .expression ∧ left.operandLike = true ∧ right.operandLike = true ∧ left.Ok .expression ∧ right.Ok .expression
  | .bind left right => left.Ok .pattern ∧ right.Ok k
  | .case_ subject clauses => k = .expression ∧ subject.Ok .expression ∧ clauses ≠ [] ∧ OkClauses clauses

def OkAll (k : Kind) : List Term → Prop
  | [] => True
  | t :: ts => t.Ok k ∧ OkAll k ts

def OkSegments (k : Kind) : List Segment → Prop
  | [] => True
  | .mk value none _ :: ss => value.Ok k ∧ OkSegments k ss
  | .mk value (some size) _ :: ss => value.Ok k ∧ size.sizeLike = true ∧ size.Ok .expression ∧ OkSegments k ss

def OkFields : List Field → Prop
  | [] => True
  | .mk key value :: fs => key.Ok .expression ∧ value.Ok .expression ∧ OkFields fs

def OkClauses : List Clause → Prop
  | [] => True
  | .mk pattern none body :: cs => pattern.Ok .pattern ∧ body ≠ [] ∧ OkAll .expression body ∧ OkClauses cs
  | .mk pattern (some guard) body :: cs =>
    pattern.Ok .pattern ∧ guard.Ok .expression ∧ body ≠ [] ∧ OkAll .expression body ∧ OkClauses cs

end

/-- The same for the forms of a module. -/
def Form.Ok : Form → Prop
  | .export_ names => ∀ n ∈ names, AtomText n.1
  | .exportType names => ∀ n ∈ names, AtomText n.1
  | .doc _ => True
  | .moduledoc _ => True
  | .compile arguments => ∀ a ∈ arguments, atomName a = true ∧ a ∉ reserved.map String.toList
  | .file path _ => wellQuoted path = true
  | .function name parameters body =>
    AtomText name ∧ (∀ p ∈ parameters, VarName p) ∧ body ≠ [] ∧ OkAll .expression body

/-- Forms whose last line is not ended. -/
def Form.unfinished : Form → Bool
  | .doc _ => true
  | .file _ _ => true
  | _ => false

/-- Forms that start on a new line. -/
def Form.startsLine : Form → Bool
  | .doc _ => true
  | .file _ _ => true
  | .function _ _ _ => true
  | _ => false

/-- The forms of a module: each one can be printed, and a form whose line is not ended is followed by a form that
starts on a new line, or by nothing. -/
def FormsOk : List Form → Prop
  | [] => True
  | [f] => f.Ok
  | f :: g :: fs => f.Ok ∧ (f.unfinished = true → g.startsLine = true) ∧ FormsOk (g :: fs)

end Verif.ErlText
