import Verif.ErlText.Tree
import Verif.ErlText.Spec

/-!
# The syntax trees that the calls stand for

What the Erlang compiler has to read: the syntax tree of each term and of each form. Written down from the comments
of the trait `ErlangBuilder` (`erlang-generation/src/lib.rs:126-1385`), apart from the code that prints.
-/

namespace Verif.ErlText

open Read

/-- The operator meant by each binary operator. -/
def BinOp.op : BinOp → Op
  | .orelse => .orelse
  | .andalso => .andalso
  | .lt => .lt
  | .le => .le
  | .eq => .exact
  | .ne => .ne
  | .neq => .notExact
  | .gt => .gt
  | .ge => .ge
  | .add => .plus
  | .sub => .minus
  | .mul => .times
  | .fdiv => .slash
  | .div => .div
  | .rem => .rem

def UnOp.op : UnOp → Op
  | .neg => .minus
  | .not => .not

/-- The specifiers other than the unit. -/
def Spec.type : Spec → Option (List Char × Option Nat)
  | .utf8 => some ("utf8".toList, none)
  | .utf16 => some ("utf16".toList, none)
  | .utf32 => some ("utf32".toList, none)
  | .integer => some ("integer".toList, none)
  | .float => some ("float".toList, none)
  | .binary => some ("binary".toList, none)
  | .bitstring => some ("bitstring".toList, none)
  | .signed => some ("signed".toList, none)
  | .unsigned => some ("unsigned".toList, none)
  | .little => some ("little".toList, none)
  | .big => some ("big".toList, none)
  | .native => some ("native".toList, none)
  | .unit _ => none

def Spec.unitType : Spec → Option (List Char × Option Nat)
  | .unit n => some ("unit".toList, some n)
  | _ => none

/-- The types of a segment; the order of the types means nothing in Erlang, and the unit is written last. -/
def specTypes (specs : List Spec) : List (List Char × Option Nat) :=
  specs.filterMap Spec.type ++ specs.filterMap Spec.unitType

/-- A literal with its sign. -/
def Sign.ast : Sign → Ast → Ast
  | .none, e => e
  | .plus, e => .unary .plus e
  | .minus, e => .unary .minus e

/-- The match of `c` with the pattern `p`. Matches are grouped to the right: a match with the pattern `a = b` is read
as a match with `b` that is then matched with `a`, which means the same. -/
def chain : Ast → Ast → Ast
  | .binary .bind a b, c => .binary .bind a (chain b c)
  | p, c => .binary .bind p c

mutual

/-- The syntax tree of a term. In the value of a segment (`value`) strings are written without the sigil. -/
def Term.ast (value : Bool) : Term → Ast
  | .var name => .var name
  | .discard => .var ['_']
  | .int (.ofNat n) => .int n
  | .int (.negSucc n) => .unary .minus (.int (n + 1))
  | .float sign whole fraction => sign.ast (.float whole fraction)
  | .string content =>
    if value then .string (Strings.escapeErlang 0 content) else .sigil (Strings.escapeErlang 0 content)
  | .atom name => .atom name
  | .nil => .nil
  | .cons head tail => .cons (head.ast false) (tail.ast false)
  | .tuple items => .tuple (astAll items)
  | .bits segments => .bits (segmentAst segments)
  | .map fields => .map (fieldAst fields)
  | .block body => .block (astAll body)
  | .call called arguments => .call (called.ast false) (astAll arguments)
  | .remote module function arguments => .call (.remote (.atom module) (.atom function)) (astAll arguments)
  | .function parameters body => .function parameters (astAll body)
  | .reference module name arity => .reference module name arity
  | .unary op operand => .unary op.op (operand.ast value)
  | .binary op left right => .binary op.op (left.ast false) (right.ast false)
  | .bind left right => chain (left.ast false) (right.ast value)
  | .case_ subject clauses => .case_ (subject.ast false) (clauseAst clauses)

def astAll : List Term → List Ast
  | [] => []
  | t :: ts => t.ast false :: astAll ts

def segmentAst : List Segment → List AstSegment
  | [] => []
  | .mk value none specs :: ss => .mk (value.ast true) none (specTypes specs) :: segmentAst ss
  | .mk value (some size) specs :: ss =>
    .mk (value.ast true) (some (size.ast false)) (specTypes specs) :: segmentAst ss

def fieldAst : List Field → List AstField
  | [] => []
  | .mk key value :: fs => .mk (key.ast false) (value.ast false) :: fieldAst fs

def clauseAst : List Clause → List AstClause
  | [] => []
  | .mk pattern none body :: cs => .mk (pattern.ast false) none (astAll body) :: clauseAst cs
  | .mk pattern (some guard) body :: cs =>
    .mk (pattern.ast false) (some (guard.ast false)) (astAll body) :: clauseAst cs

end

/-- A list. -/
def listAst : List Ast → Ast
  | [] => .nil
  | e :: es => .cons e (listAst es)

/-- The content of a string literal that stands for a text: each backslash and each quote after a backslash. -/
def escaped : List Char → List Char
  | [] => []
  | '\\' :: r => '\\' :: '\\' :: escaped r
  | '"' :: r => '\\' :: '"' :: escaped r
  | c :: r => c :: escaped r

def Doc.ast : Doc → Ast
  | .hidden => .atom "false".toList
  | .text content => .sigil (escaped content)

/-- `name/arity`. -/
def nameAndArity (e : Text × Nat) : Ast := .binary .slash (.atom e.1) (.int e.2)

/-- The syntax trees of the forms. There is no attribute for an empty list of names. -/
def Form.ast : Form → List AstForm
  | .export_ [] => []
  | .export_ names => [.attribute "export".toList [listAst (names.map nameAndArity)]]
  | .exportType [] => []
  | .exportType names => [.attribute "export_type".toList [listAst (names.map nameAndArity)]]
  | .doc content => [.attribute "doc".toList [content.ast]]
  | .moduledoc content => [.attribute "moduledoc".toList [content.ast]]
  | .compile arguments => [.attribute "compile".toList [listAst (arguments.map .atom)]]
  | .file path line => [.attribute "file".toList [.string path, .int line]]
  | .function name parameters body => [.function name parameters (astAll body)]

/-- The syntax trees of a module. -/
def moduleAst (name : Text) (forms : List Form) : List AstForm :=
  .attribute "module".toList [.atom name] :: forms.flatMap Form.ast

end Verif.ErlText
