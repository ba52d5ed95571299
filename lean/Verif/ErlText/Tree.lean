import Verif.ErlText.Model

/-!
# The calls that build a term

The trait `ErlangBuilder` describes, in the comments of its methods (`erlang-generation/src/lib.rs:200-1385`), the
order in which its methods are called to build each kind of term. `Term` is a term, and `calls` are the calls that
build it, as made by `compiler-core/src/erlang.rs` and `compiler-core/src/erlang/pattern.rs`.
-/

namespace Verif.ErlText

/-- The sign printed by `format_float` (`lib.rs:2623-2635`): `+0.0`, `-0.0` and negative floats have one. -/
inductive Sign where
  | none
  | plus
  | minus
  deriving DecidableEq, Repr

def Sign.text : Sign → Text
  | .none => []
  | .plus => ['+']
  | .minus => ['-']

mutual

/-- A term: an expression or a pattern. -/
inductive Term where
  | var (name : Text)
  /-- The pattern `_`. -/
  | discard
  | int (n : Int)
  /-- A float: its sign, and the digits before and after the point. -/
  | float (sign : Sign) (whole fraction : Text)
  /-- A string, as the characters between the quotes of a Gleam literal. -/
  | string (content : Text)
  | atom (name : Text)
  | nil
  | cons (head tail : Term)
  | tuple (items : List Term)
  | bits (segments : List Segment)
  | map (fields : List Field)
  | block (body : List Term)
  | call (called : Term) (arguments : List Term)
  | remote (module function : Text) (arguments : List Term)
  | function (parameters : List Text) (body : List Term)
  | reference (module : Option Text) (name : Text) (arity : Nat)
  | unary (op : UnOp) (operand : Term)
  | binary (op : BinOp) (left right : Term)
  /-- In an expression `left` is a pattern and `right` an expression; in a pattern both are patterns. -/
  | bind (left right : Term)
  | case_ (subject : Term) (clauses : List Clause)

inductive Segment where
  | mk (value : Term) (size : Option Term) (specs : List Spec)

inductive Field where
  | mk (key value : Term)

inductive Clause where
  | mk (pattern : Term) (guard : Option Term) (body : List Term)

end

/-- The call for a leaf, in a pattern or in an expression. -/
def pick (k : Kind) (pattern expression : Call) : List Call :=
  match k with
  | .pattern => [pattern]
  | .expression => [expression]

mutual

/-- The calls that build a term in a pattern or in an expression. Constructors that have no method for patterns
make the calls of the expression. -/
def Term.calls (k : Kind) : Term → List Call
  | .var name => pick k (.variablePattern name) (.var name)
  | .discard => [.discardPattern]
  | .int n => pick k (.intPattern n) (.int n)
  | .float sign whole fraction =>
    pick k (.floatPattern (sign.text ++ whole ++ ".".toList ++ fraction))
      (.float (sign.text ++ whole ++ ".".toList ++ fraction))
  | .string content => pick k (.stringPattern content) (.string content)
  | .atom name => pick k (.atomPattern name) (.atom name)
  | .nil => pick k .emptyListPattern .emptyList
  | .cons head tail => pick k .consListPattern .consList ++ head.calls k ++ tail.calls k
  | .tuple items => pick k .startTuplePattern .startTuple ++ callsAll k items ++ pick k .endTuplePattern .endTuple
  | .bits segments =>
    pick k .startBitArrayPattern .startBitArray ++ segmentCalls k segments ++
      pick k .endBitArrayPattern .endBitArray
  | .map fields => [.startMap] ++ fieldCalls fields ++ [.endMap]
  | .block body => [.startBlock] ++ callsAll .expression body ++ [.endBlock]
  | .call called arguments =>
    [.startCall] ++ called.calls .expression ++ [.endCalledExpression] ++ callsAll .expression arguments ++ [.endCall]
  | .remote module function arguments =>
    [.startRemoteCall module function] ++ callsAll .expression arguments ++ [.endCall]
  | .function parameters body =>
    [.startAnonymousFunction parameters] ++ callsAll .expression body ++ [.endFunction]
  | .reference module name arity => [.functionReference module name arity]
  | .unary op operand => [.unary op] ++ operand.calls .expression
  | .binary op left right => [.binary op] ++ left.calls .expression ++ right.calls .expression
  | .bind left right => pick k .matchPattern .matchOperator ++ left.calls .pattern ++ right.calls k
  | .case_ subject clauses =>
    [.startCase] ++ subject.calls .expression ++ [.endCaseSubject] ++ clauseCalls clauses ++ [.endCase]

def callsAll (k : Kind) : List Term → List Call
  | [] => []
  | t :: ts => t.calls k ++ callsAll k ts

/-- The size of a segment is an expression in patterns too. -/
def segmentCalls (k : Kind) : List Segment → List Call
  | [] => []
  | .mk value none specs :: ss =>
    [.segment] ++ value.calls k ++ [.segmentDefaultSize] ++ [.segmentSpecifiers specs] ++ segmentCalls k ss
  | .mk value (some size) specs :: ss =>
    [.segment] ++ value.calls k ++ size.calls .expression ++ [.segmentSpecifiers specs] ++ segmentCalls k ss

def fieldCalls : List Field → List Call
  | [] => []
  | .mk key value :: fs => [.mapField] ++ key.calls .expression ++ value.calls .expression ++ fieldCalls fs

def clauseCalls : List Clause → List Call
  | [] => []
  | .mk pattern none body :: cs =>
    [.startCaseClause] ++ pattern.calls .pattern ++ [.endClausePattern, .endClauseGuards] ++
      callsAll .expression body ++ [.endClauseBody] ++ clauseCalls cs
  | .mk pattern (some guard) body :: cs =>
    [.startCaseClause] ++ pattern.calls .pattern ++ [.endClausePattern, .startClauseGuard] ++
      guard.calls .expression ++ [.endClauseGuard, .endClauseGuards] ++
      callsAll .expression body ++ [.endClauseBody] ++ clauseCalls cs

end

/-- The forms of a module. -/
inductive Form where
  | export_ (names : List (Text × Nat))
  | exportType (names : List (Text × Nat))
  | doc (content : Doc)
  | moduledoc (content : Doc)
  | compile (arguments : List Text)
  | file (path : Text) (line : Nat)
  | function (name : Text) (parameters : List Text) (body : List Term)

/-- The calls that build a form. -/
def Form.calls : Form → List Call
  | .export_ names => [.export_ names]
  | .exportType names => [.exportType names]
  | .doc content => [.doc content]
  | .moduledoc content => [.moduledoc content]
  | .compile arguments => [.compile arguments]
  | .file path line => [.file path line]
  | .function name parameters body => [.startFunction name parameters] ++ callsAll .expression body ++ [.endFunction]

def formCalls : List Form → List Call
  | [] => []
  | f :: fs => f.calls ++ formCalls fs

end Verif.ErlText
