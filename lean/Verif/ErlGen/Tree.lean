import Verif.ErlText.Tree
import Verif.ErlGen.Model

/-!
# The terms that the generated calls build

The same generator, with the terms of Erlang as its result. `TreeLemmas.lean` shows that the calls of the model are the
calls that build these terms.
-/

namespace Verif.ErlGen

open Verif.ErlText (Text Term)
open Verif.Strings.Spec (Piece text)

mutual

def tConst : Const → Term
  | .int n => .int n
  | .string ps => .string (text ps)
  | .tuple cs => .tuple (tConsts cs)
  | .nil => .nil
  | .cons c d => .cons (tConst c) (tConst d)
  | .record tag [] => .atom (snake tag)
  | .record tag (c :: cs) => .tuple (.atom (snake tag) :: tConst c :: tConsts cs)

def tConsts : List Const → List Term
  | [] => []
  | c :: cs => tConst c :: tConsts cs

end

/-- The variable on the right of a prefix. -/
def tRight (s : State) : Option (Text × Loc) → Term × State
  | some (x, loc) => (.var (s.newVar x loc).1, (s.newVar x loc).2)
  | none => (.discard, s)

/-- The literal on the left of a prefix. -/
def laterOf (later : Later) (content : Text) : Option (Text × Loc) → Later
  | some (x, loc) => later.insert x loc content
  | none => later

mutual

def tPattern (s : State) (later : Later) : Pattern → Term × State × Later
  | .discard => (.discard, s, later)
  | .int n => (.int n, s, later)
  | .string ps => (.string (text ps), s, later)
  | .var x loc => (.var (s.newVar x loc).1, (s.newVar x loc).2, later)
  | .assign p x loc =>
    let r := tPattern s later p
    (.bind r.1 (.var (r.2.1.newVar x loc).1), (r.2.1.newVar x loc).2, r.2.2)
  | .tuple ps =>
    let r := tPatterns s later ps
    (.tuple r.1, r.2)
  | .nil => (.nil, s, later)
  | .cons p q =>
    let r := tPattern s later p
    let r' := tPattern r.2.1 r.2.2 q
    (.cons r.1 r'.1, r'.2)
  | .ctor tag [] => (.atom (snake tag), s, later)
  | .ctor tag (p :: ps) =>
    let r := tPattern s later p
    let r' := tPatterns r.2.1 r.2.2 ps
    (.tuple (.atom (snake tag) :: r.1 :: r'.1), r'.2)
  | .prefix ps left right =>
    (.bits [.mk (.string (text ps)) none [.utf8], .mk (tRight s right).1 none [.binary]], (tRight s right).2,
      laterOf later (text ps) left)

def tPatterns (s : State) (later : Later) : List Pattern → List Term × State × Later
  | [] => ([], s, later)
  | p :: ps =>
    let r := tPattern s later p
    let r' := tPatterns r.2.1 r.2.2 ps
    (r.1 :: r'.1, r'.2)

end

def tAssignments (s : State) : Later → List Term × State
  | [] => ([], s)
  | (x, loc, content) :: rest =>
    let r := tAssignments (s.newVar x loc).2 rest
    (.bind (.var (s.newVar x loc).1) (.string content) :: r.1, r.2)

def tSubjectPatterns (s : State) (later : Later) : List Pattern → Term × State × Later
  | [p] => tPattern s later p
  | ps =>
    let r := tPatterns s later ps
    (.tuple r.1, r.2)

/-- The type of a segment of a concatenation. -/
def concatSpec (literal : Bool) : List ErlText.Spec := if literal then [.utf8] else [.binary]

def tGuard (s : State) (later : Later) : Guard → Term
  | .const c => tConst c
  | .block g => tGuard s later g
  | .index g i => .remote "erlang".toList "element".toList [.int (i + 1), tGuard s [] g]
  | .field g i => .remote "erlang".toList "element".toList [.int (i + 2), tGuard s [] g]
  | .not g => .unary .not (tGuard s later g)
  | .bin .concat l r =>
    .bits [.mk (tGuard s later l) none (concatSpec l.literal), .mk (tGuard s later r) none (concatSpec r.literal)]
  | .bin op l r => .binary op.erlangGuard (tGuard s later l) (tGuard s later r)
  | .var x loc =>
    match later.get x with
    | some content => .string content
    | none => .var (s.localName loc)

def tRecordBuilder (s : State) (tag : Text) (arity : Nat) : Term × State :=
  let r := newGenerated s arity
  (.function r.1 [if r.1.isEmpty then .atom (snake tag) else .tuple (.atom (snake tag) :: r.1.map Term.var)], r.2)

/-- Generators of several terms, and of one. -/
abbrev TGens := State → List Term × State
abbrev TGen := State → Term × State

def tRecord (tag : Text) (es : List Expr) (ts : List Term) : Term :=
  if es.isEmpty then .atom (snake tag) else .tuple (.atom (snake tag) :: ts)

def tDivision (how : HowToDivide) (op : ErlText.BinOp) (left right : TGen) (s : State) : List Term × State :=
  match how with
  | .zero => ([.int 0], s)
  | .leftThenZero => ([(left s).1, .int 0], (left s).2)
  | .plain => ([.binary op (left s).1 (right (left s).2).1], (right (left s).2).2)
  | .matchRight false =>
    let n := s.newGenerated
    let l := left n.2
    let r := right l.2
    let d := r.2.newGenerated
    ([.bind (.var n.1) l.1,
      .case_ r.1 [.mk (.int 0) none [.int 0], .mk (.var d.1) none [.binary op (.var n.1) (.var d.1)]]], d.2)
  | .matchRight true =>
    let r := right s
    let d := r.2.newGenerated
    let l := left d.2
    ([.case_ r.1 [.mk (.int 0) none [.int 0], .mk (.var d.1) none [.binary op l.1 (.var d.1)]]], l.2)

def tBranches (before : Text → Option Nat) (g : Option Guard) (body : TGens) (s : State) :
    List (List Pattern) → List ErlText.Clause × State
  | [] => ([], s)
  | ps :: rest =>
    let p := tSubjectPatterns { s with taken := before } [] ps
    let a := tAssignments p.2.1 (sortLater p.2.2)
    let b := body a.2
    let r := tBranches before g body b.2 rest
    (.mk p.1 (g.map (tGuard p.2.1 p.2.2)) (a.1 ++ b.1) :: r.1, r.2)

def tAsserted (p : Pattern) (following : Option TGens) (s : State) : ErlText.Clause × State :=
  match following with
  | none =>
    let m := s.newGenerated
    let r := tPattern m.2 [] p
    (.mk (.bind r.1 (.var m.1)) none [.var m.1], r.2.1)
  | some following =>
    let r := tPattern s [] p
    let a := tAssignments r.2.1 (sortLater r.2.2)
    let f := following a.2
    (.mk r.1 none (a.1 ++ f.1), f.2)

def tAssertFields (value : Text) (info : AssertInfo) : List ErlText.Field :=
  [.mk (.atom "value".toList) (.var value),
   .mk (.atom "start".toList) (.int info.start),
   .mk (.atom "end".toList) (.int info.stop),
   .mk (.atom "pattern_start".toList) (.int info.patternStart),
   .mk (.atom "pattern_end".toList) (.int info.patternStop)]

def tMessage (kind : ErrorKind) (message : Option TGen) (s : State) : Term × State :=
  match message with
  | none => (.string kind.defaultMessage, s)
  | some message => message s

def tError (c : Context) (kind : ErrorKind) (line : Nat) (message : Option TGen) (fields : List ErlText.Field) (s : State) :
    Term × State :=
  let m := tMessage kind message s
  (.remote "erlang".toList "error".toList [.map
    ([.mk (.atom "gleam_error".toList) (.atom kind.atom), .mk (.atom "message".toList) m.1,
      .mk (.atom "file".toList) (.string c.file), .mk (.atom "module".toList) (.string c.moduleName),
      .mk (.atom "function".toList) (.string c.function), .mk (.atom "line".toList) (.int line)] ++ fields)], m.2)

/-- One term of several. -/
def oneTerm (wrap : Bool) (ts : List Term) : Term := if wrap then .block ts else ts.headD .nil

def tMaybe (wrap : Bool) (g : TGens) (s : State) : Term × State := (oneTerm wrap (g s).1, (g s).2)

variable (c : Context)

mutual

def tExpr (s : State) : Expr → List Term × State
  | .int n => ([.int n], s)
  | .string ps => ([.string (text ps)], s)
  | .var _ loc => ([.var (s.localName loc)], s)
  | .ctor tag 0 => ([.atom (snake tag)], s)
  | .ctor tag (arity + 1) => ([(tRecordBuilder s tag (arity + 1)).1], (tRecordBuilder s tag (arity + 1)).2)
  | .fnRef m f arity => ([.reference (m.map ErlText.erlangModuleName) (escapeName f) arity], s)
  | .const k => ([tConst k], s)
  | .block [.expr e] =>
    let r := tMaybe (needsWrap c.purity e) (fun s => tExpr s e) s
    ([r.1], r.2)
  | .block body =>
    let r := tStmts s body
    ([.block r.1], r.2)
  | .not e =>
    let r := tMaybe (needsWrap c.purity e) (fun s => tExpr s e) s
    ([.unary .not r.1], r.2)
  | .neg e =>
    let r := tMaybe (needsWrap c.purity e) (fun s => tExpr s e) s
    ([.unary .neg r.1], r.2)
  | .bin .concat l r =>
    let l' := tMaybe (needsWrap c.purity l) (fun s => tExpr s l) s
    let r' := tMaybe (needsWrap c.purity r) (fun s => tExpr s r) l'.2
    ([.bits [.mk l'.1 none (concatSpec l.literal), .mk r'.1 none (concatSpec r.literal)]], r'.2)
  | .bin .div l r =>
    tDivision (howToDivide c.purity l r) .div (tMaybe (needsWrap c.purity l) fun s => tExpr s l)
      (tMaybe (needsWrap c.purity r) fun s => tExpr s r) s
  | .bin .rem l r =>
    tDivision (howToDivide c.purity l r) .rem (tMaybe (needsWrap c.purity l) fun s => tExpr s l)
      (tMaybe (needsWrap c.purity r) fun s => tExpr s r) s
  | .bin op l r =>
    let l' := tMaybe (needsWrap c.purity l) (fun s => tExpr s l) s
    let r' := tMaybe (needsWrap c.purity r) (fun s => tExpr s r) l'.2
    ([.binary op.erlang l'.1 r'.1], r'.2)
  | .nil => ([.nil], s)
  | .cons h t =>
    let h' := tMaybe (needsWrap c.purity h) (fun s => tExpr s h) s
    let t' := tMaybe (needsWrap c.purity t) (fun s => tExpr s t) h'.2
    ([.cons h'.1 t'.1], t'.2)
  | .tuple es =>
    let r := tArgs s es
    ([.tuple r.1], r.2)
  | .index e i =>
    let r := tMaybe (needsWrap c.purity e) (fun s => tExpr s e) s
    ([.remote "erlang".toList "element".toList [.int (i + 1), r.1]], r.2)
  | .field e i =>
    let r := tMaybe (needsWrap c.purity e) (fun s => tExpr s e) s
    ([.remote "erlang".toList "element".toList [.int (i + 2), r.1]], r.2)
  | .update (some (x, loc)) record tag es =>
    let n := s.newVar x loc
    let r := tMaybe (needsWrap c.purity record) (fun s => tExpr s record) n.2
    let a := tArgs r.2 es
    ([.bind (.var n.1) r.1, tRecord tag es a.1], a.2)
  | .update none _ tag es =>
    let a := tArgs s es
    ([tRecord tag es a.1], a.2)
  | .fn params body =>
    let n := argumentNames s params
    let b := tStmts n.2 body
    ([.function n.1 b.1], { b.2 with taken := s.taken })
  | .call (.ctor tag _) es =>
    let a := tArgs s es
    ([tRecord tag es a.1], a.2)
  | .call (.fnRef (some m) f _) es =>
    let a := tArgs s es
    ([.remote (ErlText.erlangModuleName m) (escapeName f) a.1], a.2)
  | .call (.fnRef none f _) es =>
    let a := tArgs s es
    ([.call (.atom (escapeName f)) a.1], a.2)
  | .call f es =>
    let r := tMaybe (needsWrap c.purity f) (fun s => tExpr s f) s
    let a := tArgs r.2 es
    ([.call r.1 a.1], a.2)
  | .pipe x loc value rest =>
    let n := s.newVar x loc
    let r := tMaybe (needsWrap c.purity value) (fun s => tExpr s value) n.2
    let f := tExpr r.2 rest
    (.bind (.var n.1) r.1 :: f.1, f.2)
  | .fail kind line none =>
    let r := tError c kind line none [] s
    ([r.1], r.2)
  | .fail kind line (some e) =>
    let r := tError c kind line (some (tMaybe (needsWrap c.purity e) fun s => tExpr s e)) [] s
    ([r.1], r.2)
  | .case_ [subject] clauses =>
    let r := tMaybe (needsWrap c.purity subject) (fun s => tExpr s subject) s
    let q := tClauses r.2 clauses
    ([.case_ r.1 q.1], q.2)
  | .case_ subjects clauses =>
    let r := tArgs s subjects
    let q := tClauses r.2 clauses
    ([.case_ (.tuple r.1) q.1], q.2)

def tArgs (s : State) : List Expr → List Term × State
  | [] => ([], s)
  | e :: es =>
    let r := tMaybe (needsWrap c.purity e) (fun s => tExpr s e) s
    let a := tArgs r.2 es
    (r.1 :: a.1, a.2)

def tStmts (s : State) : List Stmt → List Term × State
  | [] => ([], s)
  | .expr e :: ss =>
    let r := tExpr s e
    let q := tStmts r.2 ss
    (r.1 ++ q.1, q.2)
  | .let_ p e :: ss =>
    let n := tPattern s [] p
    let r := tMaybe (needsWrap c.purity e) (fun s => tExpr s e) n.2.1
    let q := tStmts r.2 ss
    (.bind n.1 r.1 :: q.1, q.2)
  | .letAssert p e info message :: ss =>
    if p.alwaysMatches then
      let n := tPattern s [] p
      let r := tMaybe (needsWrap c.purity e) (fun s => tExpr s e) n.2.1
      let q := tStmts r.2 ss
      (.bind n.1 r.1 :: q.1, q.2)
    else
      let r := tMaybe (needsWrap c.purity e) (fun s => tExpr s e) s
      let first := tAsserted p (if ss.isEmpty then none else some fun s => tStmts s ss) r.2
      let value := first.2.newGenerated
      let error :=
        match message with
        | none => tError c .letAssert info.line none (tAssertFields value.1 info) value.2
        | some m =>
          tError c .letAssert info.line (some (tMaybe (needsWrap c.purity m) fun s => tExpr s m))
            (tAssertFields value.1 info) value.2
      ([.case_ r.1 [first.1, .mk (.var value.1) none [error.1]]], error.2)

def tClauses (s : State) : List Clause → List ErlText.Clause × State
  | [] => ([], s)
  | .mk ps alternatives g body :: rest =>
    let b := tBranches s.taken g
      (fun s =>
        match body with
        | .block stmts => tStmts s stmts
        | e => tExpr s e) s (ps :: alternatives)
    let r := tClauses b.2 rest
    (b.1 ++ r.1, r.2)

end

/-- The form of a function. -/
def tFunction (f : Fun) : ErlText.Form :=
  .function (escapeName f.name) (argumentNames State.new f.parameters).1
    (tStmts c (argumentNames State.new f.parameters).2 f.body).1

end Verif.ErlGen
