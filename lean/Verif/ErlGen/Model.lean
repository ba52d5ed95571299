import Verif.Strings.Model
import Verif.ErlText.Model
import Verif.ErlGen.Syntax

/-!
# The generator of Erlang code

Model of `compiler-core/src/erlang.rs` (`FunctionGenerator`) and `compiler-core/src/erlang/pattern.rs`
(`PatternGenerator`): the calls of the printer (`ErlText/Model.lean`) that are made for an expression, in their order,
and the change of the generator's state.

Not modelled: source locations passed to the printer, floats, bit arrays, `echo`, `assert`. Maps of the generator are
functions. `local_var_name` panics if a variable has no name; here the name is empty then, which is not the name of a
variable.
-/

namespace Verif.ErlGen

open Verif.ErlText (Text Call Spec)
open Verif.Strings.Spec (Piece text)

/-- `erlang.rs:121-190`: `FunctionGenerator` without the module generator. -/
structure State where
  /-- `taken_names`. -/
  taken : Text → Option Nat
  /-- `variable_names`. -/
  names : Loc → Option Text
  /-- `generated_variables`. -/
  generated : Nat

/-- What the generator knows about the module and the function. -/
structure Context where
  /-- The name of the module. -/
  moduleName : Text
  /-- `module_source_path`. -/
  file : Text
  /-- `function_name`. -/
  function : Text
  /-- `called_function_purity().is_pure()` (`ast/typed.rs:1119-1165`) of called expressions. -/
  purity : Expr → Bool

/-! ### Names -/

/-- `erlang.rs:3956-3961` `variable_name`, for names of Gleam, which start with a letter `a`-`z` or an underscore. -/
def variableName : Text → Text
  | [] => []
  | c :: cs => c.toUpper :: cs

/-- The name for the number of times that a name has been taken before (`erlang.rs:540-546`, `567-573`). -/
def numbered (name : Text) : Nat → Text
  | 0 => name
  | n + 1 => name ++ "@".toList ++ Verif.Decimal.showNat (n + 1)

/-- `map_or(0, |i| i + 1)`. -/
def nextIndex : Option Nat → Nat
  | none => 0
  | some i => i + 1

/-- `taken_names.insert(name, next)`. -/
def take (taken : Text → Option Nat) (x : Text) : Text → Option Nat :=
  fun y => if y = x then some (nextIndex (taken x)) else taken y

/-- `erlang.rs:538-548` `new_erlang_variable`. -/
def State.newVar (s : State) (x : Text) (loc : Loc) : Text × State :=
  let name := numbered (variableName x) (nextIndex (s.taken x))
  (name,
    { s with
      taken := take s.taken x
      names := fun l => if l = loc then some name else s.names l })

/-- `erlang.rs:568-576` `new_generated_variable`. -/
def State.newGenerated (s : State) : Text × State :=
  (numbered "_value".toList s.generated, { s with generated := s.generated + 1 })

/-- `erlang.rs:508-513` `local_var_name`. -/
def State.localName (s : State) (loc : Loc) : Text := (s.names loc).getD []

/-- `to_snake_case` of the name of a constructor. -/
def snake (tag : Text) : Text := Strings.toSnakeCase Strings.isUpperChar tag

/-- `erlang.rs:4012-4017` `escape_erlang_existing_name`. -/
def escapeName (name : Text) : Text := if name = "module_info".toList then "moduleInfo".toList else name

/-! ### Decisions -/

mutual

/-- `ast/typed.rs:1026-1105` `is_pure_value_constructor`. -/
def Expr.pureValue (purity : Expr → Bool) : Expr → Bool
  | .int _ | .string _ | .nil | .cons _ _ | .tuple _ | .var _ _ | .bin _ _ _ | .field _ _ | .index _ _
  | .update _ _ _ _ | .fn _ _ | .ctor _ _ | .fnRef _ _ _ | .const _ => true
  | .not e => e.pureValue purity
  | .neg e => e.pureValue purity
  | .pipe _ _ value rest => value.pureValue purity && rest.pureValue purity
  | .call f es =>
    (match f with
      | .ctor _ _ => true
      | .call (.ctor _ _) _ => true
      | f => purity f) && pureValues purity es
  | .block body => pureStmts purity body
  | .case_ subjects cs => pureValues purity subjects && pureClauses purity cs
  | .fail _ _ _ => false

def pureValues (purity : Expr → Bool) : List Expr → Bool
  | [] => true
  | e :: es => e.pureValue purity && pureValues purity es

/-- `ast.rs:4623-4633`. -/
def pureStmts (purity : Expr → Bool) : List Stmt → Bool
  | [] => true
  | .expr e :: ss => e.pureValue purity && pureStmts purity ss
  | .let_ _ e :: ss => e.pureValue purity && pureStmts purity ss
  | .letAssert _ _ _ _ :: _ => false

def pureClauses (purity : Expr → Bool) : List Clause → Bool
  | [] => true
  | .mk _ _ _ body :: cs => body.pureValue purity && pureClauses purity cs

end

/-- `ast/typed.rs:695-722` `is_non_zero_compile_time_number`. -/
def Expr.nonZero : Expr → Bool
  | .int n => decide (n ≠ 0)
  | _ => false

/-- `ast/typed.rs:724-751` `is_zero_compile_time_number`. -/
def Expr.isZero : Expr → Bool
  | .int n => decide (n = 0)
  | _ => false

/-- `erlang.rs:3500-3532` `HowToDivide`. -/
inductive HowToDivide where
  | plain
  | zero
  | leftThenZero
  | matchRight (pureLeft : Bool)
  deriving DecidableEq, Repr

/-- `erlang.rs:3534-3565` `how_to_divide`. -/
def howToDivide (purity : Expr → Bool) (left right : Expr) : HowToDivide :=
  if right.nonZero then .plain
  else if left.pureValue purity then
    if right.isZero then .zero else .matchRight true
  else
    if right.isZero then .leftThenZero else .matchRight false

/-- `erlang.rs:3784-3839` `needs_begin_end_wrapping`. -/
def needsWrap (purity : Expr → Bool) : Expr → Bool
  | .update assigned _ _ _ => assigned.isSome
  | .pipe _ _ _ _ => true
  | .bin .div l r | .bin .rem l r =>
    match howToDivide purity l r with
    | .matchRight false | .leftThenZero => true
    | _ => false
  | _ => false

/-- `erlang.rs:3676-3710` `constant_produces_literal_string`. -/
def Const.literal : Const → Bool
  | .string _ => true
  | _ => false

/-- `erlang.rs:3637-3674` `produces_literal_string`. -/
def Expr.literal : Expr → Bool
  | .string _ => true
  | .const c => c.literal
  | _ => false

/-- `erlang.rs:3716-3734` `guard_produces_literal_string`. -/
def Guard.literal : Guard → Bool
  | .block g => g.literal
  | .const c => c.literal
  | _ => false

/-- `ast.rs:3514-3533` `always_matches`. -/
def Pattern.alwaysMatches : Pattern → Bool
  | .var _ _ | .discard => true
  | .assign p _ _ => p.alwaysMatches
  | .tuple ps => allAlwaysMatch ps
  | _ => false
where
  allAlwaysMatch : List Pattern → Bool
    | [] => true
    | p :: ps => p.alwaysMatches && allAlwaysMatch ps

/-- The strings passed to the printer for the operators: `erlang.rs:2738-2768`. Division, remainder and concatenation
have functions of their own. -/
def Op.erlang : Op → ErlText.BinOp
  | .and => .andalso
  | .or => .orelse
  | .lt => .lt
  | .le => .le
  | .eq => .eq
  | .notEq => .ne
  | .gt => .gt
  | .ge => .ge
  | .add => .add
  | .sub => .sub
  | .mul => .mul
  | .div => .div
  | .rem => .rem
  | .concat => .add

/-- The same in guards: `erlang.rs:3133-3152`. -/
def Op.erlangGuard : Op → ErlText.BinOp
  | .notEq => .neq
  | op => op.erlang

/-! ### Constants -/

mutual

/-- `erlang.rs:2385-2560` `inlined_constant`. -/
def genConst : Const → List Call
  | .int n => [.int n]
  | .string ps => [.string (text ps)]
  | .tuple cs => [.startTuple] ++ genConsts cs ++ [.endTuple]
  | .nil => [.emptyList]
  | .cons c d => [.consList] ++ genConst c ++ genConst d
  | .record tag [] => [.atom (snake tag)]
  | .record tag (c :: cs) => [.startTuple, .atom (snake tag)] ++ genConst c ++ genConsts cs ++ [.endTuple]

def genConsts : List Const → List Call
  | [] => []
  | c :: cs => genConst c ++ genConsts cs

end

/-! ### Patterns -/

/-- `variables_to_add_later`: names, places and literals. -/
abbrev Later := List (Text × Loc × Text)

/-- `HashMap::insert`. -/
def Later.insert (later : Later) (x : Text) (loc : Loc) (content : Text) : Later :=
  later.filter (fun e => decide (e.1 ≠ x)) ++ [(x, loc, content)]

mutual

/-- `erlang/pattern.rs:128-276` `PatternGenerator::pattern`. -/
def genPattern (s : State) (later : Later) : Pattern → List Call × State × Later
  | .discard => ([.discardPattern], s, later)
  | .int n => ([.intPattern n], s, later)
  | .string ps => ([.stringPattern (text ps)], s, later)
  | .var x loc =>
    let (name, s) := s.newVar x loc
    ([.variablePattern name], s, later)
  | .assign p x loc =>
    let (cs, s, later) := genPattern s later p
    let (name, s) := s.newVar x loc
    ([.matchPattern] ++ cs ++ [.variablePattern name], s, later)
  | .tuple ps =>
    let (cs, s, later) := genPatterns s later ps
    ([.startTuplePattern] ++ cs ++ [.endTuplePattern], s, later)
  | .nil => ([.emptyListPattern], s, later)
  | .cons p q =>
    let (cs, s, later) := genPattern s later p
    let (ds, s, later) := genPattern s later q
    ([.consListPattern] ++ cs ++ ds, s, later)
  | .ctor tag [] => ([.atomPattern (snake tag)], s, later)
  | .ctor tag (p :: ps) =>
    let (cs, s, later) := genPattern s later p
    let (ds, s, later) := genPatterns s later ps
    ([.startTuplePattern, .atomPattern (snake tag)] ++ cs ++ ds ++ [.endTuplePattern], s, later)
  | .prefix ps left right =>
    let later := match left with
      | some (x, loc) => later.insert x loc (text ps)
      | none => later
    let (c, s) := match right with
      | some (x, loc) =>
        let (name, s) := s.newVar x loc
        (Call.variablePattern name, s)
      | none => (.discardPattern, s)
    ([.startBitArrayPattern, .segment, .stringPattern (text ps), .segmentDefaultSize, .segmentSpecifiers [.utf8],
      .segment, c, .segmentDefaultSize, .segmentSpecifiers [.binary], .endBitArrayPattern], s, later)

def genPatterns (s : State) (later : Later) : List Pattern → List Call × State × Later
  | [] => ([], s, later)
  | p :: ps =>
    let (cs, s, later) := genPattern s later p
    let (ds, s, later) := genPatterns s later ps
    (cs ++ ds, s, later)

end

/-- The order of names: `EcoString::cmp`. -/
def textLe : Text → Text → Bool
  | [], _ => true
  | _ :: _, [] => false
  | c :: cs, d :: ds => decide (c.toNat < d.toNat) || (decide (c = d) && textLe cs ds)

/-- `sorted_by`. -/
def sortLater (later : Later) : Later := later.mergeSort fun a b => textLe a.1 b.1

/-- The loop of `pattern_assignments`. -/
def genAssignments (s : State) : Later → List Call × State
  | [] => ([], s)
  | (x, loc, content) :: rest =>
    let (name, s) := s.newVar x loc
    let (cs, s) := genAssignments s rest
    ([.matchOperator, .variablePattern name, .string content] ++ cs, s)

/-- `erlang.rs:3303-3345` `pattern_assignments`. -/
def patternAssignments (s : State) (later : Later) : List Call × State := genAssignments s (sortLater later)

/-- `erlang.rs:2326-2348`: one pattern is a pattern, several are a tuple. -/
def genSubjectPatterns (s : State) (later : Later) : List Pattern → List Call × State × Later
  | [p] => genPattern s later p
  | ps =>
    let (cs, s, later) := genPatterns s later ps
    ([.startTuplePattern] ++ cs ++ [.endTuplePattern], s, later)

/-! ### Guards -/

/-- `assignments.get(name)`. -/
def Later.get (later : Later) (x : Text) : Option Text := (later.find? fun e => decide (e.1 = x)).map fun e => e.2.2

/-- `erlang.rs:3086-3266` `clause_guard`, `clause_guard_tuple_index` and `clause_guard_string_concatenate`. -/
def genGuard (s : State) (later : Later) : Guard → List Call
  | .const c => genConst c
  | .block g => genGuard s later g
  | .index g i => [.startRemoteCall "erlang".toList "element".toList, .int (i + 1)] ++ genGuard s [] g ++ [.endCall]
  | .field g i => [.startRemoteCall "erlang".toList "element".toList, .int (i + 2)] ++ genGuard s [] g ++ [.endCall]
  | .not g => [.unary .not] ++ genGuard s later g
  | .bin .concat l r =>
    [.startBitArray] ++
      ([.segment] ++ genGuard s later l ++
        [.segmentDefaultSize, .segmentSpecifiers (if l.literal then [.utf8] else [.binary])]) ++
      ([.segment] ++ genGuard s later r ++
        [.segmentDefaultSize, .segmentSpecifiers (if r.literal then [.utf8] else [.binary])]) ++ [.endBitArray]
  | .bin op l r => [.binary op.erlangGuard] ++ genGuard s later l ++ genGuard s later r
  | .var x loc =>
    match later.get x with
    | some content => [.string content]
    | none => [.var (s.localName loc)]

/-! ### Expressions -/

/-- Some generated variables. -/
def newGenerated (s : State) : Nat → List Text × State
  | 0 => ([], s)
  | n + 1 =>
    let (name, s) := s.newGenerated
    let (names, s) := newGenerated s n
    (name :: names, s)

/-- `erlang.rs:3268-3301` `record_builder_anonymous_function`. -/
def recordBuilder (s : State) (tag : Text) (arity : Nat) : List Call × State :=
  let (names, s) := newGenerated s arity
  ([.startAnonymousFunction names] ++
    (if names.isEmpty then [.atom (snake tag)]
      else [.startTuple, .atom (snake tag)] ++ names.map Call.var ++ [.endTuple]) ++ [.endFunction], s)

/-- `erlang.rs:725-770` `function_arguments_names` of functions that are not external. -/
def argumentNames (s : State) : List (Option (Text × Loc)) → List Text × State
  | [] => ([], s)
  | none :: ps =>
    let (names, s) := argumentNames s ps
    ("_".toList :: names, s)
  | some (x, loc) :: ps =>
    let (name, s) := s.newVar x loc
    let (names, s) := argumentNames s ps
    (name :: names, s)

/-- `erlang.rs:1190-1197`. -/
def ErrorKind.atom : ErrorKind → Text
  | .todo => "todo".toList
  | .panic => "panic".toList
  | .assert => "assert".toList
  | .letAssert => "let_assert".toList

/-- `erlang.rs:53-64` `default_error_message`. -/
def ErrorKind.defaultMessage : ErrorKind → Text
  | .panic => "`panic` expression evaluated.".toList
  | .assert => "Assertion failed.".toList
  | .letAssert => "Pattern match failed, no pattern matched the value.".toList
  | .todo => "`todo` expression evaluated. This code has not yet been implemented.".toList

/-- `erlang.rs:1183-1204`: the fields of an error before the message. -/
def errorStart (kind : ErrorKind) : List Call :=
  [.startRemoteCall "erlang".toList "error".toList, .startMap,
   .mapField, .atom "gleam_error".toList, .atom kind.atom,
   .mapField, .atom "message".toList]

/-- `erlang.rs:1205-1227`: the fields of an error after the message. -/
def errorFields (c : Context) (line : Nat) : List Call :=
  [.mapField, .atom "file".toList, .string c.file,
   .mapField, .atom "module".toList, .string c.moduleName,
   .mapField, .atom "function".toList, .string c.function,
   .mapField, .atom "line".toList, .int line]

/-- `erlang.rs:1344-1367`: the fields of the error of a `let assert`. -/
def assertFields (value : Text) (info : AssertInfo) : List Call :=
  [.mapField, .atom "value".toList, .var value,
   .mapField, .atom "start".toList, .int info.start,
   .mapField, .atom "end".toList, .int info.stop,
   .mapField, .atom "pattern_start".toList, .int info.patternStart,
   .mapField, .atom "pattern_end".toList, .int info.patternStop]

/-- The calls around a clause without guards. -/
def plainClause (pattern body : List Call) : List Call :=
  [.startCaseClause] ++ pattern ++ [.endClausePattern, .endClauseGuards] ++ body ++ [.endClauseBody]

/-- The result of generating something: the calls and the new state. -/
abbrev Gen := State → List Call × State

/-- `erlang.rs:2225-2252` `build_record`, with the calls of the arguments. -/
def recordCalls (tag : Text) (es : List Expr) (cs : List Call) : List Call :=
  if es.isEmpty then [.atom (snake tag)] else [.startTuple, .atom (snake tag)] ++ cs ++ [.endTuple]

/-- `erlang.rs:2858-2935` `int_division`, with the generators of the operands. -/
def genDivision (how : HowToDivide) (op : ErlText.BinOp) (left right : Gen) (s : State) : List Call × State :=
  match how with
  | .zero => ([.int 0], s)
  | .leftThenZero =>
    let (cs, s) := left s
    (cs ++ [.int 0], s)
  | .plain =>
    let (cs, s) := left s
    let (ds, s) := right s
    ([.binary op] ++ cs ++ ds, s)
  | .matchRight false =>
    let (numerator, s) := s.newGenerated
    let (cs, s) := left s
    let (ds, s) := right s
    let (denominator, s) := s.newGenerated
    ([.matchOperator, .variablePattern numerator] ++ cs ++
      ([.startCase] ++ ds ++ [.endCaseSubject] ++
        plainClause [.intPattern 0] [.int 0] ++
        plainClause [.variablePattern denominator] [.binary op, .var numerator, .var denominator] ++ [.endCase]), s)
  | .matchRight true =>
    let (ds, s) := right s
    let (denominator, s) := s.newGenerated
    let (cs, s) := left s
    ([.startCase] ++ ds ++ [.endCaseSubject] ++
      plainClause [.intPattern 0] [.int 0] ++
      plainClause [.variablePattern denominator] ([.binary op] ++ cs ++ [.var denominator]) ++ [.endCase], s)

/-- The calls of a guard, if there is one. -/
def genGuards (s : State) (later : Later) : Option Guard → List Call
  | none => []
  | some g => [.startClauseGuard] ++ genGuard s later g ++ [.endClauseGuard]

/-- `erlang.rs:2326-2383` `clause_branch` for the pattern of a clause and for its alternatives, with the generator of
the body. Each one starts with the names that were taken before the clause. -/
def genBranches (before : Text → Option Nat) (g : Option Guard) (body : Gen) (s : State) :
    List (List Pattern) → List Call × State
  | [] => ([], s)
  | ps :: rest =>
    let (pattern, s, later) := genSubjectPatterns { s with taken := before } [] ps
    let guards := genGuards s later g
    let (as, s) := patternAssignments s later
    let (cs, s) := body s
    let (ds, s) := genBranches before g body s rest
    ([.startCaseClause] ++ pattern ++ [.endClausePattern] ++ guards ++ [.endClauseGuards] ++ (as ++ cs) ++
      [.endClauseBody] ++ ds, s)

/-- `erlang.rs:1289-1327`: the first clause of a `let assert`, with the generator of the statements that follow, if
there are any. -/
def genAsserted (p : Pattern) (following : Option Gen) (s : State) : List Call × State :=
  match following with
  | none =>
    let (matched, s) := s.newGenerated
    let (ps, s, _) := genPattern s [] p
    (plainClause ([.matchPattern] ++ ps ++ [.variablePattern matched]) [.var matched], s)
  | some following =>
    let (ps, s, later) := genPattern s [] p
    let (as, s) := patternAssignments s later
    let (ds, s) := following s
    (plainClause ps (as ++ ds), s)

/-- `erlang.rs:1171-1245`: an error, with the generator of its message, and other fields. -/
def genError (c : Context) (kind : ErrorKind) (line : Nat) (message : Option Gen) (fields : List Call) (s : State) :
    List Call × State :=
  let (ms, s) := match message with
    | none => ([Call.string kind.defaultMessage], s)
    | some message => message s
  (errorStart kind ++ ms ++ errorFields c line ++ fields ++ [.endMap, .endCall], s)

/-- `erlang.rs:1249-1261` `maybe_block_expr`, with the generator of the expression. -/
def maybeBlock (wrap : Bool) (g : Gen) (s : State) : List Call × State :=
  let (cs, s) := g s
  (if wrap then [.startBlock] ++ cs ++ [.endBlock] else cs, s)

variable (c : Context)

mutual
/-- `erlang.rs:833-1131` `expression`. -/
def genExpr (s : State) : Expr → List Call × State
  | .int n => ([.int n], s)
  | .string ps => ([.string (text ps)], s)
  | .var _ loc => ([.var (s.localName loc)], s)
  | .ctor tag 0 => ([.atom (snake tag)], s)
  | .ctor tag (arity + 1) => recordBuilder s tag (arity + 1)
  | .fnRef m f arity => ([.functionReference (m.map ErlText.erlangModuleName) (escapeName f) arity], s)
  | .const k => (genConst k, s)
  | .block [.expr e] => maybeBlock (needsWrap c.purity e) (fun s => genExpr s e) s
  | .block body =>
    let (cs, s) := genStmts s body
    ([.startBlock] ++ cs ++ [.endBlock], s)
  | .not e =>
    let (cs, s) := maybeBlock (needsWrap c.purity e) (fun s => genExpr s e) s
    ([.unary .not] ++ cs, s)
  | .neg e =>
    let (cs, s) := maybeBlock (needsWrap c.purity e) (fun s => genExpr s e) s
    ([.unary .neg] ++ cs, s)
  -- `string_concatenate`, 2695-2728
  | .bin .concat l r =>
    let (cs, s) := maybeBlock (needsWrap c.purity l) (fun s => genExpr s l) s
    let (ds, s) := maybeBlock (needsWrap c.purity r) (fun s => genExpr s r) s
    ([.startBitArray] ++
      ([.segment] ++ cs ++ [.segmentDefaultSize, .segmentSpecifiers (if l.literal then [.utf8] else [.binary])]) ++
      ([.segment] ++ ds ++ [.segmentDefaultSize, .segmentSpecifiers (if r.literal then [.utf8] else [.binary])]) ++
      [.endBitArray], s)
  -- `int_division`, 2858-2935
  | .bin .div l r =>
    genDivision (howToDivide c.purity l r) .div (maybeBlock (needsWrap c.purity l) fun s => genExpr s l)
      (maybeBlock (needsWrap c.purity r) fun s => genExpr s r) s
  | .bin .rem l r =>
    genDivision (howToDivide c.purity l r) .rem (maybeBlock (needsWrap c.purity l) fun s => genExpr s l)
      (maybeBlock (needsWrap c.purity r) fun s => genExpr s r) s
  -- `binary_operator`, 2730-2785
  | .bin op l r =>
    let (cs, s) := maybeBlock (needsWrap c.purity l) (fun s => genExpr s l) s
    let (ds, s) := maybeBlock (needsWrap c.purity r) (fun s => genExpr s r) s
    ([.binary op.erlang] ++ cs ++ ds, s)
  | .nil => ([.emptyList], s)
  | .cons h t =>
    let (cs, s) := maybeBlock (needsWrap c.purity h) (fun s => genExpr s h) s
    let (ds, s) := maybeBlock (needsWrap c.purity t) (fun s => genExpr s t) s
    ([.consList] ++ cs ++ ds, s)
  | .tuple es =>
    let (cs, s) := genArgs s es
    ([.startTuple] ++ cs ++ [.endTuple], s)
  -- `tuple_index`, 2017-2028
  | .index e i =>
    let (cs, s) := maybeBlock (needsWrap c.purity e) (fun s => genExpr s e) s
    ([.startRemoteCall "erlang".toList "element".toList, .int (i + 1)] ++ cs ++ [.endCall], s)
  | .field e i =>
    let (cs, s) := maybeBlock (needsWrap c.purity e) (fun s => genExpr s e) s
    ([.startRemoteCall "erlang".toList "element".toList, .int (i + 2)] ++ cs ++ [.endCall], s)
  | .update (some (x, loc)) record tag es =>
    let (name, s) := s.newVar x loc
    let (cs, s) := maybeBlock (needsWrap c.purity record) (fun s => genExpr s record) s
    let (ds, s) := genArgs s es
    ([.matchOperator, .variablePattern name] ++ cs ++ recordCalls tag es ds, s)
  | .update none _ tag es =>
    let (ds, s) := genArgs s es
    (recordCalls tag es ds, s)
  | .fn params body =>
    let outer := s.taken
    let (names, s) := argumentNames s params
    let (cs, s) := genStmts s body
    ([.startAnonymousFunction names] ++ cs ++ [.endFunction], { s with taken := outer })
  -- `call`, 2121-2165
  | .call (.ctor tag _) es =>
    let (cs, s) := genArgs s es
    (recordCalls tag es cs, s)
  | .call (.fnRef (some m) f _) es =>
    let (cs, s) := genArgs s es
    ([.startRemoteCall (ErlText.erlangModuleName m) (escapeName f)] ++ cs ++ [.endCall], s)
  | .call (.fnRef none f _) es =>
    let (cs, s) := genArgs s es
    ([.startCall, .atom (escapeName f), .endCalledExpression] ++ cs ++ [.endCall], s)
  | .call f es =>
    let (cs, s) := maybeBlock (needsWrap c.purity f) (fun s => genExpr s f) s
    let (ds, s) := genArgs s es
    ([.startCall] ++ cs ++ [.endCalledExpression] ++ ds ++ [.endCall], s)
  -- `pipeline`, 1376-1453
  | .pipe x loc value rest =>
    let (name, s) := s.newVar x loc
    let (cs, s) := maybeBlock (needsWrap c.purity value) (fun s => genExpr s value) s
    let (ds, s) := genExpr s rest
    ([.matchOperator, .variablePattern name] ++ cs ++ ds, s)
  | .fail kind line none => genError c kind line none [] s
  | .fail kind line (some e) =>
    genError c kind line (some (maybeBlock (needsWrap c.purity e) fun s => genExpr s e)) [] s
  -- `case`, 2254-2322
  | .case_ [subject] clauses =>
    let (cs, s) := maybeBlock (needsWrap c.purity subject) (fun s => genExpr s subject) s
    let (ds, s) := genClauses s clauses
    ([.startCase] ++ cs ++ [.endCaseSubject] ++ ds ++ [.endCase], s)
  | .case_ subjects clauses =>
    let (cs, s) := genArgs s subjects
    let (ds, s) := genClauses s clauses
    ([.startCase] ++ ([.startTuple] ++ cs ++ [.endTuple]) ++ [.endCaseSubject] ++ ds ++ [.endCase], s)

/-- `maybe_block_expr` for each of some expressions. -/
def genArgs (s : State) : List Expr → List Call × State
  | [] => ([], s)
  | e :: es =>
    let (cs, s) := maybeBlock (needsWrap c.purity e) (fun s => genExpr s e) s
    let (ds, s) := genArgs s es
    (cs ++ ds, s)

/-- `erlang.rs:772-831` `statement_sequence`, with `let_` (`1263-1273`) and `let_assert` (`1275-1374`). -/
def genStmts (s : State) : List Stmt → List Call × State
  | [] => ([], s)
  | .expr e :: ss =>
    let (cs, s) := genExpr s e
    let (ds, s) := genStmts s ss
    (cs ++ ds, s)
  | .let_ p e :: ss =>
    let (ps, s, _) := genPattern s [] p
    let (cs, s) := maybeBlock (needsWrap c.purity e) (fun s => genExpr s e) s
    let (ds, s) := genStmts s ss
    ([.matchOperator] ++ ps ++ cs ++ ds, s)
  | .letAssert p e info message :: ss =>
    if p.alwaysMatches then
      let (ps, s, _) := genPattern s [] p
      let (cs, s) := maybeBlock (needsWrap c.purity e) (fun s => genExpr s e) s
      let (ds, s) := genStmts s ss
      ([.matchOperator] ++ ps ++ cs ++ ds, s)
    else
      let (cs, s) := maybeBlock (needsWrap c.purity e) (fun s => genExpr s e) s
      let (first, s) := genAsserted p (if ss.isEmpty then none else some fun s => genStmts s ss) s
      let (value, s) := s.newGenerated
      let (error, s) :=
        match message with
        | none => genError c .letAssert info.line none (assertFields value info) s
        | some m =>
          genError c .letAssert info.line (some (maybeBlock (needsWrap c.purity m) fun s => genExpr s m))
            (assertFields value info) s
      ([.startCase] ++ cs ++ [.endCaseSubject] ++ first ++ plainClause [.variablePattern value] error ++ [.endCase], s)

/-- The loop of `case`: `erlang.rs:2285-2320`. The body of a clause is generated without `begin` and `end` if it is a
block (`2374-2380`). -/
def genClauses (s : State) : List Clause → List Call × State
  | [] => ([], s)
  | .mk ps alternatives g body :: rest =>
    let (cs, s) := genBranches s.taken g
      (fun s =>
        match body with
        | .block stmts => genStmts s stmts
        | e => genExpr s e) s (ps :: alternatives)
    let (ds, s) := genClauses s rest
    (cs ++ ds, s)

end

/-- `FunctionGenerator::new`: `erlang.rs:483-500`. -/
def State.new : State := ⟨fun _ => none, fun _ => none, 0⟩

/-- `erlang.rs:625-640`: the calls for a function that is not external. -/
def genFunction (f : Fun) : List Call :=
  let (names, s) := argumentNames State.new f.parameters
  let (cs, _) := genStmts c s f.body
  [.startFunction (escapeName f.name) names] ++ cs ++ [.endFunction]

end Verif.ErlGen
