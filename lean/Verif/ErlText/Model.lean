import Verif.Common.Decimal
import Verif.Strings.Model

/-!
# The printer of Erlang source code

Model of `ErlangSourceBuilder` in `erlang-generation/src/lib.rs`: a machine with a text, a stack of positions and
an indentation, driven by the calls of the code generator. Every call first removes the items of the stack that
are over, then prints what the position it finds itself in asks for, then prints its own text. A call made in a
position where it is not allowed panics in the code; here it returns `none`.

Not modelled: source locations (the printer ignores them), type specs, function specs and record attributes.
Texts are lists of characters.
-/

namespace Verif.ErlText

open Verif.Decimal (showNat)

abbrev Text := List Char

/-- `lib.rs:1591-1606` `ListKind` and `BitArrayKind`: whether a list or bit array is a pattern or an expression. -/
inductive Kind where
  | pattern
  | expression
  deriving DecidableEq, Repr

/-- `lib.rs:1755-1765` `ExpectedListItem`. -/
inductive ListItem where
  | first
  | rest
  | over
  deriving DecidableEq, Repr

/-- `lib.rs:1674-1688` `ExpectedBitArraySegmentItem`. -/
inductive SegItem where
  | value (kind : Kind)
  | size
  | specifiers
  deriving DecidableEq, Repr

/-- `lib.rs:1690-1704` `ExpectedCallItem`. -/
inductive CallItem where
  | called
  | arguments (first : Bool)
  deriving DecidableEq, Repr

/-- `lib.rs:1657-1671` `ExpectedBinaryOperatorSide`. -/
inductive Side where
  | left
  | right
  | over
  deriving DecidableEq, Repr

/-- `lib.rs:1639-1652` `ExpectedCaseItem`. -/
inductive CaseItem where
  | subject
  | branches (first : Bool)
  deriving DecidableEq, Repr

/-- `lib.rs:1622-1637` `ExpectedCaseClauseItem`. -/
inductive ClauseItem where
  | pattern
  | guards (first : Bool)
  | body (first : Bool)
  deriving DecidableEq, Repr

/-- The operators that the code generator passes to `binary_operator` (`compiler-core/src/erlang.rs:2640-2935`,
`3086-3250` and `compiler-core/src/erlang/pattern.rs`). -/
inductive BinOp where
  | orelse | andalso
  | lt | le | eq | ne | neq | gt | ge
  | add | sub
  | mul | fdiv | div | rem
  deriving DecidableEq, Repr

/-- The string passed for each operator. -/
def BinOp.text : BinOp → Text
  | .orelse => "orelse".toList
  | .andalso => "andalso".toList
  | .lt => "<".toList
  | .le => "=<".toList
  | .eq => "=:=".toList
  | .ne => "/=".toList
  | .neq => "=/=".toList
  | .gt => ">".toList
  | .ge => ">=".toList
  | .add => "+".toList
  | .sub => "-".toList
  | .mul => "*".toList
  | .fdiv => "/".toList
  | .div => "div".toList
  | .rem => "rem".toList

/-- The operators that the code generator passes to `unary_operator`. -/
inductive UnOp where
  | neg
  | not
  deriving DecidableEq, Repr

/-- The string passed for each operator. -/
def UnOp.text : UnOp → Text
  | .neg => "-".toList
  | .not => "not".toList

/-- `lib.rs:95-110` `BitArraySegmentSpecifier`. -/
inductive Spec where
  | utf8 | utf16 | utf32 | integer | float | binary | bitstring
  | signed | unsigned | little | big | native
  | unit (n : Nat)
  deriving DecidableEq, Repr

/-- `lib.rs:1401-1590` `ErlangSourceBuilderPosition`, without the positions inside types and records. -/
inductive Pos where
  | function (first : Bool)
  | anonymous (first : Bool)
  /-- `expectedExpression` is true when the pattern has been printed. -/
  | matchOp (expectedExpression : Bool)
  /-- `expectedRight` is true when the left pattern has been printed. -/
  | matchPattern (expectedRight : Bool)
  | list (kind : Kind) (expected : ListItem)
  | unary
  | tuple (first : Bool)
  | tuplePattern (first : Bool)
  | bits (kind : Kind) (first : Bool)
  | segment (expected : SegItem) (wrapValue wrapSize : Bool)
  | block (first : Bool)
  | call (expected : CallItem) (wrap : Bool)
  | binary (expected : Side) (wrap : Bool) (op : BinOp)
  | case_ (expected : CaseItem)
  | clause (expected : ClauseItem)
  | map (first : Bool)
  /-- `expectedValue` is true when the key has been printed. -/
  | field (expectedValue : Bool)
  | guard
  deriving DecidableEq, Repr

/-- `lib.rs:1390-1397` `ErlangSourceBuilder`. The head of the list is the last position. -/
structure Builder where
  code : Text
  position : List Pos
  indentation : Nat
  deriving DecidableEq, Repr

/-- `lib.rs:2637` `INDENT`. -/
def INDENT : Nat := 4

/-- `self.code.push_str`. -/
def Builder.push (b : Builder) (t : Text) : Builder := { b with code := b.code ++ t }

/-- `self.position.push`. -/
def Builder.enter (b : Builder) (p : Pos) : Builder := { b with position := p :: b.position }

def Builder.indent (b : Builder) : Builder := { b with indentation := b.indentation + INDENT }

/-- `lib.rs:3645-3649` `push_indentation`; also `" ".repeat(self.indentation)`. -/
def spaces (n : Nat) : Text := List.replicate n ' '

/-! ### Names -/

/-- `lib.rs:3733-3769` `is_erlang_reserved_word`. -/
def reserved : List String :=
  ["!", "receive", "bnot", "div", "rem", "band", "bor", "bxor", "bsl", "bsr", "not", "and", "or", "xor", "orelse",
   "andalso", "when", "end", "fun", "try", "catch", "after", "begin", "let", "query", "cond", "if", "of", "case",
   "maybe", "else"]

/-- One character of `[a-z]`. -/
def isLower (c : Char) : Bool := 97 ≤ c.toNat && c.toNat ≤ 122

/-- One character of `[a-z0-9_@]`. -/
def isAtomTail (c : Char) : Bool := isLower c || (48 ≤ c.toNat && c.toNat ≤ 57) || c = '_' || c = '@'

/-- `lib.rs:3729-3731` `atom_name_regex`: `^[a-z][a-z0-9_@]*$`. -/
def atomName : Text → Bool
  | [] => false
  | c :: cs => isLower c && cs.all isAtomTail

/-- `lib.rs:3714-3725` `quote_atom_name`. -/
def quoteAtomName (name : Text) : Text :=
  if name ∈ reserved.map String.toList then '\'' :: name ++ ['\'']
  else if atomName name then name
  else '\'' :: name ++ ['\'']

/-- `BigInt::to_string`. -/
def showInt : Int → Text
  | .ofNat n => showNat n
  | .negSucc n => '-' :: showNat (n + 1)

/-! ### Moving between positions -/

/-- `lib.rs:3519-3625` `pop_leftover_items`, on the text and the stack. -/
def popLeftover (code : Text) : List Pos → Text × List Pos
  | .list _ .over :: ps => popLeftover (code ++ "]".toList) ps
  | .binary .over wrap _ :: ps => popLeftover (if wrap then code ++ ")".toList else code) ps
  | ps => (code, ps)

/-- `lib.rs:3519-3625` `pop_leftover_items`. -/
def Builder.flush (b : Builder) : Builder :=
  { b with code := (popLeftover b.code b.position).1, position := (popLeftover b.code b.position).2 }

/-- Replaces the last position, and pushes a text. -/
def Builder.go (b : Builder) (ps : List Pos) (t : Text) : Option Builder :=
  some { b with code := b.code ++ t, position := ps }

/-- The text printed before a statement: `lib.rs:2745-2758`. -/
def statementStart (first : Bool) (indentation : Nat) : Text :=
  (if first then [] else ",".toList) ++ "\n".toList ++ spaces indentation

/-- `lib.rs:2665-2879` `new_expression`. -/
def Builder.newExpression (b : Builder) : Option Builder :=
  let b := b.flush
  match b.position with
  | .case_ .subject :: ps => b.go (.case_ (.branches true) :: ps) []
  | .call .called wrap :: ps => b.go (.call (.arguments true) wrap :: ps) (if wrap then "(".toList else [])
  | .call (.arguments first) wrap :: ps =>
    b.go (.call (.arguments false) false :: ps)
      ((if wrap then ")".toList else []) ++ (if first then "(".toList else ", ".toList))
  | .tuple first :: ps => b.go (.tuple false :: ps) (if first then [] else ", ".toList)
  | .list .expression .first :: ps => b.go (.list .expression .rest :: ps) []
  | .list .expression .rest :: ps => b.go (.list .expression .over :: ps) " | ".toList
  | .binary .left wrap op :: ps => b.go (.binary .right wrap op :: ps) []
  | .binary .right wrap op :: ps => b.go (.binary .over wrap op :: ps) (" ".toList ++ op.text ++ " ".toList)
  | .function first :: ps => b.go (.function false :: ps) (statementStart first b.indentation)
  | .anonymous first :: ps => b.go (.anonymous false :: ps) (statementStart first b.indentation)
  | .block first :: ps => b.go (.block false :: ps) (statementStart first b.indentation)
  | .clause (.body first) :: ps => b.go (.clause (.body false) :: ps) (statementStart first b.indentation)
  | .segment (.value .expression) wv ws :: ps => b.go (.segment .size wv ws :: ps) (if wv then "(".toList else [])
  | .segment .size wv ws :: ps =>
    b.go (.segment .specifiers false ws :: ps)
      ((if wv then ")".toList else []) ++ ":".toList ++ (if ws then "(".toList else []))
  | .guard :: ps => b.go (.guard :: ps) " when ".toList
  | .field false :: ps => b.go (.field true :: ps) []
  | .field true :: ps => b.go ps " => ".toList
  | .matchOp true :: ps => b.go ps " = ".toList
  | .unary :: ps => b.go ps []
  | _ => none

/-- `lib.rs:2969-3088` `new_pattern`. -/
def Builder.newPattern (b : Builder) : Option Builder :=
  let b := b.flush
  match b.position with
  | .list .pattern .first :: ps => b.go (.list .pattern .rest :: ps) []
  | .list .pattern .rest :: ps => b.go (.list .pattern .over :: ps) " | ".toList
  | .segment (.value .pattern) wv ws :: ps => b.go (.segment .size wv ws :: ps) (if wv then "(".toList else [])
  | .matchOp false :: ps => b.go (.matchOp true :: ps) []
  | .clause .pattern :: ps => b.go (.clause .pattern :: ps) []
  | .tuplePattern first :: ps => b.go (.tuplePattern false :: ps) (if first then [] else ", ".toList)
  | .matchPattern false :: ps => b.go (.matchPattern true :: ps) []
  | .matchPattern true :: ps => b.go ps " = ".toList
  | _ => none

/-- `lib.rs:3463-3470`, `3499-3503`: `new_pattern` or `new_expression`, whichever the kind asks for. -/
def Builder.newItem (b : Builder) : Kind → Option Builder
  | .pattern => b.newPattern
  | .expression => b.newExpression

/-- The text that ends an item closed with `end` on a line of its own, where the indentation has already been
reduced. -/
def endLine (indentation : Nat) (t : Text) : Text := "\n".toList ++ spaces indentation ++ t

/-- `lib.rs:3090-3248` `close_currently_open_item`. -/
def Builder.close (b : Builder) : Option Builder :=
  let b := b.flush
  let i := b.indentation - INDENT
  match b.position with
  | [] => some b
  | .function _ :: ps => some ⟨b.code ++ ".\n".toList, ps, i⟩
  | .anonymous _ :: ps => some ⟨b.code ++ endLine i "end".toList, ps, i⟩
  | .block _ :: ps => some ⟨b.code ++ endLine i "end".toList, ps, i⟩
  | .call (.arguments first) wrap :: ps =>
    b.go ps ((if wrap then ")".toList else []) ++ (if first then "()".toList else ")".toList))
  | .tuple _ :: ps => b.go ps "}".toList
  | .tuplePattern _ :: ps => b.go ps "}".toList
  | .bits _ _ :: ps => b.go ps ">>".toList
  | .case_ (.branches _) :: ps => some ⟨b.code ++ endLine i "end".toList, ps, i⟩
  | .guard :: ps => b.go ps []
  | .clause .pattern :: ps => b.go ps []
  | .clause (.guards _) :: ps => b.go ps " ->".toList
  | .clause (.body _) :: ps => some ⟨b.code, ps, i⟩
  | .map _ :: ps => some ⟨b.code ++ endLine i "}".toList, ps, i⟩
  | _ => none

/-- `lib.rs:3414-3431` `do_not_wrap_if_segment_value_or_size`. -/
def Builder.doNotWrap (b : Builder) : Builder :=
  let b := b.flush
  match b.position with
  | .segment (.value k) _ ws :: ps => { b with position := .segment (.value k) false ws :: ps }
  | .segment .size wv _ :: ps => { b with position := .segment .size wv false :: ps }
  | _ => b

/-- `lib.rs:3435-3460` `do_print_string_content`, with `escape_string_content` (`3287-3330`), which escapes in
every position that is not inside a type. It panics at the top level. -/
def Builder.printString (b : Builder) (content : Text) : Option Builder :=
  match b.position with
  | [] => none
  | .segment .size _ _ :: _ => some (b.push ("\"".toList ++ Strings.escapeErlang 0 content ++ "\"".toList))
  | _ => some (b.push ("~\"".toList ++ Strings.escapeErlang 0 content ++ "\"".toList))

/-- The shared start of `start_call` and `start_remote_call` (`lib.rs:2171-2184`, `2199-2212`): a call that is
itself called is marked for wrapping. -/
def Builder.markCalled (b : Builder) : Builder :=
  let b := b.flush
  match b.position with
  | .call .called _ :: ps => { b with position := .call .called true :: ps }
  | _ => b

/-- `lib.rs:3464-3489` `cons_list_of_kind`. -/
def Builder.consList (b : Builder) (k : Kind) : Option Builder :=
  let b := b.flush
  match b.position with
  | .list k' .rest :: ps =>
    if k' = k then b.go (.list k .first :: ps) ", ".toList
    else (b.newItem k).map fun b => (b.push "[".toList).enter (.list k .first)
  | _ => (b.newItem k).map fun b => (b.push "[".toList).enter (.list k .first)

/-- `lib.rs:3491-3516` `empty_list_of_kind`. -/
def Builder.emptyList (b : Builder) (k : Kind) : Option Builder :=
  let b := b.flush
  match b.position with
  | .list k' .rest :: ps =>
    if k' = k then b.go ps "]".toList
    else (b.newItem k).map fun b => b.push "[]".toList
  | _ => (b.newItem k).map fun b => b.push "[]".toList

/-- `lib.rs:2325-2339`: the text of one specifier. -/
def Spec.text : Spec → Text
  | .utf8 => "utf8".toList
  | .utf16 => "utf16".toList
  | .utf32 => "utf32".toList
  | .integer => "integer".toList
  | .float => "float".toList
  | .binary => "binary".toList
  | .bitstring => "bitstring".toList
  | .signed => "signed".toList
  | .unsigned => "unsigned".toList
  | .little => "little".toList
  | .big => "big".toList
  | .native => "native".toList
  | .unit n => "unit:".toList ++ showNat n

def Spec.isUnit : Spec → Bool
  | .unit _ => true
  | _ => false

/-- `lib.rs:2313-2321`: the specifiers sorted so that the unit comes last. The comparison of the code is an order
as long as there is at most one unit, which the type checker ensures; this is the stable sort for that case. -/
def sortSpecs (specs : List Spec) : List Spec :=
  specs.filter (fun s => !s.isUnit) ++ specs.filter Spec.isUnit

/-- `lib.rs:2323-2349`: the specifiers, the first after a `/` and the others after a `-`. -/
def specsText : Bool → List Spec → Text
  | _, [] => []
  | first, s :: ss => (if first then "/".toList else "-".toList) ++ s.text ++ specsText false ss

/-- The names of arguments, separated by commas: `lib.rs:2088-2096`, `2114-2122`. -/
def commaSeparated : List Text → Text
  | [] => []
  | [n] => n
  | n :: ns => n ++ ", ".toList ++ commaSeparated ns

/-- The items of an export attribute: `lib.rs:1864-1876`. -/
def exportItems : List (Text × Nat) → List Text
  | [] => []
  | (n, a) :: es => (quoteAtomName n ++ "/".toList ++ showNat a) :: exportItems es

/-- `lib.rs:3664-3679` `doc_content`: backslashes and double quotes are escaped. The two calls of `replace` in one
pass: the quotes are escaped after the backslashes, so that the backslashes added for them stay single. -/
def docEscape (content : Text) : Text :=
  content.flatMap fun c => if c = '\\' then ['\\', '\\'] else if c = '"' then ['\\', '"'] else [c]

/-- `lib.rs:118-121` `DocContent`. -/
inductive Doc where
  | hidden
  | text (content : Text)
  deriving DecidableEq, Repr

/-- `lib.rs:3664-3679` `doc_content`. -/
def Doc.show : Doc → Text
  | .hidden => "false".toList
  | .text content => "~\"".toList ++ docEscape content ++ "\"".toList

/-! ### The calls -/

/-- The methods of `ErlangBuilder` (`lib.rs:126-1385`) that are modelled. Floats are passed as the text that
`format_float` makes of them. -/
inductive Call where
  | export_ (names : List (Text × Nat))
  | exportType (names : List (Text × Nat))
  | doc (content : Doc)
  | moduledoc (content : Doc)
  | compile (arguments : List Text)
  | file (path : Text) (line : Nat)
  | startFunction (name : Text) (arguments : List Text)
  | startAnonymousFunction (arguments : List Text)
  | endFunction
  | startBlock
  | endBlock
  | startRemoteCall (module function : Text)
  | startCall
  | endCalledExpression
  | endCall
  | startTuple
  | endTuple
  | startMap
  | endMap
  | mapField
  | startBitArray
  | endBitArray
  | segment
  | segmentDefaultSize
  | segmentSpecifiers (specs : List Spec)
  | consList
  | emptyList
  | startCase
  | endCaseSubject
  | endCase
  | startCaseClause
  | endClausePattern
  | startClauseGuard
  | endClauseGuard
  | endClauseGuards
  | endClauseBody
  | var (name : Text)
  | unary (op : UnOp)
  | binary (op : BinOp)
  | functionReference (module : Option Text) (name : Text) (arity : Nat)
  | matchOperator
  | matchPattern
  | variablePattern (name : Text)
  | discardPattern
  | intPattern (n : Int)
  | floatPattern (text : Text)
  | stringPattern (content : Text)
  | atomPattern (name : Text)
  | startTuplePattern
  | endTuplePattern
  | startBitArrayPattern
  | endBitArrayPattern
  | consListPattern
  | emptyListPattern
  | string (content : Text)
  | int (n : Int)
  | float (text : Text)
  | atom (name : Text)
  deriving DecidableEq, Repr

/-- `lib.rs:2650-2655` `new_top_level_form`. -/
def Builder.topLevel (b : Builder) : Option Builder :=
  let b := b.flush
  match b.position with
  | [] => some b
  | _ => none

/-- The effect of each method: `lib.rs:1850-2620`. -/
def Builder.call (b : Builder) : Call → Option Builder
  | .export_ names =>  -- 1851-1877
    if names.isEmpty then some b
    else b.topLevel.map fun b => b.push ("-export([".toList ++ commaSeparated (exportItems names) ++ "]).\n".toList)
  | .exportType names =>  -- 1879-1905
    if names.isEmpty then some b
    else b.topLevel.map fun b =>
      b.push ("-export_type([".toList ++ commaSeparated (exportItems names) ++ "]).\n".toList)
  | .doc content =>  -- 1907-1912
    b.topLevel.map fun b => b.push ("\n-doc(".toList ++ content.show ++ ").".toList)
  | .moduledoc content =>  -- 1914-1919
    b.topLevel.map fun b => b.push ("-moduledoc(".toList ++ content.show ++ ").\n".toList)
  | .compile arguments =>  -- 1921-1937
    b.topLevel.map fun b => b.push ("-compile([".toList ++ commaSeparated arguments ++ "]).\n".toList)
  | .file path line =>  -- 1939-1946
    b.topLevel.map fun b => b.push ("\n-file(\"".toList ++ path ++ "\", ".toList ++ showNat line ++ ").".toList)
  | .startFunction name arguments =>  -- 2074-2103
    b.topLevel.map fun b =>
      ((b.push ("\n".toList ++ quoteAtomName name ++ "(".toList ++ commaSeparated arguments ++ ") ->".toList)).indent).enter
        (.function true)
  | .startAnonymousFunction arguments =>  -- 2105-2127
    b.newExpression.map fun b =>
      ((b.push ("fun(".toList ++ commaSeparated arguments ++ ") ->".toList)).indent).enter (.anonymous true)
  | .endFunction => b.close  -- 2129-2131
  | .startBlock =>  -- 2133-2139
    b.newExpression.map fun b => ((b.push "begin".toList).indent).enter (.block true)
  | .endBlock => b.close  -- 2141-2143
  | .startRemoteCall module function =>  -- 2145-2177
    b.markCalled.newExpression.map fun b =>
      (b.push (quoteAtomName module ++ ":".toList ++ quoteAtomName function)).enter (.call (.arguments true) false)
  | .startCall =>  -- 2179-2201
    b.markCalled.newExpression.map fun b => b.enter (.call .called false)
  | .endCalledExpression =>  -- 2203-2216
    let b := b.flush
    match b.position with
    | .call (.arguments true) _ :: _ => some b
    | _ => none
  | .endCall => b.close  -- 2218-2220
  | .startTuple => b.newExpression.map fun b => (b.push "{".toList).enter (.tuple true)  -- 2222-2227
  | .endTuple => b.close
  | .startMap =>  -- 2233-2239
    b.newExpression.map fun b => ((b.push "#{".toList).indent).enter (.map true)
  | .endMap => b.close
  | .mapField =>  -- 2245-2250, 3369-3382
    let b := b.flush
    match b.position with
    | .map first :: ps =>
      some ⟨b.code ++ ((if first then "\n".toList else ",\n".toList) ++ spaces b.indentation),
        .field false :: .map false :: ps, b.indentation⟩
    | _ => none
  | .startBitArray =>  -- 2252-2260
    b.doNotWrap.newExpression.map fun b => (b.push "<<".toList).enter (.bits .expression true)
  | .endBitArray => b.close
  | .segment =>  -- 2266-2278, 3333-3348
    let b := b.flush
    match b.position with
    | .bits kind first :: ps =>
      some ⟨b.code ++ (if first then [] else ", ".toList),
        .segment (.value kind) true true :: .bits kind false :: ps, b.indentation⟩
    | _ => none
  | .segmentDefaultSize =>  -- 2280-2303
    let b := b.flush
    match b.position with
    | .segment .size wv _ :: ps => b.go (.segment .specifiers false false :: ps) (if wv then ")".toList else [])
    | _ => none
  | .segmentSpecifiers specs =>  -- 2305-2355
    let b := b.flush
    match b.position with
    | .segment .specifiers wv ws :: ps =>
      b.go ps ((if wv then ")".toList else if ws then ")".toList else []) ++ specsText true (sortSpecs specs))
    | _ => none
  | .consList => b.consList .expression
  | .emptyList => b.emptyList .expression
  | .startCase => b.newExpression.map fun b => (b.push "case ".toList).enter (.case_ .subject)  -- 2365-2371
  | .endCaseSubject =>  -- 2373-2386
    let b := b.flush
    match b.position with
    | .case_ (.branches true) :: _ => some b
    | _ => none
  | .endCase => b.close
  | .startCaseClause =>  -- 2392-2397, 3350-3367
    let b := b.flush
    match b.position with
    | .case_ (.branches first) :: ps =>
      let i := if first then b.indentation + INDENT else b.indentation
      some ⟨b.code ++ ((if first then " of\n".toList else ";\n\n".toList) ++ spaces i),
        .clause .pattern :: .case_ (.branches false) :: ps, i⟩
    | _ => none
  | .endClausePattern => b.close.map fun b => b.enter (.clause (.guards true))  -- 2399-2404
  | .startClauseGuard =>  -- 2406-2409, 3384-3398
    let b := b.flush
    match b.position with
    | .clause (.guards true) :: ps => b.go (.guard :: .clause (.guards false) :: ps) []
    | _ => none
  | .endClauseGuard => b.close
  | .endClauseGuards => b.close.map fun b => b.indent.enter (.clause (.body true))  -- 2415-2421
  | .endClauseBody => b.close
  | .var name => b.doNotWrap.newExpression.map fun b => b.push name  -- 2427-2431
  | .unary op =>  -- 2433-2439
    b.newExpression.map fun b => (b.push (op.text ++ " ".toList)).enter .unary
  | .binary op =>  -- 2441-2469
    let b := b.flush
    let wrap := match b.position with
      | .binary _ _ _ :: _ => true
      | .unary :: _ => true
      | _ => false
    b.newExpression.map fun b => (b.push (if wrap then "(".toList else [])).enter (.binary .left wrap op)
  | .functionReference module name arity =>  -- 2471-2487
    b.newExpression.map fun b => b.push ("fun ".toList ++
      (match module with
        | some m => quoteAtomName m ++ ":".toList
        | none => []) ++ quoteAtomName name ++ "/".toList ++ showNat arity)
  | .matchOperator => b.newExpression.map fun b => b.enter (.matchOp false)  -- 2489-2495
  | .matchPattern => b.newPattern.map fun b => b.enter (.matchPattern false)  -- 2497-2503
  | .variablePattern name => b.doNotWrap.newPattern.map fun b => b.push name  -- 2505-2509
  | .discardPattern => b.doNotWrap.newPattern.map fun b => b.push "_".toList  -- 2511-2515
  | .intPattern n => b.doNotWrap.newPattern.map fun b => b.push (showInt n)  -- 2517-2521
  | .floatPattern text => b.doNotWrap.newPattern.map fun b => b.push text  -- 2523-2528
  | .stringPattern content => b.doNotWrap.newPattern.bind fun b => b.printString content  -- 2530-2534
  | .atomPattern name => b.newPattern.map fun b => b.push (quoteAtomName name)  -- 2536-2539
  | .startTuplePattern => b.newPattern.map fun b => (b.push "{".toList).enter (.tuplePattern true)  -- 2541-2546
  | .endTuplePattern => b.close
  | .startBitArrayPattern => b.newPattern.map fun b => (b.push "<<".toList).enter (.bits .pattern true)  -- 2552-2559
  | .endBitArrayPattern => b.close
  | .consListPattern => b.consList .pattern
  | .emptyListPattern => b.emptyList .pattern
  | .string content => b.doNotWrap.newExpression.bind fun b => b.printString content  -- 2573-2577
  | .int n => b.doNotWrap.newExpression.map fun b => b.push (showInt n)  -- 2579-2583
  | .float text => b.doNotWrap.newExpression.map fun b => b.push text  -- 2585-2589
  | .atom name => b.newExpression.map fun b => b.push (quoteAtomName name)  -- 2591-2594

/-- A sequence of calls. -/
def Builder.run (b : Builder) : List Call → Option Builder
  | [] => some b
  | c :: cs =>
    match b.call c with
    | some b => b.run cs
    | none => none

/-- `lib.rs:1833-1843` `new` with a module name: the first line. -/
def Builder.new (moduleName : Text) : Builder :=
  ⟨"-module(".toList ++ quoteAtomName moduleName ++ ").\n".toList, [], 0⟩

/-- `lib.rs:1845-1849` `into_output`. -/
def Builder.intoOutput (b : Builder) : Option Text := b.close.map fun b => b.code ++ "\n".toList

/-- The whole text made by a sequence of calls. -/
def printModule (moduleName : Text) (calls : List Call) : Option Text :=
  ((Builder.new moduleName).run calls).bind Builder.intoOutput

/-- `lib.rs:46-50` `ErlangModuleName::new`. -/
def erlangModuleName (name : Text) : Text := name.map fun c => if c = '/' then '@' else c

end Verif.ErlText
