import Verif.Common.Decimal

/-
Model of how the JavaScript generator names variables: `/repo/compiler-core/src/javascript/expression.rs` (`Scope`, `local_var`,
`next_local_var` and the places that save and restore the scope) and `/repo/compiler-core/src/javascript.rs` (escaping).

Of the program only its variables are kept: where they are bound and used, and which parts of it get a JavaScript scope of their own.
Texts are lists of characters.
-/
namespace Verif.JsNames

open Verif.Decimal

abbrev Text := List Char

/-- `javascript.rs:1456-1516` `is_usable_js_identifier`: the words it refuses. -/
def unusable : List Text :=
  ["await", "arguments", "break", "case", "catch", "class", "const", "continue", "debugger", "default", "delete", "do", "else", "enum",
    "export", "extends", "eval", "false", "finally", "for", "function", "if", "implements", "import", "in", "instanceof", "interface",
    "let", "new", "null", "package", "private", "protected", "public", "return", "static", "super", "switch", "this", "throw", "true",
    "try", "typeof", "var", "void", "while", "with", "yield", "undefined", "then"].map String.toList

/-- `javascript.rs:1546-1552` `maybe_escape_identifier`, `1542-1544` `escape_identifier`. -/
def maybeEscape (word : Text) : Text := if word ∈ unusable then word ++ ['$'] else word

/-- The variables made up by the compiler: `ast.rs:44-50` and `javascript/decision.rs:32`. -/
inductive Synth where
  | assignment | pipe | block | useAssignment | recordUpdate | capture | assertSubject | assertFail
deriving DecidableEq

def Synth.text : Synth → Text
  | .assignment => ['$']
  | .pipe => "_pipe".toList
  | .block => "_block".toList
  | .useAssignment => "_use".toList
  | .recordUpdate => "_record".toList
  | .capture => "_capture".toList
  | .assertSubject => "_assert_subject".toList
  | .assertFail => "_assert_fail".toList

def synthTexts : List Text :=
  [Synth.assignment, .pipe, .block, .useAssignment, .recordUpdate, .capture, .assertSubject, .assertFail].map Synth.text

def isLower (c : Char) : Bool := 97 ≤ c.toNat && c.toNat ≤ 122

/-- The names the lexer gives to variables (`parse/lexer.rs:1022-1050`), and `_use0`, `_use1`, ... (`type_/expression.rs:6185`): lower case
letters, digits and underscores, not starting with a digit, and not one of the made up names, which have their own counters. -/
def isIdent (cs : Text) : Bool :=
  match cs with
  | [] => false
  | c :: _ => (isLower c || c == '_') && cs.all (fun c => isLower c || isDigit c || c == '_') && !synthTexts.contains cs

abbrev Ident := {cs : Text // isIdent cs = true}

inductive Name where
  | user (x : Ident)
  | synth (k : Synth)
deriving DecidableEq

def Name.text : Name → Text
  | .user x => x.1
  | .synth k => k.text

/-- `expression.rs:142-156` `Scope`. -/
structure Scope where
  user : Ident → Option Nat
  highWater : Ident → Option Nat
  synth : Synth → Option Nat

/-- `expression.rs:159-164` `Scope::new`. -/
def Scope.new (user : Ident → Option Nat) : Scope := ⟨user, fun _ => none, fun _ => none⟩

/-- `expression.rs:167-179` `counter`. -/
def Scope.counter (s : Scope) : Name → Option Nat
  | .user x => s.user x
  | .synth k => s.synth k

def set {α : Type} [DecidableEq α] (f : α → Option Nat) (a : α) (n : Nat) : α → Option Nat := fun b => if b = a then some n else f b

/-- `expression.rs:182-197` `set_counter`. -/
def Scope.setCounter (s : Scope) (name : Name) (n : Nat) : Scope :=
  match name with
  | .user x => { s with user := set s.user x n }
  | .synth k => { s with synth := set s.synth k n }

/-- `map_or(0, |i| i + 1)` -/
def after (n : Option Nat) : Nat :=
  match n with
  | none => 0
  | some i => i + 1

/-- `self.high_water.get(name)`; nothing is ever stored there for made up names. -/
def Scope.high (s : Scope) : Name → Option Nat
  | .user x => s.highWater x
  | .synth _ => none

/-- `expression.rs:202-212` `advance_counter`. -/
def Scope.advanceCounter (s : Scope) (name : Name) : Scope :=
  let next := max (after (s.counter name)) (after (s.high name))
  let s := s.setCounter name next
  match name with
  | .user x => { s with highWater := set s.highWater x next }
  | .synth _ => s

/-- `expression.rs:223-225` `restore_user_variables`: entries of the earlier map win, others are kept. -/
def Scope.restoreUser (s : Scope) (previous : Ident → Option Nat) : Scope :=
  { s with user := fun x => match previous x with | some n => some n | none => s.user x }

/-- The arms of `local_var`. -/
def localName (name : Name) (n : Nat) : Text :=
  match n with
  | 0 => maybeEscape name.text
  | n + 1 => if name.text = ['$'] then '$' :: showNat (n + 1) else name.text ++ '$' :: showNat (n + 1)

/-- `expression.rs:322-332` `local_var`. -/
def Scope.localVar (s : Scope) (name : Name) : Text × Scope :=
  match s.counter name with
  | none => (maybeEscape name.text, s.setCounter name 0)
  | some n => (localName name n, s)

/-- `expression.rs:334-337` `next_local_var`. -/
def Scope.nextLocalVar (s : Scope) (name : Name) : Text × Scope := (s.advanceCounter name).localVar name

/-- What the generator goes through in a function body. Every variable has a number of its own.
* `ref x`: a variable is used (`expression.rs:1015`, `3238`, `decision.rs:1141`, `2440`),
* `bind id x`: a variable is declared with `let` (`expression.rs:1219`, `decision.rs:1455`, `2311`),
* `store id k`: a made up variable is declared, its name kept by the generator (`expression.rs:968`, `1775`, `decision.rs:629`, `640`, `2446`),
* `useStored id`: that name is printed,
* `branch`: code in a JavaScript block or function of its own, the scope saved before and restored after it (`inside_new_scope`,
  `decision.rs:855-884`; `immediately_invoked_function_expression`, `expression.rs:928-957`; a block assigned to `_block`, `1137-1147`),
* `scoped`: the scope is saved and restored in the same way, but what is declared is printed without a block: the variables a guard uses
  (`decision.rs:911-931`, `948-952`),
* `function`: an anonymous function (`expression.rs:1973-2002`),
* `direct`: the branch of a `case` that always matches, printed without a block; the variables are restored, the counters of made up
  variables are not (`decision.rs:560-613`),
* `block`: the statements of a block, printed between braces with nothing restored (`expression.rs:1128-1131`, `1151-1163`),
* `assert`: a `let assert` that can fail: the variables of its pattern get their names, the code of the message is generated with them in
  scope and printed in a block of its own, and the variables are declared in front of all that (`decision.rs:322-342`, `1115-1147`,
  `857-884` for what is not restored).  Simplified: the message is an expression, whose statements, if any, are put into functions of their
  own; so no counter that generating it advances is seen afterwards. -/
inductive Code where
  | done
  | ref (x : Ident) (rest : Code)
  | bind (id : Nat) (x : Ident) (rest : Code)
  | store (id : Nat) (k : Synth) (rest : Code)
  | useStored (id : Nat) (rest : Code)
  | branch (body rest : Code)
  | function (params : List (Nat × Ident)) (body rest : Code)
  | direct (body rest : Code)
  | block (body rest : Code)
  | scoped (body rest : Code)
  | assert (vars : List (Nat × Ident)) (message rest : Code)

/-- The generated code, as far as variables go. -/
inductive Js where
  | done
  | use (n : Text) (rest : Js)
  | decl (id : Nat) (n : Text) (rest : Js)
  | block (body rest : Js)
  | function (params : List (Nat × Text)) (body rest : Js)

def Js.append : Js → Js → Js
  | .done, b => b
  | .use n rest, b => .use n (rest.append b)
  | .decl id n rest, b => .decl id n (rest.append b)
  | .block body rest, b => .block body (rest.append b)
  | .function params body rest, b => .function params body (rest.append b)

/-- `scoped_variable_names`, and the local variables of the generator that hold a name. -/
abbrev Stored := Nat → Text

def Stored.add (st : Stored) (id : Nat) (n : Text) : Stored := fun i => if i = id then n else st i

/-- `for name in arguments { self.current_scope.set_counter(name, 0) }` -/
def setParams (s : Scope) : List (Nat × Ident) → Scope
  | [] => s
  | (_, x) :: params => setParams (s.setCounter (.user x) 0) params

/-- `next_local_var` for the variables of a pattern, one after another. -/
def nextVars (s : Scope) : List (Nat × Ident) → List (Nat × Text) × Scope
  | [] => ([], s)
  | (id, x) :: vars =>
    let (n, s) := s.nextLocalVar (.user x)
    let (ns, s) := nextVars s vars
    ((id, n) :: ns, s)

/-- `let a; let b; …` in front of some code. -/
def Js.decls : List (Nat × Text) → Js → Js
  | [], rest => rest
  | (id, n) :: vars, rest => .decl id n (Js.decls vars rest)

/-- The generator. -/
def compile (s : Scope) (st : Stored) : Code → Js × Scope
  | .done => (.done, s)
  | .ref x rest =>
    let (n, s) := s.localVar (.user x)
    let (js, s) := compile s st rest
    (.use n js, s)
  | .bind id x rest =>
    let (n, s) := s.nextLocalVar (.user x)
    let (js, s) := compile s st rest
    (.decl id n js, s)
  | .store id k rest =>
    let (n, s) := s.nextLocalVar (.synth k)
    let (js, s) := compile s (st.add id n) rest
    (.decl id n js, s)
  | .useStored id rest =>
    let (js, s) := compile s st rest
    (.use (st id) js, s)
  | .branch body rest =>
    let (jsBody, _) := compile s st body
    let (js, s) := compile s st rest
    (.block jsBody js, s)
  | .function params body rest =>
    let (jsBody, _) := compile (setParams s params) st body
    let (js, s) := compile s st rest
    (.function (params.map fun p => (p.1, maybeEscape p.2.1)) jsBody js, s)
  | .direct body rest =>
    let (jsBody, after) := compile s st body
    let (js, s) := compile (after.restoreUser s.user) st rest
    (jsBody.append js, s)
  | .block body rest =>
    let (jsBody, after) := compile s st body
    let (js, s) := compile after st rest
    (.block jsBody js, s)
  | .scoped body rest =>
    let (jsBody, _) := compile s st body
    let (js, s) := compile s st rest
    (jsBody.append js, s)
  | .assert vars message rest =>
    let (names, s) := nextVars s vars
    let (jsMessage, _) := compile s st message
    let (js, s) := compile s st rest
    (.decls names (.block jsMessage js), s)

end Verif.JsNames
