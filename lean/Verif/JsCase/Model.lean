import Verif.Case.Model

/-!
# JavaScript for decision trees

Model of `compiler-core/src/javascript/decision.rs`: how the decision tree of a `case` expression or
of a `let assert` becomes a chain of `if` and `else`.  The documents of the pretty printer are
statements and expressions here.

Simplifications:
* The names the code generator makes up are numbers, so that no two of them are equal, and the
  variables of the source program keep their names.  How JavaScript names are chosen is modelled in
  `Verif/JsNames`.
* The code for a test on a bit array and for reading a segment is one operation
  (`Cond.bits`, `JExpr.read`).  The variables for segments a test refers to (2257-2261, 2297-2319) are
  left out.
* The expression of a clause is its number.
-/

namespace Verif.JsCase

open Verif.Case

variable {B : BitSys}

/-- A JavaScript variable: the one of a subject (decision.rs 2423-2456), or one made up for a part
of a subject or for a character code (`$`, 629 and 640). -/
inductive JName
  | subject (i : Nat)
  | made (n : Nat)
deriving DecidableEq

/-- The JavaScript expressions of `set_value` (decision.rs 1358-1360, 2244-2288) and of
`body_binding_doc` (1449-1475).  The access to a field by its label is `index`, too.
`missing` is the panic of 2336. -/
inductive JExpr (B : BitSys)
  | name (n : JName)
  | const (c : Val B.Bits)
  | index (e : JExpr B) (i : Nat)
  | head (e : JExpr B)
  | tail (e : JExpr B)
  | slice (e : JExpr B) (n : Nat)
  | read (r : B.Read) (e : JExpr B)
  | charCode (e : JExpr B)
  | missing

/-- The conditions of `runtime_check` (decision.rs 1485-1712), of the comparison with a character
code (662-684) and of guards. `panic` is the panic of 1644. -/
inductive Cond (B : BitSys)
  | int (e : JExpr B) (i : Int)
  | float (e : JExpr B) (f : Nat)
  | str (e : JExpr B) (s : Lit)
  | startsWith (e : JExpr B) (s : Lit)
  | code (e : JExpr B) (n : Nat)
  | bits (e : JExpr B) (t : B.Test)
  | truthy (e : JExpr B)
  | falsy (e : JExpr B)
  | isVariant (e : JExpr B) (index : Nat)
  | isEmpty (e : JExpr B)
  | isNonEmpty (e : JExpr B)
  | guard (g : Nat)
  | panic

/-- JavaScript statements.
* `empty`: no code at all.
* `lets`: `let n = e;` and what follows.
* `body`: the variables of a clause and its expression.
* `ret`: the expression of a clause that just returns a subject.
* `assign`: the variables of a `let assert`.
* `ite`: `if (c && ..) { yes } else no`; there is no `else` if `no` is `empty`.
* `unless`: `if (!(c && ..)) { no }`.
* `guarded`: the variables a guard refers to, and `if (guard) { yes } else no`.
* `throws`: the error of a `let assert`.
* `panic`: the panic of 345. -/
inductive Code (B : BitSys)
  | empty
  | lets (n : JName) (e : JExpr B) (rest : Code B)
  | body (bs : List (Name × JExpr B)) (clause : Nat)
  | ret (clause subject : Nat)
  | assign (bs : List (Name × JExpr B))
  | ite (cs : List (Cond B)) (yes no : Code B)
  | unless (cs : List (Cond B)) (no : Code B)
  | guarded (bs : List (Name × JExpr B)) (g : Nat) (yes no : Code B)
  | throws
  | panic

/-- `Document::is_empty`. -/
def Code.isEmpty : Code B → Bool
  | .empty => true
  | _ => false

/-- decision.rs 104-132 `CaseBody`.  The conditions are joined with `&&`. -/
inductive CaseBody (B : BitSys)
  | ifOnly (cs : List (Cond B)) (body : Code B)
  | statements (c : Code B)
  | ifElse (cs : List (Cond B)) (yes no : Code B) (fallback : Decision B)
  | chain (c : Code B)

/-- decision.rs 135-203 `into_doc`. -/
def CaseBody.code : CaseBody B → Code B
  | .ifOnly cs body => .ite cs body .empty
  | .ifElse cs yes no _ => if yes.isEmpty then .unless cs no else .ite cs yes no
  | .statements c => c
  | .chain c => c

/-- decision.rs 216-221 `is_empty`. -/
def CaseBody.isEmpty : CaseBody B → Bool
  | .ifOnly _ _ => false
  | .ifElse _ _ _ _ => false
  | .statements c => c.isEmpty
  | .chain c => c.isEmpty

/-- What the code generator knows about the clauses.
* `letAssert`: `DecisionKind` (decision.rs 232-242).
* `returned`: the subject a clause returns unchanged (`returned_subject`).
* `refs`: the variables a guard mentions (`referenced_variables`).
* `isBool`: the prelude's `Bool` (`is_bool`).
* `namedTrue`: whether the name of the variant a variable is checked for is `True` in the source
  (1648-1653, `used_name`). -/
structure Ctx where
  letAssert : Bool
  returned : Nat → Option Nat
  refs : Nat → List Name
  isBool : Ty → Bool
  namedTrue : Var → Nat → Bool

/-- decision.rs 1192-1264 `Variables`: `values` are `variable_values`, `names` are
`scoped_variable_names`, `next` is the number of the next name that is made up. -/
structure S (B : BitSys) where
  values : List (Nat × JExpr B)
  names : List (Nat × JName)
  next : Nat

/-- decision.rs 2326-2338 `get_value`. -/
def S.getValue (s : S B) (v : Var) : JExpr B :=
  match s.names.lookup v.id with
  | some n => .name n
  | none => (s.values.lookup v.id).getD .missing

/-- decision.rs 1358-1360 `set_value`. -/
def S.setValue (s : S B) (v : Var) (e : JExpr B) : S B :=
  { s with values := (v.id, e) :: s.values }

/-- The fields of a tuple or a record, from the `i`-th on. -/
def S.setFields (s : S B) (e : JExpr B) : Nat → List Var → S B
  | _, [] => s
  | i, v :: vs => (s.setValue v (.index e i)).setFields e (i + 1) vs

/-- `char::len_utf16` (Rust std). -/
def charLen (c : Char) : Nat := if c.toNat < 0x10000 then 1 else 2

/-- decision.rs 2530-2532 `utf16_no_escape_len`. -/
def utf16Len (s : Lit) : Nat := (s.decode.map charLen).sum

/-- decision.rs 2244-2288 `record_check_assignments`. -/
def S.record (s : S B) (v : Var) : Check B → S B
  | .strPrefix p rest => s.setValue rest (.slice (s.getValue v) (utf16Len p))
  | .tuple vs => s.setFields (s.getValue v) 0 vs
  | .variant _ _ vs => s.setFields (s.getValue v) 0 vs
  | .cons first rest =>
    (s.setValue first (.head (s.getValue v))).setValue rest (.tail (s.getValue v))
  | _ => s

/-- The check of a fallback (decision.rs 566-568, 810-812). -/
def S.recordFallback (s : S B) (v : Var) : Fallback B → S B
  | .check c => s.record v c
  | .infinite => s
  | .catchAll _ => s

/-- The value of a binding, decision.rs 1456-1474. -/
def S.bound (s : S B) : Bound B → JExpr B
  | .var v => s.getValue v
  | .const c => .const c
  | .bitSlice v r => .read r (s.getValue v)
  | .strSlice v p => .slice (s.getValue v) (utf16Len p)

/-- decision.rs 1429-1447 `bindings_doc` and `bindings_ref_doc`. -/
def S.bindings (s : S B) (bs : List (Name × Bound B)) : List (Name × JExpr B) :=
  bs.map fun b => (b.1, s.bound b.2)

/-- decision.rs 995-1015 `single_character_prefix_code`. -/
def charCode : Check B → Option Nat
  | .strPrefix p _ =>
    if utf16Len p = 1 then p.decode.head?.map Char.toNat else none
  | _ => none

/-- decision.rs 1019-1036 `multiple_single_character_prefix_checks`. -/
def multipleChars (seen : Bool) : Choices B → Bool
  | .nil => false
  | .cons (.strPrefix p _) _ cs =>
    if utf16Len p = 1 then (if seen then true else multipleChars true cs)
    else multipleChars seen cs
  | .cons _ _ cs => multipleChars seen cs

/-- decision.rs 1485-1712 `runtime_check`. -/
def S.check (ctx : Ctx) (s : S B) (v : Var) : Check B → Cond B
  | .str p => .str (s.getValue v) p
  | .float f => .float (s.getValue v) f
  | .int i => .int (s.getValue v) i
  | .strPrefix p _ => .startsWith (s.getValue v) p
  | .bits t => .bits (s.getValue v) t
  | .tuple _ => .panic
  | .variant _ i _ =>
    if ctx.isBool v.ty then
      if ctx.namedTrue v i then .truthy (s.getValue v) else .falsy (s.getValue v)
    else .isVariant (s.getValue v) i
  | .cons _ _ => .isNonEmpty (s.getValue v)
  | .nil => .isEmpty (s.getValue v)

/-- decision.rs 662-684: the condition of a choice.  `first` is the variable with the first
character code, if there is one. -/
def S.cond (ctx : Ctx) (s : S B) (v : Var) (first : Option JName) (c : Check B) : Cond B :=
  match charCode c with
  | some n =>
    match first with
    | some f => .code (.name f) n
    | none => .code (.charCode (s.getValue v)) n
  | none => s.check ctx v c

/-! ### Equality of decisions -/

mutual
/-- Equality of values. -/
def valBeq {β : Type} [DecidableEq β] : Val β → Val β → Bool
  | .int i, .int j => i == j
  | .float f, .float g => f == g
  | .str s, .str t => s == t
  | .bits b, .bits c => b == c
  | .opaque n, .opaque m => n == m
  | .tuple vs, .tuple ws => valsBeq vs ws
  | .variant i vs, .variant j ws => i == j && valsBeq vs ws
  | .nil, .nil => true
  | .cons h t, .cons h' t' => valBeq h h' && valBeq t t'
  | _, _ => false
/-- Equality of lists of values. -/
def valsBeq {β : Type} [DecidableEq β] : List (Val β) → List (Val β) → Bool
  | [], [] => true
  | v :: vs, w :: ws => valBeq v w && valsBeq vs ws
  | _, _ => false
end

section
variable [DecidableEq B.Bits] [DecidableEq B.Test] [DecidableEq B.Read]

/-- The derived equality of `BoundValue` (exhaustiveness.rs 397). -/
def boundBeq : Bound B → Bound B → Bool
  | .var v, .var w => v == w
  | .const c, .const d => valBeq c d
  | .bitSlice v r, .bitSlice w q => v == w && r == q
  | .strSlice v s, .strSlice w t => v == w && s == t
  | _, _ => false

/-- Bindings. -/
def bindingsBeq : List (Name × Bound B) → List (Name × Bound B) → Bool
  | [], [] => true
  | a :: as, b :: bs => a.1 == b.1 && boundBeq a.2 b.2 && bindingsBeq as bs
  | _, _ => false

/-- The derived equality of `Body` (exhaustiveness.rs 380). -/
def bodyBeq (a b : Body B) : Bool := a.clause == b.clause && bindingsBeq a.bindings b.bindings

/-- The derived equality of `RuntimeCheck` (exhaustiveness.rs 671). -/
def checkBeq : Check B → Check B → Bool
  | .int i, .int j => i == j
  | .float f, .float g => f == g
  | .str s, .str t => s == t
  | .strPrefix s v, .strPrefix t w => s == t && v == w
  | .tuple vs, .tuple ws => vs == ws
  | .bits t, .bits u => t == u
  | .variant e i vs, .variant f j ws => e == f && i == j && vs == ws
  | .nil, .nil => true
  | .cons v w, .cons v' w' => v == v' && w == w'
  | _, _ => false

/-- Lists of checks. -/
def checksBeq : List (Check B) → List (Check B) → Bool
  | [], [] => true
  | a :: as, b :: bs => checkBeq a b && checksBeq as bs
  | _, _ => false

/-- The derived equality of `FallbackCheck` (exhaustiveness.rs 2104). -/
def fallbackBeq : Fallback B → Fallback B → Bool
  | .infinite, .infinite => true
  | .check c, .check d => checkBeq c d
  | .catchAll l, .catchAll m => checksBeq l m
  | _, _ => false

mutual
/-- The derived equality of `Decision` (exhaustiveness.rs 2049), used in decision.rs 753. -/
def decisionBeq : Decision B → Decision B → Bool
  | .run b, .run c => bodyBeq b c
  | .guard g b d, .guard h c e => g == h && bodyBeq b c && decisionBeq d e
  | .switch v cs d f, .switch w es e g =>
    v == w && choicesBeq cs es && decisionBeq d e && fallbackBeq f g
  | .fail, .fail => true
  | _, _ => false
/-- Choices. -/
def choicesBeq : Choices B → Choices B → Bool
  | .nil, .nil => true
  | .cons c d cs, .cons e f es => checkBeq c e && decisionBeq d f && choicesBeq cs es
  | _, _ => false
end

/-! ### How often a value is used -/

/-- The variables of a check, decision.rs 1055-1068. -/
def introduced : Check B → List Var
  | .strPrefix _ rest => [rest]
  | .tuple vs => vs
  | .variant _ _ vs => vs
  | .cons first rest => [first, rest]
  | _ => []

/-- The checks of choices. -/
def choiceChecks : Choices B → List (Check B)
  | .nil => []
  | .cons c _ cs => c :: choiceChecks cs

/-- decision.rs 1042-1072 `derived_variables`. -/
def derived (v : Var) (cs : Choices B) (f : Fallback B) : List Nat :=
  v.id :: ((choiceChecks cs ++ match f with | .check c => [c] | _ => []).flatMap introduced).map
    Var.id

/-- decision.rs 502-514 `body_uses_value`. -/
def bodyUses (ids : List Nat) (b : Body B) : Bool :=
  b.bindings.any fun p => match p.2 with
    | .var v => ids.contains v.id
    | .const _ => false
    | .bitSlice v _ => ids.contains v.id
    | .strSlice v _ => ids.contains v.id

/-- decision.rs 482-493 `body_returns_subject`. -/
def Ctx.returnsSubject (ctx : Ctx) (b : Body B) : Bool :=
  !ctx.letAssert && (ctx.returned b.clause).isSome

mutual
/-- decision.rs 432-471 `decision_uses_value`. -/
def uses (ctx : Ctx) (ids : List Nat) : Decision B → Bool
  | .fail => false
  | .run b => if ctx.returnsSubject b then false else bodyUses ids b
  | .guard _ b d => bodyUses ids b || uses ctx ids d
  | .switch v cs d _ => ids.contains v.id || usesChoices ctx ids cs || uses ctx ids d
/-- The same for choices. -/
def usesChoices (ctx : Ctx) (ids : List Nat) : Choices B → Bool
  | .nil => false
  | .cons _ d cs => uses ctx ids d || usesChoices ctx ids cs
end

/-- decision.rs 406-428 `value_used_more_than_once`. -/
def usedTwice (ctx : Ctx) (v : Var) (cs : Choices B) (d : Decision B) (f : Fallback B) : Bool :=
  match cs with
  | .cons _ _ (.cons _ _ _) => true
  | _ => usesChoices ctx (derived v cs f) cs || uses ctx (derived v cs f) d

/-! ### Code for decisions -/

/-- The end of `Run` (decision.rs 364-373 with 516-550). -/
def Ctx.runCode (ctx : Ctx) (bs : List (Name × JExpr B)) (clause : Nat) : Code B :=
  if ctx.letAssert then (if bs.isEmpty then .empty else .assign bs)
  else match ctx.returned clause with
    | some i => .ret clause i
    | none => .body bs clause

/-- decision.rs 691-768: the code of a choice with its condition, merged with the code inside. -/
def merge (fallback : Decision B) (c : Cond B) : CaseBody B → List (Cond B) × Code B
  | .ifOnly cs body => (c :: cs, body)
  | .ifElse cs yes no d =>
    if decisionBeq d fallback then (c :: cs, yes) else ([c], (CaseBody.ifElse cs yes no d).code)
  | .statements code => ([c], code)
  | .chain code => ([c], code)

/-- `if`, `else if`, .., `else`. -/
def ifChain : List (List (Cond B) × Code B) → Code B → Code B
  | [], no => no
  | (cs, yes) :: l, no => .ite cs yes (ifChain l no)

/-- decision.rs 770-844: the choices put together with the code of the fallback. -/
def assemble (l : List (List (Cond B) × Code B)) (no : CaseBody B) (fallback : Decision B) :
    CaseBody B :=
  match l with
  | [(cs, yes)] => if no.isEmpty then .ifOnly cs yes else .ifElse cs yes no.code fallback
  | l => .chain (ifChain l (if no.isEmpty then .empty else no.code))

/-- decision.rs 846-854: declarations before the chain of choices. -/
def declare : List (JName × JExpr B) → CaseBody B → CaseBody B
  | [], b => b
  | l, b => .statements (l.foldr (fun p c => .lets p.1 p.2 c) b.code)

/-- decision.rs 616-633: the variable for the value that is switched on. -/
def S.bindValue (s : S B) (v : Var) (twice : Bool) : S B × List (JName × JExpr B) :=
  if (s.names.lookup v.id).isNone && twice then
    ({ s with names := (v.id, .made s.next) :: s.names, next := s.next + 1 },
      [(.made s.next, s.getValue v)])
  else (s, [])

/-- decision.rs 635-647: the variable for the first character code. -/
def S.bindChar (s : S B) (v : Var) (several : Bool) :
    S B × Option JName × List (JName × JExpr B) :=
  if several then
    ({ s with next := s.next + 1 }, some (.made s.next),
      [(.made s.next, .charCode (s.getValue v))])
  else (s, none, [])

/-- `inside_new_scope` (decision.rs 857-884) for the variables of the model. -/
def S.leave (old new : S B) : S B := { new with names := old.names }

mutual
/-- decision.rs 323-388 `decision` with `switch` (552-855) and `decision_guard` (886-953). -/
def gen (ctx : Ctx) : S B → Decision B → CaseBody B × S B
  | s, .fail => (.statements (if ctx.letAssert then .throws else .panic), s)
  | s, .run b => (.statements (ctx.runCode (s.bindings b.bindings) b.clause), s)
  | s, .guard g b d =>
    let checked := s.bindings (b.bindings.filter fun p => (ctx.refs g).contains p.1)
    let others := s.bindings (b.bindings.filter fun p => !(ctx.refs g).contains p.1)
    let yes := ctx.runCode others b.clause
    let no := gen ctx s d
    let result : CaseBody B :=
      if checked.isEmpty then
        if no.1.isEmpty then .ifOnly [.guard g] yes else .ifElse [.guard g] yes no.1.code d
      else .statements (.guarded checked g yes (if no.1.isEmpty then .empty else no.1.code))
    (result, s.leave no.2)
  | s, .switch v .nil d f =>
    let r := gen ctx (s.recordFallback v f) d
    (r.1, s.leave r.2)
  | s, .switch v (.cons c e cs) d f =>
    let b := s.bindValue v (usedTwice ctx v (.cons c e cs) d f)
    let k := b.1.bindChar v (multipleChars false (.cons c e cs))
    let l := genChoices ctx v k.2.1 d k.1 (.cons c e cs)
    let s2 := l.2.recordFallback v f
    let no := gen ctx s2 d
    (declare (b.2 ++ k.2.2) (assemble l.1 no.1 d), s2.leave no.2)
/-- The loop over the choices, decision.rs 649-804. -/
def genChoices (ctx : Ctx) (v : Var) (first : Option JName) (fallback : Decision B) :
    S B → Choices B → List (List (Cond B) × Code B) × S B
  | s, .nil => ([], s)
  | s, .cons c d cs =>
    let s1 := s.record v c
    let r := gen ctx s1 d
    let l := genChoices ctx v first fallback (s1.leave r.2) cs
    (merge fallback (s1.cond ctx v first c) r.1 :: l.1, l.2)
end

/-- decision.rs 1284-1329: the subjects have names, from the `i`-th on. -/
def S.subjects : Nat → List Var → S B
  | _, [] => ⟨[], [], 0⟩
  | i, v :: vs =>
    let s := S.subjects (i + 1) vs
    ⟨(v.id, .name (.subject i)) :: s.values, (v.id, .subject i) :: s.names, s.next⟩

/-- decision.rs 34-101 `case` and 1074-1180 `let_`, without the declarations of the subjects and of
the variables of a `let assert`. -/
def genCase (ctx : Ctx) (subjects : List Var) (d : Decision B) : Code B :=
  (gen ctx (S.subjects 0 subjects) d).1.code

end

end Verif.JsCase
