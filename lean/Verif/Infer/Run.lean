import Verif.Infer.Syntax

/-!
# Running modules

What modules do, written from the language tour. It knows nothing about types: an operation that is applied to a value it is not made for is
`wrong`. That is what a type checker has to rule out. A `case` without a matching clause has an outcome of its own (that it does not happen is
the subject of `Case`).
-/

namespace Verif.Infer

inductive Value where
  | int (n : Int)
  | float (bits : Nat)
  | str (s : List Char)
  | tuple (vs : List Value)
  | nil
  | cons (head tail : Value)
  | record (tag : String) (fields : List Value)
  | closure (parameters : List Param) (body : List Stmt) (env : List (String × Value))
  /-- A constructor with fields. -/
  | ctor (tag : String)
  /-- A function of the module. -/
  | fn (name : String)

abbrev Env := List (String × Value)

inductive Res (α : Type) where
  | ok (a : α)
  | panic
  | noMatch
  | timeout
  | wrong

def Res.bind {α β : Type} : Res α → (α → Res β) → Res β
  | .ok a, f => f a
  | .panic, _ => .panic
  | .noMatch, _ => .noMatch
  | .timeout, _ => .timeout
  | .wrong, _ => .wrong

def Res.ofOption {α : Type} : Option α → Res α
  | some a => .ok a
  | none => .wrong

/-- What the target does with floats, and when it takes two functions to be equal. -/
structure Machine where
  floatOp : Op → Nat → Nat → Nat
  floatCompare : Op → Nat → Nat → Bool
  sameFunction : Value → Value → Bool

def Value.bool (b : Bool) : Value := .record (if b then "True" else "False") []

/-- The variants of all the types, with the number of their fields. -/
def variants (types : List CustomType) : List Variant := types.flatMap (·.variants)

def findVariant (types : List CustomType) (tag : String) : Option Variant := (variants types).find? fun v => v.name = tag

/-- Two tags are of the same custom type. -/
def sameType (types : List CustomType) (t u : String) : Bool :=
  types.any fun ct => (ct.variants.any fun v => v.name = t) && (ct.variants.any fun v => v.name = u)

def Value.isFunction : Value → Bool
  | .closure .. => true
  | .ctor _ => true
  | .fn _ => true
  | _ => false

def both : Option Bool → Option Bool → Option Bool
  | some a, some b => some (a && b)
  | _, _ => none

mutual

/-- `==`: only values of the same kind can be compared. -/
def Value.eq (M : Machine) (types : List CustomType) : Value → Value → Option Bool
  | .int a, .int b => some (decide (a = b))
  | .float a, .float b => some (M.floatCompare .eq a b)
  | .str a, .str b => some (decide (a = b))
  | .tuple as, .tuple bs => eqAll M types as bs
  | .nil, .nil => some true
  | .nil, .cons _ _ => some false
  | .cons _ _, .nil => some false
  | .cons a as, .cons b bs => both (Value.eq M types a b) (Value.eq M types as bs)
  | .record t as, .record u bs => if t = u then eqAll M types as bs else if sameType types t u then some false else none
  | a, b => if a.isFunction && b.isFunction then some (M.sameFunction a b) else none

def eqAll (M : Machine) (types : List CustomType) : List Value → List Value → Option Bool
  | [], [] => some true
  | a :: as, b :: bs => both (Value.eq M types a b) (eqAll M types as bs)
  | _, _ => none

end

/-- The operators that evaluate both of their operands. -/
def binary (M : Machine) (types : List CustomType) : Op → Value → Value → Option Value
  | .eq, a, b => (Value.eq M types a b).map .bool
  | .notEq, a, b => (Value.eq M types a b).map fun r => .bool !r
  | .ltInt, .int a, .int b => some (.bool (decide (a < b)))
  | .leInt, .int a, .int b => some (.bool (decide (a ≤ b)))
  | .gtInt, .int a, .int b => some (.bool (decide (b < a)))
  | .geInt, .int a, .int b => some (.bool (decide (b ≤ a)))
  | .ltFloat, .float a, .float b => some (.bool (M.floatCompare .ltFloat a b))
  | .leFloat, .float a, .float b => some (.bool (M.floatCompare .leFloat a b))
  | .gtFloat, .float a, .float b => some (.bool (M.floatCompare .gtFloat a b))
  | .geFloat, .float a, .float b => some (.bool (M.floatCompare .geFloat a b))
  | .addInt, .int a, .int b => some (.int (a + b))
  | .subInt, .int a, .int b => some (.int (a - b))
  | .multInt, .int a, .int b => some (.int (a * b))
  | .divInt, .int a, .int b => some (.int (if b = 0 then 0 else a.tdiv b))
  | .remInt, .int a, .int b => some (.int (if b = 0 then 0 else a.tmod b))
  | .addFloat, .float a, .float b => some (.float (M.floatOp .addFloat a b))
  | .subFloat, .float a, .float b => some (.float (M.floatOp .subFloat a b))
  | .multFloat, .float a, .float b => some (.float (M.floatOp .multFloat a b))
  | .divFloat, .float a, .float b => some (.float (M.floatOp .divFloat a b))
  | .concat, .str a, .str b => some (.str (a ++ b))
  | _, _, _ => none

def Value.isTrue : Value → Option Bool
  | .record tag [] => if tag = "True" then some true else if tag = "False" then some false else none
  | _ => none

/-! ### Patterns -/

/-- The rest of a string after a prefix. -/
def stripPrefix : List Char → List Char → Option (List Char)
  | [], s => some s
  | c :: cs, d :: ds => if c = d then stripPrefix cs ds else none
  | _ :: _, [] => none

def bindOption : Option String → Value → Env
  | some x, v => [(x, v)]
  | none, _ => []

/-- Whether a value matches a pattern, and with which variables. -/
inductive Match where
  | yes (env : Env)
  | no
  | wrong

def Match.and : Match → Match → Match
  | .wrong, _ => .wrong
  | _, .wrong => .wrong
  | .no, _ => .no
  | .yes _, .no => .no
  | .yes a, .yes b => .yes (a ++ b)

/-- A last variable. -/
def Match.with (x : String) (v : Value) : Match → Match
  | .yes b => .yes (b ++ [(x, v)])
  | r => r

mutual

def Pattern.run (M : Machine) (types : List CustomType) : Pattern → Value → Match
  | .discard, _ => .yes []
  | .var x, v => .yes [(x, v)]
  | .int n, .int m => if n = m then .yes [] else .no
  | .float n, .float m => if M.floatCompare .eq n m then .yes [] else .no
  | .string s, .str t => if s = t then .yes [] else .no
  | .assign p x, v => (Pattern.run M types p v).with x v
  | .tuple ps, .tuple vs => Pattern.runAll M types ps vs
  | .list ps none, v => Pattern.runList M types ps v
  | .list ps (some q), v =>
    match (Pattern.runItems M types ps v).2 with
    | some rest => (Pattern.runItems M types ps v).1.and (Pattern.run M types q rest)
    | none => (Pattern.runItems M types ps v).1
  | .ctor tag ps, .record tag' vs =>
    if tag = tag' then Pattern.runAll M types ps vs else if sameType types tag tag' then .no else .wrong
  | .prefix s left right, .str t =>
    match stripPrefix s t with
    | some rest => .yes (bindOption left (.str s) ++ bindOption right (.str rest))
    | none => .no
  | _, _ => .wrong

def Pattern.runAll (M : Machine) (types : List CustomType) : List Pattern → List Value → Match
  | [], [] => .yes []
  | p :: ps, v :: vs => (Pattern.run M types p v).and (Pattern.runAll M types ps vs)
  | _, _ => .wrong

/-- `[p, …]`. -/
def Pattern.runList (M : Machine) (types : List CustomType) : List Pattern → Value → Match
  | [], .nil => .yes []
  | [], .cons _ _ => .no
  | _ :: _, .nil => .no
  | p :: ps, .cons v w => (Pattern.run M types p v).and (Pattern.runList M types ps w)
  | _, _ => .wrong

/-- The first elements of a list, and the rest if it is long enough. -/
def Pattern.runItems (M : Machine) (types : List CustomType) : List Pattern → Value → Match × Option Value
  | [], .nil => (.yes [], some .nil)
  | [], .cons v w => (.yes [], some (.cons v w))
  | _ :: _, .nil => (.no, none)
  | p :: ps, .cons v w =>
    ((Pattern.run M types p v).and (Pattern.runItems M types ps w).1, (Pattern.runItems M types ps w).2)
  | _, _ => (.wrong, none)

end

/-! ### Guards -/

def Guard.run (M : Machine) (types : List CustomType) (env : Env) : Guard → Option Value
  | .var x => env.lookup x
  | .int n => some (.int n)
  | .float n => some (.float n)
  | .string s => some (.str s)
  | .block g => Guard.run M types env g
  | .not g => ((Guard.run M types env g).bind Value.isTrue).map fun b => .bool !b
  | .bin .and l r =>
    match (Guard.run M types env l).bind Value.isTrue, (Guard.run M types env r).bind Value.isTrue with
    | some a, some b => some (.bool (a && b))
    | _, _ => none
  | .bin .or l r =>
    match (Guard.run M types env l).bind Value.isTrue, (Guard.run M types env r).bind Value.isTrue with
    | some a, some b => some (.bool (a || b))
    | _, _ => none
  | .bin op l r =>
    match Guard.run M types env l, Guard.run M types env r with
    | some a, some b => binary M types op a b
    | _, _ => none
  | .index g i =>
    match Guard.run M types env g with
    | some (.tuple vs) => vs[i]?
    | _ => none

/-- Whether a guard holds. -/
def holds (M : Machine) (types : List CustomType) (env : Env) : Option Guard → Option Bool
  | none => some true
  | some g => (Guard.run M types env g).bind Value.isTrue

/-- The first of some alternatives whose patterns match and for which the guard holds. -/
def choose (M : Machine) (types : List CustomType) (env : Env) (g : Option Guard) : List (List Pattern) → List Value → Match
  | [], _ => .no
  | ps :: rest, vs =>
    match Pattern.runAll M types ps vs with
    | .wrong => .wrong
    | .no => choose M types env g rest vs
    | .yes b =>
      match holds M types (b ++ env) g with
      | none => .wrong
      | some true => .yes b
      | some false => choose M types env g rest vs

/-! ### Expressions -/

/-- Arguments for parameters. -/
def bindParameters : List Param → List Value → Option Env
  | [], [] => some []
  | p :: ps, v :: vs => (bindParameters ps vs).map (bindOption p.name v ++ ·)
  | _, _ => none

/-- A function or a constructor of the module. -/
def global (types : List CustomType) (funs : List Fun) (x : String) : Option Value :=
  if funs.any fun f => f.name = x then some (.fn x)
  else
    match findVariant types x with
    | some ⟨_, []⟩ => some (.record x [])
    | some _ => some (.ctor x)
    | none => none

/-- The field with a label. -/
def getField (types : List CustomType) (label : String) : Value → Option Value
  | .record tag vs =>
    match findVariant types tag with
    | some v => (v.fields.findIdx? fun f => f.1 = some label).bind fun i => vs[i]?
    | none => none
  | _ => none

/-- The message of a panic has to be a string. -/
def panicWith {α : Type} : Value → Res α
  | .str _ => .panic
  | _ => .wrong

section
variable (M : Machine) (types : List CustomType) (funs : List Fun) (ap : Value → List Value → Res Value)

mutual

def expr (env : Env) : Expr → Res Value
  | .int n => .ok (.int n)
  | .float n => .ok (.float n)
  | .string s => .ok (.str s)
  | .var x => Res.ofOption ((env.lookup x).or (global types funs x))
  | .fn ps _ body => .ok (.closure ps body env)
  | .call f es => (expr env f).bind fun v => (exprs env es).bind fun vs => ap v vs
  | .bin .and l r => (expr env l).bind fun v =>
    match v.isTrue with
    | some true => (expr env r).bind fun w => Res.ofOption (w.isTrue.map .bool)
    | some false => .ok (.bool false)
    | none => .wrong
  | .bin .or l r => (expr env l).bind fun v =>
    match v.isTrue with
    | some true => .ok (.bool true)
    | some false => (expr env r).bind fun w => Res.ofOption (w.isTrue.map .bool)
    | none => .wrong
  | .bin op l r => (expr env l).bind fun v => (expr env r).bind fun w => Res.ofOption (binary M types op v w)
  | .not e => (expr env e).bind fun v => Res.ofOption (v.isTrue.map fun b => .bool !b)
  | .neg e => (expr env e).bind fun v =>
    match v with
    | .int n => .ok (.int (-n))
    | _ => .wrong
  | .block body => stmts env body
  | .tuple es => (exprs env es).bind fun vs => .ok (.tuple vs)
  | .index e i => (expr env e).bind fun v =>
    match v with
    | .tuple vs => Res.ofOption vs[i]?
    | _ => .wrong
  | .list es tail => (exprs env es).bind fun vs =>
    match tail with
    | none => .ok (vs.foldr .cons .nil)
    | some e => (expr env e).bind fun w =>
      match w with
      | .nil => .ok (vs.foldr .cons .nil)
      | .cons a b => .ok (vs.foldr .cons (.cons a b))
      | _ => .wrong
  | .field e label => (expr env e).bind fun v => Res.ofOption (getField types label v)
  | .case_ subjects cs => (exprs env subjects).bind fun vs => clauses env vs cs
  | .fail none => .panic
  | .fail (some e) => (expr env e).bind panicWith

def exprs (env : Env) : List Expr → Res (List Value)
  | [] => .ok []
  | e :: es => (expr env e).bind fun v => (exprs env es).bind fun vs => .ok (v :: vs)

/-- Statements; the value of the last one is the value of all. -/
def stmts (env : Env) : List Stmt → Res Value
  | [] => .wrong
  | [.expr e] => expr env e
  | .expr e :: s :: ss => (expr env e).bind fun _ => stmts env (s :: ss)
  | [.let_ p _ e] => (expr env e).bind fun v =>
    match Pattern.run M types p v with
    | .yes _ => .ok v
    | .no => .noMatch
    | .wrong => .wrong
  | .let_ p _ e :: s :: ss => (expr env e).bind fun v =>
    match Pattern.run M types p v with
    | .yes b => stmts (b ++ env) (s :: ss)
    | .no => .noMatch
    | .wrong => .wrong
  | [.letAssert p _ e message] => (expr env e).bind fun v =>
    match Pattern.run M types p v with
    | .yes _ => .ok v
    | .no => failed env message
    | .wrong => .wrong
  | .letAssert p _ e message :: s :: ss => (expr env e).bind fun v =>
    match Pattern.run M types p v with
    | .yes b => stmts (b ++ env) (s :: ss)
    | .no => failed env message
    | .wrong => .wrong
  | [.assert e message] => (expr env e).bind fun v =>
    match v.isTrue with
    | some true => .ok (.record "Nil" [])
    | some false => failed env message
    | none => .wrong
  | .assert e message :: s :: ss => (expr env e).bind fun v =>
    match v.isTrue with
    | some true => stmts env (s :: ss)
    | some false => failed env message
    | none => .wrong

/-- What `let assert` and `assert` do if they fail: their message is evaluated. -/
def failed (env : Env) : Option Expr → Res Value
  | none => .panic
  | some e => (expr env e).bind panicWith

/-- The first clause that matches. -/
def clauses (env : Env) (vs : List Value) : List Clause → Res Value
  | [] => .noMatch
  | .mk ps alternatives g body :: cs =>
    match choose M types env g (ps :: alternatives) vs with
    | .yes b => expr (b ++ env) body
    | .no => clauses env vs cs
    | .wrong => .wrong

end
end

/-- Calls of functions, up to a number of nested calls. -/
def apply (M : Machine) (types : List CustomType) (funs : List Fun) : Nat → Value → List Value → Res Value
  | 0, _, _ => .timeout
  | n + 1, .closure params body env, vs =>
    match bindParameters params vs with
    | some b => stmts M types funs (apply M types funs n) (b ++ env) body
    | none => .wrong
  | _ + 1, .ctor tag, vs =>
    match findVariant types tag with
    | some v => if vs.length = v.fields.length then .ok (.record tag vs) else .wrong
    | none => .wrong
  | n + 1, .fn f, vs =>
    match funs.find? fun g => g.name = f with
    | some g =>
      match bindParameters g.parameters vs with
      | some b => stmts M types funs (apply M types funs n) b g.body
      | none => .wrong
    | none => .wrong
  | _ + 1, _, _ => .wrong

/-- The function of a module, called with some arguments. -/
def Module.call (m : Module) (M : Machine) (n : Nat) (f : String) (arguments : List Value) : Res Value :=
  apply M m.allTypes m.funs n (.fn f) arguments

end Verif.Infer
