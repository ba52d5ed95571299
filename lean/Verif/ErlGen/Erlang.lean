import Verif.Strings.Spec
import Verif.ErlText.Spec
import Verif.ErlGen.Effects

/-!
# What Erlang programs mean

An evaluator for the syntax trees of Erlang (`ErlText/Spec.lean`), written from the Erlang reference manual
("Expressions") and from the rules of `erl_lint` about variables. It knows nothing about Gleam.

A variable can be bound once. Erlang compares when a bound variable is matched again; here the evaluation is stuck
instead, and so it is when two operands of an expression bind the same variable. A variable bound inside of an
expression can be used after it. Operands are evaluated from left to right. Strings are sequences of characters: binaries that are not UTF-8 do not occur. Floats do not occur, so that
`/=` is the negation of `=:=`.

Calls are counted, and time is out when the number of nested calls exceeds a given number. Functions of other modules
are given (`outside`), may have effects, and may call the functions they are given.
-/

namespace Verif.ErlGen.Erlang

open Verif.ErlText.Read

abbrev Text := List Char

inductive Value where
  | int (n : Int)
  | str (s : List Char)
  | atom (name : Text)
  | nil
  | cons (head tail : Value)
  | tuple (items : List Value)
  /-- A map whose keys are atoms. -/
  | map (fields : List (Text × Value))
  | closure (parameters : List Text) (body : List Ast) (env : List (Text × Value))
  /-- `fun module:name/arity`. -/
  | ref (module : Option Text) (name : Text) (arity : Nat)

abbrev Env := List (Text × Value)

/-- Errors have a reason. -/
abbrev Run (W α : Type) := M W Value α

/-- A value and the variables that have been bound. -/
abbrev Result := Value × Env

def Value.bool : Bool → Value
  | true => .atom "true".toList
  | false => .atom "false".toList

def keys (e : Env) : List Text := e.map Prod.fst

/-- Bindings of two operands. -/
def join (a b : Env) : Option Env := if (keys a).all (fun k => decide (k ∉ keys b)) then some (a ++ b) else none

/-- The characters of a string literal. -/
def stringValue : Nat → Text → Option (List Char)
  | _, [] => some []
  | 0, _ :: _ => none
  | n + 1, c :: cs =>
    match Strings.Spec.erlangChar (c :: cs) with
    | some (d, rest) => (stringValue n rest).map (d :: ·)
    | none => none

def string (content : Text) : Option (List Char) := stringValue content.length content

mutual

/-- `=:=`. Functions and maps are not compared. -/
def Value.eq : Value → Value → Option Bool
  | .closure _ _ _, _ => none
  | .ref _ _ _, _ => none
  | .map _, _ => none
  | _, .closure _ _ _ => none
  | _, .ref _ _ _ => none
  | _, .map _ => none
  | .int a, .int b => some (decide (a = b))
  | .str a, .str b => some (decide (a = b))
  | .atom a, .atom b => some (decide (a = b))
  | .nil, .nil => some true
  | .cons a as, .cons b bs =>
    match a.eq b with
    | some true => as.eq bs
    | r => r
  | .tuple as, .tuple bs => eqAll as bs
  | _, _ => some false

def eqAll : List Value → List Value → Option Bool
  | [], [] => some true
  | a :: as, b :: bs =>
    match a.eq b with
    | some true => eqAll as bs
    | r => r
  | _, _ => some false

end

/-- The reasons of errors. -/
def badarg : Value := .atom "badarg".toList
def badarith : Value := .atom "badarith".toList
def badmatch (v : Value) : Value := .tuple [.atom "badmatch".toList, v]
def caseClause (v : Value) : Value := .tuple [.atom "case_clause".toList, v]

def arithmetic {W : Type} (f : Int → Int → Run W Value) : Value → Value → Run W Value
  | .int a, .int b => f a b
  | _, _ => M.error badarith

/-- The order of values is only given for integers. -/
def compare {W : Type} (f : Int → Int → Bool) : Value → Value → Run W Value
  | .int a, .int b => M.pure (.bool (f a b))
  | _, _ => M.stuck

/-- The operators that evaluate both operands. -/
def binary {W : Type} : Op → Value → Value → Run W Value
  | .exact, a, b => M.ofOption ((a.eq b).map .bool)
  | .ne, a, b => M.ofOption ((a.eq b).map fun r => .bool !r)
  | .notExact, a, b => M.ofOption ((a.eq b).map fun r => .bool !r)
  | .lt, a, b => compare (fun a b => decide (a < b)) a b
  | .le, a, b => compare (fun a b => decide (a ≤ b)) a b
  | .gt, a, b => compare (fun a b => decide (b < a)) a b
  | .ge, a, b => compare (fun a b => decide (b ≤ a)) a b
  | .plus, a, b => arithmetic (fun a b => M.pure (.int (a + b))) a b
  | .minus, a, b => arithmetic (fun a b => M.pure (.int (a - b))) a b
  | .times, a, b => arithmetic (fun a b => M.pure (.int (a * b))) a b
  | .div, a, b => arithmetic (fun a b => if b = 0 then M.error badarith else M.pure (.int (a.tdiv b))) a b
  | .rem, a, b => arithmetic (fun a b => if b = 0 then M.error badarith else M.pure (.int (a.tmod b))) a b
  | _, _, _ => M.stuck

def unary {W : Type} : Op → Value → Run W Value
  | .minus, .int n => M.pure (.int (-n))
  | .minus, _ => M.error badarith
  | .not, .atom a =>
    if a = "true".toList then M.pure (.bool false)
    else if a = "false".toList then M.pure (.bool true)
    else M.error badarg
  | .not, _ => M.error badarg
  | _, _ => M.stuck

/-- `erlang:element/2`. -/
def element {W : Type} : List Value → Run W Value
  | [.int n, .tuple vs] =>
    match n with
    | .ofNat (i + 1) =>
      match vs[i]? with
      | some v => M.pure v
      | none => M.error badarg
    | _ => M.error badarg
  | [_, _] => M.error badarg
  | _ => M.stuck

/-! ### Patterns -/

/-- The rest of a string after a prefix. -/
def stripPrefix : List Char → List Char → Option (List Char)
  | [], s => some s
  | c :: cs, d :: ds => if c = d then stripPrefix cs ds else none
  | _ :: _, [] => none

/-- Both parts have to match, and bind different variables. -/
def both : Match Value → Match Value → Match Value
  | .yes a, .yes b =>
    match join a b with
    | some c => .yes c
    | none => .bad
  | .yes _, r => r
  | r, _ => r

/-- A variable of a pattern; `_` is not bound. -/
def bindVar (x : Text) (v : Value) : Match Value := if x = ['_'] then .yes [] else .yes [(x, v)]

mutual

/-- Matches a value with a pattern. The only patterns for binaries are a prefix and the rest. -/
def pattern : Ast → Value → Match Value
  | .var x, v => bindVar x v
  | .atom a, v =>
    match v with
    | .atom b => if a = b then .yes [] else .no
    | _ => .no
  | .int n, v =>
    match v with
    | .int m => if (n : Int) = m then .yes [] else .no
    | _ => .no
  | .unary .minus (.int n), v =>
    match v with
    | .int m => if -(n : Int) = m then .yes [] else .no
    | _ => .no
  | .sigil content, v =>
    match string content with
    | none => .bad
    | some t =>
      match v with
      | .str s => if s = t then .yes [] else .no
      | _ => .no
  | .nil, v =>
    match v with
    | .nil => .yes []
    | _ => .no
  | .cons p q, v =>
    match v with
    | .cons a b => both (pattern p a) (pattern q b)
    | _ => .no
  | .tuple ps, v =>
    match v with
    | .tuple vs => patterns ps vs
    | _ => .no
  | .binary .bind p q, v => both (pattern q v) (pattern p v)
  | .bits [.mk (.string content) none [(['u', 't', 'f', '8'], none)], .mk (.var x) none [(['b', 'i', 'n', 'a', 'r', 'y'], none)]],
    v =>
    match string content with
    | none => .bad
    | some t =>
      match v with
      | .str s =>
        match stripPrefix t s with
        | some rest => bindVar x (.str rest)
        | none => .no
      | _ => .no
  | _, _ => .bad

def patterns : List Ast → List Value → Match Value
  | [], [] => .yes []
  | p :: ps, v :: vs => both (pattern p v) (patterns ps vs)
  | _, _ => .no

end

/-- The variables of a pattern are new. -/
def fresh (env : Env) : Match Value → Match Value
  | .yes b => if (keys b).all (fun k => decide (k ∉ keys env)) then .yes b else .bad
  | r => r

/-! ### Expressions -/

mutual

/-- The expressions that are allowed in guards. -/
def legal : Ast → Bool
  | .var _ | .atom _ | .int _ | .string _ | .sigil _ | .nil => true
  | .cons h t => legal h && legal t
  | .tuple es => legals es
  | .bits ss => legalSegments ss
  | .unary _ e => legal e
  | .binary .bind _ _ => false
  | .binary _ l r => legal l && legal r
  | .call (.remote (.atom m) (.atom f)) es =>
    decide (m = "erlang".toList) && decide (f = "element".toList) && legals es
  | _ => false

def legals : List Ast → Bool
  | [] => true
  | e :: es => legal e && legals es

def legalSegments : List AstSegment → Bool
  | [] => true
  | .mk e none _ :: ss => legal e && legalSegments ss
  | .mk _ (some _) _ :: _ => false

end

/-- Values for parameters; `_` is not bound. The other names have to be different. -/
def bindParameters : List Text → List Value → Option Env
  | [], [] => some []
  | p :: ps, v :: vs =>
    (bindParameters ps vs).bind fun b =>
      if p = ['_'] then some b else if p ∈ keys b then none else some ((p, v) :: b)
  | _, _ => none

/-- Two operands. -/
def joined {W α : Type} (a b : Env) (f : Env → Run W α) : Run W α := (M.ofOption (join a b)).bind f

variable {W : Type} (ap : Value → List Value → Run W Value)

mutual

def expr (env : Env) : Ast → Run W Result
  | .var x => M.ofOption ((env.lookup x).map (·, []))
  | .atom a => M.pure (.atom a, [])
  | .int n => M.pure (.int n, [])
  | .sigil content => M.ofOption ((string content).map (.str ·, []))
  | .nil => M.pure (.nil, [])
  | .cons h t => (expr env h).bind fun (v, a) => (expr env t).bind fun (w, b) =>
    joined a b fun c => M.pure (.cons v w, c)
  | .tuple es => (exprs env es).bind fun (vs, a) => M.pure (.tuple vs, a)
  | .bits ss => (segments env ss).bind fun (s, a) => M.pure (.str s, a)
  | .map fs => (fields env fs).bind fun (m, a) => M.pure (.map m, a)
  | .block body => seq env body
  | .call (.remote (.atom m) (.atom f)) es => (exprs env es).bind fun (vs, a) =>
    if m = "erlang".toList ∧ f = "error".toList then
      match vs with
      | [v] => M.error v
      | _ => M.stuck
    else if m = "erlang".toList ∧ f = "element".toList then (element vs).bind fun v => M.pure (v, a)
    else (ap (.ref (some m) f vs.length) vs).bind fun v => M.pure (v, a)
  | .call (.atom f) es => (exprs env es).bind fun (vs, a) =>
    (ap (.ref none f vs.length) vs).bind fun v => M.pure (v, a)
  | .call f es => (expr env f).bind fun (v, a) => (exprs env es).bind fun (vs, b) =>
    joined a b fun c => (ap v vs).bind fun r => M.pure (r, c)
  | .function ps body => M.pure (.closure ps body env, [])
  | .reference m f arity => M.pure (.ref m f arity, [])
  | .unary op e => (expr env e).bind fun (v, a) => (unary op v).bind fun r => M.pure (r, a)
  | .binary .bind p e => (expr env e).bind fun (v, a) =>
    match fresh (a ++ env) (pattern p v) with
    | .yes b => M.pure (v, b ++ a)
    | .no => M.error (badmatch v)
    | .bad => M.stuck
  | .binary .andalso l r => (expr env l).bind fun (v, a) =>
    match v with
    | .atom t =>
      if t = "true".toList then (expr (a ++ env) r).bind fun (w, b) => M.pure (w, b ++ a)
      else if t = "false".toList then M.pure (.bool false, a)
      else M.error badarg
    | _ => M.error badarg
  | .binary .orelse l r => (expr env l).bind fun (v, a) =>
    match v with
    | .atom t =>
      if t = "true".toList then M.pure (.bool true, a)
      else if t = "false".toList then (expr (a ++ env) r).bind fun (w, b) => M.pure (w, b ++ a)
      else M.error badarg
    | _ => M.error badarg
  | .binary op l r => (expr env l).bind fun (v, a) => (expr env r).bind fun (w, b) =>
    joined a b fun c => (binary op v w).bind fun r => M.pure (r, c)
  | .case_ s cs => (expr env s).bind fun (v, a) => (clauses (a ++ env) v cs).bind fun (w, b) => M.pure (w, b ++ a)
  | _ => M.stuck

/-- Operands: each is evaluated with the variables that are bound before all of them. -/
def exprs (env : Env) : List Ast → Run W (List Value × Env)
  | [] => M.pure ([], [])
  | e :: es => (expr env e).bind fun (v, a) => (exprs env es).bind fun (vs, b) =>
    joined a b fun c => M.pure (v :: vs, c)

/-- Segments: a literal string with the type `utf8`, or a binary with the type `binary`. -/
def segments (env : Env) : List AstSegment → Run W (List Char × Env)
  | [] => M.pure ([], [])
  | .mk (.string content) none types :: ss =>
    if types = [("utf8".toList, none)] then
      (M.ofOption (string content)).bind fun s => (segments env ss).bind fun (t, b) => M.pure (s ++ t, b)
    else M.error badarg
  | .mk e none types :: ss => (expr env e).bind fun (v, a) => (segments env ss).bind fun (t, b) =>
    joined a b fun c =>
      if types = [("binary".toList, none)] then
        match v with
        | .str s => M.pure (s ++ t, c)
        | _ => M.error badarg
      else M.stuck
  | .mk _ (some _) _ :: _ => M.stuck

/-- The fields of a map. -/
def fields (env : Env) : List AstField → Run W (List (Text × Value) × Env)
  | [] => M.pure ([], [])
  | .mk (.atom k) e :: fs => (expr env e).bind fun (v, a) => (fields env fs).bind fun (m, b) =>
    joined a b fun c => if k ∈ keys m then M.stuck else M.pure ((k, v) :: m, c)
  | .mk _ _ :: _ => M.stuck

/-- A sequence: the variables bound by an expression can be used in the following ones. -/
def seq (env : Env) : List Ast → Run W Result
  | [] => M.stuck
  | [e] => expr env e
  | e :: e' :: es => (expr env e).bind fun (_, a) => (seq (a ++ env) (e' :: es)).bind fun (w, b) => M.pure (w, b ++ a)

/-- The first clause whose pattern matches and whose guard is true; a guard that fails is not true. -/
def clauses (env : Env) (v : Value) : List AstClause → Run W Result
  | [] => M.error (caseClause v)
  | .mk p g body :: cs =>
    match fresh env (pattern p v) with
    | .bad => M.stuck
    | .no => clauses env v cs
    | .yes b =>
      match g with
      | none => (seq (b ++ env) body).bind fun (w, a) => M.pure (w, a ++ b)
      | some g =>
        if legal g then fun w =>
          match expr (b ++ env) g w with
          | (.val (.atom t, _), w) =>
            if t = "true".toList then ((seq (b ++ env) body).bind fun (r, a) => M.pure (r, a ++ b)) w
            else clauses env v cs w
          | (.val _, w) => clauses env v cs w
          | (.error _, w) => clauses env v cs w
          | (.timeout, w) => (.timeout, w)
          | (.stuck, w) => (.stuck, w)
        else M.stuck

end

/-- The parameters and the body of a function of the module. -/
def definition (forms : List AstForm) (f : Text) (arity : Nat) : Option (List Text × List Ast) :=
  forms.findSome? fun form =>
    match form with
    | .function name ps body => if name = f ∧ ps.length = arity then some (ps, body) else none
    | .attribute _ _ => none

/-- Calls of functions, up to a number of nested calls. -/
def apply {W : Type} (forms : List AstForm)
    (outside : (Value → List Value → Run W Value) → Text → Text → List Value → Run W Value) :
    Nat → Value → List Value → Run W Value
  | 0, _, _ => M.timeout
  | n + 1, .closure ps body env, vs =>
    match bindParameters ps vs with
    | some b => (seq (apply forms outside n) (b ++ env) body).bind fun (v, _) => M.pure v
    | none => M.stuck
  | n + 1, .ref none f _, vs =>
    match definition forms f vs.length with
    | some (ps, body) =>
      match bindParameters ps vs with
      | some b => (seq (apply forms outside n) b body).bind fun (v, _) => M.pure v
      | none => M.stuck
    | none => M.stuck
  | n + 1, .ref (some m) f _, vs => outside (apply forms outside n) m f vs
  | _ + 1, _, _ => M.stuck

end Verif.ErlGen.Erlang
