import Verif.JsGen.Model

/-!
# The programs that the theorem is about

Names are in scope, variables of a pattern have different names, and the programs of `Witnesses.lean` are not among
them: what has to be lifted to the level of statements is not directly in a clause (`lifts`), and what leaves
its variables in the generator's scope is not where code follows it (`leaky`). The guard of the first clause does not
look at variables of patterns that always match: these variables are declared outside of the `if`, where they can be
declared twice (theorem `guard_variable_redeclared` of `JsNames`).
-/

namespace Verif.JsGen

open Verif.ErlGen (Pattern Expr Stmt Clause Guard varsAll)

/-- The names without those that the compiler makes up. -/
def users (Γ : List Text) : List Text := Γ.filter fun x => !synthetic x

/-- Names that a value can be bound to by the compiler. -/
def temporary (x : Text) : Bool := synthetic x && !decide (x = subjectText) && !decide (x = blockText)

def distinct (xs : List Text) : Bool := decide xs.Nodup

/-- The names of some variables. -/
def texts (vs : List (Text × Nat)) : List Text := vs.map (·.1)

def parameterTexts (ps : List (Option (Text × Nat))) : List Text := texts (ps.filterMap id)

def okVars (vs : List (Text × Nat)) : Bool := distinct (texts vs) && (texts vs).all fun x => !synthetic x

def okParameters (ps : List (Option (Text × Nat))) : Bool :=
  distinct (parameterTexts ps) && (parameterTexts ps).all fun x => !decide (x = subjectText) && !decide (x = blockText)

/-- Expressions inside others that become statements in front of the whole. -/
def pushes : Expr → Bool
  | .block [.expr e] => pushes e
  | .block [.let_ _ e] => pushes e
  | .block _ => true
  | .not e => pushes e
  | .neg e => pushes e
  | .index e _ => pushes e
  | .field e _ => pushes e
  | .call f _ => pushes f
  | .update (some _) _ _ _ => true
  | .pipe _ _ _ _ => true
  | .fail _ _ _ => true
  | .case_ _ _ => true
  | _ => false

/-- Expressions that have such ones inside. -/
def lifts : Expr → Bool
  | .block [.expr e] => lifts e
  | .block [.let_ _ e] => lifts e
  | .not e => pushes e
  | .neg e => pushes e
  | .index e _ => pushes e
  | .field e _ => pushes e
  | .call f _ => pushes f
  | .update (some _) e _ _ => pushes e
  | .fail _ _ (some e) => pushes e
  | _ => false

def isBlock : Expr → Bool
  | .block _ => true
  | _ => false

def isRun : Tree → Bool
  | .run => true
  | _ => false

/-- Expressions that leave their variables in the scope of the generator if they are statements. -/
def leaky (single : Text → Bool) : Expr → Bool
  | .block [.expr e] => leaky single e
  | .block [.let_ _ e] => leaky single e
  | .block _ => true
  | .pipe _ _ _ rest => leaky single rest
  | .case_ _ cs => isRun (tree single cs)
  | _ => false

/-- Expressions that do not do so if they are values, and are one statement. -/
def keeps (single : Text → Bool) : Expr → Bool
  | .block [.expr e] => keeps single e
  | .block [.let_ _ e] => keeps single e
  | .block _ => true
  | .update (some _) record _ _ => !pushes record
  | .fail _ _ (some e) => !pushes e
  | e => !leaky single e

/-- The variables that all the alternatives of a clause have. -/
def sameNames (vs ws : List (Text × Nat)) : Bool :=
  ((texts vs).all fun x => decide (x ∈ texts ws)) && (texts ws).all fun x => decide (x ∈ texts vs)

def Clause.body : Clause → Expr
  | .mk _ _ _ e => e

/-- The functions of the module are called with as many arguments as they have parameters. -/
def okCall (g : List (Text × Nat)) (es : List Expr) : Expr → Bool
  | .fnRef none f _ => decide ((f, es.length) ∈ g)
  | _ => true

variable (single : Text → Bool) (g : List (Text × Nat))

/-- If all values of the type match a pattern that has parts, there are no other clauses, or its guard does not look at its
variables. -/
def okTree : Tree → List Clause → Bool
  | .direct, [.mk _ alternatives _ _] => alternatives.isEmpty
  | .direct, _ => false
  | .switch, .mk ps _ (some gd) _ :: _ => !irrefutableAll single ps || (guardVars gd (varsAll ps)).isEmpty
  | _, _ => true

/-- The variables of a guard are in scope. -/
def okGuard (Γ : List Text) : Option Guard → Bool
  | none => true
  | some gd => (guardTexts gd).all fun x => decide (x ∈ Γ)

mutual

/-- With the functions of the module (and how many parameters they have) and the names in scope. -/
def okE (Γ : List Text) : Expr → Bool
  | .int _ => true
  | .string _ => true
  | .var x _ => decide (x ∈ Γ)
  | .ctor _ _ => true
  | .fnRef none f _ => decide (f ∈ texts g) && !decide (f ∈ Γ)
  | .fnRef (some _) _ _ => true
  | .const _ => true
  | .block body => okStmts Γ body
  | .not e => okE Γ e && keeps single e
  | .neg e => okE Γ e && keeps single e
  | .bin _ l r => okE Γ l && okE Γ r
  | .nil => true
  | .cons h t => okE Γ h && okE Γ t
  | .tuple es => okArgs Γ es
  | .index e _ => okE Γ e && keeps single e
  | .field e _ => okE Γ e && keeps single e
  | .update (some (x, _)) record _ es => okE Γ record && keeps single record && temporary x && okArgs (x :: users Γ) es
  | .update none _ _ es => okArgs Γ es
  | .fn ps body => okParameters ps && okStmts (parameterTexts ps ++ Γ) body
  | .call f es => okE Γ f && keeps single f && okArgs Γ es && okCall g es f
  | .pipe x _ value rest => okE Γ value && keeps single value && temporary x && okE (x :: users Γ) rest
  | .fail _ _ none => true
  | .fail _ _ (some e) => okE Γ e && keeps single e
  | .case_ subjects cs => okArgs Γ subjects && okTree single (tree single cs) cs && okClauses (users Γ) cs

def okArgs (Γ : List Text) : List Expr → Bool
  | [] => true
  | e :: es => okE Γ e && okArgs Γ es

def okStmts (Γ : List Text) : List Stmt → Bool
  | [] => true
  | .expr e :: ss => okE Γ e && (ss.isEmpty || !leaky single e) && okStmts (users Γ) ss
  | .let_ p e :: ss => okE Γ e && keeps single e && okVars p.vars && okStmts (texts p.vars ++ users Γ) ss
  | .letAssert p e _ message :: ss =>
    okE Γ e && keeps single e && okVars p.vars && okMessage (users Γ) p message && okStmts (texts p.vars ++ users Γ) ss

/-- The message does not use names of the pattern's variables, which are not names of functions of the module. -/
def okMessage (Γ : List Text) (p : Pattern) : Option Expr → Bool
  | none => true
  | some e => ((texts p.vars).all fun x => !decide (x ∈ texts g)) && okE (Γ.filter fun x => !decide (x ∈ texts p.vars)) e

def okClauses (Γ : List Text) : List Clause → Bool
  | [] => true
  | .mk ps alternatives guard body :: cs =>
    okGuard (texts (varsAll ps) ++ Γ) guard && okVars (varsAll ps) && (alternatives.all fun qs => sameNames (varsAll ps) (varsAll qs)) &&
      okE (texts (varsAll ps) ++ Γ) body && (isBlock body || !lifts body) && okClauses Γ cs

end

/-- The functions of a module, with the numbers of their parameters. -/
def signatures (funs : List ErlGen.Fun) : List (Text × Nat) := funs.map fun f => (f.name, f.parameters.length)

/-- A module whose functions have different names. -/
def okModule (funs : List ErlGen.Fun) : Bool :=
  distinct (texts (signatures funs)) && ((texts (signatures funs)).all fun x => !synthetic x) && funs.all fun f =>
    okParameters f.parameters && okStmts single (signatures funs) (parameterTexts f.parameters) f.body

end Verif.JsGen
