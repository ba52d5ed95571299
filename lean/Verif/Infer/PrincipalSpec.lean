import Verif.Infer.Typing

/-!
# Types that a module can be given

A typing of a module without annotations, independently of how types are found: functions that call each other have one type each while their
bodies are typed; later functions can use them with each of the types that their bodies can be given.
-/

namespace Verif.Infer

open Verif.Unify (Ty Tys Tree)

/-- The bodies of the functions can be given these types, if earlier functions have the types `Δ`. -/
def GroupTyped (types : List CustomType) (names : List String) (Δ : String → Tree → Prop) (σ : String → Tree) (fs : List Fun) : Prop :=
  ∀ f ∈ fs, ∃ as r, σ f.name = .fn as r ∧ f.parameters.length = as.length ∧
    TypedStmts ⟨types, names, fun x τ => if x ∈ fs.map (·.name) then τ = σ x else Δ x τ⟩ (paramB f.parameters as) f.body r

/-- Groups of functions, one after the other: each group has a set of typings, not empty, of which later functions can use any. `Δ'` is what the
functions have in the end. -/
def GroupsTyped (types : List CustomType) (names : List String) : (String → Tree → Prop) → List (List Fun) → (String → Tree → Prop) → Prop
  | Δ, [], Δ' => ∀ x τ, Δ' x τ → Δ x τ
  | Δ, fs :: rest, Δ' => ∃ allowed : (String → Tree) → Prop, (∃ σ, allowed σ) ∧ (∀ σ, allowed σ → GroupTyped types names Δ σ fs) ∧
    GroupsTyped types names (fun x τ => if x ∈ fs.map (·.name) then ∃ σ, allowed σ ∧ τ = σ x else Δ x τ) rest Δ'

/-- The functions of the module can be given these types. -/
def Module.HasTypes (m : Module) (Δ : String → Tree → Prop) : Prop :=
  GroupsTyped m.allTypes (m.funs.map (·.name)) (fun _ _ => False) m.groups Δ

/-! ### Modules without annotations -/

section
mutual

/-- There are no annotations in the expression. -/
def Expr.bare : Expr → Bool
  | .int _ => true
  | .float _ => true
  | .string _ => true
  | .var _ => true
  | .fn ps r body => ps.all (fun p => p.annotation.isNone) && r.isNone && stmtsBare body
  | .call f es => f.bare && exprsBare es
  | .bin _ l r => l.bare && r.bare
  | .not e => e.bare
  | .neg e => e.bare
  | .block body => stmtsBare body
  | .tuple es => exprsBare es
  | .index e _ => e.bare
  | .list es none => exprsBare es
  | .list es (some e) => exprsBare es && e.bare
  | .field e _ => e.bare
  | .case_ es cs => exprsBare es && clausesBare cs
  | .fail none => true
  | .fail (some e) => e.bare

def exprsBare : List Expr → Bool
  | [] => true
  | e :: es => e.bare && exprsBare es

def Stmt.bare : Stmt → Bool
  | .expr e => e.bare
  | .let_ _ a e => a.isNone && e.bare
  | .letAssert _ a e m => a.isNone && e.bare && optionBare m
  | .assert e m => e.bare && optionBare m

def stmtsBare : List Stmt → Bool
  | [] => true
  | s :: ss => s.bare && stmtsBare ss

def optionBare : Option Expr → Bool
  | none => true
  | some e => e.bare

def clausesBare : List Clause → Bool
  | [] => true
  | .mk _ _ _ body :: cs => body.bare && clausesBare cs

end
end

/-- There are no annotations in the function. -/
def Fun.bare (f : Fun) : Bool := f.parameters.all (fun p => p.annotation.isNone) && f.return_.isNone && stmtsBare f.body

/-! ### Modules whose typing needs no knowledge about types

`x.field` and `x.0` are rejected if the type of `x` is not known yet when they are reached, although it may be found out later. -/

/-- No name is in the list twice. -/
def different : List String → Bool
  | [] => true
  | x :: xs => !xs.contains x && different xs

mutual

/-- The variables of a pattern. -/
def Pattern.binds : Pattern → List String
  | .discard => []
  | .var x => [x]
  | .int _ => []
  | .float _ => []
  | .string _ => []
  | .assign p x => p.binds ++ [x]
  | .tuple ps => patternsBind ps
  | .list ps none => patternsBind ps
  | .list ps (some q) => patternsBind ps ++ q.binds
  | .ctor _ ps => patternsBind ps
  | .prefix _ l r => l.toList ++ r.toList

def patternsBind : List Pattern → List String
  | [] => []
  | p :: ps => p.binds ++ patternsBind ps

end

/-- There is no `x.0` in the guard. -/
def Guard.direct : Guard → Bool
  | .var _ => true
  | .int _ => true
  | .float _ => true
  | .string _ => true
  | .block g => g.direct
  | .not g => g.direct
  | .bin _ l r => l.direct && r.direct
  | .index _ _ => false

def optionalDirect : Option Guard → Bool
  | none => true
  | some g => g.direct

section
mutual

/-- There is no `x.field` and no `x.0` in the expression, and the variables of a pattern, and the parameters of a function, are different. -/
def Expr.direct : Expr → Bool
  | .int _ => true
  | .float _ => true
  | .string _ => true
  | .var _ => true
  | .fn ps _ body => different (ps.filterMap (·.name)) && stmtsDirect body
  | .call f es => f.direct && exprsDirect es
  | .bin _ l r => l.direct && r.direct
  | .not e => e.direct
  | .neg e => e.direct
  | .block body => stmtsDirect body
  | .tuple es => exprsDirect es
  | .index _ _ => false
  | .list es none => exprsDirect es
  | .list es (some e) => exprsDirect es && e.direct
  | .field _ _ => false
  | .case_ es cs => exprsDirect es && clausesDirect cs
  | .fail none => true
  | .fail (some e) => e.direct

def exprsDirect : List Expr → Bool
  | [] => true
  | e :: es => e.direct && exprsDirect es

def Stmt.direct : Stmt → Bool
  | .expr e => e.direct
  | .let_ p _ e => different p.binds && e.direct
  | .letAssert p _ e m => different p.binds && e.direct && optionDirect m
  | .assert e m => e.direct && optionDirect m

def stmtsDirect : List Stmt → Bool
  | [] => true
  | s :: ss => s.direct && stmtsDirect ss

def optionDirect : Option Expr → Bool
  | none => true
  | some e => e.direct

def clausesDirect : List Clause → Bool
  | [] => true
  | .mk ps alts g body :: cs =>
    different (patternsBind ps) && alts.all (fun qs => different (patternsBind qs)) && optionalDirect g && body.direct && clausesDirect cs

end
end

def Fun.direct (f : Fun) : Bool := different (f.parameters.filterMap (·.name)) && stmtsDirect f.body

end Verif.Infer
