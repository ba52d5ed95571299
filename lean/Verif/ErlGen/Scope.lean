import Verif.Strings.Spec
import Verif.ErlGen.Syntax
import Verif.ErlGen.Model

/-!
# The programs that the theorems are about

The conditions on a program: those that the parser and the type checker of Gleam establish (names, the places that
variables refer to, places that are all different), and those that exclude the cases in which the generated code is
known to differ (`Witnesses.lean`).
-/

namespace Verif.ErlGen

open Verif.ErlText (Text)
open Verif.Strings.Spec (Piece Lower Upper Digit Word UpperCamel)

/-- Names that start with a small letter or an underscore. -/
def NameText (x : Text) : Prop := ∃ c cs, x = c :: cs ∧ (Lower c ∨ c = '_') ∧ Word cs ∧ x ≠ ['_']

/-- The names of variables. The code generator keeps one name for itself. -/
def VariableName (x : Text) : Prop := NameText x ∧ x ≠ "_value".toList

/-- The names of functions. -/
def FunctionName (x : Text) : Prop := ∃ c cs, x = c :: cs ∧ Lower c ∧ ∀ d ∈ cs, Lower d ∨ Digit d ∨ d = '_'

/-- Texts that can be put into single quotes. -/
def PlainText (x : Text) : Prop := '\'' ∉ x ∧ '\\' ∉ x

/-- String literals that stand for strings. -/
def Literal (ps : List Piece) : Prop := ∀ p ∈ ps, p.value? ≠ none

/-- The variables that can be used, each with the place of its definition. -/
abbrev Scope := List (Text × Loc)

mutual

def Const.Wf : Const → Prop
  | .int _ => True
  | .string ps => Literal ps
  | .tuple cs => constsWf cs
  | .nil => True
  | .cons c d => c.Wf ∧ d.Wf
  | .record tag cs => UpperCamel tag ∧ constsWf cs

def constsWf : List Const → Prop
  | [] => True
  | c :: cs => c.Wf ∧ constsWf cs

end

/-! ### Patterns -/

mutual

/-- The names given to the literals of prefixes (`"…" as name <> …`). -/
def Pattern.aliases : Pattern → List (Text × Loc × List Piece)
  | .discard => []
  | .int _ => []
  | .string _ => []
  | .var _ _ => []
  | .assign p _ _ => p.aliases
  | .tuple ps => aliasesAll ps
  | .nil => []
  | .cons p q => p.aliases ++ q.aliases
  | .ctor _ ps => aliasesAll ps
  | .prefix ps left _ => left.toList.map fun v => (v.1, v.2, ps)

def aliasesAll : List Pattern → List (Text × Loc × List Piece)
  | [] => []
  | p :: ps => p.aliases ++ aliasesAll ps

end

/-- The grammar has no `p as a as b`. -/
def Pattern.isAssign : Pattern → Bool
  | .assign _ _ _ => true
  | _ => false

mutual

/-- The parts of a pattern. -/
def Pattern.Parts : Pattern → Prop
  | .discard => True
  | .int _ => True
  | .string ps => Literal ps
  | .var _ _ => True
  | .assign p _ _ => p.isAssign = false ∧ p.Parts
  | .tuple ps => partsAll ps
  | .nil => True
  | .cons p q => p.Parts ∧ q.Parts
  | .ctor tag ps => UpperCamel tag ∧ partsAll ps
  | .prefix ps _ _ => Literal ps

def partsAll : List Pattern → Prop
  | [] => True
  | p :: ps => p.Parts ∧ partsAll ps

end

/-- The patterns of a clause: the names of the variables are different. -/
def PatternsWf (ps : List Pattern) : Prop :=
  partsAll ps ∧ ((varsAll ps).map Prod.fst).Nodup ∧ ∀ x ∈ (varsAll ps).map Prod.fst, VariableName x

/-! ### Guards -/

/-- What fields and items are taken of in guards. -/
def Guard.isPath : Guard → Bool
  | .var _ _ => true
  | .const _ => true
  | .block g => g.isPath
  | .index g _ => g.isPath
  | .field g _ => g.isPath
  | _ => false

/-- Constants that are not zero. -/
def Guard.nonZero : Guard → Bool
  | .const (.int n) => decide (n ≠ 0)
  | _ => false

/-- The name of an alias, with or without braces. -/
def Guard.isAlias (aliases : List Text) : Guard → Bool
  | .var x _ => decide (x ∈ aliases)
  | .block g => g.isAlias aliases
  | _ => false

/-- Fields and items of an alias, which is a string and has none. -/
def Guard.ofAlias (aliases : List Text) : Guard → Bool
  | .var x _ => decide (x ∈ aliases)
  | .block g => g.ofAlias aliases
  | .index g _ => g.ofAlias aliases
  | .field g _ => g.ofAlias aliases
  | _ => false

/-- Guards: the divisor of a division is a constant that is not zero, and aliases are not concatenated. -/
def Guard.Wf (aliases : List Text) (Γ : Scope) : Guard → Prop
  | .var x l => Γ.lookup x = some l
  | .const c => c.Wf
  | .block g => g.Wf aliases Γ
  | .not g => g.Wf aliases Γ
  | .bin op l r =>
    l.Wf aliases Γ ∧ r.Wf aliases Γ ∧ (op = .div ∨ op = .rem → r.nonZero = true) ∧
      (op = .concat → l.isAlias aliases = false ∧ r.isAlias aliases = false)
  | .index g _ => g.isPath = true ∧ g.Wf aliases Γ ∧ g.ofAlias aliases = false
  | .field g _ => g.isPath = true ∧ g.Wf aliases Γ ∧ g.ofAlias aliases = false

/-! ### Expressions -/

/-- Expressions whose evaluation has no effect, does not fail and does not call functions. -/
def Expr.Simple : Expr → Prop
  | .int _ => True
  | .string _ => True
  | .var _ _ => True
  | .const _ => True
  | .neg e => e.Simple
  | .index e _ => e.Simple
  | .field e _ => e.Simple
  | .bin op l r => (op = .add ∨ op = .sub ∨ op = .mul) ∧ l.Simple ∧ r.Simple
  | _ => False

/-- Blocks around a literal string; and operators that do not make strings. -/
def Expr.hidden : Expr → Bool
  | .block [.expr (.string _)] => true
  | .block [.expr (.const c)] => c.literal
  | .block [.expr e] => e.hidden
  | .not _ => true
  | .neg _ => true
  | _ => false

/-- Expressions that can be functions. -/
def Expr.callee : Expr → Bool
  | .int _ | .string _ | .const _ | .not _ | .neg _ | .bin _ _ _ | .nil | .cons _ _ | .tuple _ | .update _ _ _ _
  | .ctor _ 0 => false
  | .call (.ctor _ _) _ => false
  | .block [.expr e] => e.callee
  | _ => true

/-- Functions of other modules: the two functions of Erlang that the code generator uses itself are left out. -/
def ModuleFunction (m f : Text) : Prop :=
  PlainText m ∧ PlainText f ∧ ¬(m = "erlang".toList ∧ (f = "error".toList ∨ f = "element".toList))

/-- The variables of parameters. -/
def paramVars : List (Option (Text × Loc)) → List (Text × Loc) := fun ps => ps.flatMap Option.toList

/-- Parameters have different names. -/
def ParamsWf (ps : List (Option (Text × Loc))) : Prop :=
  ((paramVars ps).map Prod.fst).Nodup ∧ ∀ x ∈ (paramVars ps).map Prod.fst, VariableName x

variable (purity : Expr → Bool)

mutual

def Expr.Wf (Γ : Scope) : Expr → Prop
  | .int _ => True
  | .string ps => Literal ps
  | .var x l => Γ.lookup x = some l
  | .ctor tag _ => UpperCamel tag
  | .fnRef none f _ => FunctionName f
  | .fnRef (some m) f _ => ModuleFunction m f
  | .const c => c.Wf
  | .block body => body ≠ [] ∧ stmtsWf Γ body
  | .not e => e.Wf Γ
  | .neg e => e.Wf Γ
  | .bin op l r =>
    l.Wf Γ ∧ r.Wf Γ ∧ (op = .concat → l.hidden = false ∧ r.hidden = false) ∧
      (op = .div ∨ op = .rem → r.nonZero = true ∨ l.pureValue purity = false ∨ l.Simple)
  | .nil => True
  | .cons h t => h.Wf Γ ∧ t.Wf Γ
  | .tuple es => exprsWf Γ es
  | .index e _ => e.Wf Γ
  | .field e _ => e.Wf Γ
  | .update (some (x, l)) record tag es =>
    VariableName x ∧ UpperCamel tag ∧ record.Wf Γ ∧ exprsWf ((x, l) :: Γ) es
  | .update none _ tag es => UpperCamel tag ∧ exprsWf Γ es
  | .fn params body => ParamsWf params ∧ body ≠ [] ∧ stmtsWf (paramVars params ++ Γ) body
  | .call f es => f.callee = true ∧ f.Wf Γ ∧ exprsWf Γ es
  | .pipe x l value rest => VariableName x ∧ value.Wf Γ ∧ rest.Wf ((x, l) :: Γ)
  | .fail _ _ none => True
  | .fail _ _ (some e) => e.Wf Γ
  | .case_ subjects cs => exprsWf Γ subjects ∧ cs ≠ [] ∧ clausesWf Γ cs

def exprsWf (Γ : Scope) : List Expr → Prop
  | [] => True
  | e :: es => e.Wf Γ ∧ exprsWf Γ es

def stmtsWf (Γ : Scope) : List Stmt → Prop
  | [] => True
  | .expr e :: ss => e.Wf Γ ∧ stmtsWf Γ ss
  | .let_ p e :: ss => PatternsWf [p] ∧ p.aliases = [] ∧ e.Wf Γ ∧ stmtsWf (p.vars ++ Γ) ss
  | .letAssert p e _ none :: ss => PatternsWf [p] ∧ e.Wf Γ ∧ stmtsWf (p.vars ++ Γ) ss
  | .letAssert p e _ (some m) :: ss => PatternsWf [p] ∧ e.Wf Γ ∧ m.Wf Γ ∧ stmtsWf (p.vars ++ Γ) ss

/-- The alternatives of a clause bind the same names; the guard and the body refer to the variables of the first. -/
def clausesWf (Γ : Scope) : List Clause → Prop
  | [] => True
  | .mk ps alternatives g body :: cs =>
    (∀ qs ∈ ps :: alternatives, PatternsWf qs ∧ ((varsAll qs).map Prod.fst).Perm ((varsAll ps).map Prod.fst) ∧
      ∀ g' ∈ g, g'.Wf ((aliasesAll qs).map fun a => a.1) (varsAll ps ++ Γ)) ∧
    body.Wf (varsAll ps ++ Γ) ∧ clausesWf Γ cs

end

mutual

/-- The places of all definitions. -/
def Expr.locs : Expr → List Loc
  | .int _ => []
  | .string _ => []
  | .var _ _ => []
  | .ctor _ _ => []
  | .fnRef _ _ _ => []
  | .const _ => []
  | .block body => stmtsLocs body
  | .not e => e.locs
  | .neg e => e.locs
  | .bin _ l r => l.locs ++ r.locs
  | .nil => []
  | .cons h t => h.locs ++ t.locs
  | .tuple es => exprsLocs es
  | .index e _ => e.locs
  | .field e _ => e.locs
  | .update (some (_, l)) record _ es => l :: (record.locs ++ exprsLocs es)
  | .update none _ _ es => exprsLocs es
  | .fn params body => (paramVars params).map Prod.snd ++ stmtsLocs body
  | .call f es => f.locs ++ exprsLocs es
  | .pipe _ l value rest => l :: (value.locs ++ rest.locs)
  | .fail _ _ none => []
  | .fail _ _ (some e) => e.locs
  | .case_ subjects cs => exprsLocs subjects ++ clausesLocs cs

def exprsLocs : List Expr → List Loc
  | [] => []
  | e :: es => e.locs ++ exprsLocs es

def stmtsLocs : List Stmt → List Loc
  | [] => []
  | .expr e :: ss => e.locs ++ stmtsLocs ss
  | .let_ p e :: ss => p.vars.map Prod.snd ++ (e.locs ++ stmtsLocs ss)
  | .letAssert p e _ none :: ss => p.vars.map Prod.snd ++ (e.locs ++ stmtsLocs ss)
  | .letAssert p e _ (some m) :: ss => p.vars.map Prod.snd ++ (e.locs ++ (stmtsLocs ss ++ m.locs))

def clausesLocs : List Clause → List Loc
  | [] => []
  | .mk ps alternatives _ body :: cs =>
    ((varsAll ps).map Prod.snd ++ (alternatives.flatMap fun qs => (varsAll qs).map Prod.snd)) ++
      (body.locs ++ clausesLocs cs)

end

/-- A function of the module. -/
def Fun.Wf (f : Fun) : Prop :=
  FunctionName f.name ∧ ParamsWf f.parameters ∧ f.body ≠ [] ∧ stmtsWf purity (paramVars f.parameters) f.body ∧
    ((paramVars f.parameters).map Prod.snd ++ stmtsLocs f.body).Nodup

end Verif.ErlGen
