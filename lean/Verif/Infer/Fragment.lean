import Verif.Infer.Syntax
import Verif.Infer.Spec

/-!
# The modules that the type checker treats soundly

Where type variables may be written.
-/

namespace Verif.Infer

mutual

/-- The type variables of an annotation. -/
def TypeAst.variables : TypeAst → List String
  | .con _ as => variablesAll as
  | .fn as r => variablesAll as ++ r.variables
  | .tuple as => variablesAll as
  | .var x => [x]
  | .hole => []

def variablesAll : List TypeAst → List String
  | [] => []
  | a :: as => a.variables ++ variablesAll as

end

def optionVariables : Option TypeAst → List String
  | none => []
  | some a => a.variables

mutual

/-- There is no `_` in the annotation. -/
def TypeAst.complete : TypeAst → Bool
  | .con _ as => completeAll as
  | .fn as r => completeAll as && r.complete
  | .tuple as => completeAll as
  | .var _ => true
  | .hole => false

def completeAll : List TypeAst → Bool
  | [] => true
  | a :: as => a.complete && completeAll as

end

/-- There is an annotation, without `_`. -/
def optionComplete : Option TypeAst → Bool
  | none => false
  | some a => a.complete

/-- The type variables in the head of a function. -/
def Fun.variables (f : Fun) : List String := f.parameters.flatMap (fun p => optionVariables p.annotation) ++ optionVariables f.return_

/-- The parameters and the result of a function are annotated. -/
def Fun.annotated (f : Fun) : Bool := f.parameters.all (fun p => optionComplete p.annotation) && optionComplete f.return_

section
variable (vs : List String)

/-- An annotation has only these type variables. -/
def Annotation.within (a : Option TypeAst) : Bool := (optionVariables a).all vs.contains

mutual

/-- All annotations in an expression have only these type variables. -/
def Expr.within : Expr → Bool
  | .int _ => true
  | .float _ => true
  | .string _ => true
  | .var _ => true
  | .fn ps r body => ps.all (fun p => Annotation.within vs p.annotation) && Annotation.within vs r && stmtsWithin body
  | .call f es => f.within && exprsWithin es
  | .bin _ l r => l.within && r.within
  | .not e => e.within
  | .neg e => e.within
  | .block body => stmtsWithin body
  | .tuple es => exprsWithin es
  | .index e _ => e.within
  | .list es none => exprsWithin es
  | .list es (some e) => exprsWithin es && e.within
  | .field e _ => e.within
  | .case_ es cs => exprsWithin es && clausesWithin cs
  | .fail none => true
  | .fail (some e) => e.within

def exprsWithin : List Expr → Bool
  | [] => true
  | e :: es => e.within && exprsWithin es

def Stmt.within : Stmt → Bool
  | .expr e => e.within
  | .let_ _ a e => Annotation.within vs a && e.within
  | .letAssert _ a e m => Annotation.within vs a && e.within && optionWithin m
  | .assert e m => e.within && optionWithin m

def stmtsWithin : List Stmt → Bool
  | [] => true
  | s :: ss => s.within && stmtsWithin ss

def optionWithin : Option Expr → Bool
  | none => true
  | some e => e.within

def clausesWithin : List Clause → Bool
  | [] => true
  | .mk _ _ _ body :: cs => body.within && clausesWithin cs

end
end

/-- The functions of a group: the annotations in the body of a function have no other type variables than those of its head. If there are
several functions that call each other, there are no type variables in their heads, or all the heads are annotated completely. -/
def soundGroup (fs : List Fun) : Bool :=
  fs.all (fun f => stmtsWithin f.variables f.body) &&
    (decide (fs.length ≤ 1) || fs.all (fun f => f.variables.isEmpty) || fs.all (·.annotated))

/-- Custom types make sense, and no function has the name of a constructor. -/
structure Module.Proper (m : Module) : Prop where
  types : GoodTypes m.allTypes
  names : ∀ f ∈ m.funs, ∀ ct ∈ m.allTypes, ∀ v ∈ ct.variants, f.name ≠ v.name

end Verif.Infer
