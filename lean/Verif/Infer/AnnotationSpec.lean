import Verif.Infer.Syntax

/-!
# What an annotation says

Written from the language tour: `Int`, `List(a)`, `fn(a) -> b`, `#(a, b)`, the name of a custom type with types for its parameters, a type
variable, and `_` for any type.
-/

namespace Verif.Infer

open Verif.Unify (Ty Tys)

/-- The module of the type with this name and its number of parameters. A module's own types come before the prelude's. -/
def NamesType (types : List CustomType) (name : String) (module : String) (parameters : Nat) : Prop :=
  (∃ before ct after, types = before ++ ct :: after ∧ (∀ other ∈ before, other.name ≠ name) ∧ ct.name = name ∧ ct.module = module ∧ ct.parameters = parameters) ∨
    ((∀ ct ∈ types, ct.name ≠ name) ∧ module = "gleam" ∧ (name, parameters) ∈ [("Int", 0), ("Float", 0), ("String", 0), ("List", 1)])

section
variable {V : Type} (types : List CustomType) (ν : String → Ty V)

mutual

/-- The annotation allows the type, if its type variables stand for `ν`. -/
def Means : TypeAst → Ty V → Prop
  | .con name as, t => ∃ m ts, NamesType types name m as.length ∧ t = .named m name ts ∧ MeansAll as ts
  | .fn as r, t => ∃ ts u, t = .fn ts u ∧ MeansAll as ts ∧ Means r u
  | .tuple as, t => ∃ ts, t = .tuple ts ∧ MeansAll as ts
  | .var x, t => t = ν x
  | .hole, _ => True

def MeansAll : List TypeAst → Tys V → Prop
  | [], ts => ts = .nil
  | a :: as, ts => ∃ t us, ts = .cons t us ∧ Means a t ∧ MeansAll as us

end

/-- Where nothing is annotated every type is allowed. -/
def MeansOption : Option TypeAst → Ty V → Prop
  | none, _ => True
  | some a, t => Means types ν a t

def MeansParameters : List Param → Tys V → Prop
  | [], ts => ts = .nil
  | p :: ps, ts => ∃ t us, ts = .cons t us ∧ MeansOption types ν p.annotation t ∧ MeansParameters ps us

end
end Verif.Infer
