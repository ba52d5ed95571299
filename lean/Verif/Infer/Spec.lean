import Verif.Infer.Run

/-!
# What a value of a type is

Types here are `Tree`s: types whose variables stand for themselves.
-/

namespace Verif.Infer

open Verif.Unify (Ty Tys Tree)

section
variable (types : List CustomType) (funs : List Fun)

mutual

/-- The value is of the kind that the type promises. Of a function only the number of its parameters can be seen. -/
def Fits : Value → Tree → Prop
  | .int _, t => t = tInt
  | .float _, t => t = tFloat
  | .str _, t => t = tString
  | .tuple vs, t => ∃ ts, t = .tuple ts ∧ FitsAll vs ts
  | .nil, t => ∃ a, t = tList a
  | .cons v w, t => ∃ a, t = tList a ∧ Fits v a ∧ Fits w (tList a)
  | .record tag vs, t => ∃ ct ∈ types, ∃ v ∈ ct.variants, v.name = tag ∧ ∃ f, t = ct.result f ∧ FitsAll vs (fieldTypes f v.fields)
  | .closure ps _ _, t => ∃ as r, t = .fn as r ∧ ps.length = as.length
  | .ctor tag, t => ∃ ct ∈ types, ∃ v ∈ ct.variants, v.name = tag ∧ v.fields ≠ [] ∧ ∃ f, t = constructorType ct v f
  | .fn x, t => ∃ f ∈ funs, f.name = x ∧ ∃ as r, t = .fn as r ∧ f.parameters.length = as.length

def FitsAll : List Value → Tys Verif.Unify.Leaf → Prop
  | [], ts => ts = .nil
  | v :: vs, ts => ∃ a as, ts = .cons a as ∧ Fits v a ∧ FitsAll vs as

end
end

mutual

/-- There is no function in the value. -/
def Value.IsData : Value → Prop
  | .int _ => True
  | .float _ => True
  | .str _ => True
  | .tuple vs => AllData vs
  | .nil => True
  | .cons v w => v.IsData ∧ w.IsData
  | .record _ vs => AllData vs
  | .closure _ _ _ => False
  | .ctor _ => False
  | .fn _ => False

def AllData : List Value → Prop
  | [] => True
  | v :: vs => v.IsData ∧ AllData vs

end

/-- The custom types make sense: no two of them, and no two constructors, have the same name, fields
only mention the parameters of their type, and `Int`, `Float`, `String` and `List` are not custom types. -/
structure GoodTypes (types : List CustomType) : Prop where
  bool : preludeTypes ⊆ types
  builtin : ∀ ct ∈ types, ct.module = "gleam" → ct.name ≠ "Int" ∧ ct.name ≠ "Float" ∧ ct.name ≠ "String" ∧ ct.name ≠ "List"
  names : ∀ ct ∈ types, ∀ ct' ∈ types, ct.module = ct'.module → ct.name = ct'.name → ct = ct'
  constructors : ∀ ct ∈ types, ∀ v ∈ ct.variants, ∀ ct' ∈ types, ∀ v' ∈ ct'.variants, v.name = v'.name → ct = ct' ∧ v = v'
  parameters : ∀ ct ∈ types, ∀ v ∈ ct.variants, ∀ f ∈ v.fields, ∀ i, f.2.Has i → i < ct.parameters

end Verif.Infer
