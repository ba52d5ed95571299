import Verif.BitArrays.Model
import Mathlib.Data.Rat.Defs

/-
Model of `==` on JavaScript: `isEqual` of `/repo/compiler-core/templates/prelude.mjs:1482-1518` and the code that is generated for `==`
and `!=`, `/repo/compiler-core/src/javascript/expression.rs:2240-2480`.

Values are the ones Gleam makes: numbers, strings, booleans, `undefined`, functions, instances of classes, arrays and bit arrays.
Dates, maps, sets and the other foreign objects that `isEqual` knows are left out. Every object has a reference, so that sharing can
be seen; objects are never cyclic, since Gleam data cannot be.
-/
namespace Verif.Equality
open Verif.BitArrays

/-- JavaScript numbers. -/
inductive Num where
  | nan
  | negZero
  | finite (q : ℚ)
  | infinite (negative : Bool)
deriving DecidableEq

/-- Names and positions of fields: `Object.keys` gives both as strings. -/
inductive Key where
  | name (s : String)
  | index (i : Nat)
deriving DecidableEq

/-- What `constructor` says: `Array` for tuples, or a class. -/
inductive Ctor where
  | array
  | cls (name : String)
deriving DecidableEq

mutual
inductive Value where
  | num (n : Num)
  | str (s : String)
  | bool (b : Bool)
  | undefined
  | fn (ref : Nat)
  | obj (ref : Nat) (ctor : Ctor) (fields : Fields)
  | bits (ref : Nat) (b : BitArray)

inductive Fields where
  | nil
  | cons (key : Key) (value : Value) (rest : Fields)
end

/-- `===` on numbers. -/
def Num.strictEq : Num → Num → Bool
  | .nan, _ => false
  | _, .nan => false
  | .negZero, .negZero => true
  | .negZero, .finite q => q == 0
  | .finite q, .negZero => q == 0
  | .finite p, .finite q => p == q
  | .infinite a, .infinite b => a == b
  | _, _ => false

/-- `===`. -/
def strictEq : Value → Value → Bool
  | .num a, .num b => a.strictEq b
  | .str a, .str b => a == b
  | .bool a, .bool b => a == b
  | .undefined, .undefined => true
  | .fn a, .fn b => a == b
  | .obj a _ _, .obj b _ _ => a == b
  | .bits a _, .bits b _ => a == b
  | _, _ => false

/-- `Object.keys`, in the order of the fields. -/
def Fields.keys : Fields → List Key
  | .nil => []
  | .cons key _ rest => key :: rest.keys

/-- `x[y]`. -/
def Fields.get (key : Key) : Fields → Value
  | .nil => .undefined
  | .cons k v rest => if k = key then v else rest.get key

/-- `prelude.mjs:1513-1515`: `for (let k of ka) values.push(get(a, k), get(b, k))`. The top of the stack comes first. -/
def pushAll (fa fb : Fields) : List Key → List Value → List Value
  | [], stack => stack
  | k :: ks, stack => pushAll fa fb ks (fb.get k :: fa.get k :: stack)

/-- One turn of the loop (`prelude.mjs:1485-1516`): `none` for `return false`, or the new stack. -/
def step (a b : Value) (stack : List Value) : Option (List Value) :=
  if strictEq a b then some stack
  else match a, b with
    | .obj _ ca fa, .obj _ cb fb =>
      -- `structurallyCompatibleObjects`, `unequalArrays`, and the numbers of keys
      if ca ≠ cb then none
      else if ca = .array ∧ fa.keys.length ≠ fb.keys.length then none
      else if fa.keys.length ≠ fb.keys.length then none
      else some (pushAll fa fb fa.keys stack)
    | .bits _ x, .bits _ y => if x.equals y then some stack else none
    | _, _ => none

/-- `prelude.mjs:1482-1518`: the loop of `isEqual`; `none` if it takes more than `fuel` turns. -/
def loop : (fuel : Nat) → List Value → Option Bool
  | _, [] => some true
  | 0, _ => none
  | _, [_] => none
  | fuel + 1, a :: b :: stack =>
    match step a b stack with
    | none => some false
    | some stack => loop fuel stack

/-- `isEqual(x, y)`: `[x, y]` is the stack, whose top is `y`. -/
def isEqual (fuel : Nat) (x y : Value) : Option Bool := loop fuel [y, x]

/-- The code for `==`, by the type of the left side and the form of the two sides (`expression.rs:2240-2298`). -/
inductive Comparison where
  /-- `is_js_scalar`: `===` -/
  | scalar
  /-- The right side is a variant without fields, or an empty list: `left instanceof Variant` -/
  | rightVariant (cls : String)
  /-- The left side is such a variant -/
  | leftVariant (cls : String)
  /-- `isEqual` -/
  | structural
deriving DecidableEq

/-- What is known at compile time about one operand (`expression.rs:2300-2392`). -/
inductive Operand where
  | variant (cls : String)
  | other

/-- `expression.rs:2240-2298` `equal`: which code is generated. -/
def comparison (scalarType : Bool) (left right : Operand) : Comparison :=
  if scalarType then .scalar
  else match right with
    | .variant c => .rightVariant c
    | .other => match left with
      | .variant c => .leftVariant c
      | .other => .structural

/-- `x instanceof C`, for a class without subclasses. -/
def instanceOf (cls : String) : Value → Bool
  | .obj _ (.cls c) _ => c == cls
  | _ => false

/-- Running the code for `==`, or for `!=` if `shouldBeEqual` is false. -/
def runComparison (fuel : Nat) (shouldBeEqual : Bool) (x y : Value) : Comparison → Option Bool
  | .scalar => some (strictEq x y == shouldBeEqual)
  | .rightVariant c => some (instanceOf c x == shouldBeEqual)
  | .leftVariant c => some (instanceOf c y == shouldBeEqual)
  | .structural => (isEqual fuel x y).map (· == shouldBeEqual)

end Verif.Equality
