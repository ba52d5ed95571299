import Verif.Equality.Model
import Verif.BitArrays.Spec

/-
Structural equality, without references.
-/
namespace Verif.Equality
open Verif.BitArrays

/-- Numbers are compared as numbers; the two zeros are equal. -/
def Num.Same : Num → Num → Prop
  | .finite p, .finite q => p = q
  | .negZero, .finite q => q = 0
  | .finite p, .negZero => p = 0
  | .negZero, .negZero => True
  | .infinite a, .infinite b => a = b
  | _, _ => False

mutual
/-- The same shape with the same contents. Functions are equal only to themselves. -/
def Same : Value → Value → Prop
  | .num a, .num b => a.Same b
  | .str a, .str b => a = b
  | .bool a, .bool b => a = b
  | .undefined, .undefined => True
  | .fn a, .fn b => a = b
  | .obj _ ca fa, .obj _ cb fb => ca = cb ∧ SameFields fa fb
  | .bits _ a, .bits _ b => a.bits = b.bits
  | _, _ => False

def SameFields : Fields → Fields → Prop
  | .nil, .nil => True
  | .cons ka va fa, .cons kb vb fb => ka = kb ∧ Same va vb ∧ SameFields fa fb
  | _, _ => False
end

mutual
/-- No number is NaN. -/
def NoNaN : Value → Prop
  | .num n => n ≠ .nan
  | .obj _ _ fields => NoNaNFields fields
  | _ => True

def NoNaNFields : Fields → Prop
  | .nil => True
  | .cons _ v rest => NoNaN v ∧ NoNaNFields rest
end

mutual
/-- How values are laid out in memory: a reference always stands for the same object, the instances of a class have the fields of that
class, arrays are numbered, and bit arrays are as their constructor leaves them. -/
def InMemory (heap : Nat → Value) (layout : String → List Key) : Value → Prop
  | .obj ref ctor fields =>
    heap ref = .obj ref ctor fields ∧
    (match ctor with
      | .cls c => fields.keys = layout c
      | .array => fields.keys = (List.range fields.keys.length).map .index) ∧
    InMemoryFields heap layout fields
  | .bits ref b => heap ref = .bits ref b ∧ b.Valid
  | _ => True

def InMemoryFields (heap : Nat → Value) (layout : String → List Key) : Fields → Prop
  | .nil => True
  | .cons _ v rest => InMemory heap layout v ∧ InMemoryFields heap layout rest
end

/-- Classes do not repeat a field. -/
def Layout (layout : String → List Key) : Prop := ∀ c, (layout c).Nodup

end Verif.Equality
