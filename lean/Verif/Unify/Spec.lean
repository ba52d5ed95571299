import Verif.Unify.Model

/-
What types mean and what unification is about, apart from the algorithm.
-/
namespace Verif.Unify

/-- The variables left in a type when all links are followed. Generic variables stand for themselves. -/
inductive Leaf where
  | unbound (id : Nat)
  | generic (id : Nat)

abbrev Tree := Ty Leaf

mutual
/-- Replacing the variables of a type. -/
def Ty.sub {V W : Type} (f : V → Ty W) : Ty V → Ty W
  | .var v => f v
  | .named m x as => .named m x (as.sub f)
  | .fn as r => .fn (as.sub f) (r.sub f)
  | .tuple as => .tuple (as.sub f)

def Tys.sub {V W : Type} (f : V → Ty W) : Tys V → Tys W
  | .nil => .nil
  | .cons a as => .cons (a.sub f) (as.sub f)
end

mutual
/-- The variable occurs in the type. -/
def Ty.Has {V : Type} (v : V) : Ty V → Prop
  | .var w => w = v
  | .named _ _ as => as.Has v
  | .fn as r => as.Has v ∨ r.Has v
  | .tuple as => as.Has v

def Tys.Has {V : Type} (v : V) : Tys V → Prop
  | .nil => False
  | .cons a as => a.Has v ∨ as.Has v
end

/-- One variable refers to another. -/
def Refers (s : Heap) (c d : Cell) : Prop := ∃ t, s c = .link t ∧ t.Has d

/-- No variable refers to itself, directly or through others, and following references always comes to an end. -/
def Acyclic (s : Heap) : Prop := WellFounded fun d c => Refers s c d

/-- `ρ` gives for every variable the type it stands for. -/
structure Reading (s : Heap) (ρ : Cell → Tree) : Prop where
  link : ∀ c t, s c = .link t → ρ c = t.sub ρ
  unbound : ∀ c id, s c = .unbound id → ρ c = .var (.unbound id)
  generic : ∀ c id, s c = .generic id → ρ c = .var (.generic id)

/-- Every unbound variable has its own id. -/
def UniqueIds (s : Heap) : Prop := ∀ c d id, s c = .unbound id → s d = .unbound id → c = d

/-- Only finitely many variables were made. -/
def FinitelyMany (s : Heap) : Prop := ∃ n, ∀ c id, s c = .unbound id → c < n

/-- An assignment of types to the unbound variables. -/
abbrev Assignment := Nat → Tree

def Assignment.leaf (σ : Assignment) : Leaf → Tree
  | .unbound id => σ id
  | .generic id => .var (.generic id)

/-- The type after the assignment. Generic variables are never replaced. -/
def Assignment.on (σ : Assignment) (t : Tree) : Tree := t.sub σ.leaf

end Verif.Unify
