import Verif.Infer.Spec
import Verif.Infer.Model
import Verif.Unify.Lemmas

/-!
# Typing rules

When an expression has a type, independently of how the type is found. Local variables have one type; functions of the module have the types
`Δ` allows.
-/

namespace Verif.Infer

open Verif.Unify

abbrev TLocals := List (String × Tree)

/-- A constructor has this type. -/
def CtorTy (types : List CustomType) (x : String) (τ : Tree) : Prop :=
  ∃ ct ∈ types, ∃ v ∈ ct.variants, v.name = x ∧ ∃ f : Nat → Tree, τ = constructorType ct v f

def optB (x : Option String) (τ : Tree) : TLocals :=
  match x with
  | some x => [(x, τ)]
  | none => []

section
variable (types : List CustomType)

mutual

def PTyped : Pattern → Tree → TLocals → Prop
  | .discard, _, B => B = []
  | .var x, t, B => B = [(x, t)]
  | .int _, t, B => t = tInt ∧ B = []
  | .float _, t, B => t = tFloat ∧ B = []
  | .string _, t, B => t = tString ∧ B = []
  | .assign p x, t, B => ∃ B', PTyped p t B' ∧ B = B' ++ [(x, t)]
  | .tuple ps, t, B => ∃ ts, t = .tuple ts ∧ PTypedAll ps ts B
  | .list ps none, t, B => ∃ a, t = tList a ∧ PTypedAt ps a B
  | .list ps (some q), t, B => ∃ a B₁ B₂, t = tList a ∧ PTypedAt ps a B₁ ∧ PTyped q (tList a) B₂ ∧ B = B₁ ++ B₂
  | .ctor x ps, t, B => ∃ ct ∈ types, ∃ v ∈ ct.variants, v.name = x ∧ ∃ f : Nat → Tree, t = ct.result f ∧ PTypedAll ps (fieldTypes f v.fields) B
  | .prefix _ l r, t, B => t = tString ∧ B = optB l tString ++ optB r tString

def PTypedAll : List Pattern → Tys Leaf → TLocals → Prop
  | [], ts, B => ts = .nil ∧ B = []
  | p :: ps, ts, B => ∃ t us B₁ B₂, ts = .cons t us ∧ PTyped p t B₁ ∧ PTypedAll ps us B₂ ∧ B = B₁ ++ B₂

def PTypedAt : List Pattern → Tree → TLocals → Prop
  | [], _, B => B = []
  | p :: ps, t, B => ∃ B₁ B₂, PTyped p t B₁ ∧ PTypedAt ps t B₂ ∧ B = B₁ ++ B₂

end

end

/-- The types an operator takes and gives. -/
def OpTy (op : Op) (l r τ : Tree) : Prop :=
  match (op.types : Option (Tree × Tree)) with
  | none => l = r ∧ τ = tBool
  | some (i, o) => l = i ∧ r = i ∧ τ = o

def GTyped (Γ : TLocals) : Guard → Tree → Prop
  | .var x, τ => Γ.lookup x = some τ
  | .int _, τ => τ = tInt
  | .float _, τ => τ = tFloat
  | .string _, τ => τ = tString
  | .block g, τ => GTyped Γ g τ
  | .not g, τ => GTyped Γ g tBool ∧ τ = tBool
  | .bin op l r, τ => ∃ a b, GTyped Γ l a ∧ GTyped Γ r b ∧ OpTy op a b τ
  | .index g i, τ => ∃ ts, GTyped Γ g (.tuple ts) ∧ (Tys.list ts)[i]? = some τ

def GuardTyped (Γ : TLocals) : Option Guard → Prop
  | none => True
  | some g => GTyped Γ g tBool

/-- Parameters as variables. -/
def paramB : List Param → Tys Leaf → TLocals
  | p :: ps, .cons t ts => optB p.name t ++ paramB ps ts
  | _, _ => []

/-- The field with the label has this type, whatever the variant. -/
def FieldTy (types : List CustomType) (label : String) (record τ : Tree) : Prop :=
  ∃ ct ∈ types, ∃ f : Nat → Tree, record = ct.result f ∧
    ∀ v ∈ ct.variants, ∃ i l t, labelIndex label v.fields = some i ∧ v.fields[i]? = some (l, t) ∧ t.sub f = τ

structure TEnv where
  types : List CustomType
  names : List String
  Δ : String → Tree → Prop

section
variable (E : TEnv)

/-- The type of a variable. -/
def VarTy (Γ : TLocals) (x : String) (τ : Tree) : Prop :=
  match Γ.lookup x with
  | some τ' => τ = τ'
  | none => if x ∈ E.names then E.Δ x τ else CtorTy E.types x τ

mutual

def Typed : TLocals → Expr → Tree → Prop
  | _, .int _, τ => τ = tInt
  | _, .float _, τ => τ = tFloat
  | _, .string _, τ => τ = tString
  | Γ, .var x, τ => VarTy E Γ x τ
  | Γ, .fn ps _ body, τ => ∃ ts r, τ = .fn ts r ∧ ps.length = ts.length ∧ TypedStmts (paramB ps ts ++ Γ) body r
  | Γ, .call f es, τ => ∃ ts, Typed Γ f (.fn ts τ) ∧ TypedAll Γ es ts
  | Γ, .bin op l r, τ => ∃ a b, Typed Γ l a ∧ Typed Γ r b ∧ OpTy op a b τ
  | Γ, .not e, τ => Typed Γ e tBool ∧ τ = tBool
  | Γ, .neg e, τ => Typed Γ e tInt ∧ τ = tInt
  | Γ, .block body, τ => TypedStmts Γ body τ
  | Γ, .tuple es, τ => ∃ ts, τ = .tuple ts ∧ TypedAll Γ es ts
  | Γ, .index e i, τ => ∃ ts, Typed Γ e (.tuple ts) ∧ (Tys.list ts)[i]? = some τ
  | Γ, .list es none, τ => ∃ a, τ = tList a ∧ TypedItems Γ es a
  | Γ, .list es (some e), τ => ∃ a, τ = tList a ∧ TypedItems Γ es a ∧ Typed Γ e (tList a)
  | Γ, .field e label, τ => ∃ t, Typed Γ e t ∧ FieldTy E.types label t τ
  | Γ, .case_ es cs, τ => ∃ ts, TypedAll Γ es ts ∧ TypedClauses Γ ts τ cs
  | _, .fail none, _ => True
  | Γ, .fail (some e), _ => Typed Γ e tString

def TypedAll : TLocals → List Expr → Tys Leaf → Prop
  | _, [], ts => ts = .nil
  | Γ, e :: es, ts => ∃ t us, ts = .cons t us ∧ Typed Γ e t ∧ TypedAll Γ es us

def TypedItems : TLocals → List Expr → Tree → Prop
  | _, [], _ => True
  | Γ, e :: es, t => Typed Γ e t ∧ TypedItems Γ es t

def TypedStmts : TLocals → List Stmt → Tree → Prop
  | _, [], _ => False
  | Γ, [s], τ => ∃ B, TypedStmt Γ s τ B
  | Γ, s :: s' :: ss, τ => ∃ t B, TypedStmt Γ s t B ∧ TypedStmts (B ++ Γ) (s' :: ss) τ

def TypedStmt : TLocals → Stmt → Tree → TLocals → Prop
  | Γ, .expr e, τ, B => Typed Γ e τ ∧ B = []
  | Γ, .let_ p _ e, τ, B => Typed Γ e τ ∧ PTyped E.types p τ B
  | Γ, .letAssert p _ e m, τ, B => Typed Γ e τ ∧ PTyped E.types p τ B ∧ TypedMessage Γ m
  | Γ, .assert e m, τ, B => Typed Γ e tBool ∧ TypedMessage Γ m ∧ τ = tNil ∧ B = []

def TypedMessage : TLocals → Option Expr → Prop
  | _, none => True
  | Γ, some e => Typed Γ e tString

def TypedClauses : TLocals → Tys Leaf → Tree → List Clause → Prop
  | _, _, _, [] => True
  | Γ, ts, τ, .mk ps alts g body :: cs =>
    (∃ B, PTypedAll E.types ps ts B ∧
      (∀ qs ∈ alts, ∃ B', PTypedAll E.types qs ts B' ∧ ∀ x, B'.lookup x = B.lookup x) ∧
      GuardTyped (B ++ Γ) g ∧ Typed (B ++ Γ) body τ) ∧
    TypedClauses Γ ts τ cs

end

/-! ### Values -/

mutual

/-- A value has a type. -/
def VT : Value → Tree → Prop
  | .int _, t => t = tInt
  | .float _, t => t = tFloat
  | .str _, t => t = tString
  | .tuple vs, t => ∃ ts, t = .tuple ts ∧ VTs vs ts
  | .nil, t => ∃ a, t = tList a
  | .cons v w, t => ∃ a, t = tList a ∧ VT v a ∧ VT w (tList a)
  | .record tag vs, t => ∃ ct ∈ E.types, ∃ v ∈ ct.variants, v.name = tag ∧ ∃ f, t = ct.result f ∧ VTs vs (fieldTypes f v.fields)
  | .closure ps body env, t => ∃ Γ ts r, VEnv env Γ ∧ t = .fn ts r ∧ ps.length = ts.length ∧ TypedStmts E (paramB ps ts ++ Γ) body r
  | .ctor tag, t => ∃ ct ∈ E.types, ∃ v ∈ ct.variants, v.name = tag ∧ v.fields ≠ [] ∧ ∃ f, t = constructorType ct v f
  | .fn x, t => x ∈ E.names ∧ E.Δ x t

def VTs : List Value → Tys Leaf → Prop
  | [], ts => ts = .nil
  | v :: vs, ts => ∃ a as, ts = .cons a as ∧ VT v a ∧ VTs vs as

/-- The variables have the types. -/
def VEnv : List (String × Value) → TLocals → Prop
  | [], Γ => Γ = []
  | (x, v) :: env, Γ => ∃ t Γ', Γ = (x, t) :: Γ' ∧ VT v t ∧ VEnv env Γ'

end

end

end Verif.Infer
