import Verif.Infer.Typing

/-!
Typing is kept by replacing the variables of types, and only depends on the types of variables.
-/

namespace Verif.Infer

open Verif.Unify

@[simp] theorem sub_named0 {V W : Type} (f : V → Ty W) (x : String) : (named0 x : Ty V).sub f = named0 x := rfl
@[simp] theorem sub_tInt {V W : Type} (f : V → Ty W) : (tInt : Ty V).sub f = tInt := rfl
@[simp] theorem sub_tFloat {V W : Type} (f : V → Ty W) : (tFloat : Ty V).sub f = tFloat := rfl
@[simp] theorem sub_tString {V W : Type} (f : V → Ty W) : (tString : Ty V).sub f = tString := rfl
@[simp] theorem sub_tBool {V W : Type} (f : V → Ty W) : (tBool : Ty V).sub f = tBool := rfl
@[simp] theorem sub_tNil {V W : Type} (f : V → Ty W) : (tNil : Ty V).sub f = tNil := rfl
@[simp] theorem sub_tList {V W : Type} (f : V → Ty W) (a : Ty V) : (tList a).sub f = tList (a.sub f) := rfl

theorem parameterTypes_sub {V W : Type} (g : V → Ty W) (f : Nat → Ty V) : ∀ k i,
    (parameterTypes f i k).sub g = parameterTypes (fun j => (f j).sub g) i k
  | 0, _ => rfl
  | k + 1, i => by simp only [parameterTypes, Tys.sub, parameterTypes_sub g f k]

theorem result_sub {V W : Type} (g : V → Ty W) (f : Nat → Ty V) (ct : CustomType) :
    (ct.result f).sub g = ct.result fun j => (f j).sub g := by
  simp only [CustomType.result, Ty.sub, parameterTypes_sub]

theorem fieldTypes_sub {V W : Type} (g : V → Ty W) (f : Nat → Ty V) : ∀ fs,
    (fieldTypes f fs).sub g = fieldTypes (fun j => (f j).sub g) fs
  | [] => rfl
  | (l, t) :: fs => by simp only [fieldTypes, Tys.sub, fieldTypes_sub g f fs, Ty.sub_sub]

theorem constructorType_sub {V W : Type} (g : V → Ty W) (f : Nat → Ty V) (ct : CustomType) (v : Variant) :
    (constructorType ct v f).sub g = constructorType ct v fun j => (f j).sub g := by
  unfold constructorType
  split
  · exact result_sub g f ct
  · simp only [Ty.sub, result_sub, fieldTypes_sub]

theorem list_sub {V W : Type} (g : V → Ty W) : ∀ ts : Tys V, Tys.list (ts.sub g) = (Tys.list ts).map (·.sub g)
  | .nil => rfl
  | .cons t ts => by simp only [Tys.sub, Tys.list, List.map, list_sub g ts]

theorem list_length {V : Type} : ∀ ts : Tys V, (Tys.list ts).length = ts.length
  | .nil => rfl
  | .cons t ts => by simp only [Tys.list, List.length, Tys.length, list_length ts]

def TLocals.sub (θ : Leaf → Tree) (B : TLocals) : TLocals := B.map fun b => (b.1, b.2.sub θ)

theorem TLocals.lookup_sub (θ : Leaf → Tree) (x : String) : ∀ B : TLocals, (B.sub θ).lookup x = (B.lookup x).map (·.sub θ)
  | [] => rfl
  | (y, t) :: B => by
    have ih := TLocals.lookup_sub θ x B
    unfold TLocals.sub at ih ⊢
    simp only [List.map, List.lookup_cons]
    cases h : x == y
    · exact ih
    · rfl

theorem TLocals.sub_append (θ : Leaf → Tree) (B C : TLocals) : TLocals.sub θ (B ++ C) = B.sub θ ++ C.sub θ := by simp [TLocals.sub]

theorem optB_sub (θ : Leaf → Tree) (x : Option String) (τ : Tree) : (optB x τ).sub θ = optB x (τ.sub θ) := by
  cases x <;> rfl

theorem paramB_sub (θ : Leaf → Tree) : ∀ (ps : List Param) (ts : Tys Leaf), (paramB ps ts).sub θ = paramB ps (ts.sub θ)
  | [], ts => by cases ts <;> rfl
  | p :: ps, .nil => rfl
  | p :: ps, .cons t ts => by
    simp only [paramB, Tys.sub, TLocals.sub_append, optB_sub, paramB_sub θ ps ts]

section
variable (types : List CustomType) (θ : Leaf → Tree)

mutual

theorem PTyped.sub : ∀ (p : Pattern) (t : Tree) (B : TLocals), PTyped types p t B → PTyped types p (t.sub θ) (B.sub θ)
  | .discard, t, B, h => by simp only [PTyped] at h ⊢; subst h; rfl
  | .var x, t, B, h => by simp only [PTyped] at h ⊢; subst h; rfl
  | .int _, t, B, h => by simp only [PTyped] at h ⊢; obtain ⟨rfl, rfl⟩ := h; exact ⟨rfl, rfl⟩
  | .float _, t, B, h => by simp only [PTyped] at h ⊢; obtain ⟨rfl, rfl⟩ := h; exact ⟨rfl, rfl⟩
  | .string _, t, B, h => by simp only [PTyped] at h ⊢; obtain ⟨rfl, rfl⟩ := h; exact ⟨rfl, rfl⟩
  | .assign p x, t, B, h => by
    simp only [PTyped] at h ⊢
    obtain ⟨B', h1, rfl⟩ := h
    exact ⟨_, PTyped.sub p t B' h1, by rw [TLocals.sub_append]; rfl⟩
  | .tuple ps, t, B, h => by
    simp only [PTyped] at h ⊢
    obtain ⟨ts, rfl, h1⟩ := h
    exact ⟨_, rfl, PTypedAll.sub ps ts B h1⟩
  | .list ps none, t, B, h => by
    simp only [PTyped] at h ⊢
    obtain ⟨a, rfl, h1⟩ := h
    exact ⟨_, rfl, PTypedAt.sub ps a B h1⟩
  | .list ps (some q), t, B, h => by
    simp only [PTyped] at h ⊢
    obtain ⟨a, B₁, B₂, rfl, h1, h2, rfl⟩ := h
    exact ⟨_, _, _, rfl, PTypedAt.sub ps a B₁ h1, PTyped.sub q _ B₂ h2, TLocals.sub_append θ B₁ B₂⟩
  | .ctor x ps, t, B, h => by
    simp only [PTyped] at h ⊢
    obtain ⟨ct, hct, v, hv, rfl, f, rfl, h1⟩ := h
    refine ⟨ct, hct, v, hv, rfl, fun j => (f j).sub θ, result_sub θ f ct, ?_⟩
    rw [← fieldTypes_sub]
    exact PTypedAll.sub ps _ B h1
  | .prefix _ l r, t, B, h => by
    simp only [PTyped] at h ⊢
    obtain ⟨rfl, rfl⟩ := h
    exact ⟨rfl, by rw [TLocals.sub_append, optB_sub, optB_sub]; rfl⟩

theorem PTypedAll.sub : ∀ (ps : List Pattern) (ts : Tys Leaf) (B : TLocals),
    PTypedAll types ps ts B → PTypedAll types ps (ts.sub θ) (B.sub θ)
  | [], ts, B, h => by simp only [PTypedAll] at h ⊢; obtain ⟨rfl, rfl⟩ := h; exact ⟨rfl, rfl⟩
  | p :: ps, ts, B, h => by
    simp only [PTypedAll] at h ⊢
    obtain ⟨t, us, B₁, B₂, rfl, h1, h2, rfl⟩ := h
    exact ⟨_, _, _, _, rfl, PTyped.sub p t B₁ h1, PTypedAll.sub ps us B₂ h2, TLocals.sub_append θ B₁ B₂⟩

theorem PTypedAt.sub : ∀ (ps : List Pattern) (t : Tree) (B : TLocals), PTypedAt types ps t B → PTypedAt types ps (t.sub θ) (B.sub θ)
  | [], t, B, h => by simp only [PTypedAt] at h ⊢; subst h; rfl
  | p :: ps, t, B, h => by
    simp only [PTypedAt] at h ⊢
    obtain ⟨B₁, B₂, h1, h2, rfl⟩ := h
    exact ⟨_, _, PTyped.sub p t B₁ h1, PTypedAt.sub ps t B₂ h2, TLocals.sub_append θ B₁ B₂⟩

end

theorem OpTy.sub (op : Op) (l r τ : Tree) (h : OpTy op l r τ) : OpTy op (l.sub θ) (r.sub θ) (τ.sub θ) := by
  cases op <;> simp only [OpTy, Op.types] at h ⊢ <;> (first | obtain ⟨rfl, rfl, rfl⟩ := h | obtain ⟨rfl, rfl⟩ := h) <;> simp

end

/-- The variables have the same types, up to `θ`. -/
def SubLocals (θ : Leaf → Tree) (Γ Γ' : TLocals) : Prop := ∀ x, Γ'.lookup x = (Γ.lookup x).map (·.sub θ)

theorem SubLocals.append {θ : Leaf → Tree} {Γ Γ' : TLocals} (h : SubLocals θ Γ Γ') (B : TLocals) :
    SubLocals θ (B ++ Γ) (B.sub θ ++ Γ') := fun x => by
  rw [List.lookup_append, List.lookup_append, TLocals.lookup_sub, h x]
  cases B.lookup x <;> rfl

theorem SubLocals.refl (θ : Leaf → Tree) (Γ : TLocals) : SubLocals θ Γ (Γ.sub θ) := fun x => TLocals.lookup_sub θ x Γ

theorem GTyped.sub {θ : Leaf → Tree} {Γ Γ' : TLocals} (h : SubLocals θ Γ Γ') : ∀ (g : Guard) (τ : Tree),
    GTyped Γ g τ → GTyped Γ' g (τ.sub θ)
  | .var x, τ, hg => by simp only [GTyped] at hg ⊢; rw [h x, hg]; rfl
  | .int _, τ, hg => by simp only [GTyped] at hg ⊢; subst hg; rfl
  | .float _, τ, hg => by simp only [GTyped] at hg ⊢; subst hg; rfl
  | .string _, τ, hg => by simp only [GTyped] at hg ⊢; subst hg; rfl
  | .block g, τ, hg => by simp only [GTyped] at hg ⊢; exact GTyped.sub h g τ hg
  | .not g, τ, hg => by
    simp only [GTyped] at hg ⊢
    obtain ⟨h1, rfl⟩ := hg
    exact ⟨GTyped.sub h g _ h1, rfl⟩
  | .bin op l r, τ, hg => by
    simp only [GTyped] at hg ⊢
    obtain ⟨a, b, h1, h2, h3⟩ := hg
    exact ⟨_, _, GTyped.sub h l a h1, GTyped.sub h r b h2, OpTy.sub θ op a b τ h3⟩
  | .index g i, τ, hg => by
    simp only [GTyped] at hg ⊢
    obtain ⟨ts, h1, h2⟩ := hg
    exact ⟨_, GTyped.sub h g _ h1, by rw [list_sub, List.getElem?_map, h2]; rfl⟩

theorem GuardTyped.sub {θ : Leaf → Tree} {Γ Γ' : TLocals} (h : SubLocals θ Γ Γ') : ∀ g : Option Guard, GuardTyped Γ g → GuardTyped Γ' g
  | none, _ => trivial
  | some g, hg => GTyped.sub h g _ hg

theorem FieldTy.sub (types : List CustomType) (θ : Leaf → Tree) (label : String) (t τ : Tree) (h : FieldTy types label t τ) :
    FieldTy types label (t.sub θ) (τ.sub θ) := by
  obtain ⟨ct, hct, f, rfl, h⟩ := h
  refine ⟨ct, hct, fun j => (f j).sub θ, result_sub θ f ct, fun v hv => ?_⟩
  obtain ⟨i, l, t, h1, h2, rfl⟩ := h v hv
  exact ⟨i, l, t, h1, h2, by rw [Ty.sub_sub]⟩

/-- What functions of the module can be used at, up to `θ`. -/
structure SubEnv (θ : Leaf → Tree) (E E' : TEnv) : Prop where
  types : E'.types = E.types
  names : E'.names = E.names
  Δ : ∀ x τ, E.Δ x τ → E'.Δ x (τ.sub θ)

theorem VarTy.sub {θ : Leaf → Tree} {E E' : TEnv} (hE : SubEnv θ E E') {Γ Γ' : TLocals} (h : SubLocals θ Γ Γ') (x : String) (τ : Tree)
    (hx : VarTy E Γ x τ) : VarTy E' Γ' x (τ.sub θ) := by
  unfold VarTy at hx ⊢
  rw [h x]
  cases hl : Γ.lookup x with
  | some τ' => rw [hl] at hx; simp only [Option.map_some]; rw [hx]
  | none =>
    rw [hl] at hx
    simp only [Option.map_none] at hx ⊢
    rw [hE.names]
    by_cases hn : x ∈ E.names
    · rw [if_pos hn] at hx ⊢; exact hE.Δ x τ hx
    · rw [if_neg hn] at hx ⊢
      obtain ⟨ct, hct, v, hv, rfl, f, rfl⟩ := hx
      exact ⟨ct, by rw [hE.types]; exact hct, v, hv, rfl, _, constructorType_sub θ f ct v⟩

section
variable {θ : Leaf → Tree} {E E' : TEnv} (hE : SubEnv θ E E')
include hE

mutual

theorem Typed.sub : ∀ (e : Expr) (Γ Γ' : TLocals), SubLocals θ Γ Γ' → ∀ τ, Typed E Γ e τ → Typed E' Γ' e (τ.sub θ)
  | .int _, Γ, Γ', h, τ, ht => by simp only [Typed] at ht ⊢; subst ht; rfl
  | .float _, Γ, Γ', h, τ, ht => by simp only [Typed] at ht ⊢; subst ht; rfl
  | .string _, Γ, Γ', h, τ, ht => by simp only [Typed] at ht ⊢; subst ht; rfl
  | .var x, Γ, Γ', h, τ, ht => by simp only [Typed] at ht ⊢; exact VarTy.sub hE h x τ ht
  | .fn ps ret body, Γ, Γ', h, τ, ht => by
    simp only [Typed] at ht ⊢
    obtain ⟨ts, r, rfl, h1, h2⟩ := ht
    refine ⟨ts.sub θ, r.sub θ, rfl, by rw [Tys.length_sub]; exact h1, ?_⟩
    rw [← paramB_sub]
    exact TypedStmts.sub body _ _ (h.append _) r h2
  | .call f es, Γ, Γ', h, τ, ht => by
    simp only [Typed] at ht ⊢
    obtain ⟨ts, h1, h2⟩ := ht
    exact ⟨ts.sub θ, Typed.sub f Γ Γ' h _ h1, TypedAll.sub es Γ Γ' h ts h2⟩
  | .bin op l r, Γ, Γ', h, τ, ht => by
    simp only [Typed] at ht ⊢
    obtain ⟨a, b, h1, h2, h3⟩ := ht
    exact ⟨_, _, Typed.sub l Γ Γ' h a h1, Typed.sub r Γ Γ' h b h2, OpTy.sub θ op a b τ h3⟩
  | .not e, Γ, Γ', h, τ, ht => by
    simp only [Typed] at ht ⊢
    obtain ⟨h1, rfl⟩ := ht
    exact ⟨Typed.sub e Γ Γ' h _ h1, rfl⟩
  | .neg e, Γ, Γ', h, τ, ht => by
    simp only [Typed] at ht ⊢
    obtain ⟨h1, rfl⟩ := ht
    exact ⟨Typed.sub e Γ Γ' h _ h1, rfl⟩
  | .block body, Γ, Γ', h, τ, ht => by
    simp only [Typed] at ht ⊢
    exact TypedStmts.sub body Γ Γ' h τ ht
  | .tuple es, Γ, Γ', h, τ, ht => by
    simp only [Typed] at ht ⊢
    obtain ⟨ts, rfl, h1⟩ := ht
    exact ⟨ts.sub θ, rfl, TypedAll.sub es Γ Γ' h ts h1⟩
  | .index e i, Γ, Γ', h, τ, ht => by
    simp only [Typed] at ht ⊢
    obtain ⟨ts, h1, h2⟩ := ht
    exact ⟨ts.sub θ, Typed.sub e Γ Γ' h _ h1, by rw [list_sub, List.getElem?_map, h2]; rfl⟩
  | .list es none, Γ, Γ', h, τ, ht => by
    simp only [Typed] at ht ⊢
    obtain ⟨a, rfl, h1⟩ := ht
    exact ⟨_, rfl, TypedItems.sub es Γ Γ' h a h1⟩
  | .list es (some e), Γ, Γ', h, τ, ht => by
    simp only [Typed] at ht ⊢
    obtain ⟨a, rfl, h1, h2⟩ := ht
    exact ⟨_, rfl, TypedItems.sub es Γ Γ' h a h1, Typed.sub e Γ Γ' h _ h2⟩
  | .field e label, Γ, Γ', h, τ, ht => by
    simp only [Typed] at ht ⊢
    obtain ⟨t, h1, h2⟩ := ht
    exact ⟨_, Typed.sub e Γ Γ' h t h1, by rw [hE.types]; exact FieldTy.sub E.types θ label t τ h2⟩
  | .case_ es cs, Γ, Γ', h, τ, ht => by
    simp only [Typed] at ht ⊢
    obtain ⟨ts, h1, h2⟩ := ht
    exact ⟨_, TypedAll.sub es Γ Γ' h ts h1, TypedClauses.sub cs Γ Γ' h ts τ h2⟩
  | .fail none, Γ, Γ', h, τ, ht => by simp only [Typed]
  | .fail (some e), Γ, Γ', h, τ, ht => by
    simp only [Typed] at ht ⊢
    exact Typed.sub e Γ Γ' h _ ht

theorem TypedAll.sub : ∀ (es : List Expr) (Γ Γ' : TLocals), SubLocals θ Γ Γ' → ∀ ts, TypedAll E Γ es ts → TypedAll E' Γ' es (ts.sub θ)
  | [], Γ, Γ', h, ts, ht => by simp only [TypedAll] at ht ⊢; subst ht; rfl
  | e :: es, Γ, Γ', h, ts, ht => by
    simp only [TypedAll] at ht ⊢
    obtain ⟨t, us, rfl, h1, h2⟩ := ht
    exact ⟨_, _, rfl, Typed.sub e Γ Γ' h t h1, TypedAll.sub es Γ Γ' h us h2⟩

theorem TypedItems.sub : ∀ (es : List Expr) (Γ Γ' : TLocals), SubLocals θ Γ Γ' → ∀ t, TypedItems E Γ es t → TypedItems E' Γ' es (t.sub θ)
  | [], Γ, Γ', h, t, ht => by simp only [TypedItems]
  | e :: es, Γ, Γ', h, t, ht => by
    simp only [TypedItems] at ht ⊢
    exact ⟨Typed.sub e Γ Γ' h t ht.1, TypedItems.sub es Γ Γ' h t ht.2⟩

theorem TypedStmts.sub : ∀ (ss : List Stmt) (Γ Γ' : TLocals), SubLocals θ Γ Γ' → ∀ τ, TypedStmts E Γ ss τ → TypedStmts E' Γ' ss (τ.sub θ)
  | [], Γ, Γ', h, τ, ht => by simp only [TypedStmts] at ht
  | [s], Γ, Γ', h, τ, ht => by
    simp only [TypedStmts] at ht ⊢
    obtain ⟨B, h1⟩ := ht
    exact ⟨_, TypedStmt.sub s Γ Γ' h τ B h1⟩
  | s :: s' :: ss, Γ, Γ', h, τ, ht => by
    simp only [TypedStmts] at ht ⊢
    obtain ⟨t, B, h1, h2⟩ := ht
    exact ⟨_, _, TypedStmt.sub s Γ Γ' h t B h1, TypedStmts.sub (s' :: ss) _ _ (h.append B) τ h2⟩

theorem TypedStmt.sub : ∀ (s : Stmt) (Γ Γ' : TLocals), SubLocals θ Γ Γ' → ∀ τ B, TypedStmt E Γ s τ B → TypedStmt E' Γ' s (τ.sub θ) (B.sub θ)
  | .expr e, Γ, Γ', h, τ, B, ht => by
    simp only [TypedStmt] at ht ⊢
    obtain ⟨h1, rfl⟩ := ht
    exact ⟨Typed.sub e Γ Γ' h τ h1, rfl⟩
  | .let_ p _ e, Γ, Γ', h, τ, B, ht => by
    simp only [TypedStmt] at ht ⊢
    exact ⟨Typed.sub e Γ Γ' h τ ht.1, by rw [hE.types]; exact PTyped.sub E.types θ p τ B ht.2⟩
  | .letAssert p _ e m, Γ, Γ', h, τ, B, ht => by
    simp only [TypedStmt] at ht ⊢
    exact ⟨Typed.sub e Γ Γ' h τ ht.1, by rw [hE.types]; exact PTyped.sub E.types θ p τ B ht.2.1, TypedMessage.sub m Γ Γ' h ht.2.2⟩
  | .assert e m, Γ, Γ', h, τ, B, ht => by
    simp only [TypedStmt] at ht ⊢
    obtain ⟨h1, h2, rfl, rfl⟩ := ht
    exact ⟨Typed.sub e Γ Γ' h _ h1, TypedMessage.sub m Γ Γ' h h2, rfl, rfl⟩

theorem TypedMessage.sub : ∀ (m : Option Expr) (Γ Γ' : TLocals), SubLocals θ Γ Γ' → TypedMessage E Γ m → TypedMessage E' Γ' m
  | none, Γ, Γ', h, ht => by simp only [TypedMessage]
  | some e, Γ, Γ', h, ht => by
    simp only [TypedMessage] at ht ⊢
    exact Typed.sub e Γ Γ' h _ ht

theorem TypedClauses.sub : ∀ (cs : List Clause) (Γ Γ' : TLocals), SubLocals θ Γ Γ' → ∀ ts τ,
    TypedClauses E Γ ts τ cs → TypedClauses E' Γ' (ts.sub θ) (τ.sub θ) cs
  | [], Γ, Γ', h, ts, τ, ht => by simp only [TypedClauses]
  | .mk ps alts g body :: cs, Γ, Γ', h, ts, τ, ht => by
    simp only [TypedClauses] at ht ⊢
    obtain ⟨⟨B, h1, h2, h3, h4⟩, h5⟩ := ht
    refine ⟨⟨B.sub θ, by rw [hE.types]; exact PTypedAll.sub E.types θ ps ts B h1, fun qs hq => ?_,
      GuardTyped.sub (h.append B) g h3, Typed.sub body _ _ (h.append B) τ h4⟩, TypedClauses.sub cs Γ Γ' h ts τ h5⟩
    obtain ⟨B', h6, h7⟩ := h2 qs hq
    refine ⟨B'.sub θ, by rw [hE.types]; exact PTypedAll.sub E.types θ qs ts B' h6, fun x => ?_⟩
    rw [TLocals.lookup_sub, TLocals.lookup_sub, h7 x]

end
end

/-- Only the types of the variables matter. -/
theorem SubLocals.of_eq {Γ Γ' : TLocals} (h : ∀ x, Γ'.lookup x = Γ.lookup x) : SubLocals .var Γ Γ' := fun x => by
  rw [h x]
  cases Γ.lookup x with
  | none => rfl
  | some t => simp only [Option.map_some, Ty.sub_var]

theorem SubEnv.refl (E : TEnv) : SubEnv .var E E := ⟨rfl, rfl, fun x τ h => by rw [Ty.sub_var]; exact h⟩

theorem Typed.congr (E : TEnv) {Γ Γ' : TLocals} (h : ∀ x, Γ'.lookup x = Γ.lookup x) {e : Expr} {τ : Tree} (ht : Typed E Γ e τ) :
    Typed E Γ' e τ := by
  have := Typed.sub (SubEnv.refl E) e Γ Γ' (.of_eq h) τ ht
  rwa [Ty.sub_var] at this

theorem GuardTyped.congr {Γ Γ' : TLocals} (h : ∀ x, Γ'.lookup x = Γ.lookup x) {g : Option Guard} (ht : GuardTyped Γ g) : GuardTyped Γ' g :=
  GuardTyped.sub (.of_eq h) g ht

end Verif.Infer
