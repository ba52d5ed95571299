import Verif.Infer.Subst

/-!
Typed programs do not go wrong.
-/

namespace Verif.Infer

open Verif.Unify

/-- A result that is not wrong and whose value is as wanted. -/
def Safe {α : Type} (P : α → Prop) : Res α → Prop
  | .ok a => P a
  | .wrong => False
  | _ => True

theorem Safe.bind {α β : Type} {P : α → Prop} {Q : β → Prop} {r : Res α} {f : α → Res β} (h : Safe P r) (hf : ∀ a, P a → Safe Q (f a)) :
    Safe Q (r.bind f) := by
  cases r <;> first | exact hf _ h | exact h | trivial

theorem Safe.ofOption {α : Type} {P : α → Prop} {o : Option α} {a : α} (h : o = some a) (ha : P a) : Safe P (Res.ofOption o) := by
  subst h; exact ha

theorem Safe.mono {α : Type} {P Q : α → Prop} {r : Res α} (h : Safe P r) (hf : ∀ a, P a → Q a) : Safe Q r := by
  cases r <;> first | exact hf _ h | exact h | trivial

section
variable {E : TEnv}

theorem VEnv.append : ∀ {env env' : Env} {Γ Γ' : TLocals}, VEnv E env Γ → VEnv E env' Γ' → VEnv E (env ++ env') (Γ ++ Γ')
  | [], env', Γ, Γ', h, h' => by simp only [VEnv] at h; subst h; exact h'
  | (x, v) :: env, env', Γ, Γ', h, h' => by
    simp only [VEnv] at h
    obtain ⟨t, Γ₁, rfl, h1, h2⟩ := h
    simp only [List.cons_append, VEnv]
    exact ⟨t, _, rfl, h1, VEnv.append h2 h'⟩

theorem VEnv.lookup (x : String) : ∀ {env : Env} {Γ : TLocals}, VEnv E env Γ →
    (∀ τ, Γ.lookup x = some τ → ∃ v, env.lookup x = some v ∧ VT E v τ) ∧ (Γ.lookup x = none → env.lookup x = none)
  | [], Γ, h => by simp only [VEnv] at h; subst h; exact ⟨(fun τ h => nomatch h), fun _ => rfl⟩
  | (y, v) :: env, Γ, h => by
    simp only [VEnv] at h
    obtain ⟨t, Γ₁, rfl, h1, h2⟩ := h
    simp only [List.lookup_cons]
    cases hxy : x == y
    · exact VEnv.lookup x h2
    · exact ⟨fun τ hτ => ⟨v, rfl, by cases hτ; exact h1⟩, fun h => by cases h⟩

theorem VEnv.nil : VEnv E [] [] := by simp only [VEnv]

theorem VEnv.one {x : String} {v : Value} {t : Tree} (h : VT E v t) : VEnv E [(x, v)] [(x, t)] := by
  simp only [VEnv]; exact ⟨t, [], rfl, h, rfl⟩

theorem VEnv.option {x : Option String} {v : Value} {t : Tree} (h : VT E v t) : VEnv E (bindOption x v) (optB x t) := by
  cases x
  · exact VEnv.nil
  · exact VEnv.one h

theorem VTs.get : ∀ {vs : List Value} {ts : Tys Leaf}, VTs E vs ts → ∀ {i : Nat} {t : Tree}, (Tys.list ts)[i]? = some t →
    ∃ v, vs[i]? = some v ∧ VT E v t
  | [], ts, h, i, t, hi => by simp only [VTs] at h; subst h; cases hi
  | v :: vs, ts, h, i, t, hi => by
    simp only [VTs] at h
    obtain ⟨a, as, rfl, h1, h2⟩ := h
    cases i with
    | zero => cases hi; exact ⟨v, rfl, h1⟩
    | succ i => exact VTs.get h2 (i := i) hi

theorem VTs.length : ∀ {vs : List Value} {ts : Tys Leaf}, VTs E vs ts → vs.length = ts.length
  | [], ts, h => by simp only [VTs] at h; subst h; rfl
  | v :: vs, ts, h => by
    simp only [VTs] at h
    obtain ⟨a, as, rfl, h1, h2⟩ := h
    simp only [List.length, Tys.length, VTs.length h2]

theorem fieldTypes_length {V : Type} (f : Nat → Ty V) : ∀ fs, (fieldTypes f fs).length = fs.length
  | [] => rfl
  | (l, t) :: fs => by simp only [fieldTypes, Tys.length, List.length, fieldTypes_length f fs]

theorem fieldTypes_get {V : Type} (f : Nat → Ty V) : ∀ (fs : List (Option String × Ty Nat)) (i : Nat) (l : Option String) (t : Ty Nat),
    fs[i]? = some (l, t) → (Tys.list (fieldTypes f fs))[i]? = some (t.sub f)
  | [], i, l, t, h => by cases h
  | (l', t') :: fs, 0, l, t, h => by cases h; rfl
  | (l', t') :: fs, i + 1, l, t, h => fieldTypes_get f fs i l t h

theorem VEnv.parameters : ∀ {ps : List Param} {vs : List Value} {ts : Tys Leaf}, ps.length = ts.length → VTs E vs ts →
    ∃ b, bindParameters ps vs = some b ∧ VEnv E b (paramB ps ts)
  | [], vs, ts, h, hv => by
    cases ts with
    | nil =>
      cases vs with
      | nil => exact ⟨[], rfl, VEnv.nil⟩
      | cons v vs => simp [VTs] at hv
    | cons t ts => simp [Tys.length] at h
  | p :: ps, vs, ts, h, hv => by
    cases ts with
    | nil => simp [Tys.length] at h
    | cons t ts =>
      cases vs with
      | nil => simp [VTs] at hv
      | cons v vs =>
        simp only [VTs, Tys.cons.injEq] at hv
        obtain ⟨_, _, ⟨rfl, rfl⟩, h1, h2⟩ := hv
        simp only [List.length, Tys.length, Nat.add_right_cancel_iff] at h
        obtain ⟨b, hb, hb'⟩ := VEnv.parameters h h2
        exact ⟨_, by simp only [bindParameters, hb, Option.map_some], VEnv.append (VEnv.option h1) hb'⟩

end

/-! ### What values of the built-in types are -/

theorem parameterTypes_inj {V : Type} (f f' : Nat → Ty V) : ∀ k i, parameterTypes f i k = parameterTypes f' i k → ∀ j, i ≤ j → j < i + k → f j = f' j
  | 0, i, _, j, h1, h2 => by omega
  | k + 1, i, h, j, h1, h2 => by
    simp only [parameterTypes, Tys.cons.injEq] at h
    by_cases hj : j = i
    · subst hj; exact h.1
    · exact parameterTypes_inj f f' k (i + 1) h.2 j (by omega) (by omega)

theorem fieldTypes_congr {V : Type} (f f' : Nat → Ty V) : ∀ (fs : List (Option String × Ty Nat)), (∀ x ∈ fs, ∀ i, x.2.Has i → f i = f' i) →
    fieldTypes f fs = fieldTypes f' fs
  | [], _ => rfl
  | (l, t) :: fs, h => by
    simp only [fieldTypes]
    rw [Ty.sub_congr f f' t (fun i hi => h (l, t) (by simp) i hi), fieldTypes_congr f f' fs fun x hx => h x (by simp [hx])]

theorem GoodTypes.determined {types : List CustomType} (hT : GoodTypes types) {ct ct' : CustomType} (h : ct ∈ types) (h' : ct' ∈ types)
    {f f' : Nat → Tree} (he : ct.result f = ct'.result f') :
    ct = ct' ∧ ∀ v ∈ ct.variants, fieldTypes f v.fields = fieldTypes f' v.fields := by
  simp only [CustomType.result, Ty.named.injEq] at he
  obtain ⟨h1, h2, h3⟩ := he
  have hc := hT.names ct h ct' h' h1 h2
  subst hc
  refine ⟨rfl, fun v hv => fieldTypes_congr f f' _ fun x hx i hi => ?_⟩
  exact parameterTypes_inj f f' ct.parameters 0 h3 i (Nat.zero_le _) (by have := hT.parameters ct h v hv x hx i hi; omega)

theorem constructorType_fn {V : Type} {ct : CustomType} {v : Variant} (h : v.fields ≠ []) (f : Nat → Ty V) :
    constructorType ct v f = .fn (fieldTypes f v.fields) (ct.result f) := by
  unfold constructorType
  split
  · next h' => exact absurd h' h
  · rfl

theorem constructorType_nil {V : Type} {ct : CustomType} {v : Variant} (h : v.fields = []) (f : Nat → Ty V) :
    constructorType ct v f = ct.result f := by
  unfold constructorType
  rw [h]

/-- The functions of a program have the types that are used. -/
structure GoodEnv (E : TEnv) (funs : List Fun) : Prop where
  types : GoodTypes E.types
  names : ∀ x, x ∈ E.names ↔ ∃ f ∈ funs, f.name = x
  body : ∀ x τ, x ∈ E.names → E.Δ x τ → ∃ f ts r, funs.find? (fun g => g.name = x) = some f ∧ τ = .fn ts r ∧ f.parameters.length = ts.length ∧
    TypedStmts E (paramB f.parameters ts) f.body r

section
variable {E : TEnv} {funs : List Fun} (hE : GoodEnv E funs)

include hE

theorem GoodEnv.fn {x : String} {τ : Tree} (h : x ∈ E.names ∧ E.Δ x τ) : ∃ ts r, τ = .fn ts r := by
  obtain ⟨_, ts, r, _, h, _⟩ := hE.body x τ h.1 h.2
  exact ⟨ts, r, h⟩

theorem VT.int {v : Value} (h : VT E v tInt) : ∃ n, v = .int n := by
  cases v <;> simp [VT, tInt, named0, tFloat, tString, tList, CustomType.result] at h ⊢
  · obtain ⟨ct, hct, v, hv, rfl, f, ⟨h1, h2, _⟩, _⟩ := h
    exact (hE.types.builtin ct hct h1.symm).1 h2.symm
  · obtain ⟨ct, hct, v, hv, rfl, h1, f, h2⟩ := h
    rw [constructorType_fn h1] at h2; cases h2
  · obtain ⟨_, _, h⟩ := hE.fn h; cases h

theorem VT.float {v : Value} (h : VT E v tFloat) : ∃ n, v = .float n := by
  cases v <;> simp [VT, tInt, named0, tFloat, tString, tList, CustomType.result] at h ⊢
  · obtain ⟨ct, hct, v, hv, rfl, f, ⟨h1, h2, _⟩, _⟩ := h
    exact (hE.types.builtin ct hct h1.symm).2.1 h2.symm
  · obtain ⟨ct, hct, v, hv, rfl, h1, f, h2⟩ := h
    rw [constructorType_fn h1] at h2; cases h2
  · obtain ⟨_, _, h⟩ := hE.fn h; cases h

theorem VT.string {v : Value} (h : VT E v tString) : ∃ s, v = .str s := by
  cases v <;> simp [VT, tInt, named0, tFloat, tString, tList, CustomType.result] at h ⊢
  · obtain ⟨ct, hct, v, hv, rfl, f, ⟨h1, h2, _⟩, _⟩ := h
    exact (hE.types.builtin ct hct h1.symm).2.2.1 h2.symm
  · obtain ⟨ct, hct, v, hv, rfl, h1, f, h2⟩ := h
    rw [constructorType_fn h1] at h2; cases h2
  · obtain ⟨_, _, h⟩ := hE.fn h; cases h

theorem VT.tuple {v : Value} {ts : Tys Leaf} (h : VT E v (.tuple ts)) : ∃ vs, v = .tuple vs ∧ VTs E vs ts := by
  cases v <;> simp [VT, tInt, named0, tFloat, tString, tList, CustomType.result] at h ⊢
  · exact h
  · obtain ⟨ct, hct, v, hv, rfl, h1, f, h2⟩ := h
    rw [constructorType_fn h1] at h2; cases h2
  · obtain ⟨_, _, h⟩ := hE.fn h; cases h

theorem VT.list {v : Value} {a : Tree} (h : VT E v (tList a)) : v = .nil ∨ ∃ h t, v = .cons h t ∧ VT E h a ∧ VT E t (tList a) := by
  cases v <;> simp [VT, tInt, named0, tFloat, tString, tList, CustomType.result] at h ⊢
  · exact h
  · obtain ⟨ct, hct, v, hv, rfl, f, ⟨h1, h2, _⟩, _⟩ := h
    exact (hE.types.builtin ct hct h1.symm).2.2.2 h2.symm
  · obtain ⟨ct, hct, v, hv, rfl, h1, f, h2⟩ := h
    rw [constructorType_fn h1] at h2; cases h2
  · obtain ⟨_, _, h⟩ := hE.fn h; cases h

theorem VT.custom {ct : CustomType} (hct : ct ∈ E.types) {f : Nat → Tree} {v : Value} (h : VT E v (ct.result f)) :
    ∃ w ∈ ct.variants, ∃ vs, v = .record w.name vs ∧ VTs E vs (fieldTypes f w.fields) := by
  cases v with
  | record tag vs =>
    simp only [VT] at h
    obtain ⟨ct', hct', w, hw, rfl, f', he, h1⟩ := h
    obtain ⟨rfl, hf⟩ := hE.types.determined hct hct' he
    exact ⟨w, hw, vs, rfl, by rw [hf w hw]; exact h1⟩
  | int n =>
    simp [VT, tInt, named0, CustomType.result] at h
    exact absurd h.2.1 (hE.types.builtin ct hct h.1).1
  | float n =>
    simp [VT, tFloat, named0, CustomType.result] at h
    exact absurd h.2.1 (hE.types.builtin ct hct h.1).2.1
  | str n =>
    simp [VT, tString, named0, CustomType.result] at h
    exact absurd h.2.1 (hE.types.builtin ct hct h.1).2.2.1
  | nil =>
    simp [VT, tList, CustomType.result] at h
    exact absurd h.2.1 (hE.types.builtin ct hct h.1).2.2.2
  | cons _ _ =>
    simp [VT, tList, CustomType.result] at h
    obtain ⟨_, h, _⟩ := h
    exact absurd h.2.1 (hE.types.builtin ct hct h.1).2.2.2
  | tuple vs => simp [VT, CustomType.result] at h
  | closure _ _ _ => simp [VT, CustomType.result] at h
  | ctor tag =>
    simp only [VT] at h
    obtain ⟨ct, hct, v, hv, rfl, h1, f, h2⟩ := h
    rw [constructorType_fn h1] at h2; cases h2
  | fn x =>
    simp only [VT] at h
    obtain ⟨_, _, h⟩ := hE.fn h; cases h

omit hE in
theorem VT.isFn {v : Value} {ts : Tys Leaf} {r : Tree} (h : VT E v (.fn ts r)) : v.isFunction = true := by
  cases v <;> simp [VT, tInt, named0, tFloat, tString, tList, CustomType.result] at h ⊢ <;> rfl

theorem VT.bool {v : Value} (h : VT E v tBool) : ∃ b, v = .bool b ∧ v.isTrue = some b := by
  have hb : (⟨"gleam", "Bool", 0, [⟨"True", []⟩, ⟨"False", []⟩]⟩ : CustomType) ∈ E.types := hE.types.bool (by simp [preludeTypes])
  obtain ⟨w, hw, vs, rfl, h1⟩ := VT.custom hE hb (f := fun _ => tInt) h
  simp only [List.mem_cons, List.not_mem_nil, or_false] at hw
  rcases hw with rfl | rfl
  · cases vs with
    | nil => exact ⟨true, rfl, rfl⟩
    | cons _ _ => simp [VTs, fieldTypes] at h1
  · cases vs with
    | nil => exact ⟨false, rfl, rfl⟩
    | cons _ _ => simp [VTs, fieldTypes] at h1

theorem VT.ofBool (b : Bool) : VT E (.bool b) tBool := by
  have hb : (⟨"gleam", "Bool", 0, [⟨"True", []⟩, ⟨"False", []⟩]⟩ : CustomType) ∈ E.types := hE.types.bool (by simp [preludeTypes])
  simp only [Value.bool, VT]
  refine ⟨_, hb, ⟨if b then "True" else "False", []⟩, by cases b <;> simp, rfl, fun _ => tInt, rfl, by simp [VTs, fieldTypes]⟩

theorem VT.nil_ : VT E (.record "Nil" []) tNil := by
  have hb : (⟨"gleam", "Nil", 0, [⟨"Nil", []⟩]⟩ : CustomType) ∈ E.types := hE.types.bool (by simp [preludeTypes])
  simp only [VT]
  exact ⟨_, hb, ⟨"Nil", []⟩, by simp, rfl, fun _ => tInt, rfl, by simp [VTs, fieldTypes]⟩

/-! ### Equality -/

omit hE in
theorem both_some {a b : Option Bool} (ha : ∃ r, a = some r) (hb : ∃ r, b = some r) : ∃ r, both a b = some r := by
  obtain ⟨r, rfl⟩ := ha
  obtain ⟨s, rfl⟩ := hb
  exact ⟨_, rfl⟩

omit hE in
theorem eq_functions (M : Machine) {types : List CustomType} {a b : Value} (ha : a.isFunction = true) (hb : b.isFunction = true) :
    ∃ r, Value.eq M types a b = some r := by
  cases a <;> simp [Value.isFunction] at ha <;> cases b <;> simp [Value.isFunction] at hb <;>
    simp only [Value.eq, Value.isFunction, Bool.and_self, if_true] <;> exact ⟨_, rfl⟩

omit hE in
theorem sameType_true {types : List CustomType} {ct : CustomType} (hct : ct ∈ types) {v w : Variant} (hv : v ∈ ct.variants) (hw : w ∈ ct.variants) :
    sameType types v.name w.name = true := by
  simp only [sameType, List.any_eq_true, Bool.and_eq_true, decide_eq_true_eq]
  exact ⟨ct, hct, ⟨v, hv, rfl⟩, w, hw, rfl⟩

mutual

theorem eq_some (M : Machine) : ∀ (a b : Value) (τ : Tree), VT E a τ → VT E b τ → ∃ r, Value.eq M E.types a b = some r
  | .int n, b, τ, ha, hb => by
    simp only [VT] at ha; subst ha
    obtain ⟨m, rfl⟩ := VT.int hE hb
    (simp only [Value.eq]; exact ⟨_, rfl⟩)
  | .float n, b, τ, ha, hb => by
    simp only [VT] at ha; subst ha
    obtain ⟨m, rfl⟩ := VT.float hE hb
    (simp only [Value.eq]; exact ⟨_, rfl⟩)
  | .str n, b, τ, ha, hb => by
    simp only [VT] at ha; subst ha
    obtain ⟨m, rfl⟩ := VT.string hE hb
    (simp only [Value.eq]; exact ⟨_, rfl⟩)
  | .tuple as, b, τ, ha, hb => by
    simp only [VT] at ha
    obtain ⟨ts, rfl, ha⟩ := ha
    obtain ⟨bs, rfl, hb'⟩ := VT.tuple hE hb
    simp only [Value.eq]
    exact eqAll_some M as bs ts ha hb'
  | .nil, b, τ, ha, hb => by
    simp only [VT] at ha
    obtain ⟨t, rfl⟩ := ha
    rcases VT.list hE hb with rfl | ⟨h, t, rfl, _⟩ <;> (simp only [Value.eq]; exact ⟨_, rfl⟩)
  | .cons a as, b, τ, ha, hb => by
    simp only [VT] at ha
    obtain ⟨t, rfl, h1, h2⟩ := ha
    rcases VT.list hE hb with rfl | ⟨h, t, rfl, h3, h4⟩
    · (simp only [Value.eq]; exact ⟨_, rfl⟩)
    · simp only [Value.eq]
      exact both_some (eq_some M a h _ h1 h3) (eq_some M as t _ h2 h4)
  | .record tag as, b, τ, ha, hb => by
    simp only [VT] at ha
    obtain ⟨ct, hct, v, hv, rfl, f, rfl, h1⟩ := ha
    obtain ⟨w, hw, bs, rfl, h2⟩ := VT.custom hE hct hb
    simp only [Value.eq]
    by_cases he : v.name = w.name
    · rw [if_pos he]
      obtain ⟨_, rfl⟩ := hE.types.constructors ct hct v hv ct hct w hw he
      exact eqAll_some M as bs _ h1 h2
    · rw [if_neg he, if_pos (sameType_true hct hv hw)]
      exact ⟨_, rfl⟩
  | .closure ps body env, b, τ, ha, hb => by
    simp only [VT] at ha
    obtain ⟨_, ts, r, _, rfl, _⟩ := ha
    exact eq_functions M rfl (VT.isFn hb)
  | .ctor tag, b, τ, ha, hb => by
    simp only [VT] at ha
    obtain ⟨ct, hct, v, hv, rfl, h1, f, rfl⟩ := ha
    rw [constructorType_fn h1] at hb
    exact eq_functions M rfl (VT.isFn hb)
  | .fn x, b, τ, ha, hb => by
    simp only [VT] at ha
    obtain ⟨_, _, rfl⟩ := hE.fn ha
    exact eq_functions M rfl (VT.isFn hb)

theorem eqAll_some (M : Machine) : ∀ (as bs : List Value) (ts : Tys Leaf), VTs E as ts → VTs E bs ts → ∃ r, eqAll M E.types as bs = some r
  | [], bs, ts, ha, hb => by
    simp only [VTs] at ha; subst ha
    cases bs with
    | nil => (simp only [eqAll]; exact ⟨_, rfl⟩)
    | cons _ _ => simp [VTs] at hb
  | a :: as, bs, ts, ha, hb => by
    simp only [VTs] at ha
    obtain ⟨t, ts, rfl, h1, h2⟩ := ha
    cases bs with
    | nil => simp [VTs] at hb
    | cons b bs =>
      simp only [VTs, Tys.cons.injEq] at hb
      obtain ⟨_, _, ⟨rfl, rfl⟩, h3, h4⟩ := hb
      simp only [eqAll]
      exact both_some (eq_some M a b _ h1 h3) (eqAll_some M as bs _ h2 h4)

end

/-! ### Operators -/

theorem binary_some (M : Machine) {op : Op} (ho : op ≠ .and ∧ op ≠ .or) {a b : Value} {l r τ : Tree} (ht : OpTy op l r τ) (ha : VT E a l)
    (hb : VT E b r) : ∃ v, binary M E.types op a b = some v ∧ VT E v τ := by
  cases op <;> simp only [OpTy, Op.types] at ht
  case and => exact absurd rfl ho.1
  case or => exact absurd rfl ho.2
  case eq =>
    obtain ⟨rfl, rfl⟩ := ht
    obtain ⟨x, hx⟩ := eq_some hE M a b l ha hb
    simp only [binary, hx, Option.map_some]
    exact ⟨_, rfl, VT.ofBool hE _⟩
  case notEq =>
    obtain ⟨rfl, rfl⟩ := ht
    obtain ⟨x, hx⟩ := eq_some hE M a b l ha hb
    simp only [binary, hx, Option.map_some]
    exact ⟨_, rfl, VT.ofBool hE _⟩
  all_goals
    obtain ⟨rfl, rfl, rfl⟩ := ht
    first
    | (obtain ⟨x, rfl⟩ := VT.int hE ha; obtain ⟨y, rfl⟩ := VT.int hE hb)
    | (obtain ⟨x, rfl⟩ := VT.float hE ha; obtain ⟨y, rfl⟩ := VT.float hE hb)
    | (obtain ⟨x, rfl⟩ := VT.string hE ha; obtain ⟨y, rfl⟩ := VT.string hE hb)
    simp only [binary]
    refine ⟨_, rfl, ?_⟩
    first
    | exact VT.ofBool hE _
    | simp only [VT]

/-! ### Patterns -/

/-- A match that is not wrong, and gives variables of these types. -/
def SafeMatch (E : TEnv) (B : TLocals) : Match → Prop
  | .yes b => VEnv E b B
  | .no => True
  | .wrong => False

omit hE in
theorem SafeMatch.and {r s : Match} {B C : TLocals} (hr : SafeMatch E B r) (hs : SafeMatch E C s) : SafeMatch E (B ++ C) (r.and s) := by
  cases r <;> cases s <;> simp only [SafeMatch, Match.and] at *
  exact VEnv.append hr hs

mutual

theorem run_safe (M : Machine) : ∀ (p : Pattern) (v : Value) (τ : Tree) (B : TLocals), PTyped E.types p τ B → VT E v τ →
    SafeMatch E B (Pattern.run M E.types p v)
  | .discard, v, τ, B, hp, hv => by simp only [PTyped] at hp; subst hp; simp only [Pattern.run, SafeMatch]; exact VEnv.nil
  | .var x, v, τ, B, hp, hv => by simp only [PTyped] at hp; subst hp; simp only [Pattern.run]; exact VEnv.one hv
  | .int n, v, τ, B, hp, hv => by
    simp only [PTyped] at hp
    obtain ⟨rfl, rfl⟩ := hp
    obtain ⟨m, rfl⟩ := VT.int hE hv
    simp only [Pattern.run]
    split
    · simp only [SafeMatch]; exact VEnv.nil
    · trivial
  | .float n, v, τ, B, hp, hv => by
    simp only [PTyped] at hp
    obtain ⟨rfl, rfl⟩ := hp
    obtain ⟨m, rfl⟩ := VT.float hE hv
    simp only [Pattern.run]
    split
    · simp only [SafeMatch]; exact VEnv.nil
    · trivial
  | .string n, v, τ, B, hp, hv => by
    simp only [PTyped] at hp
    obtain ⟨rfl, rfl⟩ := hp
    obtain ⟨m, rfl⟩ := VT.string hE hv
    simp only [Pattern.run]
    split
    · simp only [SafeMatch]; exact VEnv.nil
    · trivial
  | .assign p x, v, τ, B, hp, hv => by
    simp only [PTyped] at hp
    obtain ⟨B', h1, rfl⟩ := hp
    have := run_safe M p v τ B' h1 hv
    simp only [Pattern.run]
    generalize Pattern.run M E.types p v = r at this
    cases r <;> simp only [SafeMatch, Match.with] at this ⊢
    exact VEnv.append this (VEnv.one hv)
  | .tuple ps, v, τ, B, hp, hv => by
    simp only [PTyped] at hp
    obtain ⟨ts, rfl, h1⟩ := hp
    obtain ⟨vs, rfl, h2⟩ := VT.tuple hE hv
    simp only [Pattern.run]
    exact runAll_safe M ps vs ts B h1 h2
  | .list ps none, v, τ, B, hp, hv => by
    simp only [PTyped] at hp
    obtain ⟨a, rfl, h1⟩ := hp
    simp only [Pattern.run]
    exact runList_safe M ps v a B h1 hv
  | .list ps (some q), v, τ, B, hp, hv => by
    simp only [PTyped] at hp
    obtain ⟨a, B₁, B₂, rfl, h1, h2, rfl⟩ := hp
    simp only [Pattern.run]
    have hi := runItems_safe M ps v a B₁ h1 hv
    split
    · next rest hr => exact SafeMatch.and hi.1 (run_safe M q rest _ B₂ h2 (hi.2.1 rest hr))
    · next hr =>
      have := hi.2.2 hr
      generalize (Pattern.runItems M E.types ps v).1 = r at this hi
      subst this
      trivial
  | .ctor x ps, v, τ, B, hp, hv => by
    simp only [PTyped] at hp
    obtain ⟨ct, hct, w, hw, rfl, f, rfl, h1⟩ := hp
    obtain ⟨w', hw', vs, rfl, h2⟩ := VT.custom hE hct hv
    simp only [Pattern.run]
    by_cases he : w.name = w'.name
    · rw [if_pos he]
      obtain ⟨_, rfl⟩ := hE.types.constructors ct hct w hw ct hct w' hw' he
      exact runAll_safe M ps vs _ B h1 h2
    · rw [if_neg he, if_pos (sameType_true hct hw hw')]
      trivial
  | .prefix s l r, v, τ, B, hp, hv => by
    simp only [PTyped] at hp
    obtain ⟨rfl, rfl⟩ := hp
    obtain ⟨m, rfl⟩ := VT.string hE hv
    simp only [Pattern.run]
    split
    · exact VEnv.append (VEnv.option (by simp only [VT])) (VEnv.option (by simp only [VT]))
    · trivial

theorem runAll_safe (M : Machine) : ∀ (ps : List Pattern) (vs : List Value) (ts : Tys Leaf) (B : TLocals), PTypedAll E.types ps ts B → VTs E vs ts →
    SafeMatch E B (Pattern.runAll M E.types ps vs)
  | [], vs, ts, B, hp, hv => by
    simp only [PTypedAll] at hp
    obtain ⟨rfl, rfl⟩ := hp
    cases vs with
    | nil => simp only [Pattern.runAll, SafeMatch]; exact VEnv.nil
    | cons _ _ => simp [VTs] at hv
  | p :: ps, vs, ts, B, hp, hv => by
    simp only [PTypedAll] at hp
    obtain ⟨t, us, B₁, B₂, rfl, h1, h2, rfl⟩ := hp
    cases vs with
    | nil => simp [VTs] at hv
    | cons v vs =>
      simp only [VTs, Tys.cons.injEq] at hv
      obtain ⟨_, _, ⟨rfl, rfl⟩, h3, h4⟩ := hv
      simp only [Pattern.runAll]
      exact SafeMatch.and (run_safe M p v _ B₁ h1 h3) (runAll_safe M ps vs _ B₂ h2 h4)

theorem runList_safe (M : Machine) : ∀ (ps : List Pattern) (v : Value) (a : Tree) (B : TLocals), PTypedAt E.types ps a B → VT E v (tList a) →
    SafeMatch E B (Pattern.runList M E.types ps v)
  | [], v, a, B, hp, hv => by
    simp only [PTypedAt] at hp
    subst hp
    rcases VT.list hE hv with rfl | ⟨h, t, rfl, _, _⟩
    · simp only [Pattern.runList, SafeMatch]; exact VEnv.nil
    · simp only [Pattern.runList]; trivial
  | p :: ps, v, a, B, hp, hv => by
    simp only [PTypedAt] at hp
    obtain ⟨B₁, B₂, h1, h2, rfl⟩ := hp
    rcases VT.list hE hv with rfl | ⟨h, t, rfl, h3, h4⟩
    · simp only [Pattern.runList]; trivial
    · simp only [Pattern.runList]
      exact SafeMatch.and (run_safe M p h a B₁ h1 h3) (runList_safe M ps t a B₂ h2 h4)

theorem runItems_safe (M : Machine) : ∀ (ps : List Pattern) (v : Value) (a : Tree) (B : TLocals), PTypedAt E.types ps a B →
    VT E v (tList a) → SafeMatch E B (Pattern.runItems M E.types ps v).1 ∧
      (∀ rest, (Pattern.runItems M E.types ps v).2 = some rest → VT E rest (tList a)) ∧
      ((Pattern.runItems M E.types ps v).2 = none → (Pattern.runItems M E.types ps v).1 = .no)
  | [], v, a, B, hp, hv => by
    simp only [PTypedAt] at hp
    subst hp
    rcases VT.list hE hv with rfl | ⟨h, t, rfl, _, _⟩
    · simp only [Pattern.runItems]
      exact ⟨(VEnv.nil : VEnv E [] []), fun rest h => by cases h; exact hv, fun h => nomatch h⟩
    · simp only [Pattern.runItems]
      exact ⟨(VEnv.nil : VEnv E [] []), fun rest h => by cases h; exact hv, fun h => nomatch h⟩
  | p :: ps, v, a, B, hp, hv => by
    simp only [PTypedAt] at hp
    obtain ⟨B₁, B₂, h1, h2, rfl⟩ := hp
    rcases VT.list hE hv with rfl | ⟨h, t, rfl, h3, h4⟩
    · simp only [Pattern.runItems]
      exact ⟨trivial, (fun rest h => nomatch h), fun _ => trivial⟩
    · simp only [Pattern.runItems]
      have ih := runItems_safe M ps t a B₂ h2 h4
      have hr := run_safe M p h a B₁ h1 h3
      refine ⟨SafeMatch.and hr ih.1, ih.2.1, fun hn => ?_⟩
      rw [ih.2.2 hn]
      generalize Pattern.run M E.types p h = r at hr
      cases r
      · rfl
      · rfl
      · exact absurd hr (by simp only [SafeMatch]; exact id)

end

/-! ### Guards -/

theorem guard_safe (M : Machine) {env : Env} {Γ : TLocals} (hΓ : VEnv E env Γ) : ∀ (g : Guard) (τ : Tree), GTyped Γ g τ →
    ∃ v, Guard.run M E.types env g = some v ∧ VT E v τ
  | .var x, τ, hg => by
    simp only [GTyped] at hg
    simp only [Guard.run]
    exact (VEnv.lookup x hΓ).1 τ hg
  | .int _, τ, hg => by simp only [GTyped] at hg; subst hg; simp only [Guard.run]; exact ⟨_, rfl, by simp only [VT]⟩
  | .float _, τ, hg => by simp only [GTyped] at hg; subst hg; simp only [Guard.run]; exact ⟨_, rfl, by simp only [VT]⟩
  | .string _, τ, hg => by simp only [GTyped] at hg; subst hg; simp only [Guard.run]; exact ⟨_, rfl, by simp only [VT]⟩
  | .block g, τ, hg => by simp only [GTyped] at hg; simp only [Guard.run]; exact guard_safe M hΓ g τ hg
  | .not g, τ, hg => by
    simp only [GTyped] at hg
    obtain ⟨h1, rfl⟩ := hg
    obtain ⟨v, h2, h3⟩ := guard_safe M hΓ g _ h1
    obtain ⟨b, _, h4⟩ := VT.bool hE h3
    simp only [Guard.run, h2, Option.bind_some, h4, Option.map_some]
    exact ⟨_, rfl, VT.ofBool hE _⟩
  | .bin op l r, τ, hg => by
    simp only [GTyped] at hg
    obtain ⟨a, b, h1, h2, h3⟩ := hg
    obtain ⟨v, h4, h5⟩ := guard_safe M hΓ l _ h1
    obtain ⟨w, h6, h7⟩ := guard_safe M hΓ r _ h2
    by_cases ho : op ≠ .and ∧ op ≠ .or
    · obtain ⟨x, hx, hx'⟩ := binary_some hE M ho h3 h5 h7
      refine ⟨x, ?_, hx'⟩
      rw [Guard.run.eq_9 M E.types env op l r ho.1 ho.2]
      simp only [h4, h6]
      exact hx
    · have : op = .and ∨ op = .or := by
        by_cases h : op = .and
        · exact .inl h
        · right; by_contra h'; exact ho ⟨h, h'⟩
      rcases this with rfl | rfl
      · simp only [OpTy, Op.types] at h3
        obtain ⟨rfl, rfl, rfl⟩ := h3
        obtain ⟨x, _, hx⟩ := VT.bool hE h5
        obtain ⟨y, _, hy⟩ := VT.bool hE h7
        simp only [Guard.run, h4, h6, Option.bind_some, hx, hy]
        exact ⟨_, rfl, VT.ofBool hE _⟩
      · simp only [OpTy, Op.types] at h3
        obtain ⟨rfl, rfl, rfl⟩ := h3
        obtain ⟨x, _, hx⟩ := VT.bool hE h5
        obtain ⟨y, _, hy⟩ := VT.bool hE h7
        simp only [Guard.run, h4, h6, Option.bind_some, hx, hy]
        exact ⟨_, rfl, VT.ofBool hE _⟩
  | .index g i, τ, hg => by
    simp only [GTyped] at hg
    obtain ⟨ts, h1, h2⟩ := hg
    obtain ⟨v, h3, h4⟩ := guard_safe M hΓ g _ h1
    obtain ⟨vs, rfl, h5⟩ := VT.tuple hE h4
    simp only [Guard.run, h3]
    exact VTs.get h5 h2

theorem holds_safe (M : Machine) {env : Env} {Γ : TLocals} (hΓ : VEnv E env Γ) {g : Option Guard} (hg : GuardTyped Γ g) :
    ∃ b, holds M E.types env g = some b := by
  cases g with
  | none => exact ⟨true, rfl⟩
  | some g =>
    obtain ⟨v, h1, h2⟩ := guard_safe hE M hΓ g _ hg
    obtain ⟨b, _, h3⟩ := VT.bool hE h2
    exact ⟨b, by simp only [holds, h1, Option.bind_some, h3]⟩

/-- The variables of whichever alternative is chosen have the types of the first one's. -/
theorem choose_safe (M : Machine) {env : Env} {Γ : TLocals} (hΓ : VEnv E env Γ) {g : Option Guard} {B : TLocals} (hg : GuardTyped (B ++ Γ) g)
    {vs : List Value} {ts : Tys Leaf} (hv : VTs E vs ts) : ∀ (alts : List (List Pattern)),
    (∀ qs ∈ alts, ∃ B', PTypedAll E.types qs ts B' ∧ ∀ x, B'.lookup x = B.lookup x) →
    (choose M E.types env g alts vs = .no) ∨
      ∃ b B', choose M E.types env g alts vs = .yes b ∧ VEnv E b B' ∧ ∀ x, B'.lookup x = B.lookup x
  | [], _ => .inl rfl
  | qs :: rest, h => by
    obtain ⟨B', h1, h2⟩ := h qs (by simp)
    have ih := choose_safe M hΓ hg hv rest fun q hq => h q (by simp [hq])
    have hr := runAll_safe hE M qs vs ts B' h1 hv
    simp only [choose]
    generalize Pattern.runAll M E.types qs vs = r at hr
    cases r with
    | wrong => exact absurd hr id
    | no => exact ih
    | yes b =>
      have hB : ∀ x, (B' ++ Γ).lookup x = (B ++ Γ).lookup x := fun x => by rw [List.lookup_append, List.lookup_append, h2 x]
      obtain ⟨c, hc⟩ := holds_safe hE M (VEnv.append hr hΓ) (hg.congr hB)
      simp only [hc]
      cases c with
      | true => exact .inr ⟨b, B', rfl, hr, h2⟩
      | false => exact ih

/-! ### Expressions -/

theorem findVariant_some {ct : CustomType} (hct : ct ∈ E.types) {v : Variant} (hv : v ∈ ct.variants) : findVariant E.types v.name = some v := by
  unfold findVariant
  cases h : (variants E.types).find? fun w => w.name = v.name with
  | none =>
    rw [List.find?_eq_none] at h
    have := h v (by simp only [variants, List.mem_flatMap]; exact ⟨ct, hct, hv⟩)
    simp at this
  | some w =>
    have h1 := List.find?_some h
    have h2 := List.mem_of_find?_eq_some h
    simp only [decide_eq_true_eq] at h1
    simp only [variants, List.mem_flatMap] at h2
    obtain ⟨ct', hct', hw⟩ := h2
    rw [(hE.types.constructors ct' hct' w hw ct hct v hv h1).2]

theorem global_safe {x : String} {τ : Tree} (h : if x ∈ E.names then E.Δ x τ else CtorTy E.types x τ) :
    ∃ v, global E.types funs x = some v ∧ VT E v τ := by
  by_cases hx : x ∈ E.names
  · rw [if_pos hx] at h
    obtain ⟨f, hf, hfx⟩ := (hE.names x).1 hx
    have : (funs.any fun f => f.name = x) = true := by simp only [List.any_eq_true, decide_eq_true_eq]; exact ⟨f, hf, hfx⟩
    refine ⟨.fn x, by simp [global, this], ?_⟩
    simp only [VT]
    exact ⟨hx, h⟩
  · rw [if_neg hx] at h
    have hn : (funs.any fun f => f.name = x) = false := by
      rw [Bool.eq_false_iff]
      intro h'
      simp only [List.any_eq_true, decide_eq_true_eq] at h'
      exact hx ((hE.names x).2 h')
    obtain ⟨ct, hct, v, hv, rfl, f, rfl⟩ := h
    have hfv := findVariant_some hE hct hv
    unfold global
    rw [hn, hfv]
    obtain ⟨n, fields⟩ := v
    cases fields with
    | nil =>
      refine ⟨_, rfl, ?_⟩
      rw [constructorType_nil rfl]
      simp only [VT]
      exact ⟨ct, hct, _, hv, rfl, f, rfl, rfl⟩
    | cons a as =>
      refine ⟨_, rfl, ?_⟩
      simp only [VT]
      exact ⟨ct, hct, _, hv, rfl, by simp, f, rfl⟩

theorem getField_safe {label : String} {v : Value} {t τ : Tree} (hv : VT E v t) (h : FieldTy E.types label t τ) :
    ∃ w, getField E.types label v = some w ∧ VT E w τ := by
  obtain ⟨ct, hct, f, rfl, h⟩ := h
  obtain ⟨w, hw, vs, rfl, h1⟩ := VT.custom hE hct hv
  obtain ⟨i, l, t, h2, h3, rfl⟩ := h w hw
  simp only [getField, findVariant_some hE hct hw]
  obtain ⟨u, hu, hu'⟩ := VTs.get h1 (fieldTypes_get f w.fields i l t h3)
  refine ⟨u, ?_, hu'⟩
  simp only [labelIndex] at h2
  rw [h2]
  exact hu

theorem panicWith_safe {α : Type} {P : α → Prop} {v : Value} (h : VT E v tString) : Safe P (panicWith v) := by
  obtain ⟨s, rfl⟩ := VT.string hE h
  trivial

omit hE in
theorem foldr_safe {a : Tree} {w : Value} (hw : VT E w (tList a)) : ∀ {vs : List Value}, (∀ v ∈ vs, VT E v a) → VT E (vs.foldr .cons w) (tList a)
  | [], _ => hw
  | v :: vs, h => by
    simp only [List.foldr, VT]
    exact ⟨a, rfl, h v (by simp), foldr_safe hw fun u hu => h u (by simp [hu])⟩

variable (M : Machine) (ap : Value → List Value → Res Value)
  (hap : ∀ f vs ts τ, VT E f (.fn ts τ) → VTs E vs ts → Safe (VT E · τ) (ap f vs))

include hap

mutual

theorem expr_safe : ∀ (e : Expr) {env : Env} {Γ : TLocals}, VEnv E env Γ → ∀ {τ : Tree}, Typed E Γ e τ → Safe (VT E · τ) (expr M E.types funs ap env e)
  | .int n, env, Γ, hΓ, τ, h => by simp only [Typed] at h; subst h; simp only [expr, Safe, VT]
  | .float n, env, Γ, hΓ, τ, h => by simp only [Typed] at h; subst h; simp only [expr, Safe, VT]
  | .string n, env, Γ, hΓ, τ, h => by simp only [Typed] at h; subst h; simp only [expr, Safe, VT]
  | .var x, env, Γ, hΓ, τ, h => by
    simp only [Typed, VarTy] at h
    simp only [expr]
    have hl := VEnv.lookup x hΓ
    cases hx : Γ.lookup x with
    | some τ' =>
      simp only [hx] at h
      subst h
      obtain ⟨v, h1, h2⟩ := hl.1 _ hx
      exact Safe.ofOption (a := v) (by rw [h1]; rfl) h2
    | none =>
      simp only [hx] at h
      obtain ⟨v, h1, h2⟩ := global_safe hE h
      exact Safe.ofOption (a := v) (by rw [hl.2 hx, h1]; rfl) h2
  | .fn ps r body, env, Γ, hΓ, τ, h => by
    simp only [Typed] at h
    obtain ⟨ts, r, rfl, h1, h2⟩ := h
    simp only [expr, Safe, VT]
    exact ⟨Γ, ts, r, hΓ, rfl, h1, h2⟩
  | .call f es, env, Γ, hΓ, τ, h => by
    simp only [Typed] at h
    obtain ⟨ts, h1, h2⟩ := h
    simp only [expr]
    exact Safe.bind (expr_safe f hΓ h1) fun v hv => Safe.bind (exprs_safe es hΓ h2) fun vs hvs => hap v vs ts τ hv hvs
  | .bin op l r, env, Γ, hΓ, τ, h => by
    simp only [Typed] at h
    obtain ⟨a, b, h1, h2, h3⟩ := h
    have hl := expr_safe l hΓ h1
    have hr := expr_safe r hΓ h2
    by_cases ho : op ≠ .and ∧ op ≠ .or
    · rw [expr.eq_9 M E.types funs ap env op l r ho.1 ho.2]
      refine Safe.bind hl fun v hv => Safe.bind hr fun w hw => ?_
      obtain ⟨x, hx, hx'⟩ := binary_some hE M ho h3 hv hw
      exact Safe.ofOption hx hx'
    · have : op = .and ∨ op = .or := by
        by_cases h : op = .and
        · exact .inl h
        · right; by_contra h'; exact ho ⟨h, h'⟩
      rcases this with rfl | rfl
      · simp only [OpTy, Op.types] at h3
        obtain ⟨rfl, rfl, rfl⟩ := h3
        simp only [expr]
        refine Safe.bind hl fun v hv => ?_
        obtain ⟨x, _, hx⟩ := VT.bool hE hv
        simp only [hx]
        cases x with
        | false => exact VT.ofBool hE _
        | true =>
          refine Safe.bind hr fun w hw => ?_
          obtain ⟨y, _, hy⟩ := VT.bool hE hw
          exact Safe.ofOption (by rw [hy]; rfl) (VT.ofBool hE _)
      · simp only [OpTy, Op.types] at h3
        obtain ⟨rfl, rfl, rfl⟩ := h3
        simp only [expr]
        refine Safe.bind hl fun v hv => ?_
        obtain ⟨x, _, hx⟩ := VT.bool hE hv
        simp only [hx]
        cases x with
        | true => exact VT.ofBool hE _
        | false =>
          refine Safe.bind hr fun w hw => ?_
          obtain ⟨y, _, hy⟩ := VT.bool hE hw
          exact Safe.ofOption (by rw [hy]; rfl) (VT.ofBool hE _)
  | .not e, env, Γ, hΓ, τ, h => by
    simp only [Typed] at h
    obtain ⟨h1, rfl⟩ := h
    simp only [expr]
    refine Safe.bind (expr_safe e hΓ h1) fun v hv => ?_
    obtain ⟨x, _, hx⟩ := VT.bool hE hv
    exact Safe.ofOption (by rw [hx]; rfl) (VT.ofBool hE _)
  | .neg e, env, Γ, hΓ, τ, h => by
    simp only [Typed] at h
    obtain ⟨h1, rfl⟩ := h
    simp only [expr]
    refine Safe.bind (expr_safe e hΓ h1) fun v hv => ?_
    obtain ⟨x, rfl⟩ := VT.int hE hv
    simp only [Safe, VT]
  | .block body, env, Γ, hΓ, τ, h => by
    simp only [Typed] at h
    simp only [expr]
    exact stmts_safe body hΓ h
  | .tuple es, env, Γ, hΓ, τ, h => by
    simp only [Typed] at h
    obtain ⟨ts, rfl, h1⟩ := h
    simp only [expr]
    refine Safe.bind (exprs_safe es hΓ h1) fun vs hvs => ?_
    simp only [Safe, VT]
    exact ⟨ts, rfl, hvs⟩
  | .index e i, env, Γ, hΓ, τ, h => by
    simp only [Typed] at h
    obtain ⟨ts, h1, h2⟩ := h
    simp only [expr]
    refine Safe.bind (expr_safe e hΓ h1) fun v hv => ?_
    obtain ⟨vs, rfl, h3⟩ := VT.tuple hE hv
    obtain ⟨w, h4, h5⟩ := VTs.get h3 h2
    exact Safe.ofOption h4 h5
  | .list es none, env, Γ, hΓ, τ, h => by
    simp only [Typed] at h
    obtain ⟨a, rfl, h1⟩ := h
    simp only [expr]
    refine Safe.bind (items_safe es hΓ h1) fun vs hvs => ?_
    simp only [Safe]
    exact foldr_safe (by simp only [VT]; exact ⟨a, rfl⟩) hvs
  | .list es (some e), env, Γ, hΓ, τ, h => by
    simp only [Typed] at h
    obtain ⟨a, rfl, h1, h2⟩ := h
    simp only [expr]
    refine Safe.bind (items_safe es hΓ h1) fun vs hvs => ?_
    refine Safe.bind (expr_safe e hΓ h2) fun w hw => ?_
    rcases VT.list hE hw with rfl | ⟨h, t, rfl, _, _⟩
    · exact foldr_safe hw hvs
    · exact foldr_safe hw hvs
  | .field e label, env, Γ, hΓ, τ, h => by
    simp only [Typed] at h
    obtain ⟨t, h1, h2⟩ := h
    simp only [expr]
    refine Safe.bind (expr_safe e hΓ h1) fun v hv => ?_
    obtain ⟨w, h3, h4⟩ := getField_safe hE hv h2
    exact Safe.ofOption h3 h4
  | .case_ es cs, env, Γ, hΓ, τ, h => by
    simp only [Typed] at h
    obtain ⟨ts, h1, h2⟩ := h
    simp only [expr]
    exact Safe.bind (exprs_safe es hΓ h1) fun vs hvs => clauses_safe cs hΓ hvs h2
  | .fail none, env, Γ, hΓ, τ, h => by simp only [expr]; trivial
  | .fail (some e), env, Γ, hΓ, τ, h => by
    simp only [Typed] at h
    simp only [expr]
    exact Safe.bind (expr_safe e hΓ h) fun v hv => panicWith_safe hE hv

theorem exprs_safe : ∀ (es : List Expr) {env : Env} {Γ : TLocals}, VEnv E env Γ → ∀ {ts : Tys Leaf}, TypedAll E Γ es ts →
    Safe (VTs E · ts) (exprs M E.types funs ap env es)
  | [], env, Γ, hΓ, ts, h => by simp only [TypedAll] at h; subst h; simp only [exprs, Safe, VTs]
  | e :: es, env, Γ, hΓ, ts, h => by
    simp only [TypedAll] at h
    obtain ⟨t, us, rfl, h1, h2⟩ := h
    simp only [exprs]
    refine Safe.bind (expr_safe e hΓ h1) fun v hv => Safe.bind (exprs_safe es hΓ h2) fun vs hvs => ?_
    simp only [Safe, VTs]
    exact ⟨t, us, rfl, hv, hvs⟩

theorem items_safe : ∀ (es : List Expr) {env : Env} {Γ : TLocals}, VEnv E env Γ → ∀ {t : Tree}, TypedItems E Γ es t →
    Safe (fun vs => ∀ v ∈ vs, VT E v t) (exprs M E.types funs ap env es)
  | [], env, Γ, hΓ, t, h => by simp [exprs, Safe]
  | e :: es, env, Γ, hΓ, t, h => by
    simp only [TypedItems] at h
    obtain ⟨h1, h2⟩ := h
    simp only [exprs]
    refine Safe.bind (expr_safe e hΓ h1) fun v hv => Safe.bind (items_safe es hΓ h2) fun vs hvs => ?_
    simp only [Safe, List.mem_cons]
    rintro u (rfl | hu)
    · exact hv
    · exact hvs u hu

theorem message_safe : ∀ (m : Option Expr) {env : Env} {Γ : TLocals}, VEnv E env Γ → TypedMessage E Γ m → ∀ {P : Value → Prop},
    Safe P (failed M E.types funs ap env m)
  | none, env, Γ, hΓ, h, P => by simp only [failed]; trivial
  | some e, env, Γ, hΓ, h, P => by
    simp only [TypedMessage] at h
    simp only [failed]
    exact Safe.bind (expr_safe e hΓ h) fun v hv => panicWith_safe hE hv

theorem stmts_safe : ∀ (ss : List Stmt) {env : Env} {Γ : TLocals}, VEnv E env Γ → ∀ {τ : Tree}, TypedStmts E Γ ss τ →
    Safe (VT E · τ) (stmts M E.types funs ap env ss)
  | [], env, Γ, hΓ, τ, h => by simp only [TypedStmts] at h
  | [.expr e], env, Γ, hΓ, τ, h => by
    simp only [TypedStmts, TypedStmt] at h
    obtain ⟨B, h, _⟩ := h
    simp only [stmts]
    exact expr_safe e hΓ h
  | .expr e :: s :: ss, env, Γ, hΓ, τ, h => by
    simp only [TypedStmts, TypedStmt] at h
    obtain ⟨t, B, ⟨h1, rfl⟩, h2⟩ := h
    simp only [stmts]
    exact Safe.bind (expr_safe e hΓ h1) fun v hv => stmts_safe (s :: ss) hΓ h2
  | [.let_ p a e], env, Γ, hΓ, τ, h => by
    simp only [TypedStmts, TypedStmt] at h
    obtain ⟨B, h1, h2⟩ := h
    simp only [stmts]
    refine Safe.bind (expr_safe e hΓ h1) fun v hv => ?_
    have hr := run_safe hE M p v _ B h2 hv
    generalize Pattern.run M E.types p v = r at hr
    cases r <;> first | exact hv | exact hr | trivial
  | .let_ p a e :: s :: ss, env, Γ, hΓ, τ, h => by
    simp only [TypedStmts, TypedStmt] at h
    obtain ⟨t, B, ⟨h1, h2⟩, h3⟩ := h
    simp only [stmts]
    refine Safe.bind (expr_safe e hΓ h1) fun v hv => ?_
    have hr := run_safe hE M p v _ B h2 hv
    generalize Pattern.run M E.types p v = r at hr
    cases r with
    | yes b => exact stmts_safe (s :: ss) (VEnv.append hr hΓ) h3
    | no => trivial
    | wrong => exact hr
  | [.letAssert p a e m], env, Γ, hΓ, τ, h => by
    simp only [TypedStmts, TypedStmt] at h
    obtain ⟨B, h1, h2, h4⟩ := h
    simp only [stmts]
    refine Safe.bind (expr_safe e hΓ h1) fun v hv => ?_
    have hr := run_safe hE M p v _ B h2 hv
    generalize Pattern.run M E.types p v = r at hr
    cases r with
    | yes b => exact hv
    | no => exact message_safe m hΓ h4
    | wrong => exact hr
  | .letAssert p a e m :: s :: ss, env, Γ, hΓ, τ, h => by
    simp only [TypedStmts, TypedStmt] at h
    obtain ⟨t, B, ⟨h1, h2, h4⟩, h3⟩ := h
    simp only [stmts]
    refine Safe.bind (expr_safe e hΓ h1) fun v hv => ?_
    have hr := run_safe hE M p v _ B h2 hv
    generalize Pattern.run M E.types p v = r at hr
    cases r with
    | yes b => exact stmts_safe (s :: ss) (VEnv.append hr hΓ) h3
    | no => exact message_safe m hΓ h4
    | wrong => exact hr
  | [.assert e m], env, Γ, hΓ, τ, h => by
    simp only [TypedStmts, TypedStmt] at h
    obtain ⟨B, h1, h2, rfl, _⟩ := h
    simp only [stmts]
    refine Safe.bind (expr_safe e hΓ h1) fun v hv => ?_
    obtain ⟨x, _, hx⟩ := VT.bool hE hv
    simp only [hx]
    cases x with
    | true => exact VT.nil_ hE
    | false => exact message_safe m hΓ h2
  | .assert e m :: s :: ss, env, Γ, hΓ, τ, h => by
    simp only [TypedStmts, TypedStmt] at h
    obtain ⟨t, B, ⟨h1, h2, rfl, rfl⟩, h3⟩ := h
    simp only [stmts]
    refine Safe.bind (expr_safe e hΓ h1) fun v hv => ?_
    obtain ⟨x, _, hx⟩ := VT.bool hE hv
    simp only [hx]
    cases x with
    | true => exact stmts_safe (s :: ss) hΓ h3
    | false => exact message_safe m hΓ h2

theorem clauses_safe : ∀ (cs : List Clause) {env : Env} {Γ : TLocals}, VEnv E env Γ → ∀ {vs : List Value} {ts : Tys Leaf} {τ : Tree}, VTs E vs ts →
    TypedClauses E Γ ts τ cs → Safe (VT E · τ) (clauses M E.types funs ap env vs cs)
  | [], env, Γ, hΓ, vs, ts, τ, hv, h => by simp only [clauses]; trivial
  | .mk ps alts g body :: cs, env, Γ, hΓ, vs, ts, τ, hv, h => by
    simp only [TypedClauses] at h
    obtain ⟨⟨B, h1, h2, h3, h4⟩, h5⟩ := h
    simp only [clauses]
    rcases choose_safe hE M hΓ h3 hv (ps :: alts) (by
      intro qs hq
      simp only [List.mem_cons] at hq
      rcases hq with rfl | hq
      · exact ⟨B, h1, fun _ => rfl⟩
      · exact h2 qs hq) with hc | ⟨b, B', hc, hb, hB⟩
    · rw [hc]
      exact clauses_safe cs hΓ hv h5
    · rw [hc]
      exact expr_safe body (VEnv.append hb hΓ) (h4.congr E fun x => by rw [List.lookup_append, List.lookup_append, hB x])

end

end

/-- Calls of typed functions do not go wrong. -/
theorem apply_safe {E : TEnv} {funs : List Fun} (hE : GoodEnv E funs) (M : Machine) : ∀ (n : Nat) (f : Value) (vs : List Value) (ts : Tys Leaf) (τ : Tree),
    VT E f (.fn ts τ) → VTs E vs ts → Safe (VT E · τ) (apply M E.types funs n f vs)
  | 0, f, vs, ts, τ, hf, hv => by simp only [apply]; trivial
  | n + 1, f, vs, ts, τ, hf, hv => by
    have ih := apply_safe hE M n
    cases f with
    | closure ps body env =>
      simp only [VT] at hf
      obtain ⟨Γ, ts', r, h1, h2, h3, h4⟩ := hf
      cases h2
      obtain ⟨b, hb, hb'⟩ := VEnv.parameters h3 hv
      simp only [apply, hb]
      exact stmts_safe hE M _ ih body (VEnv.append hb' h1) h4
    | ctor tag =>
      simp only [VT] at hf
      obtain ⟨ct, hct, v, hv', rfl, h1, f, h2⟩ := hf
      rw [constructorType_fn h1] at h2
      cases h2
      have hl := VTs.length hv
      rw [fieldTypes_length] at hl
      simp only [apply, findVariant_some hE hct hv', hl, if_true, Safe, VT]
      exact ⟨ct, hct, v, hv', rfl, f, rfl, hv⟩
    | fn x =>
      simp only [VT] at hf
      obtain ⟨f, ts', r, h1, h2, h3, h4⟩ := hE.body x _ hf.1 hf.2
      cases h2
      obtain ⟨b, hb, hb'⟩ := VEnv.parameters h3 hv
      simp only [apply, h1, hb]
      exact stmts_safe hE M _ ih f.body hb' h4
    | int _ => simp [VT, tInt, named0] at hf
    | float _ => simp [VT, tFloat, named0] at hf
    | str _ => simp [VT, tString, named0] at hf
    | tuple _ => simp [VT] at hf
    | nil => simp [VT, tList] at hf
    | cons _ _ => simp [VT, tList] at hf
    | record _ _ => simp [VT, CustomType.result] at hf

/-! ### Values and what can be seen of them -/

mutual

theorem VT.fits {E : TEnv} {funs : List Fun} (hE : GoodEnv E funs) : ∀ (v : Value) (τ : Tree), VT E v τ → Fits E.types funs v τ
  | .int _, τ, h => by simpa only [VT, Fits] using h
  | .float _, τ, h => by simpa only [VT, Fits] using h
  | .str _, τ, h => by simpa only [VT, Fits] using h
  | .tuple vs, τ, h => by
    simp only [VT, Fits] at h ⊢
    obtain ⟨ts, rfl, h⟩ := h
    exact ⟨ts, rfl, VTs.fits hE vs ts h⟩
  | .nil, τ, h => by simpa only [VT, Fits] using h
  | .cons v w, τ, h => by
    simp only [VT, Fits] at h ⊢
    obtain ⟨a, rfl, h1, h2⟩ := h
    exact ⟨a, rfl, VT.fits hE v a h1, VT.fits hE w _ h2⟩
  | .record tag vs, τ, h => by
    simp only [VT, Fits] at h ⊢
    obtain ⟨ct, hct, v, hv, rfl, f, rfl, h⟩ := h
    exact ⟨ct, hct, v, hv, rfl, f, rfl, VTs.fits hE vs _ h⟩
  | .closure ps body env, τ, h => by
    simp only [VT, Fits] at h ⊢
    obtain ⟨_, ts, r, _, rfl, h, _⟩ := h
    exact ⟨ts, r, rfl, h⟩
  | .ctor tag, τ, h => by simpa only [VT, Fits] using h
  | .fn x, τ, h => by
    simp only [VT, Fits] at h ⊢
    obtain ⟨f, ts, r, h1, rfl, h3, _⟩ := hE.body x τ h.1 h.2
    refine ⟨f, List.mem_of_find?_eq_some h1, ?_, ts, r, rfl, h3⟩
    simpa using List.find?_some h1

theorem VTs.fits {E : TEnv} {funs : List Fun} (hE : GoodEnv E funs) : ∀ (vs : List Value) (ts : Tys Leaf), VTs E vs ts → FitsAll E.types funs vs ts
  | [], ts, h => by simpa only [VTs, FitsAll] using h
  | v :: vs, ts, h => by
    simp only [VTs, FitsAll] at h ⊢
    obtain ⟨a, as, rfl, h1, h2⟩ := h
    exact ⟨a, as, rfl, VT.fits hE v a h1, VTs.fits hE vs as h2⟩

end

mutual

theorem Fits.vt {E : TEnv} {funs : List Fun} : ∀ (v : Value) (τ : Tree), v.IsData → Fits E.types funs v τ → VT E v τ
  | .int _, τ, _, h => by simpa only [VT, Fits] using h
  | .float _, τ, _, h => by simpa only [VT, Fits] using h
  | .str _, τ, _, h => by simpa only [VT, Fits] using h
  | .tuple vs, τ, hd, h => by
    simp only [VT, Fits, Value.IsData] at h hd ⊢
    obtain ⟨ts, rfl, h⟩ := h
    exact ⟨ts, rfl, FitsAll.vts vs ts hd h⟩
  | .nil, τ, _, h => by simpa only [VT, Fits] using h
  | .cons v w, τ, hd, h => by
    simp only [VT, Fits, Value.IsData] at h hd ⊢
    obtain ⟨a, rfl, h1, h2⟩ := h
    exact ⟨a, rfl, Fits.vt v a hd.1 h1, Fits.vt w _ hd.2 h2⟩
  | .record tag vs, τ, hd, h => by
    simp only [VT, Fits, Value.IsData] at h hd ⊢
    obtain ⟨ct, hct, v, hv, rfl, f, rfl, h⟩ := h
    exact ⟨ct, hct, v, hv, rfl, f, rfl, FitsAll.vts vs _ hd h⟩
  | .closure ps body env, τ, hd, h => by simp only [Value.IsData] at hd
  | .ctor tag, τ, hd, h => by simp only [Value.IsData] at hd
  | .fn x, τ, hd, h => by simp only [Value.IsData] at hd

theorem FitsAll.vts {E : TEnv} {funs : List Fun} : ∀ (vs : List Value) (ts : Tys Leaf), AllData vs → FitsAll E.types funs vs ts → VTs E vs ts
  | [], ts, _, h => by simpa only [VTs, FitsAll] using h
  | v :: vs, ts, hd, h => by
    simp only [VTs, FitsAll, AllData] at h hd ⊢
    obtain ⟨a, as, rfl, h1, h2⟩ := h
    exact ⟨a, as, rfl, Fits.vt v a hd.1 h1, FitsAll.vts vs as hd.2 h2⟩

end

end Verif.Infer
