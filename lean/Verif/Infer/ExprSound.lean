import Verif.Infer.PatternSound
import Mathlib.Data.List.Perm.Subperm

/-!
Expressions that are accepted are typed.
-/

namespace Verif.Infer

open Verif.Unify

/-! ### Fields -/

mutual

theorem sameTy_eq : ∀ t u : Ty Nat, sameTy t u = true → t = u
  | .var a, .var b, h => by simp only [sameTy, beq_iff_eq] at h; rw [h]
  | .named m x as, .named m' x' bs, h => by
    simp only [sameTy, Bool.and_eq_true, beq_iff_eq] at h
    obtain ⟨⟨rfl, rfl⟩, h⟩ := h
    rw [sameTys_eq as bs h]
  | .fn as r, .fn bs q, h => by
    simp only [sameTy, Bool.and_eq_true] at h
    rw [sameTys_eq as bs h.1, sameTy_eq r q h.2]
  | .tuple as, .tuple bs, h => by
    simp only [sameTy] at h
    rw [sameTys_eq as bs h]
  | .var _, .named .., h => by simp [sameTy] at h
  | .var _, .fn .., h => by simp [sameTy] at h
  | .var _, .tuple .., h => by simp [sameTy] at h
  | .named .., .var _, h => by simp [sameTy] at h
  | .named .., .fn .., h => by simp [sameTy] at h
  | .named .., .tuple .., h => by simp [sameTy] at h
  | .fn .., .var _, h => by simp [sameTy] at h
  | .fn .., .named .., h => by simp [sameTy] at h
  | .fn .., .tuple .., h => by simp [sameTy] at h
  | .tuple .., .var _, h => by simp [sameTy] at h
  | .tuple .., .named .., h => by simp [sameTy] at h
  | .tuple .., .fn .., h => by simp [sameTy] at h

theorem sameTys_eq : ∀ t u : Tys Nat, sameTys t u = true → t = u
  | .nil, .nil, _ => rfl
  | .cons a as, .cons b bs, h => by
    simp only [sameTys, Bool.and_eq_true] at h
    rw [sameTy_eq a b h.1, sameTys_eq as bs h.2]
  | .nil, .cons .., h => by simp [sameTys] at h
  | .cons .., .nil, h => by simp [sameTys] at h

end

theorem mem_filterMap_of_get {l : String} {t : Ty Nat} : ∀ {fs : List (Option String × Ty Nat)} {i : Nat}, fs[i]? = some (some l, t) → l ∈ fs.filterMap (·.1)
  | fs, i, h => by
    have := List.mem_of_getElem? h
    exact List.mem_filterMap.2 ⟨_, this, rfl⟩

theorem labelIndex_of_get {l : String} {t : Ty Nat} : ∀ {fs : List (Option String × Ty Nat)} {i : Nat}, noDuplicates (fs.filterMap (·.1)) = true →
    fs[i]? = some (some l, t) → labelIndex l fs = some i
  | [], i, hd, h => by simp at h
  | f :: fs, 0, hd, h => by
    simp only [List.getElem?_cons_zero, Option.some.injEq] at h
    subst h
    simp [labelIndex, List.findIdx?_cons]
  | f :: fs, i + 1, hd, h => by
    simp only [List.getElem?_cons_succ] at h
    have hm := mem_filterMap_of_get h
    have hne : f.1 ≠ some l := by
      intro he
      rw [List.filterMap_cons, he] at hd
      simp only [noDuplicates, Bool.and_eq_true, Bool.not_eq_true', List.contains_eq_mem, decide_eq_false_iff_not] at hd
      exact hd.1 hm
    have hd' : noDuplicates (fs.filterMap (·.1)) = true := by
      rw [List.filterMap_cons] at hd
      split at hd
      · exact hd
      · simp only [noDuplicates, Bool.and_eq_true] at hd
        exact hd.2
    have ih := labelIndex_of_get hd' h
    simp only [labelIndex, List.findIdx?_cons] at ih ⊢
    rw [ih]
    simp [hne]

theorem accessor_right {ct : CustomType} {label : String} {f : Ty Nat} (hd : ∀ v ∈ ct.variants, distinctLabels v = true) (h : accessor ct label = some f) :
    ∀ v ∈ ct.variants, ∃ i l, labelIndex label v.fields = some i ∧ v.fields[i]? = some (l, f) := by
  unfold accessor at h
  split at h
  · cases h
  · next w vs hw =>
    rw [hw] at hd ⊢
    split at h
    · cases h
    · next i hi =>
      split at h
      · cases h
      · next l t ht =>
        split at h
        · next hall =>
          cases h
          intro v hv
          rcases List.mem_cons.1 hv with rfl | hv
          · exact ⟨i, l, hi, ht⟩
          · have hc := List.all_eq_true.1 hall v hv
            unfold compatible at hc
            split at hc
            · next l' u hu =>
              simp only [Bool.and_eq_true, beq_iff_eq] at hc
              obtain ⟨rfl, hs⟩ := hc
              have := sameTy_eq _ _ hs
              subst this
              exact ⟨i, some l', labelIndex_of_get (hd v (by simp [hv])) hu, hu⟩
            · cases hc
        · cases h

/-! ### What the rest of the module offers -/

structure Ctx (g : Globals) (names : List String) : Prop where
  group : ∀ x t, g.group.lookup x = some t → x ∈ names
  values : ∀ x T, g.values.lookup x = some T → x ∈ names
  ctors : ∀ x r v, findConstructor g.types x = some (r, v) → x ∉ names
  labels : ∀ r ∈ g.types, ∀ v ∈ r.type.variants, distinctLabels v = true

/-- The types that functions can be used with. -/
def readNames (g : Globals) (R : List Nat) (ρ : Cell → Tree) (x : String) (τ : Tree) : Prop :=
  match g.group.lookup x with
  | some t => ∃ θ : Nat → Tree, (∀ id ∈ R, θ id = .var (.generic id)) ∧ τ = (t.sub ρ).sub (gsub θ)
  | none => ∃ T, g.values.lookup x = some T ∧ ∃ θ : Nat → Tree, τ = T.sub θ

def readEnv (g : Globals) (names : List String) (R : List Nat) (ρ : Cell → Tree) : TEnv := ⟨g.customTypes, names, readNames g R ρ⟩

theorem leaf_gsub {R : List Nat} {σ : Assignment} (hσ : ∀ id, Clean R (σ id)) {θ : Nat → Tree} (hθ : ∀ id ∈ R, θ id = .var (.generic id)) (t : Tree) :
    (t.sub (gsub θ)).sub σ.leaf = (t.sub σ.leaf).sub (gsub fun i => (θ i).sub σ.leaf) := by
  rw [Ty.sub_sub, Ty.sub_sub]
  refine Ty.sub_congr _ _ t fun l hl => ?_
  cases l with
  | unbound id =>
    simp only [gsub, Ty.sub, Assignment.leaf]
    rw [gsub_clean (R := R) (fun i hi => by rw [hθ i hi]; rfl) (hσ id)]
  | generic id => rfl

theorem readEnv_step (g : Globals) (names : List String) {R : List Nat} {ρ : Cell → Tree} {σ : Assignment} (hσ : ∀ id, Clean R (σ id)) :
    SubEnv σ.leaf (readEnv g names R ρ) (readEnv g names R fun c => σ.on (ρ c)) := by
  refine ⟨rfl, rfl, fun x τ h => ?_⟩
  simp only [readEnv, readNames] at h ⊢
  split at h
  · obtain ⟨θ, h1, rfl⟩ := h
    refine ⟨fun i => (θ i).sub σ.leaf, fun id hid => by simp only [h1 id hid]; rfl, ?_⟩
    rw [leaf_gsub hσ h1, sub_on]
    rfl
  · obtain ⟨T, h1, θ, rfl⟩ := h
    exact ⟨T, h1, fun i => (θ i).sub σ.leaf, Ty.sub_sub _ _ _⟩

section
variable {g : Globals} {names : List String} {R : List Nat} {ρ ρ' : Cell → Tree}

theorem Typed.step (ht : To R ρ ρ') {ls : Locals} {e : Expr} {t : Ty Cell} (h : Typed (readEnv g names R ρ) (readLocals ρ ls) e (t.sub ρ)) :
    Typed (readEnv g names R ρ') (readLocals ρ' ls) e (t.sub ρ') := by
  obtain ⟨σ, hσ, rfl⟩ := ht
  rw [readLocals_on, sub_on]
  exact Typed.sub (readEnv_step g names hσ) e _ _ (.refl _ _) _ h

theorem TypedAll.step (ht : To R ρ ρ') {ls : Locals} {es : List Expr} {ts : Tys Cell} (h : TypedAll (readEnv g names R ρ) (readLocals ρ ls) es (ts.sub ρ)) :
    TypedAll (readEnv g names R ρ') (readLocals ρ' ls) es (ts.sub ρ') := by
  obtain ⟨σ, hσ, rfl⟩ := ht
  rw [readLocals_on, subs_on]
  exact TypedAll.sub (readEnv_step g names hσ) es _ _ (.refl _ _) _ h

theorem TypedItems.step (ht : To R ρ ρ') {ls : Locals} {es : List Expr} {t : Ty Cell} (h : TypedItems (readEnv g names R ρ) (readLocals ρ ls) es (t.sub ρ)) :
    TypedItems (readEnv g names R ρ') (readLocals ρ' ls) es (t.sub ρ') := by
  obtain ⟨σ, hσ, rfl⟩ := ht
  rw [readLocals_on, sub_on]
  exact TypedItems.sub (readEnv_step g names hσ) es _ _ (.refl _ _) _ h

theorem TypedStmts.step (ht : To R ρ ρ') {ls : Locals} {ss : List Stmt} {t : Ty Cell} (h : TypedStmts (readEnv g names R ρ) (readLocals ρ ls) ss (t.sub ρ)) :
    TypedStmts (readEnv g names R ρ') (readLocals ρ' ls) ss (t.sub ρ') := by
  obtain ⟨σ, hσ, rfl⟩ := ht
  rw [readLocals_on, sub_on]
  exact TypedStmts.sub (readEnv_step g names hσ) ss _ _ (.refl _ _) _ h

theorem TypedStmt.step (ht : To R ρ ρ') {ls B : Locals} {s : Stmt} {t : Ty Cell} (h : TypedStmt (readEnv g names R ρ) (readLocals ρ ls) s (t.sub ρ) (readLocals ρ B)) :
    TypedStmt (readEnv g names R ρ') (readLocals ρ' ls) s (t.sub ρ') (readLocals ρ' B) := by
  obtain ⟨σ, hσ, rfl⟩ := ht
  rw [readLocals_on, readLocals_on, sub_on]
  exact TypedStmt.sub (readEnv_step g names hσ) s _ _ (.refl _ _) _ _ h

theorem TypedMessage.step (ht : To R ρ ρ') {ls : Locals} {m : Option Expr} (h : TypedMessage (readEnv g names R ρ) (readLocals ρ ls) m) :
    TypedMessage (readEnv g names R ρ') (readLocals ρ' ls) m := by
  obtain ⟨σ, hσ, rfl⟩ := ht
  rw [readLocals_on]
  exact TypedMessage.sub (readEnv_step g names hσ) m _ _ (.refl _ _) h

theorem TypedClauses.step (ht : To R ρ ρ') {ls : Locals} {cs : List Clause} {ts : Tys Cell} {t : Ty Cell}
    (h : TypedClauses (readEnv g names R ρ) (readLocals ρ ls) (ts.sub ρ) (t.sub ρ) cs) :
    TypedClauses (readEnv g names R ρ') (readLocals ρ' ls) (ts.sub ρ') (t.sub ρ') cs := by
  obtain ⟨σ, hσ, rfl⟩ := ht
  rw [readLocals_on, subs_on, sub_on]
  exact TypedClauses.sub (readEnv_step g names hσ) cs _ _ (.refl _ _) _ _ h

theorem GTyped.step (ht : To R ρ ρ') {ls : Locals} {e : Guard} {t : Ty Cell} (h : GTyped (readLocals ρ ls) e (t.sub ρ)) :
    GTyped (readLocals ρ' ls) e (t.sub ρ') := by
  obtain ⟨σ, hσ, rfl⟩ := ht
  rw [readLocals_on, sub_on]
  exact GTyped.sub (.refl _ _) e _ h

theorem GuardTyped.step (ht : To R ρ ρ') {ls : Locals} {e : Option Guard} (h : GuardTyped (readLocals ρ ls) e) :
    GuardTyped (readLocals ρ' ls) e := by
  obtain ⟨σ, hσ, rfl⟩ := ht
  rw [readLocals_on]
  exact GuardTyped.sub (.refl _ _) e h

/-! ### Inside a function -/

/-- The variables of annotations are known. -/
structure Here (R : List Nat) (vs : List String) (s : St) (ρ : Cell → Tree) : Prop where
  ok : Ok s ρ
  rigid : s.hydrator.rigid = R
  names : vs ⊆ createdNames s

theorem Here.after {vs : List String} {s s' : St} (h : Here R vs s ρ) (a : After R s ρ s' ρ') : Here R vs s' ρ' :=
  ⟨a.ok, by rw [a.hydrator]; exact h.rigid, by unfold createdNames; rw [a.hydrator]; exact h.names⟩

theorem inScope_ok {α : Type} {x : I α} {s s' : St} {a : α} : inScope x s = .ok (a, s') ↔ ∃ s₁, x s = .ok (a, s₁) ∧ s' = { s₁ with hydrator := s.hydrator } := by
  unfold inScope
  cases x s with
  | error e => simp
  | ok p =>
    obtain ⟨b, s₁⟩ := p
    simp only [Except.ok.injEq, Prod.mk.injEq]
    constructor
    · rintro ⟨rfl, rfl⟩; exact ⟨s₁, ⟨rfl, rfl⟩, rfl⟩
    · rintro ⟨s₂, ⟨rfl, rfl⟩, rfl⟩; exact ⟨rfl, rfl⟩

theorem After.scope {s s' : St} (h : After R s ρ s' ρ') : { s' with hydrator := s.hydrator } = s' := by
  rw [← h.hydrator]

theorem hydrate_here {vs : List String} {types : List CustomType} {a : TypeAst} {s s' : St} {t : Ty Cell} (hh : Here R vs s ρ)
    (hw : a.variables.all vs.contains = true) (h : hydrate types a s = .ok (t, s')) : ∃ ρ', After R s ρ s' ρ' ∧ Clean R (t.sub ρ') := by
  obtain ⟨ρ', h1, h2, _⟩ := hydrate_right types a s ρ t s' hh.ok h
  have hs := h1.same fun x hx => hh.names (by simpa using List.all_eq_true.1 hw x hx)
  have hr : s'.hydrator.rigid = R := by rw [hs]; exact hh.rigid
  exact ⟨ρ', ⟨by rw [← hr]; exact h1.step, h1.ok, hs⟩, by rw [← hr]; exact h2⟩

theorem hydrateOption_here {vs : List String} {types : List CustomType} {a : Option TypeAst} {s s' : St} {t : Ty Cell} (hh : Here R vs s ρ)
    (hw : Annotation.within vs a = true) (h : hydrateOption types a s = .ok (t, s')) : ∃ ρ', After R s ρ s' ρ' ∧ Clean R (t.sub ρ') := by
  cases a with
  | none =>
    obtain ⟨a1, c1, _⟩ := fresh_right (R := R) hh.ok h
    exact ⟨ρ, a1, c1⟩
  | some a => exact hydrate_here hh hw h

theorem inferParameters_right {vs : List String} {n : Nat} {types : List CustomType} : ∀ (ps : List Param) (es : Tys Cell) (s s' : St) (ts : Tys Cell) (ρ : Cell → Tree),
    Here R vs s ρ → ps.all (fun p => Annotation.within vs p.annotation) = true → Cleans R (es.sub ρ) → inferParameters n types ps es s = .ok (ts, s') →
    ∃ ρ', After R s ρ s' ρ' ∧ Cleans R (ts.sub ρ')
  | [], es, s, s', ts, ρ, hh, hw, he, h => by
    simp only [inferParameters, pure_ok] at h
    obtain ⟨rfl, rfl⟩ := h
    exact ⟨ρ, .refl hh.ok, .nil⟩
  | p :: ps, .nil, s, s', ts, ρ, hh, hw, he, h => by
    simp only [inferParameters, bind_ok, pure_ok] at h
    simp only [List.all_cons, Bool.and_eq_true] at hw
    obtain ⟨t, s₁, h1, us, s₂, h2, rfl, rfl⟩ := h
    obtain ⟨ρ₁, a1, c1⟩ := hydrateOption_here hh hw.1 h1
    obtain ⟨ρ₂, a2, c2⟩ := inferParameters_right ps .nil s₁ s₂ us ρ₁ (hh.after a1) hw.2 .nil h2
    exact ⟨ρ₂, a1.trans a2, Cleans.cons.2 ⟨a2.step.clean c1, c2⟩⟩
  | p :: ps, .cons e es, s, s', ts, ρ, hh, hw, he, h => by
    simp only [inferParameters, bind_ok, pure_ok] at h
    simp only [List.all_cons, Bool.and_eq_true] at hw
    obtain ⟨t, s₁, h1, _, s₂, h2, us, s₃, h3, rfl, rfl⟩ := h
    obtain ⟨he1, he2⟩ := Cleans.cons.1 he
    obtain ⟨ρ₁, a1, c1⟩ := hydrateOption_here hh hw.1 h1
    obtain ⟨ρ₂, a2, _⟩ := unifyI_right (R := R) a1.ok (a1.step.clean he1) c1 h2
    obtain ⟨ρ₃, a3, c3⟩ := inferParameters_right ps es s₂ s₃ us ρ₂ ((hh.after a1).after a2) hw.2 ((a1.trans a2).step.cleans he2) h3
    exact ⟨ρ₃, (a1.trans a2).trans a3, Cleans.cons.2 ⟨(a2.trans a3).step.clean c1, c3⟩⟩

theorem hydrateReturn_here {vs : List String} {types : List CustomType} {a : Option TypeAst} {s s' : St} {t : Option (Ty Cell)} (hh : Here R vs s ρ)
    (hw : Annotation.within vs a = true) (h : hydrateReturn types a s = .ok (t, s')) : ∃ ρ', After R s ρ s' ρ' ∧ ∀ r, t = some r → Clean R (r.sub ρ') := by
  cases a with
  | none =>
    simp only [hydrateReturn, pure_ok] at h
    obtain ⟨rfl, rfl⟩ := h
    exact ⟨ρ, .refl hh.ok, fun r hr => by cases hr⟩
  | some a =>
    simp only [hydrateReturn, bind_ok, pure_ok] at h
    obtain ⟨u, s₁, h1, rfl, rfl⟩ := h
    obtain ⟨ρ₁, a1, c1⟩ := hydrate_here hh hw h1
    exact ⟨ρ₁, a1, fun r hr => by cases hr; exact c1⟩

theorem bindTypes_right : ∀ (ps : List Param) (ts : Tys Cell) (vars : Locals), bindTypes ps ts = some vars →
    ps.length = ts.length ∧ (∀ ρ, readLocals ρ vars = paramB ps (ts.sub ρ)) ∧ ∀ R ρ, Cleans R (ts.sub ρ) → CleanLocals R ρ vars
  | [], .nil, vars, h => by cases h; exact ⟨rfl, fun _ => rfl, fun _ _ _ => .nil⟩
  | [], .cons t ts, vars, h => by cases h
  | p :: ps, .nil, vars, h => by cases h
  | p :: ps, .cons t ts, vars, h => by
    unfold bindTypes at h
    split at h
    · cases h
    · next w hw =>
      obtain ⟨h1, h2, h3⟩ := bindTypes_right ps ts w hw
      split at h
      · next hp =>
        cases h
        refine ⟨by simp [h1, Tys.length], fun ρ => ?_, fun R ρ hc => h3 R ρ (Cleans.cons.1 hc).2⟩
        simp only [paramB, Tys.sub, hp, optB, List.nil_append, h2]
      · next x hp =>
        split at h
        · cases h
        · cases h
          refine ⟨by simp [h1, Tys.length], fun ρ => ?_, fun R ρ hc b hb => ?_⟩
          · simp only [paramB, Tys.sub, hp, optB, ← h2, readLocals, List.map]
            rfl
          · rcases List.mem_cons.1 hb with rfl | hb
            · exact (Cleans.cons.1 hc).1
            · exact h3 R ρ (Cleans.cons.1 hc).2 b hb

theorem inferBody_right {vs : List String} {n : Nat} {locals : Locals} {ps : List Param} {ts : Tys Cell} {ret : Option (Ty Cell)} {body : Locals → I (Ty Cell)}
    {stmts : List Stmt} {s s' : St} {t : Ty Cell} (hh : Here R vs s ρ) (hl : CleanLocals R ρ locals) (ht : Cleans R (ts.sub ρ))
    (hr : ∀ r, ret = some r → Clean R (r.sub ρ))
    (hb : ∀ ls s₁ u s₂ ρ₁, Here R vs s₁ ρ₁ → CleanLocals R ρ₁ ls → body ls s₁ = .ok (u, s₂) →
      ∃ ρ₂, After R s₁ ρ₁ s₂ ρ₂ ∧ Clean R (u.sub ρ₂) ∧ TypedStmts (readEnv g names R ρ₂) (readLocals ρ₂ ls) stmts (u.sub ρ₂))
    (h : inferBody n locals ps ts ret body s = .ok (t, s')) :
    ∃ ρ', After R s ρ s' ρ' ∧ Clean R (t.sub ρ') ∧ ps.length = ts.length ∧
      TypedStmts (readEnv g names R ρ') (paramB ps (ts.sub ρ') ++ readLocals ρ' locals) stmts (t.sub ρ') ∧
      ∀ r, ret = some r → r.sub ρ' = t.sub ρ' := by
  unfold inferBody at h
  rw [inScope_ok] at h
  obtain ⟨s₁, h1, rfl⟩ := h
  simp only [bind_ok, expect_ok] at h1
  obtain ⟨vars, _, ⟨hv, rfl⟩, u, s₂, h2, h3⟩ := h1
  obtain ⟨e1, e2, e3⟩ := bindTypes_right ps ts vars hv
  obtain ⟨ρ₁, a1, c1, t1⟩ := hb _ _ _ _ ρ hh ((e3 R ρ ht).append hl) h2
  cases ret with
  | none =>
    simp only [pure_ok] at h3
    obtain ⟨rfl, rfl⟩ := h3
    refine ⟨ρ₁, by rw [a1.scope]; exact a1, c1, e1, ?_, fun r hr => by cases hr⟩
    rw [← e2, ← readLocals_append]
    exact t1
  | some r =>
    simp only [bind_ok, pure_ok] at h3
    obtain ⟨_, s₃, h4, rfl, rfl⟩ := h3
    obtain ⟨ρ₂, a2, e4⟩ := unifyI_right (R := R) a1.ok (a1.step.clean (hr r rfl)) c1 h4
    refine ⟨ρ₂, by rw [(a1.trans a2).scope]; exact a1.trans a2, a2.step.clean c1, e1, ?_, fun r hr => by cases hr; exact e4⟩
    rw [← e2, ← readLocals_append]
    exact t1.step a2.step

theorem matchFunction_right {n arity : Nat} {t r : Ty Cell} {as : Tys Cell} {s s' : St} (ho : Ok s ρ)
    (h : matchFunction n t arity s = .ok ((as, r), s')) : ∃ ρ', After R s ρ s' ρ' ∧ t.sub ρ' = .fn (as.sub ρ') (r.sub ρ') := by
  simp only [matchFunction, bind_ok] at h
  obtain ⟨u, s₁, h1, h2⟩ := h
  obtain ⟨rfl, h3, h4⟩ := collapseI_right ho h1
  cases u with
  | fn bs q =>
    by_cases hl : bs.length = arity
    · simp only [if_pos hl, pure_ok, Prod.mk.injEq] at h2
      obtain ⟨⟨rfl, rfl⟩, rfl⟩ := h2
      exact ⟨ρ, .refl ho, h3.symm⟩
    · simp only [if_neg hl, reject_ok] at h2
  | var c =>
    simp only [bind_ok, getHeap_ok] at h2
    obtain ⟨_, _, ⟨rfl, rfl⟩, h2⟩ := h2
    generalize hv : s₁.heap c = d at h2
    rcases d with v | id | id
    · simp only [reject_ok] at h2
    · simp only [bind_ok, getHeap_ok] at h2
      obtain ⟨bs, s₂, h5, q, s₃, h6, _, _, ⟨rfl, rfl⟩, h7⟩ := h2
      obtain ⟨a1, c1, e1, _⟩ := freshes_right (R := R) _ ho h5
      obtain ⟨a2, c2, e2⟩ := fresh_right (R := R) a1.ok h6
      generalize hoc : occurs n s₃.heap id (.fn bs q) = d at h7
      rcases d with _ | d
      · simp only [outOfFuel_ok] at h7
      cases d with
      | true => simp only [outOfFuel_ok] at h7
      | false =>
        simp only [bind_ok, pure_ok, Prod.mk.injEq] at h7
        obtain ⟨_, s₄, h8, ⟨rfl, rfl⟩, rfl⟩ := h7
        have ho1 := occurs_right s₃.heap ρ a2.ok.good.reading id n _ false hoc
        obtain ⟨ρ', h9, h10⟩ := linkTo_right (R := R) a2.ok (t := .fn bs q) trivial (fun i hi => by
          rw [e2, e1, hv] at hi; cases hi
          exact fun hh => by simpa using ho1.2 hh) (Clean.fn.2 ⟨c1, c2⟩) h8
        refine ⟨ρ', (a1.trans a2).trans h9, ?_⟩
        rw [← h9.step.eq (t := .var c) (u := t) h3]
        exact h10
    · simp only [reject_ok] at h2
  | named | tuple => simp only [reject_ok] at h2

theorem inferOperator_right {n : Nat} {op : Op} {l r t : Ty Cell} {s s' : St} (ho : Ok s ρ) (hl : Clean R (l.sub ρ)) (hr : Clean R (r.sub ρ))
    (h : inferOperator n op l r s = .ok (t, s')) : ∃ ρ', After R s ρ s' ρ' ∧ Clean R (t.sub ρ') ∧ OpTy op (l.sub ρ') (r.sub ρ') (t.sub ρ') := by
  have same : ∀ {t}, (do unifyI n l r; pure (tBool : Ty Cell) : I (Ty Cell)) s = .ok (t, s') →
      ∃ ρ', After R s ρ s' ρ' ∧ Clean R (t.sub ρ') ∧ l.sub ρ' = r.sub ρ' ∧ t.sub ρ' = tBool := by
    intro t h
    simp only [bind_ok, pure_ok] at h
    obtain ⟨_, s₁, h1, rfl, rfl⟩ := h
    obtain ⟨ρ₁, a1, e1⟩ := unifyI_right (R := R) ho hl hr h1
    exact ⟨ρ₁, a1, Clean.zero R _, e1, rfl⟩
  have two : ∀ {t x y}, (do unifyI n (named0 x) l; unifyI n (named0 x) r; pure (named0 y : Ty Cell) : I (Ty Cell)) s = .ok (t, s') →
      ∃ ρ', After R s ρ s' ρ' ∧ Clean R (t.sub ρ') ∧ l.sub ρ' = named0 x ∧ r.sub ρ' = named0 x ∧ t.sub ρ' = named0 y := by
    intro t x y h
    simp only [bind_ok, pure_ok] at h
    obtain ⟨_, s₁, h1, _, s₂, h2, rfl, rfl⟩ := h
    obtain ⟨ρ₁, a1, e1⟩ := unifyI_right (R := R) ho (by exact Clean.zero R _) hl h1
    obtain ⟨ρ₂, a2, e2⟩ := unifyI_right (R := R) a1.ok (by exact Clean.zero R _) (a1.step.clean hr) h2
    exact ⟨ρ₂, a1.trans a2, Clean.zero R _, (a2.step.eq e1).symm, e2.symm, rfl⟩
  cases op <;> (first | exact same h | exact two h)

theorem inferGuard_right {n : Nat} {vs : List String} {ls : Locals} : ∀ (e : Guard) (s : St) (t : Ty Cell) (s' : St) (ρ : Cell → Tree), Here R vs s ρ → CleanLocals R ρ ls →
    inferGuard n ls e s = .ok (t, s') → ∃ ρ', After R s ρ s' ρ' ∧ Clean R (t.sub ρ') ∧ GTyped (readLocals ρ' ls) e (t.sub ρ')
  | .var x, s, t, s', ρ, hh, hl, h => by
    simp only [inferGuard] at h
    generalize hx : ls.lookup x = d at h
    rcases d with _ | u
    · simp only [reject_ok] at h
    · simp only [bind_ok, pure_ok, Prod.exists] at h
      obtain ⟨v, ids, s₁, h1, rfl, rfl⟩ := h
      obtain ⟨a1, e1⟩ := instantiate_clean hh.ok hh.rigid (hl.lookup hx) h1
      refine ⟨ρ, a1, by rw [e1]; exact hl.lookup hx, ?_⟩
      simp only [GTyped]
      rw [readLocals_lookup, hx, e1]
      rfl
  | .int _, s, t, s', ρ, hh, hl, h => by
    simp only [inferGuard, pure_ok] at h
    obtain ⟨rfl, rfl⟩ := h
    exact ⟨ρ, .refl hh.ok, Clean.zero R _, rfl⟩
  | .float _, s, t, s', ρ, hh, hl, h => by
    simp only [inferGuard, pure_ok] at h
    obtain ⟨rfl, rfl⟩ := h
    exact ⟨ρ, .refl hh.ok, Clean.zero R _, rfl⟩
  | .string _, s, t, s', ρ, hh, hl, h => by
    simp only [inferGuard, pure_ok] at h
    obtain ⟨rfl, rfl⟩ := h
    exact ⟨ρ, .refl hh.ok, Clean.zero R _, rfl⟩
  | .block e, s, t, s', ρ, hh, hl, h => by
    simp only [inferGuard] at h
    obtain ⟨ρ₁, a1, c1, t1⟩ := inferGuard_right e s t s' ρ hh hl h
    exact ⟨ρ₁, a1, c1, by simp only [GTyped]; exact t1⟩
  | .not e, s, t, s', ρ, hh, hl, h => by
    simp only [inferGuard, bind_ok, pure_ok] at h
    obtain ⟨u, s₁, h1, _, s₂, h2, rfl, rfl⟩ := h
    obtain ⟨ρ₁, a1, c1, t1⟩ := inferGuard_right e s u s₁ ρ hh hl h1
    obtain ⟨ρ₂, a2, e2⟩ := unifyI_right (R := R) a1.ok (by exact Clean.zero R _) c1 h2
    refine ⟨ρ₂, a1.trans a2, Clean.zero R _, ?_⟩
    have := t1.step a2.step
    rw [← e2] at this
    simp only [GTyped]
    exact ⟨this, rfl⟩
  | .bin op l r, s, t, s', ρ, hh, hl, h => by
    simp only [inferGuard, bind_ok] at h
    obtain ⟨u, s₁, h1, v, s₂, h2, h3⟩ := h
    obtain ⟨ρ₁, a1, c1, t1⟩ := inferGuard_right l s u s₁ ρ hh hl h1
    obtain ⟨ρ₂, a2, c2, t2⟩ := inferGuard_right r s₁ v s₂ ρ₁ (hh.after a1) (hl.step a1.step) h2
    obtain ⟨ρ₃, a3, c3, t3⟩ := inferOperator_right (R := R) a2.ok (a2.step.clean c1) c2 h3
    refine ⟨ρ₃, (a1.trans a2).trans a3, c3, ?_⟩
    simp only [GTyped]
    exact ⟨_, _, t1.step (a2.trans a3).step, t2.step a3.step, t3⟩
  | .index e i, s, t, s', ρ, hh, hl, h => by
    simp only [inferGuard, bind_ok] at h
    obtain ⟨u, s₁, h1, h2⟩ := h
    obtain ⟨ρ₁, a1, c1, t1⟩ := inferGuard_right e s u s₁ ρ hh hl h1
    cases u with
    | tuple ts =>
      simp only [expect_ok] at h2
      obtain ⟨hi, rfl⟩ := h2
      have hi' : (Tys.list (ts.sub ρ₁))[i]? = some (t.sub ρ₁) := by rw [list_sub, List.getElem?_map, hi]; rfl
      refine ⟨ρ₁, a1, Cleans.get (Clean.tuple.1 c1) hi', ?_⟩
      simp only [GTyped]
      exact ⟨_, t1, hi'⟩
    | var | fn | named => simp only [reject_ok] at h2

theorem inferOptionalGuard_right {n : Nat} {vs : List String} {ls : Locals} {e : Option Guard} {s s' : St} {x : Unit} (hh : Here R vs s ρ) (hl : CleanLocals R ρ ls)
    (h : inferOptionalGuard n ls e s = .ok (x, s')) : ∃ ρ', After R s ρ s' ρ' ∧ GuardTyped (readLocals ρ' ls) e := by
  cases e with
  | none =>
    simp only [inferOptionalGuard, pure_ok] at h
    obtain ⟨_, rfl⟩ := h
    exact ⟨ρ, .refl hh.ok, trivial⟩
  | some e =>
    simp only [inferOptionalGuard, bind_ok] at h
    obtain ⟨u, s₁, h1, h2⟩ := h
    obtain ⟨ρ₁, a1, c1, t1⟩ := inferGuard_right e s u s₁ ρ hh hl h1
    obtain ⟨ρ₂, a2, e2⟩ := unifyI_right (R := R) a1.ok (by exact Clean.zero R _) c1 h2
    refine ⟨ρ₂, a1.trans a2, ?_⟩
    have := t1.step a2.step
    rw [← e2] at this
    exact this

/-- An alternative has the variables of the first patterns, with their types. -/
theorem alternative_lookup {ρ : Cell → Tree} {initial B : Locals} (hn : (B.map (·.1)).Nodup) (hl : initial.length ≤ B.length)
    (ha : AltOk ρ B (.alternative initial)) (x : String) : (readLocals ρ B).lookup x = (readLocals ρ initial).lookup x := by
  have hsub : B.map (·.1) ⊆ initial.map (·.1) := by
    intro y hy
    obtain ⟨b, hb, rfl⟩ := List.mem_map.1 hy
    obtain ⟨u, hu, _⟩ := ha b hb
    exact mem_of_lookup hu
  have hperm := (hn.subperm hsub).perm_of_length_le (by simpa using hl)
  rw [readLocals_lookup, readLocals_lookup]
  cases hB : B.lookup x with
  | some t =>
    obtain ⟨u, h1, h2⟩ := ha _ (lookup_mem hB)
    rw [h1]
    simp only [Option.map_some, h2]
  | none =>
    cases hI : initial.lookup x with
    | none => rfl
    | some u =>
      exfalso
      have := hperm.mem_iff.2 (mem_of_lookup hI)
      obtain ⟨a, ha⟩ := lookup_of_mem this
      rw [hB] at ha; cases ha

theorem inferAlternatives_right {n : Nat} {initial : Locals} {ts : Tys Cell} : ∀ (alts : List (List Pattern)) (s : St) (x : Unit) (s' : St) (ρ : Cell → Tree),
    Ok s ρ → CleanLocals R ρ initial → Cleans R (ts.sub ρ) → inferAlternatives n g initial ts alts s = .ok (x, s') →
    ∃ ρ', After R s ρ s' ρ' ∧ ∀ qs ∈ alts, ∃ B, PTypedAll g.customTypes qs (ts.sub ρ') (readLocals ρ' B) ∧
      ∀ x, (readLocals ρ' B).lookup x = (readLocals ρ' initial).lookup x
  | [], s, x, s', ρ, ho, hi, ht, h => by
    simp only [inferAlternatives, pure_ok] at h
    obtain ⟨_, rfl⟩ := h
    exact ⟨ρ, .refl ho, fun qs hq => by cases hq⟩
  | ps :: rest, s, x, s', ρ, ho, hi, ht, h => by
    simp only [inferAlternatives, bind_ok, check_ok, Prod.exists] at h
    obtain ⟨us, vars, s₁, h1, _, _, ⟨hl, rfl⟩, h2⟩ := h
    obtain ⟨ρ₁, B, a1, _, p1⟩ := inferPatterns_right (R := R) ps ts [] s us vars s₁ ρ ho ht (mode := .alternative initial) hi h1
    have hv : vars = B := a1.adds
    subst hv
    obtain ⟨ρ₂, a2, p2⟩ := inferAlternatives_right rest s₁ x s' ρ₁ a1.after.ok (hi.step a1.after.step) (a1.after.step.cleans ht) h2
    refine ⟨ρ₂, a1.after.trans a2, fun qs hq => ?_⟩
    rcases List.mem_cons.1 hq with rfl | hq
    · refine ⟨vars, p1.step a2.step, alternative_lookup (a1.nodup (by simp)) ?_ (a1.alt.step a2.step)⟩
      simpa using hl
    · exact p2 qs hq

theorem inferVar_right {n : Nat} {vs : List String} {ls : Locals} {x : String} {s s' : St} {t : Ty Cell} (hx : Ctx g names) (hh : Here R vs s ρ) (hl : CleanLocals R ρ ls)
    (h : inferVar n g ls x s = .ok (t, s')) : After R s ρ s' ρ ∧ Clean R (t.sub ρ) ∧ VarTy (readEnv g names R ρ) (readLocals ρ ls) x (t.sub ρ) := by
  unfold inferVar at h
  unfold VarTy
  rw [readLocals_lookup]
  generalize hd : ls.lookup x = d at h
  rcases d with _ | u
  · simp only [Option.map_none]
    simp only at h
    generalize hg : g.group.lookup x = d at h
    rcases d with _ | u
    · simp only at h
      generalize hv : g.values.lookup x = d at h
      rcases d with _ | T
      · simp only at h
        generalize hf : findConstructor g.types x = d at h
        rcases d with _ | ⟨r, v⟩
        · simp only [reject_ok] at h
        · simp only [bind_ok, pure_ok, Prod.exists] at h
          obtain ⟨w, ids, s₁, h1, rfl, rfl⟩ := h
          obtain ⟨a1, c1, θ, e1⟩ := instScheme_nil (R := R) hh.ok h1
          obtain ⟨hr, hv', hn⟩ := findConstructor_some hf
          refine ⟨a1, c1, ?_⟩
          have hm : x ∉ (readEnv g names R ρ).names := hx.ctors x r v hf
          rw [if_neg hm]
          exact ⟨r.type, List.mem_map_of_mem hr, v, hv', hn, _, e1.trans (constructor_sub r v θ)⟩
      · simp only [bind_ok, pure_ok, Prod.exists] at h
        obtain ⟨w, ids, s₁, h1, rfl, rfl⟩ := h
        obtain ⟨a1, c1, θ, e1⟩ := instScheme_nil (R := R) hh.ok h1
        refine ⟨a1, c1, ?_⟩
        have hm : x ∈ (readEnv g names R ρ).names := hx.values x T hv
        rw [if_pos hm]
        simp only [readEnv, readNames, hg]
        exact ⟨T, hv, θ, e1⟩
    · simp only [bind_ok, pure_ok, Prod.exists] at h
      obtain ⟨w, ids, s₁, h1, rfl, rfl⟩ := h
      obtain ⟨a1, c1, θ, h2, e1⟩ := instantiate_nil hh.ok hh.rigid h1
      refine ⟨a1, c1, ?_⟩
      have hm : x ∈ (readEnv g names R ρ).names := hx.group x u hg
      rw [if_pos hm]
      simp only [readEnv, readNames, hg]
      exact ⟨θ, h2, e1⟩
  · simp only [bind_ok, pure_ok, Prod.exists] at h
    obtain ⟨w, ids, s₁, h1, rfl, rfl⟩ := h
    obtain ⟨a1, e1⟩ := instantiate_clean hh.ok hh.rigid (hl.lookup hd) h1
    exact ⟨a1, by rw [e1]; exact hl.lookup hd, e1⟩

theorem inferField_right {n : Nat} {vs : List String} {label : String} {s s' : St} {t u : Ty Cell} (hx : Ctx g names) (hh : Here R vs s ρ) (ht : Clean R (t.sub ρ))
    (h : inferField n g t label s = .ok (u, s')) : ∃ ρ', After R s ρ s' ρ' ∧ Clean R (u.sub ρ') ∧ FieldTy g.customTypes label (t.sub ρ') (u.sub ρ') := by
  simp only [inferField, bind_ok] at h
  obtain ⟨w, s₁, h1, h2⟩ := h
  obtain ⟨rfl, h3, h4⟩ := collapseI_right hh.ok h1
  cases w with
  | named m x as =>
    simp only at h2
    generalize hf : g.types.find? (fun r => decide (r.type.module = m ∧ r.type.name = x)) = d at h2
    rcases d with _ | r
    · simp only [reject_ok] at h2
    have hr := List.mem_of_find?_eq_some hf
    simp only at h2
    generalize ha : accessor r.type label = d at h2
    rcases d with _ | f
    · simp only [reject_ok] at h2
    simp only [bind_ok, pure_ok, Prod.exists] at h2
    obtain ⟨record, ids, s₂, h5, v, ids', s₃, h6, _, s₄, h7, rfl, rfl⟩ := h2
    obtain ⟨⟨a1, _, ic⟩, c1, e1⟩ := instScheme_right (R := R) _ [] _ record ids _ hh.ok (fun _ _ h => nomatch h) h5
    obtain ⟨⟨a2, ix, _⟩, c2, e2⟩ := instScheme_right (R := R) _ ids _ v ids' _ a1.ok ic h6
    obtain ⟨ρ', a3, e3⟩ := unifyI_right (R := R) a2.ok c1 ht h7
    have e1' := e1 ids' ix
    have e2' := e2 ids' (.refl _)
    refine ⟨ρ', (a1.trans a2).trans a3, a3.step.clean c2, ?_⟩
    obtain ⟨σ, _, hσ⟩ := a3.step
    refine ⟨r.type, List.mem_map_of_mem hr, fun i => (idsTree ρ ids' (r.base + i)).sub σ.leaf, ?_, ?_⟩
    · rw [← e3, hσ, sub_on, e1', result_sub, Assignment.on, result_sub]
      rfl
    · intro w hw
      obtain ⟨i, l, h8, h9⟩ := accessor_right (hx.labels r hr) ha w hw
      refine ⟨i, l, f, h8, h9, ?_⟩
      rw [hσ, sub_on, e2', Ty.sub_sub, Assignment.on, Ty.sub_sub]
      rfl
  | var | fn | tuple => simp only [reject_ok] at h2

theorem inferAnnotation_right {n : Nat} {vs : List String} {a : Option TypeAst} {s s' : St} {t : Ty Cell} {x : Unit} (hh : Here R vs s ρ) (ht : Clean R (t.sub ρ))
    (hw : Annotation.within vs a = true) (h : inferAnnotation n g a t s = .ok (x, s')) : ∃ ρ', After R s ρ s' ρ' := by
  cases a with
  | none =>
    simp only [inferAnnotation, pure_ok] at h
    obtain ⟨_, rfl⟩ := h
    exact ⟨ρ, .refl hh.ok⟩
  | some a =>
    simp only [inferAnnotation, bind_ok, Prod.exists] at h
    obtain ⟨u, s₁, h1, v, ids, s₂, h2, h3⟩ := h
    obtain ⟨ρ₁, a1, c1⟩ := hydrate_here hh hw h1
    obtain ⟨a2, e2⟩ := instantiate_clean a1.ok (hh.after a1).rigid c1 h2
    obtain ⟨ρ₂, a3, _⟩ := unifyI_right (R := R) a2.ok (by rw [e2]; exact c1) (a1.step.clean ht) h3
    exact ⟨ρ₂, (a1.trans a2).trans a3⟩

theorem expectedOf_clean {t : Ty Cell} {e : Expr} (h : Clean R (t.sub ρ)) : Cleans R ((expectedOf t e).sub ρ) := by
  unfold expectedOf
  split
  · split
    · exact (Clean.fn.1 h).1
    · exact .nil
  · exact .nil

variable {n : Nat} {vs : List String}

mutual

theorem infer_right (hx : Ctx g names) : ∀ (e : Expr) (ls : Locals) (expected : Tys Cell) (s : St) (t : Ty Cell) (s' : St) (ρ : Cell → Tree), e.within vs = true → Here R vs s ρ →
    CleanLocals R ρ ls → Cleans R (expected.sub ρ) → infer n g ls expected e s = .ok (t, s') →
    ∃ ρ', After R s ρ s' ρ' ∧ Clean R (t.sub ρ') ∧ Typed (readEnv g names R ρ') (readLocals ρ' ls) e (t.sub ρ')
  | .int _, ls, ex, s, t, s', ρ, hw, hh, hl, he, h => by
    simp only [infer, pure_ok] at h
    obtain ⟨rfl, rfl⟩ := h
    exact ⟨ρ, .refl hh.ok, Clean.zero R _, by simp only [Typed]; rfl⟩
  | .float _, ls, ex, s, t, s', ρ, hw, hh, hl, he, h => by
    simp only [infer, pure_ok] at h
    obtain ⟨rfl, rfl⟩ := h
    exact ⟨ρ, .refl hh.ok, Clean.zero R _, by simp only [Typed]; rfl⟩
  | .string _, ls, ex, s, t, s', ρ, hw, hh, hl, he, h => by
    simp only [infer, pure_ok] at h
    obtain ⟨rfl, rfl⟩ := h
    exact ⟨ρ, .refl hh.ok, Clean.zero R _, by simp only [Typed]; rfl⟩
  | .var x, ls, ex, s, t, s', ρ, hw, hh, hl, he, h => by
    simp only [infer] at h
    obtain ⟨a1, c1, t1⟩ := inferVar_right hx hh hl h
    exact ⟨ρ, a1, c1, by simp only [Typed]; exact t1⟩
  | .fn ps ret body, ls, ex, s, t, s', ρ, hw, hh, hl, he, h => by
    simp only [infer, bind_ok, pure_ok] at h
    simp only [Expr.within, Bool.and_eq_true] at hw
    obtain ⟨ts, s₁, h1, r, s₂, h2, u, s₃, h3, rfl, rfl⟩ := h
    obtain ⟨ρ₁, a1, c1⟩ := inferParameters_right ps ex s s₁ ts ρ hh hw.1.1 he h1
    obtain ⟨ρ₂, a2, c2⟩ := hydrateReturn_here (hh.after a1) hw.1.2 h2
    obtain ⟨ρ₃, a3, c3, l3, t3, _⟩ := inferBody_right (g := g) (names := names) (stmts := body) ((hh.after a1).after a2) ((hl.step a1.step).step a2.step)
      (a2.step.cleans c1) c2 (fun ls s₁ u s₂ ρ₁ h1 h2 h3 => inferStmts_right hx body ls s₁ u s₂ ρ₁ hw.2 h1 h2 h3) h3
    refine ⟨ρ₃, (a1.trans a2).trans a3, Clean.fn.2 ⟨(a2.trans a3).step.cleans c1, c3⟩, ?_⟩
    simp only [Typed]
    exact ⟨_, _, rfl, by rw [l3, Tys.length_sub], t3⟩
  | .call f es, ls, ex, s, t, s', ρ, hw, hh, hl, he, h => by
    simp only [infer, bind_ok, pure_ok, Prod.exists] at h
    simp only [Expr.within, Bool.and_eq_true] at hw
    obtain ⟨ex', s₁, h1, u, s₂, h2, ts, r, s₃, h3, _, s₄, h4, rfl, rfl⟩ := h
    have h1' : ∃ ρ₁, After R s ρ s₁ ρ₁ ∧ Cleans R (ex'.sub ρ₁) := by
      by_cases hf : f.literalArity = some es.length
      · rw [if_pos hf] at h1
        obtain ⟨ρ₁, a1, c1, _⟩ := inferAll_right hx es ls s ex' s₁ ρ hw.2 hh hl h1
        exact ⟨ρ₁, a1, c1⟩
      · rw [if_neg hf, pure_ok] at h1
        obtain ⟨rfl, rfl⟩ := h1
        exact ⟨ρ, .refl hh.ok, .nil⟩
    obtain ⟨ρ₁, a1, c1⟩ := h1'
    obtain ⟨ρ₂, a2, c2, t2⟩ := infer_right hx f ls ex' s₁ u s₂ ρ₁ hw.1 (hh.after a1) (hl.step a1.step) c1 h2
    have hh2 := (hh.after a1).after a2
    obtain ⟨ρ₃, a3, e3⟩ := matchFunction_right (R := R) a2.ok h3
    have c3 : Clean R (.fn (ts.sub ρ₃) (r.sub ρ₃)) := by rw [← e3]; exact a3.step.clean c2
    have a13 := (a1.trans a2).trans a3
    obtain ⟨ρ₄, a4, t4⟩ := inferArguments_right hx es ts ls s₃ _ s₄ ρ₃ hw.2 (hh2.after a3) (hl.step a13.step) (Clean.fn.1 c3).1 h4
    refine ⟨ρ₄, a13.trans a4, a4.step.clean (Clean.fn.1 c3).2, ?_⟩
    simp only [Typed]
    have := t2.step (a3.trans a4).step
    rw [a4.step.eq (u := .fn ts r) e3] at this
    exact ⟨_, this, t4⟩
  | .bin op l r, ls, ex, s, t, s', ρ, hw, hh, hl, he, h => by
    simp only [infer, bind_ok] at h
    simp only [Expr.within, Bool.and_eq_true] at hw
    obtain ⟨u, s₁, h1, v, s₂, h2, h3⟩ := h
    obtain ⟨ρ₁, a1, c1, t1⟩ := infer_right hx l ls .nil s u s₁ ρ hw.1 hh hl .nil h1
    obtain ⟨ρ₂, a2, c2, t2⟩ := infer_right hx r ls .nil s₁ v s₂ ρ₁ hw.2 (hh.after a1) (hl.step a1.step) .nil h2
    obtain ⟨ρ₃, a3, c3, t3⟩ := inferOperator_right (R := R) a2.ok (a2.step.clean c1) c2 h3
    refine ⟨ρ₃, (a1.trans a2).trans a3, c3, ?_⟩
    simp only [Typed]
    exact ⟨_, _, t1.step (a2.trans a3).step, t2.step a3.step, t3⟩
  | .not e, ls, ex, s, t, s', ρ, hw, hh, hl, he, h => by
    simp only [infer, bind_ok, pure_ok] at h
    simp only [Expr.within] at hw
    obtain ⟨u, s₁, h1, _, s₂, h2, rfl, rfl⟩ := h
    obtain ⟨ρ₁, a1, c1, t1⟩ := infer_right hx e ls .nil s u s₁ ρ hw hh hl .nil h1
    obtain ⟨ρ₂, a2, e2⟩ := unifyI_right (R := R) a1.ok (by exact Clean.zero R _) c1 h2
    refine ⟨ρ₂, a1.trans a2, Clean.zero R _, ?_⟩
    have := t1.step a2.step
    rw [← e2] at this
    simp only [Typed]
    exact ⟨this, rfl⟩
  | .neg e, ls, ex, s, t, s', ρ, hw, hh, hl, he, h => by
    simp only [infer, bind_ok, pure_ok] at h
    simp only [Expr.within] at hw
    obtain ⟨u, s₁, h1, _, s₂, h2, rfl, rfl⟩ := h
    obtain ⟨ρ₁, a1, c1, t1⟩ := infer_right hx e ls .nil s u s₁ ρ hw hh hl .nil h1
    obtain ⟨ρ₂, a2, e2⟩ := unifyI_right (R := R) a1.ok (by exact Clean.zero R _) c1 h2
    refine ⟨ρ₂, a1.trans a2, Clean.zero R _, ?_⟩
    have := t1.step a2.step
    rw [← e2] at this
    simp only [Typed]
    exact ⟨this, rfl⟩
  | .block body, ls, ex, s, t, s', ρ, hw, hh, hl, he, h => by
    simp only [infer] at h
    simp only [Expr.within] at hw
    rw [inScope_ok] at h
    obtain ⟨s₁, h1, rfl⟩ := h
    obtain ⟨ρ₁, a1, c1, t1⟩ := inferStmts_right hx body ls s t s₁ ρ hw hh hl h1
    rw [a1.scope]
    exact ⟨ρ₁, a1, c1, by simp only [Typed]; exact t1⟩
  | .tuple es, ls, ex, s, t, s', ρ, hw, hh, hl, he, h => by
    simp only [infer, bind_ok, pure_ok] at h
    simp only [Expr.within] at hw
    obtain ⟨ts, s₁, h1, rfl, rfl⟩ := h
    obtain ⟨ρ₁, a1, c1, t1⟩ := inferAll_right hx es ls s ts s₁ ρ hw hh hl h1
    refine ⟨ρ₁, a1, c1, ?_⟩
    simp only [Typed]
    exact ⟨_, rfl, t1⟩
  | .index e i, ls, ex, s, t, s', ρ, hw, hh, hl, he, h => by
    simp only [infer, bind_ok] at h
    simp only [Expr.within] at hw
    obtain ⟨u, s₁, h1, v, s₂, h2, h3⟩ := h
    obtain ⟨ρ₁, a1, c1, t1⟩ := infer_right hx e ls .nil s u s₁ ρ hw hh hl .nil h1
    obtain ⟨rfl, e2, _⟩ := collapseI_right a1.ok h2
    cases v with
    | tuple ts =>
      simp only [expect_ok] at h3
      obtain ⟨hi, rfl⟩ := h3
      have hi' : (Tys.list (ts.sub ρ₁))[i]? = some (t.sub ρ₁) := by rw [list_sub, List.getElem?_map, hi]; rfl
      rw [← e2] at c1 t1
      refine ⟨ρ₁, a1, Cleans.get (Clean.tuple.1 c1) hi', ?_⟩
      simp only [Typed]
      exact ⟨_, t1, hi'⟩
    | var | fn | named => simp only [reject_ok] at h3
  | .list es none, ls, ex, s, t, s', ρ, hw, hh, hl, he, h => by
    simp only [infer, bind_ok, pure_ok] at h
    simp only [Expr.within] at hw
    obtain ⟨a, s₁, h1, _, s₂, h2, rfl, rfl⟩ := h
    obtain ⟨a1, c1, _⟩ := fresh_right (R := R) hh.ok h1
    obtain ⟨ρ₂, a2, t2⟩ := inferItems_right hx es a ls s₁ _ s₂ ρ hw (hh.after a1) hl c1 h2
    refine ⟨ρ₂, a1.trans a2, Clean.list.2 (a2.step.clean c1), ?_⟩
    simp only [Typed]
    exact ⟨_, rfl, t2⟩
  | .list es (some e), ls, ex, s, t, s', ρ, hw, hh, hl, he, h => by
    simp only [infer, bind_ok, pure_ok] at h
    simp only [Expr.within, Bool.and_eq_true] at hw
    obtain ⟨a, s₁, h1, _, s₂, h2, u, s₃, h3, _, s₄, h4, rfl, rfl⟩ := h
    obtain ⟨a1, c1, _⟩ := fresh_right (R := R) hh.ok h1
    obtain ⟨ρ₂, a2, t2⟩ := inferItems_right hx es a ls s₁ _ s₂ ρ hw.1 (hh.after a1) hl c1 h2
    obtain ⟨ρ₃, a3, c3, t3⟩ := infer_right hx e ls .nil s₂ u s₃ ρ₂ hw.2 ((hh.after a1).after a2) (hl.step a2.step) .nil h3
    obtain ⟨ρ₄, a4, e4⟩ := unifyI_right (R := R) (t := tList a) a3.ok (Clean.list.2 ((a2.trans a3).step.clean c1)) c3 h4
    have a24 := (a2.trans a3).trans a4
    refine ⟨ρ₄, a1.trans a24, Clean.list.2 (a24.step.clean c1), ?_⟩
    simp only [Typed]
    have := t3.step a4.step
    rw [← e4] at this
    exact ⟨_, rfl, t2.step (a3.trans a4).step, this⟩
  | .field e label, ls, ex, s, t, s', ρ, hw, hh, hl, he, h => by
    simp only [infer, bind_ok] at h
    simp only [Expr.within] at hw
    obtain ⟨u, s₁, h1, h2⟩ := h
    obtain ⟨ρ₁, a1, c1, t1⟩ := infer_right hx e ls .nil s u s₁ ρ hw hh hl .nil h1
    obtain ⟨ρ₂, a2, c2, f2⟩ := inferField_right hx (hh.after a1) c1 h2
    refine ⟨ρ₂, a1.trans a2, c2, ?_⟩
    simp only [Typed]
    exact ⟨_, t1.step a2.step, f2⟩
  | .case_ es cs, ls, ex, s, t, s', ρ, hw, hh, hl, he, h => by
    simp only [infer, bind_ok, pure_ok] at h
    simp only [Expr.within, Bool.and_eq_true] at hw
    obtain ⟨r, s₁, h1, ts, s₂, h2, _, s₃, h3, rfl, rfl⟩ := h
    obtain ⟨a1, c1, _⟩ := fresh_right (R := R) hh.ok h1
    obtain ⟨ρ₂, a2, c2, t2⟩ := inferSubjects_right hx es ls s₁ ts s₂ ρ hw.1 (hh.after a1) hl h2
    obtain ⟨ρ₃, a3, t3⟩ := inferClauses_right hx cs ts r ls s₂ _ s₃ ρ₂ hw.2 ((hh.after a1).after a2) (hl.step a2.step) c2 (a2.step.clean c1) h3
    refine ⟨ρ₃, (a1.trans a2).trans a3, (a2.trans a3).step.clean c1, ?_⟩
    simp only [Typed]
    exact ⟨_, t2.step a3.step, t3⟩
  | .fail none, ls, ex, s, t, s', ρ, hw, hh, hl, he, h => by
    simp only [infer] at h
    obtain ⟨a1, c1, _⟩ := fresh_right (R := R) hh.ok h
    exact ⟨ρ, a1, c1, by simp only [Typed]⟩
  | .fail (some e), ls, ex, s, t, s', ρ, hw, hh, hl, he, h => by
    simp only [infer, bind_ok, pure_ok] at h
    simp only [Expr.within] at hw
    obtain ⟨r, s₁, h1, u, s₂, h2, _, s₃, h3, rfl, rfl⟩ := h
    obtain ⟨a1, c1, _⟩ := fresh_right (R := R) hh.ok h1
    obtain ⟨ρ₂, a2, c2, t2⟩ := infer_right hx e ls .nil s₁ u s₂ ρ hw (hh.after a1) hl .nil h2
    obtain ⟨ρ₃, a3, e3⟩ := unifyI_right (R := R) a2.ok (by exact Clean.zero R _) c2 h3
    refine ⟨ρ₃, (a1.trans a2).trans a3, (a2.trans a3).step.clean c1, ?_⟩
    have := t2.step a3.step
    rw [← e3] at this
    simp only [Typed]
    exact this

theorem inferAll_right (hx : Ctx g names) : ∀ (es : List Expr) (ls : Locals) (s : St) (ts : Tys Cell) (s' : St) (ρ : Cell → Tree), exprsWithin vs es = true → Here R vs s ρ →
    CleanLocals R ρ ls → inferAll n g ls es s = .ok (ts, s') →
    ∃ ρ', After R s ρ s' ρ' ∧ Cleans R (ts.sub ρ') ∧ TypedAll (readEnv g names R ρ') (readLocals ρ' ls) es (ts.sub ρ')
  | [], ls, s, ts, s', ρ, hw, hh, hl, h => by
    simp only [inferAll, pure_ok] at h
    obtain ⟨rfl, rfl⟩ := h
    exact ⟨ρ, .refl hh.ok, .nil, by simp only [TypedAll]; rfl⟩
  | e :: es, ls, s, ts, s', ρ, hw, hh, hl, h => by
    simp only [inferAll, bind_ok, pure_ok] at h
    simp only [exprsWithin, Bool.and_eq_true] at hw
    obtain ⟨t, s₁, h1, us, s₂, h2, rfl, rfl⟩ := h
    obtain ⟨ρ₁, a1, c1, t1⟩ := infer_right hx e ls .nil s t s₁ ρ hw.1 hh hl .nil h1
    obtain ⟨ρ₂, a2, c2, t2⟩ := inferAll_right hx es ls s₁ us s₂ ρ₁ hw.2 (hh.after a1) (hl.step a1.step) h2
    refine ⟨ρ₂, a1.trans a2, Cleans.cons.2 ⟨a2.step.clean c1, c2⟩, ?_⟩
    simp only [TypedAll]
    exact ⟨_, _, rfl, t1.step a2.step, t2⟩

theorem inferSubjects_right (hx : Ctx g names) : ∀ (es : List Expr) (ls : Locals) (s : St) (ts : Tys Cell) (s' : St) (ρ : Cell → Tree), exprsWithin vs es = true → Here R vs s ρ →
    CleanLocals R ρ ls → inferSubjects n g ls es s = .ok (ts, s') →
    ∃ ρ', After R s ρ s' ρ' ∧ Cleans R (ts.sub ρ') ∧ TypedAll (readEnv g names R ρ') (readLocals ρ' ls) es (ts.sub ρ')
  | [], ls, s, ts, s', ρ, hw, hh, hl, h => by
    simp only [inferSubjects, pure_ok] at h
    obtain ⟨rfl, rfl⟩ := h
    exact ⟨ρ, .refl hh.ok, .nil, by simp only [TypedAll]; rfl⟩
  | e :: es, ls, s, ts, s', ρ, hw, hh, hl, h => by
    simp only [inferSubjects, bind_ok, pure_ok, inScope_ok] at h
    simp only [exprsWithin, Bool.and_eq_true] at hw
    obtain ⟨t, _, ⟨s₁, h1, rfl⟩, us, s₂, h2, rfl, rfl⟩ := h
    obtain ⟨ρ₁, a1, c1, t1⟩ := infer_right hx e ls .nil s t s₁ ρ hw.1 hh hl .nil h1
    rw [a1.scope] at h2
    obtain ⟨ρ₂, a2, c2, t2⟩ := inferSubjects_right hx es ls s₁ us s₂ ρ₁ hw.2 (hh.after a1) (hl.step a1.step) h2
    refine ⟨ρ₂, a1.trans a2, Cleans.cons.2 ⟨a2.step.clean c1, c2⟩, ?_⟩
    simp only [TypedAll]
    exact ⟨_, _, rfl, t1.step a2.step, t2⟩

theorem inferItems_right (hx : Ctx g names) : ∀ (es : List Expr) (a : Ty Cell) (ls : Locals) (s : St) (x : Unit) (s' : St) (ρ : Cell → Tree), exprsWithin vs es = true → Here R vs s ρ →
    CleanLocals R ρ ls → Clean R (a.sub ρ) → inferItems n g ls a es s = .ok (x, s') →
    ∃ ρ', After R s ρ s' ρ' ∧ TypedItems (readEnv g names R ρ') (readLocals ρ' ls) es (a.sub ρ')
  | [], a, ls, s, x, s', ρ, hw, hh, hl, ha, h => by
    simp only [inferItems, pure_ok] at h
    obtain ⟨_, rfl⟩ := h
    exact ⟨ρ, .refl hh.ok, by simp only [TypedItems]⟩
  | e :: es, a, ls, s, x, s', ρ, hw, hh, hl, ha, h => by
    simp only [inferItems, bind_ok] at h
    simp only [exprsWithin, Bool.and_eq_true] at hw
    obtain ⟨t, s₁, h1, _, s₂, h2, h3⟩ := h
    obtain ⟨ρ₁, a1, c1, t1⟩ := infer_right hx e ls .nil s t s₁ ρ hw.1 hh hl .nil h1
    obtain ⟨ρ₂, a2, e2⟩ := unifyI_right (R := R) a1.ok (a1.step.clean ha) c1 h2
    have a12 := a1.trans a2
    obtain ⟨ρ₃, a3, t3⟩ := inferItems_right hx es a ls s₂ x s' ρ₂ hw.2 (hh.after a12) (hl.step a12.step) (a12.step.clean ha) h3
    refine ⟨ρ₃, a12.trans a3, ?_⟩
    simp only [TypedItems]
    have := t1.step (a2.trans a3).step
    rw [← a3.step.eq e2] at this
    exact ⟨this, t3⟩

theorem inferArguments_right (hx : Ctx g names) : ∀ (es : List Expr) (ts : Tys Cell) (ls : Locals) (s : St) (x : Unit) (s' : St) (ρ : Cell → Tree), exprsWithin vs es = true → Here R vs s ρ →
    CleanLocals R ρ ls → Cleans R (ts.sub ρ) → inferArguments n g ls es ts s = .ok (x, s') →
    ∃ ρ', After R s ρ s' ρ' ∧ TypedAll (readEnv g names R ρ') (readLocals ρ' ls) es (ts.sub ρ')
  | [], .nil, ls, s, x, s', ρ, hw, hh, hl, ha, h => by
    simp only [inferArguments, pure_ok] at h
    obtain ⟨_, rfl⟩ := h
    exact ⟨ρ, .refl hh.ok, by simp only [TypedAll]; rfl⟩
  | [], .cons _ _, ls, s, x, s', ρ, hw, hh, hl, ha, h => by simp only [inferArguments, reject_ok] at h
  | e :: es, .nil, ls, s, x, s', ρ, hw, hh, hl, ha, h => by simp only [inferArguments, reject_ok] at h
  | e :: es, .cons t ts, ls, s, x, s', ρ, hw, hh, hl, ha, h => by
    simp only [inferArguments, bind_ok] at h
    simp only [exprsWithin, Bool.and_eq_true] at hw
    obtain ⟨u, s₁, h1, v, s₂, h2, _, s₃, h3, h4⟩ := h
    obtain ⟨rfl, e1, _⟩ := collapseI_right hh.ok h1
    obtain ⟨ha1, ha2⟩ := Cleans.cons.1 ha
    have cu : Clean R (u.sub ρ) := by rw [e1]; exact ha1
    obtain ⟨ρ₁, a1, c1, t1⟩ := infer_right hx e ls (expectedOf u e) s₁ v s₂ ρ hw.1 hh hl (expectedOf_clean cu) h2
    obtain ⟨ρ₂, a2, e2⟩ := unifyI_right (R := R) a1.ok (a1.step.clean cu) c1 h3
    have a12 := a1.trans a2
    obtain ⟨ρ₃, a3, t3⟩ := inferArguments_right hx es ts ls s₃ x s' ρ₂ hw.2 (hh.after a12) (hl.step a12.step) (a12.step.cleans ha2) h4
    refine ⟨ρ₃, a12.trans a3, ?_⟩
    simp only [TypedAll]
    have := t1.step (a2.trans a3).step
    rw [← a3.step.eq e2, (a12.trans a3).step.eq e1] at this
    exact ⟨_, _, rfl, this, t3⟩

theorem inferStmts_right (hx : Ctx g names) : ∀ (ss : List Stmt) (ls : Locals) (s : St) (t : Ty Cell) (s' : St) (ρ : Cell → Tree), stmtsWithin vs ss = true → Here R vs s ρ →
    CleanLocals R ρ ls → inferStmts n g ls ss s = .ok (t, s') →
    ∃ ρ', After R s ρ s' ρ' ∧ Clean R (t.sub ρ') ∧ TypedStmts (readEnv g names R ρ') (readLocals ρ' ls) ss (t.sub ρ')
  | [], ls, s, t, s', ρ, hw, hh, hl, h => by simp only [inferStmts, reject_ok] at h
  | [st], ls, s, t, s', ρ, hw, hh, hl, h => by
    simp only [inferStmts, bind_ok, pure_ok, Prod.exists] at h
    simp only [stmtsWithin, Bool.and_eq_true] at hw
    obtain ⟨u, vars, s₁, h1, rfl, rfl⟩ := h
    obtain ⟨ρ₁, a1, c1, _, t1⟩ := inferStmt_right hx st ls s u vars s₁ ρ hw.1 hh hl h1
    refine ⟨ρ₁, a1, c1, ?_⟩
    simp only [TypedStmts]
    exact ⟨_, t1⟩
  | st :: st' :: ss, ls, s, t, s', ρ, hw, hh, hl, h => by
    simp only [inferStmts, bind_ok, Prod.exists] at h
    simp only [stmtsWithin, Bool.and_eq_true] at hw
    obtain ⟨u, vars, s₁, h1, h2⟩ := h
    obtain ⟨ρ₁, a1, c1, l1, t1⟩ := inferStmt_right hx st ls s u vars s₁ ρ hw.1 hh hl h1
    obtain ⟨ρ₂, a2, c2, t2⟩ := inferStmts_right hx (st' :: ss) (vars ++ ls) s₁ t s' ρ₁ (by simp only [stmtsWithin, Bool.and_eq_true]; exact hw.2) (hh.after a1)
      (l1.append (hl.step a1.step)) h2
    refine ⟨ρ₂, a1.trans a2, c2, ?_⟩
    simp only [TypedStmts]
    rw [readLocals_append] at t2
    exact ⟨_, _, t1.step a2.step, t2⟩

theorem inferStmt_right (hx : Ctx g names) : ∀ (st : Stmt) (ls : Locals) (s : St) (t : Ty Cell) (B : Locals) (s' : St) (ρ : Cell → Tree), st.within vs = true → Here R vs s ρ →
    CleanLocals R ρ ls → inferStmt n g ls st s = .ok ((t, B), s') →
    ∃ ρ', After R s ρ s' ρ' ∧ Clean R (t.sub ρ') ∧ CleanLocals R ρ' B ∧ TypedStmt (readEnv g names R ρ') (readLocals ρ' ls) st (t.sub ρ') (readLocals ρ' B)
  | .expr e, ls, s, t, B, s', ρ, hw, hh, hl, h => by
    simp only [inferStmt, bind_ok, pure_ok, Prod.mk.injEq] at h
    simp only [Stmt.within] at hw
    obtain ⟨u, s₁, h1, ⟨rfl, rfl⟩, rfl⟩ := h
    obtain ⟨ρ₁, a1, c1, t1⟩ := infer_right hx e ls .nil s _ s₁ ρ hw hh hl .nil h1
    refine ⟨ρ₁, a1, c1, .nil, ?_⟩
    simp only [TypedStmt]
    exact ⟨t1, rfl⟩
  | .let_ p an e, ls, s, t, B, s', ρ, hw, hh, hl, h => by
    simp only [inferStmt, bind_ok, pure_ok, inScope_ok, Prod.mk.injEq, Prod.exists] at h
    simp only [Stmt.within, Bool.and_eq_true] at hw
    obtain ⟨u, _, ⟨s₁, h1, rfl⟩, v, vars, s₂, h2, _, s₃, h3, ⟨rfl, rfl⟩, rfl⟩ := h
    obtain ⟨ρ₁, a1, c1, t1⟩ := infer_right hx e ls .nil s _ s₁ ρ hw.2 hh hl .nil h1
    rw [a1.scope] at h2
    obtain ⟨ρ₂, B, a2, e2, p2⟩ := inferPattern_right (R := R) p _ [] s₁ v vars s₂ ρ₁ a1.ok c1 (mode := .initial) trivial h2
    have hv : vars = B := a2.adds
    subst hv
    have a12 := a1.trans a2.after
    obtain ⟨ρ₃, a3⟩ := inferAnnotation_right (hh.after a12) (a2.after.step.clean c1) hw.1 h3
    refine ⟨ρ₃, a12.trans a3, (a2.after.trans a3).step.clean c1, a2.clean.step a3.step, ?_⟩
    simp only [TypedStmt]
    exact ⟨t1.step (a2.after.trans a3).step, p2.step a3.step⟩
  | .letAssert p an e m, ls, s, t, B, s', ρ, hw, hh, hl, h => by
    simp only [inferStmt, bind_ok, pure_ok, inScope_ok, Prod.mk.injEq, Prod.exists] at h
    simp only [Stmt.within, Bool.and_eq_true] at hw
    obtain ⟨u, _, ⟨s₁, h1, rfl⟩, _, s₁', hm, v, vars, s₂, h2, _, s₃, h3, ⟨rfl, rfl⟩, rfl⟩ := h
    obtain ⟨ρ₀, a0, c0, t0⟩ := infer_right hx e ls .nil s _ s₁ ρ hw.1.2 hh hl .nil h1
    rw [a0.scope] at hm
    obtain ⟨ρ₁, am, tm⟩ := inferMessage_right hx m ls s₁ _ s₁' ρ₀ hw.2 (hh.after a0) (hl.step a0.step) hm
    have a1 := a0.trans am
    have c1 := am.step.clean c0
    have t1 := t0.step am.step
    obtain ⟨ρ₂, B, a2, e2, p2⟩ := inferPattern_right (R := R) p _ [] s₁' v vars s₂ ρ₁ a1.ok c1 (mode := .initial) trivial h2
    have hv : vars = B := a2.adds
    subst hv
    have a12 := a1.trans a2.after
    obtain ⟨ρ₃, a3⟩ := inferAnnotation_right (hh.after a12) (a2.after.step.clean c1) hw.1.1 h3
    refine ⟨ρ₃, a12.trans a3, (a2.after.trans a3).step.clean c1, a2.clean.step a3.step, ?_⟩
    simp only [TypedStmt]
    exact ⟨t1.step (a2.after.trans a3).step, p2.step a3.step, tm.step (a2.after.trans a3).step⟩
  | .assert e m, ls, s, t, B, s', ρ, hw, hh, hl, h => by
    simp only [inferStmt, bind_ok, pure_ok, Prod.mk.injEq] at h
    simp only [Stmt.within, Bool.and_eq_true] at hw
    obtain ⟨u, s₁, h1, _, s₂, h2, _, s₃, h3, ⟨rfl, rfl⟩, rfl⟩ := h
    obtain ⟨ρ₁, a1, c1, t1⟩ := infer_right hx e ls .nil s u s₁ ρ hw.1 hh hl .nil h1
    obtain ⟨ρ₂, a2, e2⟩ := unifyI_right (R := R) a1.ok (by exact Clean.zero R _) c1 h2
    have a12 := a1.trans a2
    obtain ⟨ρ₃, a3, t3⟩ := inferMessage_right hx m ls s₂ _ s₃ ρ₂ hw.2 (hh.after a12) (hl.step a12.step) h3
    refine ⟨ρ₃, a12.trans a3, Clean.zero R _, .nil, ?_⟩
    simp only [TypedStmt]
    have := t1.step (a2.trans a3).step
    rw [← a3.step.eq e2] at this
    exact ⟨this, t3, rfl, rfl⟩

theorem inferMessage_right (hx : Ctx g names) : ∀ (m : Option Expr) (ls : Locals) (s : St) (x : Unit) (s' : St) (ρ : Cell → Tree), optionWithin vs m = true → Here R vs s ρ →
    CleanLocals R ρ ls → inferMessage n g ls m s = .ok (x, s') →
    ∃ ρ', After R s ρ s' ρ' ∧ TypedMessage (readEnv g names R ρ') (readLocals ρ' ls) m
  | none, ls, s, x, s', ρ, hw, hh, hl, h => by
    simp only [inferMessage, pure_ok] at h
    obtain ⟨_, rfl⟩ := h
    exact ⟨ρ, .refl hh.ok, by simp only [TypedMessage]⟩
  | some e, ls, s, x, s', ρ, hw, hh, hl, h => by
    simp only [inferMessage, bind_ok] at h
    simp only [optionWithin] at hw
    obtain ⟨u, s₁, h1, h2⟩ := h
    obtain ⟨ρ₁, a1, c1, t1⟩ := infer_right hx e ls .nil s u s₁ ρ hw hh hl .nil h1
    obtain ⟨ρ₂, a2, e2⟩ := unifyI_right (R := R) a1.ok (by exact Clean.zero R _) c1 h2
    refine ⟨ρ₂, a1.trans a2, ?_⟩
    have := t1.step a2.step
    rw [← e2] at this
    simp only [TypedMessage]
    exact this

theorem inferClauses_right (hx : Ctx g names) : ∀ (cs : List Clause) (ts : Tys Cell) (r : Ty Cell) (ls : Locals) (s : St) (x : Unit) (s' : St) (ρ : Cell → Tree), clausesWithin vs cs = true →
    Here R vs s ρ → CleanLocals R ρ ls → Cleans R (ts.sub ρ) → Clean R (r.sub ρ) → inferClauses n g ls ts r cs s = .ok (x, s') →
    ∃ ρ', After R s ρ s' ρ' ∧ TypedClauses (readEnv g names R ρ') (readLocals ρ' ls) (ts.sub ρ') (r.sub ρ') cs
  | [], ts, r, ls, s, x, s', ρ, hw, hh, hl, ht, hr, h => by
    simp only [inferClauses, pure_ok] at h
    obtain ⟨_, rfl⟩ := h
    exact ⟨ρ, .refl hh.ok, by simp only [TypedClauses]⟩
  | .mk ps alts gd body :: cs, ts, r, ls, s, x, s', ρ, hw, hh, hl, ht, hr, h => by
    simp only [inferClauses, bind_ok, inScope_ok, Prod.exists] at h
    simp only [clausesWithin, Bool.and_eq_true] at hw
    obtain ⟨t, _, ⟨s₄, ⟨us, vars, s₁, h1, _, s₂, h2, _, s₃, h3, h4⟩, rfl⟩, _, s₅, h5, h6⟩ := h
    obtain ⟨ρ₁, B, a1, _, p1⟩ := inferPatterns_right (R := R) ps ts [] s us vars s₁ ρ hh.ok ht (mode := .initial) trivial h1
    have hv : vars = B := a1.adds
    subst hv
    have ht1 := a1.after.step.cleans ht
    obtain ⟨ρ₂, a2, p2⟩ := inferAlternatives_right (R := R) (g := g) alts s₁ _ s₂ ρ₁ a1.after.ok a1.clean ht1 h2
    have a12 := a1.after.trans a2
    have hl2 : CleanLocals R ρ₂ (vars ++ ls) := (a1.clean.step a2.step).append (hl.step a12.step)
    obtain ⟨ρ₃, a3, g3⟩ := inferOptionalGuard_right (hh.after a12) hl2 h3
    have a13 := a12.trans a3
    obtain ⟨ρ₄, a4, c4, t4⟩ := infer_right hx body (vars ++ ls) .nil s₃ t s₄ ρ₃ hw.1 (hh.after a13) (hl2.step a3.step) .nil h4
    have a14 := a13.trans a4
    rw [a14.scope] at h5
    obtain ⟨ρ₅, a5, e5⟩ := unifyI_right (R := R) a14.ok (a14.step.clean hr) c4 h5
    have a15 := a14.trans a5
    obtain ⟨ρ₆, a6, t6⟩ := inferClauses_right hx cs ts r ls s₅ x s' ρ₅ hw.2 (hh.after a15) (hl.step a15.step) (a15.step.cleans ht) (a15.step.clean hr) h6
    refine ⟨ρ₆, a15.trans a6, ?_⟩
    simp only [TypedClauses]
    have a46 := a4.trans (a5.trans a6)
    have a36 := a3.trans a46
    refine ⟨⟨readLocals ρ₆ vars, p1.step (a2.trans a36).step, fun qs hq => ?_, ?_, ?_⟩, t6⟩
    · obtain ⟨B, h7, h8⟩ := p2 qs hq
      refine ⟨readLocals ρ₆ B, h7.step a36.step, fun y => ?_⟩
      obtain ⟨σ, _, hσ⟩ := a36.step
      rw [hσ, readLocals_on, readLocals_on, TLocals.lookup_sub, TLocals.lookup_sub, h8 y]
    · rw [← readLocals_append]
      exact g3.step a46.step
    · rw [← readLocals_append]
      have := t4.step (a5.trans a6).step
      rw [← a6.step.eq e5] at this
      exact this

end

end

end Verif.Infer
