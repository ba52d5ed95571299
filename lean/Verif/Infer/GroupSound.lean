import Verif.Infer.ExprSound
import Verif.Infer.Fragment

/-!
Functions of accepted modules are typed.
-/

namespace Verif.Infer

open Verif.Unify

/-! ### Heads -/

theorem hydrateOption_right (types : List CustomType) (a : Option TypeAst) (s : St) (ρ : Cell → Tree) (t : Ty Cell) (s' : St) (ho : Ok s ρ)
    (h : hydrateOption types a s = .ok (t, s')) :
    ∃ ρ', Hydrated (optionVariables a) s ρ s' ρ' ∧ Clean s'.hydrator.rigid (t.sub ρ') ∧ (optionComplete a = true → Closed (t.sub ρ')) := by
  cases a with
  | none =>
    obtain ⟨a1, c1, _⟩ := fresh_right (R := s'.hydrator.rigid) ho h
    refine ⟨ρ, ⟨a1.ok, by rw [a1.hydrator]; exact fun _ h => h, by unfold createdNames; rw [a1.hydrator]; exact fun _ h => h, by simp [optionVariables],
      a1.step, fun _ => a1.hydrator⟩, c1, fun hc => by cases hc⟩
  | some a => exact hydrate_right types a s ρ t s' ho h

theorem hydrateParameters_right (types : List CustomType) : ∀ (ps : List Param) (s : St) (ρ : Cell → Tree) (ts : Tys Cell) (s' : St), Ok s ρ →
    hydrateParameters types ps s = .ok (ts, s') →
    ∃ ρ', Hydrated (ps.flatMap fun p => optionVariables p.annotation) s ρ s' ρ' ∧ Cleans s'.hydrator.rigid (ts.sub ρ') ∧
      (ps.all (fun p => optionComplete p.annotation) = true → Closeds (ts.sub ρ'))
  | [], s, ρ, ts, s', ho, h => by
    simp only [hydrateParameters, pure_ok] at h
    obtain ⟨rfl, rfl⟩ := h
    exact ⟨ρ, .refl ho, .nil, fun _ id h => h⟩
  | p :: ps, s, ρ, ts, s', ho, h => by
    simp only [hydrateParameters, bind_ok, pure_ok] at h
    obtain ⟨t, s₁, h1, us, s₂, h2, rfl, rfl⟩ := h
    obtain ⟨ρ₁, h3, c3, d3⟩ := hydrateOption_right types p.annotation s ρ t s₁ ho h1
    obtain ⟨ρ₂, h4, c4, d4⟩ := hydrateParameters_right types ps s₁ ρ₁ us s₂ h3.ok h2
    refine ⟨ρ₂, h3.trans h4, Cleans.cons.2 ⟨h4.step.clean (c3.mono h4.rigid), c4⟩, fun hc => ?_⟩
    simp only [List.all_cons, Bool.and_eq_true] at hc
    intro id hi
    simp only [Tys.sub, Tys.Has] at hi
    rcases hi with hi | hi
    · rw [h4.step.closed (d3 hc.1)] at hi
      exact d3 hc.1 id hi
    · exact d4 hc.2 id hi

/-- What is known of a registered function. -/
structure HeadOk (h : Head) (ρ : Cell → Tree) : Prop where
  names : h.fun_.variables ⊆ h.hydrator.created.map (·.1)
  created : ∀ x t, h.hydrator.created.lookup x = some t → ∃ id ∈ h.hydrator.rigid, t.sub ρ = .var (.generic id)

theorem HeadOk.step {h : Head} {R : List Nat} {ρ ρ' : Cell → Tree} (hk : HeadOk h ρ) (ht : To R ρ ρ') : HeadOk h ρ' :=
  ⟨hk.names, fun x t hx => by
    obtain ⟨id, h1, h2⟩ := hk.created x t hx
    refine ⟨id, h1, ?_⟩
    rw [ht.closed (by rw [h2]; intro i hi; cases hi), h2]⟩

theorem registerFunction_right {types : List CustomType} {f : Fun} {s s' : St} {ρ : Cell → Tree} {h : Head} (hg : Good s.heap ρ)
    (hr : registerFunction types f s = .ok (h, s')) :
    ∃ ρ', Good s'.heap ρ' ∧ To h.hydrator.rigid ρ ρ' ∧ h.fun_ = f ∧ HeadOk h ρ' ∧ Clean h.hydrator.rigid (h.type.sub ρ') ∧
      (f.annotated = true → Closed (h.type.sub ρ')) ∧ (f.variables = [] → h.hydrator.rigid = []) := by
  simp only [registerFunction, bind_ok, setHydrator_ok, getHydrator_ok, pure_ok] at hr
  obtain ⟨_, _, rfl, ts, s₁, h1, r, s₂, h2, _, _, ⟨rfl, rfl⟩, rfl, rfl⟩ := hr
  obtain ⟨ρ₁, h3, c3, d3⟩ := hydrateParameters_right types f.parameters ⟨s.heap, s.next, ⟨[], []⟩⟩ ρ ts s₁ ⟨hg, fun x t hx => by cases hx⟩ h1
  obtain ⟨ρ₂, h4, c4, d4⟩ := hydrateOption_right types f.return_ s₁ ρ₁ r s₂ h3.ok h2
  have h5 := h3.trans h4
  refine ⟨ρ₂, h4.ok.good, h5.step, rfl, ⟨h5.new, h4.ok.created⟩, Clean.fn.2 ⟨h4.step.cleans (fun id hi => h4.rigid (c3 id hi)), c4⟩, fun ha => ?_, fun hv => ?_⟩
  · simp only [Fun.annotated, Bool.and_eq_true] at ha
    intro id hi
    simp only [Head.type, Ty.sub, Ty.Has] at hi
    rcases hi with hi | hi
    · have := h4.step.closed (t := .tuple ts) (d3 ha.1)
      simp only [Ty.sub, Ty.tuple.injEq] at this
      rw [this] at hi
      exact d3 ha.1 id hi
    · exact d4 ha.2 id hi
  · have := h5.same (by unfold Fun.variables at hv; rw [hv]; simp)
    simp only [this]

/-! ### Bodies -/

/-- The body of a function is typed, with the types that its head has now. -/
structure Done (g : Globals) (names : List String) (R : List Nat) (h : Head) (ρ : Cell → Tree) : Prop where
  length : h.fun_.parameters.length = h.parameters.length
  body : TypedStmts (readEnv g names R ρ) (paramB h.fun_.parameters (h.parameters.sub ρ)) h.fun_.body (h.return_.sub ρ)

theorem Done.step {g : Globals} {names : List String} {R : List Nat} {h : Head} {ρ ρ' : Cell → Tree} (hd : Done g names R h ρ) (ht : To R ρ ρ') :
    Done g names R h ρ' := by
  refine ⟨hd.length, ?_⟩
  obtain ⟨σ, hσ, rfl⟩ := ht
  rw [subs_on, sub_on, ← paramB_sub]
  exact TypedStmts.sub (readEnv_step g names hσ) _ _ _ (.refl _ _) _ hd.body

theorem inferFunction_right {n : Nat} {g : Globals} {names : List String} {h : Head} {s s' : St} {x : Unit} {ρ : Cell → Tree} (hx : Ctx g names) (hg : Good s.heap ρ)
    (hk : HeadOk h ρ) (hc : Clean h.hydrator.rigid (h.type.sub ρ)) (hw : stmtsWithin h.fun_.variables h.fun_.body = true)
    (hi : inferFunction n g h s = .ok (x, s')) : ∃ ρ', Good s'.heap ρ' ∧ To h.hydrator.rigid ρ ρ' ∧ Done g names h.hydrator.rigid h ρ' := by
  simp only [inferFunction, bind_ok, setHydrator_ok] at hi
  obtain ⟨_, _, rfl, t, s₁, h1, h2⟩ := hi
  have hc' := Clean.fn.1 hc
  have hh : Here h.hydrator.rigid h.fun_.variables { s with hydrator := h.hydrator } ρ := ⟨⟨hg, hk.created⟩, rfl, hk.names⟩
  obtain ⟨ρ₁, a1, c1, l1, t1, e1⟩ := inferBody_right (g := g) (names := names) (stmts := h.fun_.body) hh .nil hc'.1 (fun r hr => by cases hr; exact hc'.2)
    (fun ls s₁ u s₂ ρ₁ h1 h2 h3 => inferStmts_right hx h.fun_.body ls s₁ u s₂ ρ₁ hw h1 h2 h3) h1
  obtain ⟨ρ₂, a2, _⟩ := unifyI_right (R := h.hydrator.rigid) (t := h.type) (u := .fn h.parameters t) a1.ok (a1.step.clean hc)
    (Clean.fn.2 ⟨a1.step.cleans hc'.1, c1⟩) h2
  refine ⟨ρ₂, a2.ok.good, (a1.trans a2).step, Done.step ⟨l1, ?_⟩ a2.step⟩
  rw [e1 h.return_ rfl]
  simpa [readLocals] using t1

/-! ### Groups whose types stay as they are while they are inferred -/

theorem registerAll_mono {types : List CustomType} {R : List Nat} : ∀ (fs : List Fun) (s s' : St) (ρ : Cell → Tree) (hs : List Head), Good s.heap ρ →
    registerAll types fs s = .ok (hs, s') → (∀ h ∈ hs, h.hydrator.rigid = R) →
    ∃ ρ', Good s'.heap ρ' ∧ To R ρ ρ' ∧ hs.map (·.fun_) = fs ∧ ∀ h ∈ hs, HeadOk h ρ' ∧ Clean R (h.type.sub ρ')
  | [], s, s', ρ, hs, hg, h, hR => by
    simp only [registerAll, pure_ok] at h
    obtain ⟨rfl, rfl⟩ := h
    exact ⟨ρ, hg, .refl _ _, rfl, fun h hh => by cases hh⟩
  | f :: fs, s, s', ρ, hs, hg, h, hR => by
    simp only [registerAll, bind_ok, pure_ok] at h
    obtain ⟨hd, s₁, h1, hs', s₂, h2, rfl, rfl⟩ := h
    obtain ⟨ρ₁, g1, t1, e1, k1, c1, _, _⟩ := registerFunction_right hg h1
    have hr : hd.hydrator.rigid = R := hR hd (by simp)
    rw [hr] at t1 c1
    obtain ⟨ρ₂, g2, t2, e2, k2⟩ := registerAll_mono fs s₁ s₂ ρ₁ hs' g1 h2 (fun h hh => hR h (by simp [hh]))
    refine ⟨ρ₂, g2, t1.trans t2, by simp [e1, e2], fun h hh => ?_⟩
    rcases List.mem_cons.1 hh with rfl | hh
    · exact ⟨k1.step t2, t2.clean c1⟩
    · exact k2 h hh

theorem inferFunctions_mono {n : Nat} {g : Globals} {names : List String} {R : List Nat} (hx : Ctx g names) : ∀ (hs : List Head) (s s' : St) (x : Unit) (ρ : Cell → Tree),
    Good s.heap ρ → (∀ h ∈ hs, h.hydrator.rigid = R ∧ HeadOk h ρ ∧ Clean R (h.type.sub ρ) ∧ stmtsWithin h.fun_.variables h.fun_.body = true) →
    inferFunctions n g hs s = .ok (x, s') → ∃ ρ', Good s'.heap ρ' ∧ To R ρ ρ' ∧ ∀ h ∈ hs, Done g names R h ρ'
  | [], s, s', x, ρ, hg, hk, h => by
    simp only [inferFunctions, pure_ok] at h
    obtain ⟨_, rfl⟩ := h
    exact ⟨ρ, hg, .refl _ _, fun h hh => by cases hh⟩
  | hd :: hs, s, s', x, ρ, hg, hk, h => by
    simp only [inferFunctions, bind_ok] at h
    obtain ⟨_, s₁, h1, h2⟩ := h
    obtain ⟨r1, k1, c1, w1⟩ := hk hd (by simp)
    obtain ⟨ρ₁, g1, t1, d1⟩ := inferFunction_right hx hg k1 (by rw [r1]; exact c1) w1 h1
    rw [r1] at t1 d1
    obtain ⟨ρ₂, g2, t2, d2⟩ := inferFunctions_mono hx hs s₁ s' x ρ₁ g1 (fun h hh => by
      obtain ⟨r2, k2, c2, w2⟩ := hk h (by simp [hh])
      exact ⟨r2, k2.step t1, t1.clean c2, w2⟩) h2
    refine ⟨ρ₂, g2, t1.trans t2, fun h hh => ?_⟩
    rcases List.mem_cons.1 hh with rfl | hh
    · exact d1.step t2
    · exact d2 h hh

/-! ### Groups that are annotated completely -/

/-- Unbound variables may have got types. -/
def Far (ρ ρ' : Cell → Tree) : Prop := ∃ σ : Assignment, ρ' = fun c => σ.on (ρ c)

theorem To.far {R : List Nat} {ρ ρ' : Cell → Tree} (h : To R ρ ρ') : Far ρ ρ' := by
  obtain ⟨σ, _, h⟩ := h
  exact ⟨σ, h⟩

theorem Far.refl (ρ : Cell → Tree) : Far ρ ρ := (To.refl [] ρ).far

theorem Far.trans {ρ ρ' ρ'' : Cell → Tree} (h : Far ρ ρ') (h' : Far ρ' ρ'') : Far ρ ρ'' := by
  obtain ⟨σ, rfl⟩ := h
  obtain ⟨τ, rfl⟩ := h'
  exact ⟨σ.then_ τ, by funext c; rw [Assignment.on_then]⟩

theorem Far.closed {ρ ρ' : Cell → Tree} (h : Far ρ ρ') {t : Ty Cell} (ht : Closed (t.sub ρ)) : t.sub ρ' = t.sub ρ := by
  obtain ⟨σ, rfl⟩ := h
  rw [sub_on, ht.on]

theorem HeadOk.far {h : Head} {ρ ρ' : Cell → Tree} (hk : HeadOk h ρ) (ht : Far ρ ρ') : HeadOk h ρ' :=
  ⟨hk.names, fun x t hx => by
    obtain ⟨id, h1, h2⟩ := hk.created x t hx
    refine ⟨id, h1, ?_⟩
    rw [ht.closed (by rw [h2]; intro i hi; cases hi), h2]⟩

theorem registerAll_poly {types : List CustomType} : ∀ (fs : List Fun) (s s' : St) (ρ : Cell → Tree) (hs : List Head), Good s.heap ρ →
    registerAll types fs s = .ok (hs, s') → fs.all (·.annotated) = true →
    ∃ ρ', Good s'.heap ρ' ∧ Far ρ ρ' ∧ hs.map (·.fun_) = fs ∧ ∀ h ∈ hs, HeadOk h ρ' ∧ Clean h.hydrator.rigid (h.type.sub ρ') ∧ Closed (h.type.sub ρ')
  | [], s, s', ρ, hs, hg, h, ha => by
    simp only [registerAll, pure_ok] at h
    obtain ⟨rfl, rfl⟩ := h
    exact ⟨ρ, hg, .refl _, rfl, fun h hh => by cases hh⟩
  | f :: fs, s, s', ρ, hs, hg, h, ha => by
    simp only [registerAll, bind_ok, pure_ok] at h
    simp only [List.all_cons, Bool.and_eq_true] at ha
    obtain ⟨hd, s₁, h1, hs', s₂, h2, rfl, rfl⟩ := h
    obtain ⟨ρ₁, g1, t1, e1, k1, c1, d1, _⟩ := registerFunction_right hg h1
    obtain ⟨ρ₂, g2, t2, e2, k2⟩ := registerAll_poly fs s₁ s₂ ρ₁ hs' g1 h2 ha.2
    refine ⟨ρ₂, g2, t1.far.trans t2, by simp [e1, e2], fun h hh => ?_⟩
    rcases List.mem_cons.1 hh with rfl | hh
    · refine ⟨k1.far t2, ?_⟩
      rw [t2.closed (d1 ha.1)]
      exact ⟨c1, d1 ha.1⟩
    · exact k2 h hh

theorem inferFunctions_poly {n : Nat} {g : Globals} {names : List String} (hx : Ctx g names) : ∀ (hs : List Head) (s s' : St) (x : Unit) (ρ : Cell → Tree),
    Good s.heap ρ → (∀ h ∈ hs, HeadOk h ρ ∧ Clean h.hydrator.rigid (h.type.sub ρ) ∧ Closed (h.type.sub ρ) ∧ stmtsWithin h.fun_.variables h.fun_.body = true) →
    inferFunctions n g hs s = .ok (x, s') →
    ∃ ρ', Good s'.heap ρ' ∧ Far ρ ρ' ∧ ∀ h ∈ hs, ∃ ρ'', Far ρ ρ'' ∧ Done g names h.hydrator.rigid h ρ''
  | [], s, s', x, ρ, hg, hk, h => by
    simp only [inferFunctions, pure_ok] at h
    obtain ⟨_, rfl⟩ := h
    exact ⟨ρ, hg, .refl _, fun h hh => by cases hh⟩
  | hd :: hs, s, s', x, ρ, hg, hk, h => by
    simp only [inferFunctions, bind_ok] at h
    obtain ⟨_, s₁, h1, h2⟩ := h
    obtain ⟨k1, c1, _, w1⟩ := hk hd (by simp)
    obtain ⟨ρ₁, g1, t1, d1⟩ := inferFunction_right hx hg k1 c1 w1 h1
    obtain ⟨ρ₂, g2, t2, d2⟩ := inferFunctions_poly hx hs s₁ s' x ρ₁ g1 (fun h hh => by
      obtain ⟨k2, c2, d2, w2⟩ := hk h (by simp [hh])
      refine ⟨k2.far t1.far, ?_, ?_, w2⟩
      · rw [t1.closed d2]; exact c2
      · rw [t1.closed d2]; exact d2) h2
    refine ⟨ρ₂, g2, t1.far.trans t2, fun h hh => ?_⟩
    rcases List.mem_cons.1 hh with rfl | hh
    · exact ⟨ρ₁, t1.far, d1⟩
    · obtain ⟨ρ₃, h3, h4⟩ := d2 h hh
      exact ⟨ρ₃, t1.far.trans h3, h4⟩

/-! ### Schemes -/

theorem generaliseHeads_right {n : Nat} {ρ : Cell → Tree} : ∀ (hs : List Head) (s s' : St) (new : List (String × Ty Nat)), Reading s.heap ρ →
    generaliseHeads n hs s = .ok (new, s') →
    s' = s ∧ new.map (·.1) = hs.map (·.fun_.name) ∧ ∀ h ∈ hs, ∃ T, (h.fun_.name, T) ∈ new ∧ ∀ θ, T.sub θ = (h.type.sub ρ).sub (allSub θ)
  | [], s, s', new, hg, h => by
    simp only [generaliseHeads, pure_ok] at h
    obtain ⟨rfl, rfl⟩ := h
    exact ⟨rfl, rfl, fun h hh => by cases hh⟩
  | hd :: hs, s, s', new, hg, h => by
    simp only [generaliseHeads, bind_ok, pure_ok, getHeap_ok, ofFuel_ok] at h
    obtain ⟨_, _, ⟨rfl, rfl⟩, T, _, ⟨h1, rfl⟩, new', s₂, h2, rfl, rfl⟩ := h
    obtain ⟨rfl, e2, k2⟩ := generaliseHeads_right hs _ _ new' hg h2
    refine ⟨rfl, by simp [e2], fun h hh => ?_⟩
    rcases List.mem_cons.1 hh with rfl | hh
    · exact ⟨T, by simp, fun θ => generalise_right hg θ n _ T h1⟩
    · obtain ⟨T', h3, h4⟩ := k2 h hh
      exact ⟨T', by simp [h3], h4⟩

theorem lookup_of_nodup {α : Type} {x : String} {a : α} : ∀ {l : List (String × α)}, (l.map (·.1)).Nodup → (x, a) ∈ l → l.lookup x = some a
  | [], _, h => by cases h
  | (y, b) :: l, hn, h => by
    simp only [List.map, List.nodup_cons] at hn
    rw [List.lookup_cons]
    rcases List.mem_cons.1 h with h2 | h2
    · cases h2; simp
    · have : x ≠ y := by
        rintro rfl
        exact hn.1 (List.mem_map.2 ⟨(x, a), h2, rfl⟩)
      have : (x == y) = false := by simpa using this
      rw [this]
      exact lookup_of_nodup hn.2 h2

/-- An environment in which functions have all the instances of their schemes. -/
structure Offers (E : TEnv) (types : List CustomType) (names : List String) (values : List (String × Ty Nat)) : Prop where
  types : E.types = types
  names : E.names = names
  Δ : ∀ x T θ, values.lookup x = some T → E.Δ x (T.sub θ)

/-- The function is typed, with all the instances of the scheme. -/
def FunOk (E : TEnv) (f : Fun) (T : Ty Nat) : Prop :=
  ∀ θ, ∃ as r, T.sub θ = .fn as r ∧ f.parameters.length = as.length ∧ TypedStmts E (paramB f.parameters as) f.body r

theorem closed_all {t : Tree} (h : Closed t) (θ θ' : Nat → Tree) : (t.sub (gsub θ)).sub (allSub θ') = t.sub (allSub fun i => (θ i).sub (allSub θ')) := by
  rw [Ty.sub_sub]
  refine Ty.sub_congr _ _ t fun l hl => ?_
  cases l with
  | unbound id => exact absurd hl (h id)
  | generic id => rfl

theorem mem_heads {hs : List Head} {x : String} {t : Ty Cell} (h : (hs.map fun h => (h.fun_.name, h.type)).lookup x = some t) :
    ∃ hd ∈ hs, hd.fun_.name = x ∧ hd.type = t := by
  obtain ⟨hd, h1, h2⟩ := List.mem_map.1 (lookup_mem h)
  cases h2
  exact ⟨hd, h1, rfl, rfl⟩

section
variable {types : List Registered} {names : List String} {values new : List (String × Ty Nat)} {hs : List Head}

/-- Substituting for what is left unbound gives what the schemes allow. -/
theorem subEnv_of {R : List Nat} {ρ : Cell → Tree} {E : TEnv} (hE : Offers E (types.map (·.type)) names (new ++ values)) (hn : (new.map (·.1)).Nodup)
    (hk : new.map (·.1) = hs.map (·.fun_.name)) (θ' : Nat → Tree)
    (hnew : ∀ h ∈ hs, ∀ θ : Nat → Tree, (∀ id ∈ R, θ id = .var (.generic id)) → ∃ T, (h.fun_.name, T) ∈ new ∧
      ∃ θ'', ((h.type.sub ρ).sub (gsub θ)).sub (allSub θ') = T.sub θ'') :
    SubEnv (allSub θ') (readEnv ⟨types, hs.map fun h => (h.fun_.name, h.type), values⟩ names R ρ) E := by
  refine ⟨hE.types, hE.names, fun x τ h => ?_⟩
  simp only [readEnv, readNames] at h
  split at h
  · next t ht =>
    obtain ⟨θ, h1, rfl⟩ := h
    obtain ⟨hd, h2, rfl, rfl⟩ := mem_heads ht
    obtain ⟨T, h3, θ'', h4⟩ := hnew hd h2 θ h1
    rw [h4]
    refine hE.Δ _ _ _ ?_
    rw [List.lookup_append, lookup_of_nodup hn h3]
    rfl
  · next ht =>
    obtain ⟨T, h1, θ, rfl⟩ := h
    rw [Ty.sub_sub]
    refine hE.Δ _ _ _ ?_
    have : new.lookup x = none := by
      cases hl : new.lookup x with
      | none => rfl
      | some T' =>
        exfalso
        have hm := mem_of_lookup hl
        rw [hk] at hm
        obtain ⟨hd, h2, rfl⟩ := List.mem_map.1 hm
        obtain ⟨t, h3⟩ := lookup_of_mem (l := hs.map fun h => (h.fun_.name, h.type)) (x := hd.fun_.name) (by
          rw [List.map_map]; exact List.mem_map.2 ⟨hd, h2, rfl⟩)
        rw [h3] at ht; cases ht
    rw [List.lookup_append, this]
    exact h1

theorem funOk_of {R : List Nat} {ρ : Cell → Tree} {E : TEnv} {h : Head} {T : Ty Nat} {g : Globals} (hd : Done g names R h ρ)
    (hT : ∀ θ, T.sub θ = (h.type.sub ρ).sub (allSub θ)) (hs : ∀ θ, SubEnv (allSub θ) (readEnv g names R ρ) E) : FunOk E h.fun_ T := by
  intro θ
  refine ⟨(h.parameters.sub ρ).sub (allSub θ), (h.return_.sub ρ).sub (allSub θ), hT θ, ?_, ?_⟩
  · rw [Tys.length_sub, Tys.length_sub]; exact hd.length
  · rw [← paramB_sub]
    exact TypedStmts.sub (hs θ) _ _ _ (.refl _ _) _ hd.body

theorem soundGroup_cases {fs : List Fun} (h : soundGroup fs = true) : (∀ f ∈ fs, stmtsWithin f.variables f.body = true) ∧
    (fs.length ≤ 1 ∨ (∀ f ∈ fs, f.variables = []) ∨ fs.all (·.annotated) = true) := by
  simp only [soundGroup, Bool.and_eq_true, Bool.or_eq_true, decide_eq_true_eq] at h
  refine ⟨fun f hf => List.all_eq_true.1 h.1 f hf, ?_⟩
  rcases h.2 with (h | h) | h
  · exact .inl h
  · exact .inr (.inl fun f hf => by simpa using List.all_eq_true.1 h f hf)
  · exact .inr (.inr h)

theorem registerAll_rigid {types : List CustomType} : ∀ (fs : List Fun) (s s' : St) (ρ : Cell → Tree) (hs : List Head), Good s.heap ρ → registerAll types fs s = .ok (hs, s') →
    hs.length = fs.length ∧ ((∀ f ∈ fs, f.variables = []) → ∀ h ∈ hs, h.hydrator.rigid = [])
  | [], s, s', ρ, hs, hg, h => by
    simp only [registerAll, pure_ok] at h
    obtain ⟨rfl, rfl⟩ := h
    exact ⟨rfl, fun _ h hh => by cases hh⟩
  | f :: fs, s, s', ρ, hs, hg, h => by
    simp only [registerAll, bind_ok, pure_ok] at h
    obtain ⟨hd, s₁, h1, hs', s₂, h2, rfl, rfl⟩ := h
    obtain ⟨ρ₁, g1, _, _, _, _, _, d1⟩ := registerFunction_right hg h1
    obtain ⟨l2, k2⟩ := registerAll_rigid fs s₁ s₂ ρ₁ hs' g1 h2
    refine ⟨by simp [l2], fun hv h hh => ?_⟩
    rcases List.mem_cons.1 hh with rfl | hh
    · exact d1 (hv f (by simp))
    · exact k2 (fun f hf => hv f (by simp [hf])) h hh

/-- A group. -/
theorem group_right {n : Nat} {fs : List Fun} {s s₁ s₂ s₃ : St} {x : Unit} {ρ : Cell → Tree} (hsound : soundGroup fs = true) (hg : Good s.heap ρ)
    (h1 : registerAll (types.map (·.type)) fs s = .ok (hs, s₁))
    (hx : Ctx ⟨types, hs.map fun h => (h.fun_.name, h.type), values⟩ names)
    (h2 : inferFunctions n ⟨types, hs.map fun h => (h.fun_.name, h.type), values⟩ hs s₁ = .ok (x, s₂))
    (h3 : generaliseHeads n hs s₂ = .ok (new, s₃)) (hn : (fs.map (·.name)).Nodup) :
    (∃ ρ', Good s₃.heap ρ') ∧ new.map (·.1) = fs.map (·.name) ∧
      ∀ E, Offers E (types.map (·.type)) names (new ++ values) → ∀ f ∈ fs, ∃ T, new.lookup f.name = some T ∧ FunOk E f T := by
  obtain ⟨hw, hcase⟩ := soundGroup_cases hsound
  obtain ⟨hlen, hrigid⟩ := registerAll_rigid fs s s₁ ρ hs hg h1
  have mono : (∃ R, ∀ h ∈ hs, h.hydrator.rigid = R) → (∃ ρ', Good s₃.heap ρ') ∧ new.map (·.1) = fs.map (·.name) ∧
      ∀ E, Offers E (types.map (·.type)) names (new ++ values) → ∀ f ∈ fs, ∃ T, new.lookup f.name = some T ∧ FunOk E f T := by
    rintro ⟨R, hR⟩
    obtain ⟨ρ₁, g1, t1, e1, k1⟩ := registerAll_mono fs s s₁ ρ hs hg h1 hR
    have hf : ∀ h ∈ hs, h.fun_ ∈ fs := fun h hh => by rw [← e1]; exact List.mem_map_of_mem hh
    obtain ⟨ρ₂, g2, t2, d2⟩ := inferFunctions_mono hx hs s₁ s₂ x ρ₁ g1 (fun h hh => ⟨hR h hh, (k1 h hh).1, (k1 h hh).2, hw _ (hf h hh)⟩) h2
    obtain ⟨rfl, e3, k3⟩ := generaliseHeads_right hs s₂ s₃ new g2.reading h3
    have e3' : new.map (·.1) = fs.map (·.name) := by rw [e3, ← e1, List.map_map]; rfl
    refine ⟨⟨ρ₂, g2⟩, e3', fun E hE f hff => ?_⟩
    rw [← e1] at hff
    obtain ⟨h, hh, rfl⟩ := List.mem_map.1 hff
    obtain ⟨T, m3, s3⟩ := k3 h hh
    rw [← e3'] at hn
    refine ⟨T, lookup_of_nodup hn m3, funOk_of (d2 h hh) s3 fun θ' => subEnv_of hE hn e3 θ' fun h' hh' θ hθ => ?_⟩
    obtain ⟨T', m4, s4⟩ := k3 h' hh'
    refine ⟨T', m4, θ', ?_⟩
    rw [gsub_clean hθ (t2.clean (k1 h' hh').2), s4]
  rcases hcase with hc | hc | hc
  · refine mono ?_
    match hs, hlen with
    | [], _ => exact ⟨[], fun h hh => by cases hh⟩
    | [h], _ => exact ⟨h.hydrator.rigid, fun h' hh => by simp only [List.mem_singleton] at hh; rw [hh]⟩
    | _ :: _ :: _, hl => simp only [List.length_cons] at hl; omega
  · exact mono ⟨[], hrigid hc⟩
  · obtain ⟨ρ₁, g1, t1, e1, k1⟩ := registerAll_poly fs s s₁ ρ hs hg h1 hc
    have hf : ∀ h ∈ hs, h.fun_ ∈ fs := fun h hh => by rw [← e1]; exact List.mem_map_of_mem hh
    obtain ⟨ρ₂, g2, t2, d2⟩ := inferFunctions_poly hx hs s₁ s₂ x ρ₁ g1 (fun h hh => ⟨(k1 h hh).1, (k1 h hh).2.1, (k1 h hh).2.2, hw _ (hf h hh)⟩) h2
    obtain ⟨rfl, e3, k3⟩ := generaliseHeads_right hs s₂ s₃ new g2.reading h3
    have e3' : new.map (·.1) = fs.map (·.name) := by rw [e3, ← e1, List.map_map]; rfl
    refine ⟨⟨ρ₂, g2⟩, e3', fun E hE f hff => ?_⟩
    rw [← e1] at hff
    obtain ⟨h, hh, rfl⟩ := List.mem_map.1 hff
    obtain ⟨T, m3, s3⟩ := k3 h hh
    obtain ⟨ρ₃, t3, d3⟩ := d2 h hh
    have same : ∀ h ∈ hs, h.type.sub ρ₂ = h.type.sub ρ₃ := fun h hh => by rw [t2.closed (k1 h hh).2.2, t3.closed (k1 h hh).2.2]
    rw [← e3'] at hn
    refine ⟨T, lookup_of_nodup hn m3, funOk_of d3 (fun θ => by rw [s3, same h hh]) fun θ' => subEnv_of hE hn e3 θ' fun h' hh' θ hθ => ?_⟩
    obtain ⟨T', m4, s4⟩ := k3 h' hh'
    refine ⟨T', m4, fun i => (θ i).sub (allSub θ'), ?_⟩
    have hcl : Closed (h'.type.sub ρ₃) := by rw [t3.closed (k1 h' hh').2.2]; exact (k1 h' hh').2.2
    rw [closed_all hcl, s4, same h' hh']

end

/-! ### Modules -/

theorem inferGroups_right {n : Nat} {types : List Registered} {names : List String}
    (hctors : ∀ x r v, findConstructor types x = some (r, v) → x ∉ names) (hlabels : ∀ r ∈ types, ∀ v ∈ r.type.variants, distinctLabels v = true) :
    ∀ (gs : List (List Fun)) (values F : List (String × Ty Nat)) (s s' : St) (ρ : Cell → Tree), Good s.heap ρ → (∀ fs ∈ gs, soundGroup fs = true) →
      (∀ x ∈ values.map (·.1), x ∈ names) → (∀ f ∈ gs.flatten, f.name ∈ names) → (gs.flatten.map (·.name)).Nodup →
      (∀ f ∈ gs.flatten, f.name ∉ values.map (·.1)) → inferGroups n types values gs s = .ok (F, s') →
      (∀ x T, values.lookup x = some T → F.lookup x = some T) ∧
      (∀ x ∈ F.map (·.1), x ∈ values.map (·.1) ∨ x ∈ gs.flatten.map (·.name)) ∧
      ∀ E, Offers E (types.map (·.type)) names F → ∀ f ∈ gs.flatten, ∃ T, F.lookup f.name = some T ∧ FunOk E f T
  | [], values, F, s, s', ρ, hg, hs, hv, hf, hn, hd, h => by
    simp only [inferGroups, pure_ok] at h
    obtain ⟨rfl, rfl⟩ := h
    exact ⟨fun x T h => h, fun x h => .inl h, fun E hE f hf => by simp at hf⟩
  | fs :: gs, values, F, s, s', ρ, hg, hs, hv, hf, hn, hd, h => by
    simp only [inferGroups, bind_ok] at h
    obtain ⟨heads, s₁, h1, x, s₂, h2, new, s₃, h3, h4⟩ := h
    have hmem : ∀ f ∈ fs, f ∈ (fs :: gs).flatten := fun f h => by simp [List.flatten_cons, h]
    have hmem' : ∀ f ∈ gs.flatten, f ∈ (fs :: gs).flatten := fun f h => by rw [List.flatten_cons]; exact List.mem_append.2 (.inr h)
    rw [List.flatten_cons, List.map_append, List.nodup_append] at hn
    have hx : Ctx ⟨types, heads.map fun h => (h.fun_.name, h.type), values⟩ names := by
      refine ⟨fun x t hl => ?_, fun x T hl => hv x (mem_of_lookup hl), hctors, hlabels⟩
      obtain ⟨hd, h5, rfl, _⟩ := mem_heads hl
      have : hd.fun_ ∈ fs := registerAll_mem fs s s₁ heads h1 hd h5
      exact hf _ (hmem _ this)
    obtain ⟨⟨ρ', g'⟩, k1, k2⟩ := group_right (hs fs (by simp)) hg h1 hx h2 h3 hn.1
    obtain ⟨i1, i2, i3⟩ := inferGroups_right hctors hlabels gs (new ++ values) F s₃ s' ρ' g' (fun fs h => hs fs (by simp [h]))
      (fun x hx => by
        rw [List.map_append, k1] at hx
        rcases List.mem_append.1 hx with hx | hx
        · obtain ⟨f, hf1, rfl⟩ := List.mem_map.1 hx
          exact hf f (hmem f hf1)
        · exact hv x hx)
      (fun f h => hf f (hmem' f h)) hn.2.1
      (fun f h hx => by
        rw [List.map_append, k1] at hx
        rcases List.mem_append.1 hx with hx | hx
        · exact hn.2.2 _ hx _ (List.mem_map_of_mem h) rfl
        · exact hd f (hmem' f h) hx) h4
    refine ⟨fun x T hl => i1 x T ?_, fun x hx => ?_, fun E hE f hff => ?_⟩
    · have : new.lookup x = none := by
        cases hl' : new.lookup x with
        | none => rfl
        | some T' =>
          exfalso
          have hm := mem_of_lookup hl'
          rw [k1] at hm
          obtain ⟨f, hf1, rfl⟩ := List.mem_map.1 hm
          exact hd f (hmem f hf1) (mem_of_lookup hl)
      rw [List.lookup_append, this]
      exact hl
    · rw [List.flatten_cons, List.map_append, List.mem_append]
      rcases i2 x hx with hx | hx
      · rw [List.map_append, k1] at hx
        rcases List.mem_append.1 hx with hx | hx
        · exact .inr (.inl hx)
        · exact .inl hx
      · exact .inr (.inr hx)
    · rw [List.flatten_cons] at hff
      rcases List.mem_append.1 hff with hff | hff
      · obtain ⟨T, h5, h6⟩ := k2 E ⟨hE.types, hE.names, fun x T θ hl => hE.Δ x T θ (i1 x T hl)⟩ f hff
        exact ⟨T, i1 _ _ (by rw [List.lookup_append, h5]; rfl), h6⟩
      · exact i3 E hE f hff
where
  registerAll_mem {types : List CustomType} : ∀ (fs : List Fun) (s s' : St) (hs : List Head), registerAll types fs s = .ok (hs, s') → ∀ h ∈ hs, h.fun_ ∈ fs
    | [], s, s', hs, h => by
      simp only [registerAll, pure_ok] at h
      obtain ⟨rfl, rfl⟩ := h
      exact fun h hh => by cases hh
    | f :: fs, s, s', hs, h => by
      simp only [registerAll, bind_ok, pure_ok] at h
      obtain ⟨hd, s₁, h1, hs', s₂, h2, rfl, rfl⟩ := h
      simp only [registerFunction, bind_ok, setHydrator_ok, getHydrator_ok, pure_ok] at h1
      obtain ⟨_, _, rfl, ts, s₁, h1, r, s₂, h3, _, _, ⟨rfl, rfl⟩, rfl, rfl⟩ := h1
      intro h hh
      rcases List.mem_cons.1 hh with rfl | hh
      · simp
      · exact List.mem_cons_of_mem _ (registerAll_mem fs _ _ hs' h2 h hh)

end Verif.Infer
