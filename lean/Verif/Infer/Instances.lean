import Verif.Infer.Steps
import Verif.Infer.Fragment

/-!
Instances of types, annotations, and generalising.
-/

namespace Verif.Infer

open Verif.Unify

/-! ### Instances -/

/-- Replaces generic variables. -/
def gsub (θ : Nat → Tree) : Leaf → Tree
  | .unbound id => .var (.unbound id)
  | .generic id => θ id

/-- What the ids stand for. -/
def idsTree (ρ : Cell → Tree) (ids : Ids) (id : Nat) : Tree :=
  match ids.lookup id with
  | some t => t.sub ρ
  | none => .var (.generic id)

def IdsExt (ids ids' : Ids) : Prop := ∀ id t, ids.lookup id = some t → ids'.lookup id = some t

theorem IdsExt.refl (ids : Ids) : IdsExt ids ids := fun _ _ h => h

theorem IdsExt.trans {a b c : Ids} (h : IdsExt a b) (h' : IdsExt b c) : IdsExt a c := fun id t hi => h' id t (h id t hi)

theorem IdsExt.cons {ids : Ids} {id : Nat} {t : Ty Cell} (h : ids.lookup id = none) : IdsExt ids ((id, t) :: ids) := by
  intro i u hi
  rw [List.lookup_cons]
  by_cases he : i = id
  · subst he; rw [h] at hi; cases hi
  · have : (i == id) = false := by simpa using he
    rw [this]; exact hi

def IdsClean (R : List Nat) (ρ : Cell → Tree) (ids : Ids) : Prop := ∀ id t, ids.lookup id = some t → Clean R (t.sub ρ)

def IdsFlex (R : List Nat) (ids : Ids) : Prop := ∀ id t, ids.lookup id = some t → id ∉ R

theorem lookup_cons_cases {α : Type} {x y : Nat} {a b : α} {l : List (Nat × α)} (h : List.lookup x ((y, a) :: l) = some b) :
    (x = y ∧ a = b) ∨ l.lookup x = some b := by
  rw [List.lookup_cons] at h
  split at h
  · next he => cases h; exact .inl ⟨by simpa using he, rfl⟩
  · exact .inr h

theorem instantiateId_right {R : List Nat} {id : Nat} {ids ids' : Ids} {s s' : St} {u : Ty Cell} {ρ : Cell → Tree} (ho : Ok s ρ)
    (hc : IdsClean R ρ ids) (h : instantiateId id ids s = .ok ((u, ids'), s')) :
    After R s ρ s' ρ ∧ s'.heap = s.heap ∧ IdsExt ids ids' ∧ IdsClean R ρ ids' ∧ Clean R (u.sub ρ) ∧ ids'.lookup id = some u ∧
      (IdsFlex R ids → id ∉ R → IdsFlex R ids') := by
  unfold instantiateId at h
  generalize hl : ids.lookup id = d at h
  rcases d with _ | t
  rotate_left
  · have ht := hl
    simp only [pure_ok, Prod.mk.injEq] at h
    obtain ⟨⟨rfl, rfl⟩, rfl⟩ := h
    exact ⟨.refl ho, rfl, .refl _, hc, hc id _ ht, ht, fun h _ => h⟩
  · have hn := hl
    simp only [bind_ok, pure_ok, Prod.mk.injEq] at h
    obtain ⟨t, s₁, h1, ⟨rfl, rfl⟩, rfl⟩ := h
    obtain ⟨a1, c1, e1⟩ := fresh_right (R := R) ho h1
    refine ⟨a1, e1, .cons hn, ?_, c1, by rw [List.lookup_cons]; simp, ?_⟩
    · intro i u hi
      rcases lookup_cons_cases hi with ⟨_, rfl⟩ | hi
      · exact c1
      · exact hc i u hi
    · intro hf hR i u hi
      rcases lookup_cons_cases hi with ⟨rfl, rfl⟩ | hi
      · exact hR
      · exact hf i u hi

/-- What an instance of a type is. -/
def InstOk (R : List Nat) (s : St) (ρ : Cell → Tree) (ids : Ids) (s' : St) (ids' : Ids) : Prop :=
  After R s ρ s' ρ ∧ s'.heap = s.heap ∧ IdsExt ids ids' ∧ IdsClean R ρ ids' ∧ IdsFlex R ids'

theorem InstOk.trans {R : List Nat} {s s' s'' : St} {ρ : Cell → Tree} {a b c : Ids} (h : InstOk R s ρ a s' b) (h' : InstOk R s' ρ b s'' c) :
    InstOk R s ρ a s'' c :=
  ⟨h.1.trans h'.1, h'.2.1.trans h.2.1, h.2.2.1.trans h'.2.2.1, h'.2.2.2⟩

theorem instantiateAll_right {R : List Nat} {ρ : Cell → Tree} (f : Ty Cell → Ids → I (Ty Cell × Ids))
    (hf : ∀ t ids s u ids' s', Ok s ρ → s.hydrator.rigid = R → IdsClean R ρ ids → IdsFlex R ids → f t ids s = .ok ((u, ids'), s') →
      InstOk R s ρ ids s' ids' ∧ Clean R (u.sub ρ) ∧
        ∀ ids'', IdsExt ids' ids'' → IdsFlex R ids'' → u.sub ρ = (t.sub ρ).sub (gsub (idsTree ρ ids''))) :
    ∀ (ts : Tys Cell) (ids : Ids) (s : St) (us : Tys Cell) (ids' : Ids) (s' : St), Ok s ρ → s.hydrator.rigid = R → IdsClean R ρ ids → IdsFlex R ids →
      instantiateAll f ts ids s = .ok ((us, ids'), s') →
      InstOk R s ρ ids s' ids' ∧ Cleans R (us.sub ρ) ∧
        ∀ ids'', IdsExt ids' ids'' → IdsFlex R ids'' → us.sub ρ = (ts.sub ρ).sub (gsub (idsTree ρ ids''))
  | .nil, ids, s, us, ids', s', ho, hr, hc, hx, h => by
    simp only [instantiateAll, pure_ok, Prod.mk.injEq] at h
    obtain ⟨⟨rfl, rfl⟩, rfl⟩ := h
    exact ⟨⟨.refl ho, rfl, .refl _, hc, hx⟩, .nil, fun _ _ _ => rfl⟩
  | .cons t ts, ids, s, us, ids', s', ho, hr, hc, hx, h => by
    simp only [instantiateAll, bind_ok, pure_ok, Prod.mk.injEq, Prod.exists] at h
    obtain ⟨u, ids₁, s₁, h1, vs, ids₂, s₂, h2, ⟨rfl, rfl⟩, rfl⟩ := h
    obtain ⟨i1, c1, e1⟩ := hf t ids s u ids₁ s₁ ho hr hc hx h1
    obtain ⟨i2, c2, e2⟩ := instantiateAll_right f hf ts ids₁ s₁ vs ids₂ s₂ i1.1.ok (by rw [i1.1.hydrator, hr]) i1.2.2.2.1 i1.2.2.2.2 h2
    refine ⟨i1.trans i2, Cleans.cons.2 ⟨c1, c2⟩, fun ids'' h h' => ?_⟩
    simp only [Tys.sub, e1 ids'' (i2.2.2.1.trans h) h', e2 ids'' h h']

theorem instantiate_right {R : List Nat} {ρ : Cell → Tree} : ∀ (n : Nat) (t : Ty Cell) (ids : Ids) (s : St) (u : Ty Cell) (ids' : Ids) (s' : St),
    Ok s ρ → s.hydrator.rigid = R → IdsClean R ρ ids → IdsFlex R ids → instantiate n t ids s = .ok ((u, ids'), s') →
      InstOk R s ρ ids s' ids' ∧ Clean R (u.sub ρ) ∧
        ∀ ids'', IdsExt ids' ids'' → IdsFlex R ids'' → u.sub ρ = (t.sub ρ).sub (gsub (idsTree ρ ids''))
  | 0, t, ids, s, u, ids', s', ho, hr, hc, hx, h => by simp only [instantiate, outOfFuel_ok] at h
  | n + 1, .var c, ids, s, u, ids', s', ho, hr, hc, hx, h => by
    simp only [instantiate, bind_ok, getHeap_ok] at h
    obtain ⟨_, _, ⟨rfl, rfl⟩, h⟩ := h
    generalize hv : s.heap c = d at h
    rcases d with t | id | id
    · have ht := hv
      have := instantiate_right n t ids s u ids' s' ho hr hc hx h
      simp only [Ty.sub, ho.good.reading.link c t ht]
      exact this
    · have hi := hv
      simp only [pure_ok, Prod.mk.injEq] at h
      obtain ⟨⟨rfl, rfl⟩, rfl⟩ := h
      simp only [Ty.sub, ho.good.reading.unbound c id hi]
      exact ⟨⟨.refl ho, rfl, .refl _, hc, hx⟩, Clean.unbound R id, fun _ _ _ => rfl⟩
    · have hi := hv
      simp only [bind_ok, getHydrator_ok] at h
      obtain ⟨_, _, ⟨rfl, rfl⟩, h⟩ := h
      simp only [Ty.sub, ho.good.reading.generic c id hi, gsub]
      generalize hl : ids.lookup id = d at h
      rcases d with _ | t
      rotate_left
      · have ht := hl
        simp only [pure_ok, Prod.mk.injEq] at h
        obtain ⟨⟨rfl, rfl⟩, rfl⟩ := h
        refine ⟨⟨.refl ho, rfl, .refl _, hc, hx⟩, hc id _ ht, fun ids'' h _ => ?_⟩
        simp only [idsTree, h id _ ht]
      · have hn := hl
        by_cases hcon : s.hydrator.rigid.contains id = true
        · rw [if_pos hcon] at h
          simp only [pure_ok, Prod.mk.injEq] at h
          obtain ⟨⟨rfl, rfl⟩, rfl⟩ := h
          have hid : id ∈ R := by rw [← hr]; simpa using hcon
          simp only [Ty.sub, ho.good.reading.generic c id hi]
          refine ⟨⟨.refl ho, rfl, .refl _, hc, hx⟩, ?_, fun ids'' h h' => ?_⟩
          · intro i hi; cases hi; exact hid
          · have : ids''.lookup id = none := by
              cases hl : ids''.lookup id with
              | none => rfl
              | some t => exact absurd hid (h' id t hl)
            simp only [idsTree, this]
        · rw [if_neg hcon] at h
          have hid : id ∉ R := by rw [← hr]; simpa using hcon
          obtain ⟨a1, e1, x1, c1, u1, l1, f1⟩ := instantiateId_right (R := R) ho hc h
          refine ⟨⟨a1, e1, x1, c1, f1 hx hid⟩, u1, fun ids'' h _ => ?_⟩
          simp only [idsTree, h id u l1]
  | n + 1, .named m x as, ids, s, u, ids', s', ho, hr, hc, hx, h => by
    simp only [instantiate, bind_ok, pure_ok, Prod.mk.injEq, Prod.exists] at h
    obtain ⟨us, ids₁, s₁, h1, ⟨rfl, rfl⟩, rfl⟩ := h
    obtain ⟨i1, c1, e1⟩ := instantiateAll_right _ (fun t ids s u ids' s' => instantiate_right n t ids s u ids' s') as ids s us ids₁ s₁ ho hr hc hx h1
    exact ⟨i1, c1, fun ids'' h h' => by simp only [Ty.sub, e1 ids'' h h']⟩
  | n + 1, .tuple as, ids, s, u, ids', s', ho, hr, hc, hx, h => by
    simp only [instantiate, bind_ok, pure_ok, Prod.mk.injEq, Prod.exists] at h
    obtain ⟨us, ids₁, s₁, h1, ⟨rfl, rfl⟩, rfl⟩ := h
    obtain ⟨i1, c1, e1⟩ := instantiateAll_right _ (fun t ids s u ids' s' => instantiate_right n t ids s u ids' s') as ids s us ids₁ s₁ ho hr hc hx h1
    exact ⟨i1, c1, fun ids'' h h' => by simp only [Ty.sub, e1 ids'' h h']⟩
  | n + 1, .fn as r, ids, s, u, ids', s', ho, hr, hc, hx, h => by
    simp only [instantiate, bind_ok, pure_ok, Prod.mk.injEq, Prod.exists] at h
    obtain ⟨us, ids₁, s₁, h1, v, ids₂, s₂, h2, ⟨rfl, rfl⟩, rfl⟩ := h
    obtain ⟨i1, c1, e1⟩ := instantiateAll_right _ (fun t ids s u ids' s' => instantiate_right n t ids s u ids' s') as ids s us ids₁ s₁ ho hr hc hx h1
    obtain ⟨i2, c2, e2⟩ := instantiate_right n r ids₁ s₁ v ids₂ s₂ i1.1.ok (by rw [i1.1.hydrator, hr]) i1.2.2.2.1 i1.2.2.2.2 h2
    refine ⟨i1.trans i2, Clean.fn.2 ⟨c1, c2⟩, fun ids'' h h' => ?_⟩
    simp only [Ty.sub, e1 ids'' (i2.2.2.1.trans h) h', e2 ids'' h h']

/-- An instance of a type: its foreign generic variables are replaced. -/
theorem instantiate_nil {R : List Nat} {ρ : Cell → Tree} {n : Nat} {t u : Ty Cell} {ids : Ids} {s s' : St} (ho : Ok s ρ) (hr : s.hydrator.rigid = R)
    (h : instantiate n t [] s = .ok ((u, ids), s')) :
    After R s ρ s' ρ ∧ Clean R (u.sub ρ) ∧ ∃ θ : Nat → Tree, (∀ id ∈ R, θ id = .var (.generic id)) ∧ u.sub ρ = (t.sub ρ).sub (gsub θ) := by
  obtain ⟨i, c, e⟩ := instantiate_right n t [] s u ids s' ho hr (fun _ _ h => nomatch h) (fun _ _ h => nomatch h) h
  refine ⟨i.1, c, idsTree ρ ids, fun id hid => ?_, e ids (.refl _) i.2.2.2.2⟩
  have : ids.lookup id = none := by
    cases hl : ids.lookup id with
    | none => rfl
    | some t => exact absurd hid (i.2.2.2.2 id t hl)
  simp only [idsTree, this]

theorem gsub_clean {R : List Nat} {θ : Nat → Tree} (h : ∀ id ∈ R, θ id = .var (.generic id)) {t : Tree} (ht : Clean R t) : t.sub (gsub θ) = t := by
  conv => rhs; rw [← Ty.sub_var t]
  refine Ty.sub_congr _ _ t fun l hl => ?_
  cases l with
  | unbound id => rfl
  | generic id => exact h id (ht id hl)

/-- A type without foreign generic variables stays what it is. -/
theorem instantiate_clean {R : List Nat} {ρ : Cell → Tree} {n : Nat} {t u : Ty Cell} {ids : Ids} {s s' : St} (ho : Ok s ρ) (hr : s.hydrator.rigid = R)
    (ht : Clean R (t.sub ρ)) (h : instantiate n t [] s = .ok ((u, ids), s')) : After R s ρ s' ρ ∧ u.sub ρ = t.sub ρ := by
  obtain ⟨a, _, θ, h1, h2⟩ := instantiate_nil ho hr h
  rw [gsub_clean h1 ht] at h2
  exact ⟨a, h2⟩

mutual

theorem instScheme_right {R : List Nat} {ρ : Cell → Tree} : ∀ (t : Ty Nat) (ids : Ids) (s : St) (u : Ty Cell) (ids' : Ids) (s' : St),
    Ok s ρ → IdsClean R ρ ids → instScheme t ids s = .ok ((u, ids'), s') →
      (After R s ρ s' ρ ∧ IdsExt ids ids' ∧ IdsClean R ρ ids') ∧ Clean R (u.sub ρ) ∧ ∀ ids'', IdsExt ids' ids'' → u.sub ρ = t.sub (idsTree ρ ids'')
  | .var id, ids, s, u, ids', s', ho, hc, h => by
    simp only [instScheme] at h
    obtain ⟨a1, e1, x1, c1, u1, l1, _⟩ := instantiateId_right (R := R) ho hc h
    refine ⟨⟨a1, x1, c1⟩, u1, fun ids'' h => ?_⟩
    simp only [Ty.sub, idsTree, h id u l1]
  | .named m x as, ids, s, u, ids', s', ho, hc, h => by
    simp only [instScheme, bind_ok, pure_ok, Prod.mk.injEq, Prod.exists] at h
    obtain ⟨us, ids₁, s₁, h1, ⟨rfl, rfl⟩, rfl⟩ := h
    obtain ⟨i1, c1, e1⟩ := instSchemes_right as ids s us ids₁ s₁ ho hc h1
    exact ⟨i1, c1, fun ids'' h => by simp only [Ty.sub, e1 ids'' h]⟩
  | .tuple as, ids, s, u, ids', s', ho, hc, h => by
    simp only [instScheme, bind_ok, pure_ok, Prod.mk.injEq, Prod.exists] at h
    obtain ⟨us, ids₁, s₁, h1, ⟨rfl, rfl⟩, rfl⟩ := h
    obtain ⟨i1, c1, e1⟩ := instSchemes_right as ids s us ids₁ s₁ ho hc h1
    exact ⟨i1, c1, fun ids'' h => by simp only [Ty.sub, e1 ids'' h]⟩
  | .fn as r, ids, s, u, ids', s', ho, hc, h => by
    simp only [instScheme, bind_ok, pure_ok, Prod.mk.injEq, Prod.exists] at h
    obtain ⟨us, ids₁, s₁, h1, v, ids₂, s₂, h2, ⟨rfl, rfl⟩, rfl⟩ := h
    obtain ⟨i1, c1, e1⟩ := instSchemes_right as ids s us ids₁ s₁ ho hc h1
    obtain ⟨i2, c2, e2⟩ := instScheme_right r ids₁ s₁ v ids₂ s₂ i1.1.ok i1.2.2 h2
    refine ⟨⟨i1.1.trans i2.1, i1.2.1.trans i2.2.1, i2.2.2⟩, Clean.fn.2 ⟨c1, c2⟩, fun ids'' h => ?_⟩
    simp only [Ty.sub, e1 ids'' (i2.2.1.trans h), e2 ids'' h]

theorem instSchemes_right {R : List Nat} {ρ : Cell → Tree} : ∀ (ts : Tys Nat) (ids : Ids) (s : St) (us : Tys Cell) (ids' : Ids) (s' : St),
    Ok s ρ → IdsClean R ρ ids → instSchemes ts ids s = .ok ((us, ids'), s') →
      (After R s ρ s' ρ ∧ IdsExt ids ids' ∧ IdsClean R ρ ids') ∧ Cleans R (us.sub ρ) ∧ ∀ ids'', IdsExt ids' ids'' → us.sub ρ = ts.sub (idsTree ρ ids'')
  | .nil, ids, s, us, ids', s', ho, hc, h => by
    simp only [instSchemes, pure_ok, Prod.mk.injEq] at h
    obtain ⟨⟨rfl, rfl⟩, rfl⟩ := h
    exact ⟨⟨.refl ho, .refl _, hc⟩, .nil, fun _ _ => rfl⟩
  | .cons t ts, ids, s, us, ids', s', ho, hc, h => by
    simp only [instSchemes, bind_ok, pure_ok, Prod.mk.injEq, Prod.exists] at h
    obtain ⟨u, ids₁, s₁, h1, vs, ids₂, s₂, h2, ⟨rfl, rfl⟩, rfl⟩ := h
    obtain ⟨i1, c1, e1⟩ := instScheme_right t ids s u ids₁ s₁ ho hc h1
    obtain ⟨i2, c2, e2⟩ := instSchemes_right ts ids₁ s₁ vs ids₂ s₂ i1.1.ok i1.2.2 h2
    refine ⟨⟨i1.1.trans i2.1, i1.2.1.trans i2.2.1, i2.2.2⟩, Cleans.cons.2 ⟨c1, c2⟩, fun ids'' h => ?_⟩
    simp only [Tys.sub, e1 ids'' (i2.2.1.trans h), e2 ids'' h]

end

theorem instScheme_nil {R : List Nat} {ρ : Cell → Tree} {t : Ty Nat} {u : Ty Cell} {ids : Ids} {s s' : St} (ho : Ok s ρ)
    (h : instScheme t [] s = .ok ((u, ids), s')) : After R s ρ s' ρ ∧ Clean R (u.sub ρ) ∧ ∃ θ : Nat → Tree, u.sub ρ = t.sub θ := by
  obtain ⟨i, c, e⟩ := instScheme_right (R := R) t [] s u ids s' ho (fun _ _ h => nomatch h) h
  exact ⟨i.1, c, _, e ids (.refl _)⟩

/-! ### Generalising -/

/-- Replaces all variables, by their ids. -/
def allSub (θ : Nat → Tree) : Leaf → Tree
  | .unbound id => θ id
  | .generic id => θ id

theorem generaliseAll_right {ρ : Cell → Tree} (f : Ty Cell → Option (Ty Nat)) (θ : Nat → Tree)
    (hf : ∀ t T, f t = some T → T.sub θ = (t.sub ρ).sub (allSub θ)) : ∀ (ts : Tys Cell) (Ts : Tys Nat), generaliseAll f ts = some Ts →
    Ts.sub θ = (ts.sub ρ).sub (allSub θ)
  | .nil, Ts, h => by cases h; rfl
  | .cons t ts, Ts, h => by
    unfold generaliseAll at h
    split at h
    · next T Us h1 h2 =>
      cases h
      simp only [Tys.sub, hf t T h1, generaliseAll_right f θ hf ts Us h2]
    · cases h

theorem generalise_right {ρ : Cell → Tree} {heap : Heap} (hg : Reading heap ρ) (θ : Nat → Tree) : ∀ (n : Nat) (t : Ty Cell) (T : Ty Nat),
    generalise n heap t = some T → T.sub θ = (t.sub ρ).sub (allSub θ)
  | 0, t, T, h => by cases h
  | n + 1, .var c, T, h => by
    unfold generalise at h
    split at h
    · next t ht =>
      simp only [Ty.sub, hg.link c t ht]
      exact generalise_right hg θ n t T h
    · next id hi => cases h; simp only [Ty.sub, hg.unbound c id hi, allSub]
    · next id hi => cases h; simp only [Ty.sub, hg.generic c id hi, allSub]
  | n + 1, .named m x as, T, h => by
    simp only [generalise, Option.map_eq_some_iff] at h
    obtain ⟨Ts, h1, rfl⟩ := h
    simp only [Ty.sub, generaliseAll_right _ θ (fun t T => generalise_right hg θ n t T) as Ts h1]
  | n + 1, .tuple as, T, h => by
    simp only [generalise, Option.map_eq_some_iff] at h
    obtain ⟨Ts, h1, rfl⟩ := h
    simp only [Ty.sub, generaliseAll_right _ θ (fun t T => generalise_right hg θ n t T) as Ts h1]
  | n + 1, .fn as r, T, h => by
    unfold generalise at h
    split at h
    · next Ts U h1 h2 =>
      cases h
      simp only [Ty.sub, generaliseAll_right _ θ (fun t T => generalise_right hg θ n t T) as Ts h1, generalise_right hg θ n r U h2]
    · cases h

/-! ### Annotations -/

def createdNames (s : St) : List String := s.hydrator.created.map (·.1)

/-- What reading an annotation does. -/
structure Hydrated (vars : List String) (s : St) (ρ : Cell → Tree) (s' : St) (ρ' : Cell → Tree) : Prop where
  ok : Ok s' ρ'
  rigid : s.hydrator.rigid ⊆ s'.hydrator.rigid
  old : createdNames s ⊆ createdNames s'
  new : vars ⊆ createdNames s'
  step : To s'.hydrator.rigid ρ ρ'
  same : vars ⊆ createdNames s → s'.hydrator = s.hydrator

theorem Hydrated.refl {s : St} {ρ : Cell → Tree} (h : Ok s ρ) : Hydrated [] s ρ s ρ :=
  ⟨h, fun _ h => h, fun _ h => h, by simp, .refl _ ρ, fun _ => rfl⟩

theorem Hydrated.trans {vs ws : List String} {s s' s'' : St} {ρ ρ' ρ'' : Cell → Tree} (h : Hydrated vs s ρ s' ρ') (h' : Hydrated ws s' ρ' s'' ρ'') :
    Hydrated (vs ++ ws) s ρ s'' ρ'' where
  ok := h'.ok
  rigid := fun _ hx => h'.rigid (h.rigid hx)
  old := fun _ hx => h'.old (h.old hx)
  new := fun x hx => by
    rcases List.mem_append.1 hx with hx | hx
    · exact h'.old (h.new hx)
    · exact h'.new hx
  step := (h.step.mono h'.rigid).trans h'.step
  same := fun hs => by
    have h1 := h.same fun x hx => hs (List.mem_append_left _ hx)
    have h2 : createdNames s' = createdNames s := by simp only [createdNames, h1]
    rw [h'.same (fun x hx => by rw [h2]; exact hs (List.mem_append_right _ hx)), h1]

theorem mem_of_lookup {α : Type} {x : String} {a : α} : ∀ {l : List (String × α)}, l.lookup x = some a → x ∈ l.map (·.1)
  | [], h => by cases h
  | (y, b) :: l, h => by
    rw [List.lookup_cons] at h
    split at h
    · next he => simp only [List.map, List.mem_cons]; exact .inl (by simpa using he)
    · simp only [List.map, List.mem_cons]; exact .inr (mem_of_lookup h)

theorem lookup_of_mem {α : Type} {x : String} : ∀ {l : List (String × α)}, x ∈ l.map (·.1) → ∃ a, l.lookup x = some a
  | [], h => by cases h
  | (y, b) :: l, h => by
    rw [List.lookup_cons]
    cases he : x == y with
    | true => exact ⟨b, rfl⟩
    | false =>
      simp only [List.map, List.mem_cons] at h
      rcases h with rfl | h
      · simp at he
      · exact lookup_of_mem h

theorem newGeneric_right {s s' : St} {ρ : Cell → Tree} {id : Nat} (ho : Ok s ρ) (h : newGeneric s = .ok (id, s')) :
    ∃ ρ', Good s'.heap ρ' ∧ To [id] ρ ρ' ∧ ρ' id = .var (.generic id) ∧ s'.hydrator = s.hydrator := by
  unfold newGeneric at h
  split at h
  · next i hi =>
    cases h
    have hg := good_generic s.heap ρ s.next i s.next ho.good hi
    refine ⟨_, hg, ⟨_, fun j => ?_, rfl⟩, hg.reading.generic _ _ (set_same _ _ _), rfl⟩
    unfold Assignment.one
    split
    · intro k hk; cases hk; simp
    · exact Clean.unbound _ j
  · simp at h

def Closeds (ts : Tys Leaf) : Prop := ∀ id, ¬ ts.Has (.unbound id)

mutual

theorem hydrate_right (types : List CustomType) : ∀ (a : TypeAst) (s : St) (ρ : Cell → Tree) (t : Ty Cell) (s' : St), Ok s ρ →
    hydrate types a s = .ok (t, s') → ∃ ρ', Hydrated a.variables s ρ s' ρ' ∧ Clean s'.hydrator.rigid (t.sub ρ') ∧ (a.complete = true → Closed (t.sub ρ'))
  | .con name as, s, ρ, t, s', ho, h => by
    simp only [hydrate, bind_ok] at h
    obtain ⟨ts, s₁, h1, h2⟩ := h
    obtain ⟨ρ', h3, h4, h5⟩ := hydrateAll_right types as s ρ ts s₁ ho h1
    generalize typeArity types name = d at h2
    rcases d with _ | ⟨m, k⟩
    rotate_left
    · simp only at h2
      by_cases hk : ts.length = k
      · rw [if_pos hk] at h2
        simp only [pure_ok] at h2
        obtain ⟨rfl, rfl⟩ := h2
        exact ⟨ρ', h3, h4, h5⟩
      · rw [if_neg hk] at h2
        simp only [reject_ok] at h2
    · simp only [reject_ok] at h2
  | .fn as r, s, ρ, t, s', ho, h => by
    simp only [hydrate, bind_ok, pure_ok] at h
    obtain ⟨ts, s₁, h1, u, s₂, h2, rfl, rfl⟩ := h
    obtain ⟨ρ₁, h3, h4, h5⟩ := hydrateAll_right types as s ρ ts s₁ ho h1
    obtain ⟨ρ₂, h6, h7, h8⟩ := hydrate_right types r s₁ ρ₁ u s₂ h3.ok h2
    refine ⟨ρ₂, h3.trans h6, ?_, fun hc => ?_⟩
    · simp only [Ty.sub]
      exact Clean.fn.2 ⟨h6.step.cleans fun id hi => h6.rigid (h4 id hi), h7⟩
    · simp only [TypeAst.complete, Bool.and_eq_true] at hc
      have h9 := h6.step.closed (t := .tuple ts) (h5 hc.1)
      simp only [Ty.sub, Ty.tuple.injEq] at h9 ⊢
      rw [h9]
      exact fun id hi => hi.elim (h5 hc.1 id) (h8 hc.2 id)
  | .tuple as, s, ρ, t, s', ho, h => by
    simp only [hydrate, bind_ok, pure_ok] at h
    obtain ⟨ts, s₁, h1, rfl, rfl⟩ := h
    exact hydrateAll_right types as s ρ ts s₁ ho h1
  | .var x, s, ρ, t, s', ho, h => by
    simp only [hydrate, bind_ok, getHydrator_ok] at h
    obtain ⟨_, _, ⟨rfl, rfl⟩, h⟩ := h
    generalize hl : s.hydrator.created.lookup x = d at h
    rcases d with _ | u
    rotate_left
    · have hu := hl
      simp only [pure_ok] at h
      obtain ⟨rfl, rfl⟩ := h
      obtain ⟨id, h1, h2⟩ := ho.created x _ hu
      refine ⟨ρ, ⟨ho, fun _ h => h, fun _ h => h, ?_, .refl _ ρ, fun _ => rfl⟩, ?_, fun _ => ?_⟩
      · intro y hy
        simp only [TypeAst.variables, List.mem_singleton] at hy
        subst hy
        exact mem_of_lookup hu
      · rw [h2]; intro i hi; cases hi; exact h1
      · rw [h2]; intro i hi; cases hi
    · have hn := hl
      simp only [bind_ok, pure_ok, setHydrator_ok] at h
      obtain ⟨id, s₁, h1, _, _, rfl, rfl, rfl⟩ := h
      obtain ⟨ρ', h2, h3, h4, h5⟩ := newGeneric_right ho h1
      refine ⟨ρ', ⟨⟨h2, ?_⟩, ?_, ?_, ?_, ?_, ?_⟩, ?_, fun _ => ?_⟩
      · intro y t hy
        simp only [List.lookup_cons] at hy
        split at hy
        · cases hy; exact ⟨id, by simp, h4⟩
        · obtain ⟨i, h6, h7⟩ := ho.created y t hy
          refine ⟨i, by simp [h6], ?_⟩
          rw [h3.closed (by rw [h7]; intro i hi; cases hi), h7]
      · intro i hi; simp [hi]
      · intro y hy
        simp only [createdNames, List.map, List.mem_cons]
        exact .inr hy
      · intro y hy
        simp only [TypeAst.variables, List.mem_singleton] at hy
        simp [createdNames, hy]
      · exact h3.mono (by intro i hi; simp at hi; simp [hi])
      · intro hv
        obtain ⟨u, hu⟩ := lookup_of_mem (hv (by simp [TypeAst.variables] : x ∈ _))
        rw [hu] at hn; cases hn
      · simp only [Ty.sub, h4]; intro i hi; cases hi; simp
      · simp only [Ty.sub, h4]; intro i hi; cases hi
  | .hole, s, ρ, t, s', ho, h => by
    simp only [hydrate] at h
    obtain ⟨a, c, e⟩ := fresh_right (R := s'.hydrator.rigid) ho h
    refine ⟨ρ, ⟨a.ok, ?_, ?_, ?_, .refl _ ρ, fun _ => a.hydrator⟩, c, fun h => nomatch h⟩
    · rw [a.hydrator]; exact fun _ h => h
    · simp only [createdNames, a.hydrator]; exact fun _ h => h
    · simp [TypeAst.variables]

theorem hydrateAll_right (types : List CustomType) : ∀ (as : List TypeAst) (s : St) (ρ : Cell → Tree) (ts : Tys Cell) (s' : St), Ok s ρ →
    hydrateAll types as s = .ok (ts, s') →
    ∃ ρ', Hydrated (variablesAll as) s ρ s' ρ' ∧ Cleans s'.hydrator.rigid (ts.sub ρ') ∧ (completeAll as = true → Closeds (ts.sub ρ'))
  | [], s, ρ, ts, s', ho, h => by
    simp only [hydrateAll, pure_ok] at h
    obtain ⟨rfl, rfl⟩ := h
    exact ⟨ρ, .refl ho, .nil, fun _ id h => h⟩
  | a :: as, s, ρ, ts, s', ho, h => by
    simp only [hydrateAll, bind_ok, pure_ok] at h
    obtain ⟨t, s₁, h1, us, s₂, h2, rfl, rfl⟩ := h
    obtain ⟨ρ₁, h3, h4, h5⟩ := hydrate_right types a s ρ t s₁ ho h1
    obtain ⟨ρ₂, h6, h7, h8⟩ := hydrateAll_right types as s₁ ρ₁ us s₂ h3.ok h2
    refine ⟨ρ₂, h3.trans h6, ?_, fun hc => ?_⟩
    · simp only [Tys.sub]
      exact Cleans.cons.2 ⟨h6.step.clean (h4.mono h6.rigid), h7⟩
    · simp only [completeAll, Bool.and_eq_true] at hc
      have h9 := h6.step.closed (h5 hc.1)
      simp only [Tys.sub, h9]
      exact fun id hi => hi.elim (h5 hc.1 id) (h8 hc.2 id)

end

end Verif.Infer
