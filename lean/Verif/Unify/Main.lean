import Verif.Unify.Lemmas

namespace Verif.Unify

open Assignment (one none_)

/-- What every run does to the heap, whether it succeeds or not: some unbound variables are given types, everything else means the same. -/
structure Step (s s' : Heap) (ρ : Cell → Tree) (σ : Assignment) : Prop where
  good : Good s' fun v => σ.on (ρ v)
  links : ∀ c t, s c = .link t → ∃ t', s' c = .link t'
  unbound : ∀ c id, s' c = .unbound id → s c = .unbound id
  progress : (σ = none_ ∧ ∀ c id, s c = .unbound id → s' c = .unbound id) ∨ ∃ c id, s c = .unbound id ∧ ∀ i, s' c ≠ .unbound i

theorem Step.refl (s : Heap) (ρ : Cell → Tree) (g : Good s ρ) : Step s s ρ none_ where
  good := by
    have : (fun v => none_.on (ρ v)) = ρ := by funext v; exact Assignment.on_none _
    rw [this]; exact g
  links := fun _ t h => ⟨t, h⟩
  unbound := fun _ _ h => h
  progress := Or.inl ⟨rfl, fun _ _ h => h⟩

theorem Step.trans {s s' s'' : Heap} {ρ : Cell → Tree} {σ τ : Assignment} (h : Step s s' ρ σ) (h' : Step s' s'' (fun v => σ.on (ρ v)) τ) :
    Step s s'' ρ (σ.then_ τ) where
  good := by
    have : (fun v => (σ.then_ τ).on (ρ v)) = fun v => τ.on (σ.on (ρ v)) := by funext v; exact Assignment.on_then _ _ _
    rw [this]; exact h'.good
  links := fun c t hc => by obtain ⟨t', ht'⟩ := h.links c t hc; exact h'.links c t' ht'
  unbound := fun c id hc => h.unbound c id (h'.unbound c id hc)
  progress := by
    rcases h.progress with ⟨e, k⟩ | ⟨c, id, h1, h2⟩
    · rcases h'.progress with ⟨e', k'⟩ | ⟨c, id, h1, h2⟩
      · left
        refine ⟨?_, fun c id hc => k' c id (k c id hc)⟩
        subst e; subst e'
        funext id
        exact Assignment.on_none _
      · exact Or.inr ⟨c, id, h.unbound c id h1, h2⟩
    · right
      refine ⟨c, id, h1, fun i hi => ?_⟩
      exact h2 i (h'.unbound c i hi)

/-- The claim about one run. -/
def Claim (s s' : Heap) (ρ : Cell → Tree) (o : Outcome) (same : Assignment → Prop) : Prop :=
  ∃ σ, Step s s' ρ σ ∧ o ≠ .panic ∧ (o = .ok → same σ ∧ ∀ θ, same θ → θ.Refines σ) ∧ (o = .fail → ∀ θ, ¬ same θ)

def Same (ρ : Cell → Tree) (t u : Ty Cell) (θ : Assignment) : Prop := θ.on (t.sub ρ) = θ.on (u.sub ρ)

def SameAll (ρ : Cell → Tree) (t u : Tys Cell) (θ : Assignment) : Prop := (t.sub ρ).sub θ.leaf = (u.sub ρ).sub θ.leaf

theorem Same.after {ρ : Cell → Tree} {t u : Ty Cell} {θ σ : Assignment} (h : θ.Refines σ) :
    Same (fun v => σ.on (ρ v)) t u θ ↔ Same ρ t u θ := by
  unfold Same
  rw [sub_on, sub_on, h.on, h.on]

theorem SameAll.after {ρ : Cell → Tree} {t u : Tys Cell} {θ σ : Assignment} (h : θ.Refines σ) :
    SameAll (fun v => σ.on (ρ v)) t u θ ↔ SameAll ρ t u θ := by
  have hl : (fun v => (σ.leaf v).sub θ.leaf) = θ.leaf := by
    funext l
    cases l with
    | unbound id => exact h id
    | generic id => rfl
  unfold SameAll
  rw [subs_on, subs_on, Tys.sub_sub θ.leaf σ.leaf (t.sub ρ), Tys.sub_sub θ.leaf σ.leaf (u.sub ρ), hl]

theorem Same.under {ρ : Cell → Tree} {t u : Ty Cell} {σ τ : Assignment} :
    Same (fun v => σ.on (ρ v)) t u τ ↔ Same ρ t u (σ.then_ τ) := by
  unfold Same
  rw [sub_on, sub_on, Assignment.on_then, Assignment.on_then]

theorem SameAll.under {ρ : Cell → Tree} {t u : Tys Cell} {σ τ : Assignment} :
    SameAll (fun v => σ.on (ρ v)) t u τ ↔ SameAll ρ t u (σ.then_ τ) := by
  unfold SameAll
  have hl : (σ.then_ τ).leaf = fun v => (σ.leaf v).sub τ.leaf := by
    funext l
    cases l <;> rfl
  rw [subs_on, subs_on, hl, Tys.sub_sub τ.leaf σ.leaf (t.sub ρ), Tys.sub_sub τ.leaf σ.leaf (u.sub ρ)]

theorem Same.keeps {ρ : Cell → Tree} {t u : Ty Cell} {σ τ : Assignment} (h : Same ρ t u σ) : Same ρ t u (σ.then_ τ) := by
  unfold Same at *
  rw [Assignment.on_then, Assignment.on_then, h]

theorem SameAll.keeps {ρ : Cell → Tree} {t u : Tys Cell} {σ τ : Assignment} (h : SameAll ρ t u σ) : SameAll ρ t u (σ.then_ τ) := by
  rw [← SameAll.under]
  unfold SameAll at *
  rw [subs_on, subs_on, h]

/-- One run after another. -/
theorem Claim.seq {s s' s'' : Heap} {ρ : Cell → Tree} {o : Outcome} {A B : (Cell → Tree) → Assignment → Prop}
    (hA : ∀ σ τ : Assignment, A ρ σ → A ρ (σ.then_ τ))
    (hB : ∀ σ τ : Assignment, B (fun v => σ.on (ρ v)) τ ↔ B ρ (σ.then_ τ))
    (hB' : ∀ θ σ : Assignment, θ.Refines σ → (B (fun v => σ.on (ρ v)) θ ↔ B ρ θ))
    (h1 : Claim s s' ρ .ok (A ρ)) (h2 : ∀ ρ', Good s' ρ' → Claim s' s'' ρ' o (B ρ')) :
    Claim s s'' ρ o (fun θ => A ρ θ ∧ B ρ θ) := by
  obtain ⟨σ, st, _, ok, _⟩ := h1
  obtain ⟨a1, a2⟩ := ok rfl
  obtain ⟨τ, st', np, ok', fail'⟩ := h2 _ st.good
  refine ⟨σ.then_ τ, st.trans st', np, ?_, ?_⟩
  · intro ho
    obtain ⟨b1, b2⟩ := ok' ho
    refine ⟨⟨hA _ _ a1, (hB σ τ).1 b1⟩, ?_⟩
    rintro θ ⟨ha, hb⟩
    have r := a2 θ ha
    exact r.then_ (b2 θ ((hB' θ σ r).2 hb))
  · rintro ho θ ⟨ha, hb⟩
    exact fail' ho θ ((hB' θ σ (a2 θ ha)).2 hb)

theorem Claim.stop {s s' : Heap} {ρ : Cell → Tree} {o : Outcome} {A : Assignment → Prop} {B : Assignment → Prop} (ho : o ≠ .ok)
    (hAB : ∀ θ, B θ → A θ) (h : Claim s s' ρ o A) : Claim s s' ρ o B := by
  obtain ⟨σ, st, np, _, fail⟩ := h
  exact ⟨σ, st, np, fun h => (ho h).elim, fun h θ hb => fail h θ (hAB θ hb)⟩

theorem Claim.congr {s s' : Heap} {ρ : Cell → Tree} {o : Outcome} {A B : Assignment → Prop} (hAB : ∀ θ, A θ ↔ B θ)
    (h : Claim s s' ρ o A) : Claim s s' ρ o B := by
  have : A = B := by funext θ; exact propext (hAB θ)
  rwa [← this]

theorem Claim.no {s : Heap} {ρ : Cell → Tree} {A : Assignment → Prop} (g : Good s ρ) (h : ∀ θ, ¬ A θ) : Claim s s ρ .fail A :=
  ⟨none_, Step.refl s ρ g, by simp, by simp, fun _ => h⟩

/-- What is known of the recursive calls. -/
def Sound (u : Heap → Ty Cell → Ty Cell → Option (Outcome × Heap)) (held : List Cell) : Prop :=
  ∀ s t1 t2 o s' ρ, u s t1 t2 = some (o, s') → Good s ρ → (∀ c ∈ held, ∃ t, s c = .link t) → Claim s s' ρ o (Same ρ t1 t2)

theorem held_after {s s' : Heap} {ρ : Cell → Tree} {o : Outcome} {A : Assignment → Prop} {held : List Cell} (h : Claim s s' ρ o A)
    (hh : ∀ c ∈ held, ∃ t, s c = .link t) : ∀ c ∈ held, ∃ t, s' c = .link t := by
  obtain ⟨σ, st, _⟩ := h
  intro c hc
  obtain ⟨t, ht⟩ := hh c hc
  exact st.links c t ht

theorem sameAll_cons (ρ : Cell → Tree) (a b : Ty Cell) (as bs : Tys Cell) (θ : Assignment) :
    SameAll ρ (.cons a as) (.cons b bs) θ ↔ Same ρ a b θ ∧ SameAll ρ as bs θ := by
  simp [SameAll, Same, Tys.sub, Assignment.on]

theorem unifyAll_sound (u : Heap → Ty Cell → Ty Cell → Option (Outcome × Heap)) (held : List Cell) (hu : Sound u held) :
    ∀ (as bs : Tys Cell) (s : Heap) (o : Outcome) (s' : Heap) (ρ : Cell → Tree), as.length = bs.length →
      unifyAll u s as bs = some (o, s') → Good s ρ → (∀ c ∈ held, ∃ t, s c = .link t) → Claim s s' ρ o (SameAll ρ as bs)
  | .nil, .nil, s, o, s', ρ, _, h, g, _ => by
    simp only [unifyAll, Option.some.injEq, Prod.mk.injEq] at h
    obtain ⟨rfl, rfl⟩ := h
    exact ⟨none_, Step.refl s ρ g, by simp, fun _ => ⟨rfl, fun θ _ => Assignment.refines_none θ⟩, by simp⟩
  | .nil, .cons _ _, _, _, _, _, hl, _, _, _ => by simp [Tys.length] at hl
  | .cons _ _, .nil, _, _, _, _, hl, _, _, _ => by simp [Tys.length] at hl
  | .cons a as, .cons b bs, s, o, s', ρ, hl, h, g, hh => by
    simp only [Tys.length, Nat.add_right_cancel_iff] at hl
    simp only [unifyAll] at h
    cases h1 : u s a b with
    | none => simp [h1] at h
    | some r =>
      obtain ⟨o1, s1⟩ := r
      have c1 := hu s a b o1 s1 ρ h1 g hh
      cases o1 with
      | ok =>
        simp only [h1] at h
        refine Claim.congr (fun θ => (sameAll_cons ρ a b as bs θ).symm) ?_
        refine Claim.seq (A := fun ρ => Same ρ a b) (B := fun ρ => SameAll ρ as bs) (fun σ τ => Same.keeps) (fun σ τ => SameAll.under) (fun θ σ => SameAll.after) c1 ?_
        intro ρ' g'
        exact unifyAll_sound u held hu as bs s1 o s' ρ' hl h g' (held_after c1 hh)
      | fail =>
        simp only [h1, Option.some.injEq, Prod.mk.injEq] at h
        obtain ⟨rfl, rfl⟩ := h
        exact Claim.stop (by simp) (fun θ hθ => ((sameAll_cons ρ a b as bs θ).1 hθ).1) c1
      | panic =>
        simp only [h1, Option.some.injEq, Prod.mk.injEq] at h
        obtain ⟨rfl, rfl⟩ := h
        exact Claim.stop (by simp) (fun θ hθ => ((sameAll_cons ρ a b as bs θ).1 hθ).1) c1

theorem same_length {ρ : Cell → Tree} {as bs : Tys Cell} {θ : Assignment} (h : SameAll ρ as bs θ) : as.length = bs.length := by
  have := congrArg Tys.length h
  simpa [Tys.length_sub] using this

theorem unifyStructures_sound (u : Heap → Ty Cell → Ty Cell → Option (Outcome × Heap)) (held : List Cell) (hu : Sound u held)
    (s : Heap) (t1 t2 : Ty Cell) (o : Outcome) (s' : Heap) (ρ : Cell → Tree) (h1 : ¬ t1.IsVar) (h2 : ¬ t2.IsVar)
    (h : unifyStructures u s t1 t2 = some (o, s')) (g : Good s ρ) (hh : ∀ c ∈ held, ∃ t, s c = .link t) :
    Claim s s' ρ o (Same ρ t1 t2) := by
  cases t1 with
  | var => exact (h1 trivial).elim
  | named m x as =>
    cases t2 with
    | var => exact (h2 trivial).elim
    | named m' x' bs =>
      have key : ∀ θ, Same ρ (.named m x as) (.named m' x' bs) θ ↔ m = m' ∧ x = x' ∧ SameAll ρ as bs θ := by
        intro θ; simp [Same, SameAll, Assignment.on, Ty.sub]
      simp only [unifyStructures] at h
      split at h
      · rename_i he
        obtain ⟨rfl, rfl, hl⟩ := he
        exact Claim.congr (fun θ => by rw [key]; simp) (unifyAll_sound u held hu as bs s o s' ρ hl h g hh)
      · rename_i he
        simp only [Option.some.injEq, Prod.mk.injEq] at h
        obtain ⟨rfl, rfl⟩ := h
        refine Claim.no g fun θ hθ => he ?_
        obtain ⟨a, b, c⟩ := (key θ).1 hθ
        exact ⟨a, b, same_length c⟩
    | fn | tuple =>
      simp only [unifyStructures, Option.some.injEq, Prod.mk.injEq] at h
      obtain ⟨rfl, rfl⟩ := h
      exact Claim.no g fun θ hθ => by simp [Same, Assignment.on, Ty.sub] at hθ
  | fn as r =>
    cases t2 with
    | var => exact (h2 trivial).elim
    | fn bs r' =>
      have key : ∀ θ, Same ρ (.fn as r) (.fn bs r') θ ↔ SameAll ρ as bs θ ∧ Same ρ r r' θ := by
        intro θ; simp [Same, SameAll, Assignment.on, Ty.sub]
      simp only [unifyStructures] at h
      split at h
      · rename_i hl
        refine Claim.congr (fun θ => (key θ).symm) ?_
        cases h3 : unifyAll u s as bs with
        | none => simp [h3] at h
        | some q =>
          obtain ⟨o1, s1⟩ := q
          have c1 := unifyAll_sound u held hu as bs s o1 s1 ρ hl h3 g hh
          cases o1 with
          | ok =>
            simp only [h3] at h
            refine Claim.seq (A := fun ρ => SameAll ρ as bs) (B := fun ρ => Same ρ r r') (fun σ τ => SameAll.keeps) (fun σ τ => Same.under) (fun θ σ => Same.after) c1 ?_
            intro ρ' g'
            exact hu s1 r r' o s' ρ' h g' (held_after c1 hh)
          | fail | panic =>
            simp only [h3, Option.some.injEq, Prod.mk.injEq] at h
            obtain ⟨rfl, rfl⟩ := h
            exact Claim.stop (by simp) (fun θ hθ => hθ.1) c1
      · rename_i he
        simp only [Option.some.injEq, Prod.mk.injEq] at h
        obtain ⟨rfl, rfl⟩ := h
        exact Claim.no g fun θ hθ => he (same_length ((key θ).1 hθ).1)
    | named | tuple =>
      simp only [unifyStructures, Option.some.injEq, Prod.mk.injEq] at h
      obtain ⟨rfl, rfl⟩ := h
      exact Claim.no g fun θ hθ => by simp [Same, Assignment.on, Ty.sub] at hθ
  | tuple as =>
    cases t2 with
    | var => exact (h2 trivial).elim
    | tuple bs =>
      have key : ∀ θ, Same ρ (.tuple as) (.tuple bs) θ ↔ SameAll ρ as bs θ := by
        intro θ; simp [Same, SameAll, Assignment.on, Ty.sub]
      simp only [unifyStructures] at h
      split at h
      · rename_i hl
        exact Claim.congr (fun θ => (key θ).symm) (unifyAll_sound u held hu as bs s o s' ρ hl h g hh)
      · rename_i he
        simp only [Option.some.injEq, Prod.mk.injEq] at h
        obtain ⟨rfl, rfl⟩ := h
        exact Claim.no g fun θ hθ => he (same_length ((key θ).1 hθ))
    | named | fn =>
      simp only [unifyStructures, Option.some.injEq, Prod.mk.injEq] at h
      obtain ⟨rfl, rfl⟩ := h
      exact Claim.no g fun θ hθ => by simp [Same, Assignment.on, Ty.sub] at hθ

theorem step_set (s : Heap) (ρ : Cell → Tree) (c : Cell) (id : Nat) (v : TypeVar) (σ : Assignment) (hc : s c = .unbound id)
    (hv : ∀ i, v ≠ .unbound i) (g : Good (s.set c v) fun v => σ.on (ρ v)) : Step s (s.set c v) ρ σ where
  good := g
  links := by
    intro d t hd
    have : d ≠ c := by rintro rfl; rw [hc] at hd; cases hd
    exact ⟨t, by rw [set_other _ _ _ _ this]; exact hd⟩
  unbound := by
    intro d i hd
    by_cases h : d = c
    · subst h; rw [set_same] at hd; exact (hv i hd).elim
    · rwa [set_other _ _ _ _ h] at hd
  progress := Or.inr ⟨c, id, hc, fun i => by rw [set_same]; exact hv i⟩

theorem unifyUnbound_sound (n : Nat) (held : List Cell) (s : Heap) (c : Cell) (id : Nat) (t2 : Ty Cell) (o : Outcome) (s' : Heap)
    (ρ : Cell → Tree) (hc : s c = .unbound id) (hd : same n s (.var c) t2 = some false) (hl : NotLink s t2)
    (h : unifyUnbound n held s c id t2 = some (o, s')) (g : Good s ρ) (hh : ∀ c ∈ held, ∃ t, s c = .link t) :
    Claim s s' ρ o (Same ρ (.var c) t2) := by
  have hρ := g.reading.unbound c id hc
  have key : ∀ θ, Same ρ (.var c) t2 θ ↔ θ id = θ.on (t2.sub ρ) := by
    intro θ; unfold Same; simp only [Ty.sub]; rw [hρ]; rfl
  unfold unifyUnbound at h
  cases ho : occurs n s id t2 with
  | none => simp [ho] at h
  | some b =>
    have hb := occurs_right s ρ g.reading id n t2 b ho
    cases b with
    | true =>
      simp only [ho, Option.some.injEq, Prod.mk.injEq] at h
      obtain ⟨rfl, rfl⟩ := h
      refine Claim.no g fun θ hθ => ?_
      rw [key] at hθ
      have hin := hb.1 rfl
      by_cases hv : (t2.sub ρ).IsVar
      · -- the other type is the variable itself
        have hd' : ∃ d, t2 = .var d ∧ ρ d = .var (.unbound id) := by
          cases t2 with
          | var d =>
            refine ⟨d, rfl, ?_⟩
            simp only [Ty.sub] at hin hv
            cases hr : ρ d with
            | var l => rw [hr] at hin; simp only [Ty.Has] at hin; rw [hin]
            | named | fn | tuple => rw [hr] at hv; exact hv.elim
          | named | fn | tuple => exact hv.elim
        obtain ⟨d, rfl, hd'⟩ := hd'
        have hsd : s d = .unbound id := by
          cases hs : s d with
          | link t => exact (hl t hs).elim
          | unbound i =>
            rw [g.reading.unbound d i hs] at hd'
            injection hd' with e; injection e with e; rw [e]
          | generic i =>
            rw [g.reading.generic d i hs] at hd'
            injection hd' with e; cases e
        have := same_self_var s c id (Or.inl hc) n d (by rw [hsd, hc]) _ hd
        cases this
      · have := Ty.size_sub_lt θ.leaf (.unbound id) (t2.sub ρ) hin hv
        have e : (θ.leaf (.unbound id)).size = (θ.on (t2.sub ρ)).size := congrArg _ hθ
        unfold Assignment.on at e
        omega
    | false =>
      have hn : ¬ (t2.sub ρ).Has (.unbound id) := fun hx => by have := hb.2 hx; cases this
      simp only [ho] at h
      split at h
      · rename_i hm
        obtain ⟨t, ht⟩ := hh c hm
        rw [hc] at ht; cases ht
      · simp only [Option.some.injEq, Prod.mk.injEq] at h
        obtain ⟨rfl, rfl⟩ := h
        refine ⟨one id (t2.sub ρ), step_set s ρ c id _ _ hc (by simp) (good_bind s ρ c id t2 g hc hl hn), by simp, ?_, by simp⟩
        intro _
        constructor
        · rw [key, Assignment.one_absent _ _ _ hn]; simp [one]
        · intro θ hθ
          exact Assignment.refines_one θ id _ ((key θ).1 hθ)

theorem unifyGeneric_sound (n : Nat) (held : List Cell) (s : Heap) (c : Cell) (id : Nat) (t2 : Ty Cell) (o : Outcome) (s' : Heap)
    (ρ : Cell → Tree) (hc : s c = .generic id) (hd : same n s (.var c) t2 = some false) (hl : NotLink s t2)
    (h : unifyGeneric held s id t2 = some (o, s')) (g : Good s ρ) (hh : ∀ c ∈ held, ∃ t, s c = .link t) :
    Claim s s' ρ o (Same ρ (.var c) t2) := by
  have hρ := g.reading.generic c id hc
  cases t2 with
  | var d =>
    simp only [unifyGeneric] at h
    cases hs : s d with
    | link t => exact (hl t hs).elim
    | unbound i =>
      simp only [hs, TypeVar.isUnbound, if_true] at h
      have hρd := g.reading.unbound d i hs
      have key : ∀ θ, Same ρ (.var c) (.var d) θ ↔ θ i = .var (.generic id) := by
        intro θ; unfold Same; simp only [Ty.sub]; rw [hρ, hρd]
        exact ⟨fun h => h.symm, fun h => h.symm⟩
      split at h
      · rename_i hm
        obtain ⟨t, ht⟩ := hh d hm
        rw [hs] at ht; cases ht
      · simp only [Option.some.injEq, Prod.mk.injEq] at h
        obtain ⟨rfl, rfl⟩ := h
        refine ⟨one i (.var (.generic id)), step_set s ρ d i _ _ hs (by simp) (good_generic s ρ d i id g hs), by simp, ?_, by simp⟩
        intro _
        constructor
        · rw [key]; simp [one]
        · intro θ hθ
          exact Assignment.refines_one θ i _ ((key θ).1 hθ)
    | generic i =>
      simp only [hs, TypeVar.isUnbound, Bool.false_eq_true, if_false, Option.some.injEq, Prod.mk.injEq] at h
      obtain ⟨rfl, rfl⟩ := h
      refine Claim.no g fun θ hθ => ?_
      have hρd := g.reading.generic d i hs
      unfold Same at hθ
      simp only [Ty.sub] at hθ
      rw [hρ, hρd] at hθ
      simp only [Assignment.on, Ty.sub, Assignment.leaf] at hθ
      injection hθ with e
      injection e with e
      subst e
      have := same_self_var s c id (Or.inr hc) n d (by rw [hs, hc]) _ hd
      cases this
  | named | fn | tuple =>
    simp only [unifyGeneric, Option.some.injEq, Prod.mk.injEq] at h
    obtain ⟨rfl, rfl⟩ := h
    refine Claim.no g fun θ hθ => ?_
    unfold Same at hθ
    simp only [Ty.sub] at hθ
    rw [hρ] at hθ
    simp [Assignment.on, Ty.sub, Assignment.leaf] at hθ

theorem unifyLink_sound (n : Nat) (held : List Cell) (s s1 : Heap) (c : Cell) (t t2 : Ty Cell) (o o1 : Outcome) (s' : Heap)
    (ρ : Cell → Tree) (hc : s c = .link t) (g : Good s ρ) (c1 : Claim s s1 ρ o1 (Same ρ t t2))
    (h : unifyLink n held c t (some (o1, s1)) = some (o, s')) : Claim s s' ρ o (Same ρ (.var c) t2) := by
  have hρ := g.reading.link c t hc
  have key : ∀ θ, Same ρ t t2 θ ↔ Same ρ (.var c) t2 θ := by
    intro θ; unfold Same; simp only [Ty.sub]; rw [hρ]
  have c1 := c1.congr key
  cases o1 with
  | ok =>
    simp only [unifyLink] at h
    split at h
    · simp only [Option.some.injEq, Prod.mk.injEq] at h
      obtain ⟨rfl, rfl⟩ := h
      exact c1
    · cases hcol : collapse n s1 t with
      | none => simp [hcol] at h
      | some u =>
        simp only [hcol, Option.some.injEq, Prod.mk.injEq] at h
        obtain ⟨rfl, rfl⟩ := h
        obtain ⟨σ, st, a, b, d⟩ := c1
        refine ⟨σ, ?_, a, b, d⟩
        obtain ⟨t', ht'⟩ := st.links c t hc
        obtain ⟨hnl, he⟩ := collapse_right s1 _ st.good.reading n t u hcol
        have hg : Good (s1.set c (.link u)) fun v => σ.on (ρ v) := by
          refine good_shorten s1 _ c t' u st.good ht' hnl ?_
          rw [he, sub_on, hρ]
        refine ⟨hg, ?_, ?_, ?_⟩
        · intro e v hv
          by_cases h : e = c
          · subst h; exact ⟨u, set_same _ _ _⟩
          · obtain ⟨w, hw⟩ := st.links e v hv
            exact ⟨w, by rw [set_other _ _ _ _ h]; exact hw⟩
        · intro e i hi
          by_cases h : e = c
          · subst h; rw [set_same] at hi; cases hi
          · rw [set_other _ _ _ _ h] at hi; exact st.unbound e i hi
        · rcases st.progress with ⟨k1, k2⟩ | ⟨e, i, k1, k2⟩
          · left
            refine ⟨k1, fun e i hi => ?_⟩
            have : e ≠ c := by rintro rfl; rw [hc] at hi; cases hi
            rw [set_other _ _ _ _ this]
            exact k2 e i hi
          · right
            refine ⟨e, i, k1, fun j => ?_⟩
            have : e ≠ c := by rintro rfl; rw [hc] at k1; cases k1
            rw [set_other _ _ _ _ this]
            exact k2 j
  | fail | panic =>
    simp only [unifyLink, Option.some.injEq, Prod.mk.injEq] at h
    obtain ⟨rfl, rfl⟩ := h
    exact c1

theorem linkOf_none {s : Heap} {t : Ty Cell} (h : linkOf s t = none) : NotLink s t := by
  cases t with
  | var c => intro u hu; simp [linkOf, hu, TypeVar.linked] at h
  | named | fn | tuple => trivial

theorem linkOf_some {s : Heap} {t : Ty Cell} {d : Cell} {u : Ty Cell} (h : linkOf s t = some (d, u)) : t = .var d ∧ s d = .link u := by
  cases t with
  | var c =>
    simp only [linkOf] at h
    cases hs : s c with
    | link v => simp [hs, TypeVar.linked] at h; obtain ⟨rfl, rfl⟩ := h; exact ⟨rfl, hs⟩
    | unbound i => simp [hs, TypeVar.linked] at h
    | generic i => simp [hs, TypeVar.linked] at h
  | named | fn | tuple => simp [linkOf] at h

theorem unify_sound : ∀ n held, Sound (unify n held) held := by
  intro n
  induction n with
  | zero => intro held s t1 t2 o s' ρ h; simp [unify] at h
  | succ n ih =>
    intro held s t1 t2 o s' ρ h g hh
    simp only [unify] at h
    cases hs : same n s t1 t2 with
    | none => simp [hs] at h
    | some b =>
      cases b with
      | true =>
        simp only [hs, Option.some.injEq, Prod.mk.injEq] at h
        obtain ⟨rfl, rfl⟩ := h
        refine ⟨none_, Step.refl s ρ g, by simp, fun _ => ⟨?_, fun θ _ => Assignment.refines_none θ⟩, by simp⟩
        unfold Same
        rw [same_sound s ρ g.reading n t1 t2 hs]
      | false =>
        simp only [hs] at h
        cases hl : linkOf s t2 with
        | some q =>
          obtain ⟨d, t⟩ := q
          simp only [hl] at h
          obtain ⟨rfl, hd⟩ := linkOf_some hl
          refine Claim.congr ?_ (ih (d :: held) s t1 t o s' ρ h g ?_)
          · intro θ; unfold Same; simp only [Ty.sub]; rw [g.reading.link d t hd]
          · intro c hc
            rcases List.mem_cons.1 hc with rfl | hc
            · exact ⟨t, hd⟩
            · exact hh c hc
        | none =>
          simp only [hl] at h
          have hnl := linkOf_none hl
          have flip : ∀ t1 d, ¬ t1.IsVar → unify n held s (.var d) t1 = some (o, s') → Claim s s' ρ o (Same ρ t1 (.var d)) := by
            intro t1 d _ h
            refine Claim.congr ?_ (ih held s (.var d) t1 o s' ρ h g hh)
            intro θ; exact ⟨fun h => h.symm, fun h => h.symm⟩
          cases t1 with
          | var c =>
            simp only at h
            cases hc : s c with
            | link t =>
              simp only [hc] at h
              cases hr : unify n held s t t2 with
              | none => simp [hr, unifyLink] at h
              | some q =>
                obtain ⟨o1, s1⟩ := q
                rw [hr] at h
                exact unifyLink_sound n held s s1 c t t2 o o1 s' ρ hc g (ih held s t t2 o1 s1 ρ hr g hh) h
            | unbound id =>
              simp only [hc] at h
              exact unifyUnbound_sound n held s c id t2 o s' ρ hc hs hnl h g hh
            | generic id =>
              simp only [hc] at h
              exact unifyGeneric_sound n held s c id t2 o s' ρ hc hs hnl h g hh
          | named m x as =>
            cases t2 with
            | var d => exact flip _ d (by simp [Ty.IsVar]) h
            | named | fn | tuple => exact unifyStructures_sound _ held (ih held) s _ _ o s' ρ (by simp [Ty.IsVar]) (by simp [Ty.IsVar]) h g hh
          | fn as r =>
            cases t2 with
            | var d => exact flip _ d (by simp [Ty.IsVar]) h
            | named | fn | tuple => exact unifyStructures_sound _ held (ih held) s _ _ o s' ρ (by simp [Ty.IsVar]) (by simp [Ty.IsVar]) h g hh
          | tuple as =>
            cases t2 with
            | var d => exact flip _ d (by simp [Ty.IsVar]) h
            | named | fn | tuple => exact unifyStructures_sound _ held (ih held) s _ _ o s' ρ (by simp [Ty.IsVar]) (by simp [Ty.IsVar]) h g hh

end Verif.Unify
