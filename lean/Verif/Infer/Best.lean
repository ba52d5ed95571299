import Verif.Infer.PatternSound

/-!
Types that can be given to a program stay possible through every step of the inference: if the unknown types have a solution before a step, and
the step is one that a typed program makes, then they have the same solution after it, and the step does not fail.
-/

namespace Verif.Infer

open Verif.Unify

/-! ### Replacing variables in two ways -/

mutual

theorem Ty.sub_inj {V W : Type} (f g : V → Ty W) : ∀ t : Ty V, t.sub f = t.sub g → ∀ v, t.Has v → f v = g v
  | .var w, h, v, hv => by cases hv; exact h
  | .named m x as, h, v, hv => Tys.sub_inj f g as (by simpa [Ty.sub] using h) v hv
  | .tuple as, h, v, hv => Tys.sub_inj f g as (by simpa [Ty.sub] using h) v hv
  | .fn as r, h, v, hv => by
    simp only [Ty.sub, Ty.fn.injEq] at h
    rcases hv with hv | hv
    · exact Tys.sub_inj f g as h.1 v hv
    · exact Ty.sub_inj f g r h.2 v hv

theorem Tys.sub_inj {V W : Type} (f g : V → Ty W) : ∀ t : Tys V, t.sub f = t.sub g → ∀ v, t.Has v → f v = g v
  | .nil, _, v, hv => hv.elim
  | .cons a as, h, v, hv => by
    simp only [Tys.sub, Tys.cons.injEq] at h
    rcases hv with hv | hv
    · exact Ty.sub_inj f g a h.1 v hv
    · exact Tys.sub_inj f g as h.2 v hv

end

/-! ### Types over the variables made so far -/

/-- All variables of the type are unbound and were made before `k`. -/
def Low (k : Nat) (t : Tree) : Prop := ∀ l, t.Has l → ∃ id < k, l = .unbound id

def Lows (k : Nat) (t : Tys Leaf) : Prop := ∀ l, t.Has l → ∃ id < k, l = .unbound id

theorem Low.zero (k : Nat) (x : String) : Low k (named0 x) := fun l h => h.elim

theorem Low.tuple {k : Nat} {as : Tys Leaf} : Low k (.tuple as) ↔ Lows k as := Iff.rfl

theorem Low.named {k : Nat} {m x : String} {as : Tys Leaf} : Low k (.named m x as) ↔ Lows k as := Iff.rfl

theorem Low.fn {k : Nat} {as : Tys Leaf} {r : Tree} : Low k (.fn as r) ↔ Lows k as ∧ Low k r :=
  ⟨fun h => ⟨fun l hl => h l (.inl hl), fun l hl => h l (.inr hl)⟩, fun h l hl => hl.elim (h.1 l) (h.2 l)⟩

theorem Lows.nil {k : Nat} : Lows k .nil := fun l h => h.elim

theorem Lows.cons {k : Nat} {a : Tree} {as : Tys Leaf} : Lows k (.cons a as) ↔ Low k a ∧ Lows k as :=
  ⟨fun h => ⟨fun l hl => h l (.inl hl), fun l hl => h l (.inr hl)⟩, fun h l hl => hl.elim (h.1 l) (h.2 l)⟩

theorem Low.list {k : Nat} {a : Tree} : Low k (tList a) ↔ Low k a := by
  rw [tList, Low.named, Lows.cons]
  exact ⟨fun h => h.1, fun h => ⟨h, .nil⟩⟩

theorem Low.clean {k : Nat} {t : Tree} (h : Low k t) : Clean [] t := fun id hi => by
  obtain ⟨_, _, h⟩ := h _ hi
  cases h

theorem Low.mono {k k' : Nat} {t : Tree} (h : Low k t) (hk : k ≤ k') : Low k' t := fun l hl => by
  obtain ⟨id, h1, h2⟩ := h l hl
  exact ⟨id, by omega, h2⟩

theorem Low.on {k : Nat} {σ : Assignment} (hσ : ∀ id < k, Low k (σ id)) {t : Tree} (h : Low k t) : Low k (σ.on t) := by
  intro l hl
  unfold Assignment.on at hl
  rw [Ty.has_sub] at hl
  obtain ⟨v, hv, hl⟩ := hl
  obtain ⟨id, h1, rfl⟩ := h v hv
  exact hσ id h1 l hl

theorem Low.congr {k : Nat} {σ τ : Assignment} (hσ : ∀ id < k, σ id = τ id) {t : Tree} (h : Low k t) : σ.on t = τ.on t := by
  refine Ty.sub_congr _ _ t fun l hl => ?_
  obtain ⟨id, h1, rfl⟩ := h l hl
  exact hσ id h1

theorem Lows.get {k : Nat} : ∀ {ts : Tys Leaf}, Lows k ts → ∀ {i : Nat} {t : Tree}, (Tys.list ts)[i]? = some t → Low k t
  | .nil, h, i, t, hi => by cases hi
  | .cons a as, h, 0, t, hi => by cases hi; exact (Lows.cons.1 h).1
  | .cons a as, h, i + 1, t, hi => Lows.get (Lows.cons.1 h).2 (i := i) hi

/-! ### Unification only talks about the variables in the two types -/

theorem unify_low {k : Nat} {σ : Assignment} {t u : Tree} (ht : Low k t) (hu : Low k u) (hs : σ.on t = σ.on u)
    (hm : ∀ θ : Assignment, θ.on t = θ.on u → θ.Refines σ) :
    (∀ id < k, Low k (σ id)) ∧ ∀ id, k ≤ id → σ id = .var (.unbound id) := by
  have away : ∀ j, k ≤ j → ∀ w : Tree, Assignment.Refines (fun id => if id = j then w else σ id) σ := by
    intro j hj w
    refine hm _ ?_
    have h1 : ∀ id < k, (fun id => if id = j then w else σ id) id = σ id := fun id hid => if_neg (by omega)
    rw [Low.congr h1 ht, Low.congr h1 hu, hs]
  refine ⟨fun i hi l hl => ?_, fun j hj => ?_⟩
  · cases l with
    | generic id => exact absurd (unify_clean ht.clean hu.clean hs hm i id hl) (by simp)
    | unbound j =>
      refine ⟨j, ?_, rfl⟩
      by_contra hj
      have h1 := away j (by omega) tInt i
      simp only [if_neg (show i ≠ j by omega)] at h1
      have h2 : (σ i).sub (Assignment.leaf fun id => if id = j then tInt else σ id) = (σ i).sub .var := by
        rw [Ty.sub_var]; exact h1
      have h3 := Ty.sub_inj _ _ _ h2 _ hl
      simp only [Assignment.leaf, if_true] at h3
      cases h3
  · have h1 := away j hj tInt j
    have h2 := away j hj tString j
    simp only [if_true] at h1 h2
    generalize σ j = w at h1 h2
    cases w with
    | var l =>
      cases l with
      | unbound i =>
        by_cases he : i = j
        · rw [he]
        · simp only [Assignment.on, Ty.sub, Assignment.leaf, if_neg he] at h1 h2
          rw [h1] at h2
          simp only [tInt, tString, named0, Ty.named.injEq] at h2
          exact absurd h2.2.1 (by decide)
      | generic i => cases h1
    | named m x as =>
      simp only [Assignment.on, Ty.sub, tInt, tString, named0, Ty.named.injEq] at h1 h2
      exact absurd (h1.2.1.symm.trans h2.2.1) (by decide)
    | fn => cases h1
    | tuple => cases h1

/-- What stands for an unbound variable is a chain of links that ends in it. -/
theorem chain_end {s : Heap} {ρ : Cell → Tree} (g : Good s ρ) (i : Nat) : ∀ c, ρ c = .var (.unbound i) → ∃ d, s d = .unbound i := by
  obtain ⟨rank, hr⟩ := g.chains
  suffices h : ∀ k c, rank c < k → ρ c = .var (.unbound i) → ∃ d, s d = .unbound i from fun c => h _ c (Nat.lt_succ_self _)
  intro k
  induction k with
  | zero => intro c h; omega
  | succ k ih =>
    intro c hk hc
    cases hs : s c with
    | link t =>
      have h1 := g.reading.link c t hs
      rw [hc] at h1
      cases t with
      | var d => exact ih d (by have := hr c d hs; omega) h1.symm
      | named | fn | tuple => cases h1
    | unbound id =>
      have h1 := g.reading.unbound c id hs
      rw [hc] at h1
      cases h1
      exact ⟨c, hs⟩
    | generic id =>
      have h1 := g.reading.generic c id hs
      rw [hc] at h1
      cases h1

/-! ### Solutions -/

/-- What the heap says, and a type for each variable that is still unbound. -/
structure Sol where
  ρ : Cell → Tree
  θ : Assignment

/-- The type in the solution. -/
def Sol.of (S : Sol) (t : Ty Cell) : Tree := S.θ.on (t.sub S.ρ)

def Sol.ofs (S : Sol) (ts : Tys Cell) : Tys Leaf := (ts.sub S.ρ).sub S.θ.leaf

theorem Sol.of_named (S : Sol) (m x : String) (as : Tys Cell) : S.of (.named m x as) = .named m x (S.ofs as) := rfl
theorem Sol.of_fn (S : Sol) (as : Tys Cell) (r : Ty Cell) : S.of (.fn as r) = .fn (S.ofs as) (S.of r) := rfl
theorem Sol.of_tuple (S : Sol) (as : Tys Cell) : S.of (.tuple as) = .tuple (S.ofs as) := rfl
theorem Sol.of_list (S : Sol) (a : Ty Cell) : S.of (tList a) = tList (S.of a) := rfl
theorem Sol.ofs_nil (S : Sol) : S.ofs .nil = .nil := rfl
theorem Sol.ofs_cons (S : Sol) (a : Ty Cell) (as : Tys Cell) : S.ofs (.cons a as) = .cons (S.of a) (S.ofs as) := rfl

theorem Sol.ofs_length (S : Sol) (ts : Tys Cell) : (S.ofs ts).length = ts.length := by
  unfold Sol.ofs
  rw [Tys.length_sub, Tys.length_sub]

theorem Sol.ofs_get (S : Sol) : ∀ (ts : Tys Cell) (i : Nat), (Tys.list (S.ofs ts))[i]? = ((Tys.list ts)[i]?).map S.of
  | .nil, i => rfl
  | .cons a as, 0 => rfl
  | .cons a as, i + 1 => Sol.ofs_get S as i

/-- The state while functions without annotations are inferred. -/
structure Fine (s : St) (S : Sol) : Prop where
  good : Good s.heap S.ρ
  fresh : ∀ c, s.next ≤ c → s.heap c = .unbound c
  hydrator : s.hydrator = ⟨[], []⟩

/-- The type uses variables that were made. -/
def Made (s : St) (S : Sol) (t : Ty Cell) : Prop := Low s.next (t.sub S.ρ)

def Mades (s : St) (S : Sol) (ts : Tys Cell) : Prop := Lows s.next (ts.sub S.ρ)

/-- One state comes after another, with the same solution. -/
structure Next (s : St) (S : Sol) (s' : St) (S' : Sol) : Prop where
  fine : Fine s' S'
  made : ∀ t, Made s S t → Made s' S' t
  same : ∀ t, Made s S t → S'.of t = S.of t

theorem Next.refl {s : St} {S : Sol} (h : Fine s S) : Next s S s S := ⟨h, fun _ h => h, fun _ _ => rfl⟩

theorem Next.trans {s s' s'' : St} {S S' S'' : Sol} (h : Next s S s' S') (h' : Next s' S' s'' S'') : Next s S s'' S'' :=
  ⟨h'.fine, fun t ht => h'.made t (h.made t ht), fun t ht => (h'.same t (h.made t ht)).trans (h.same t ht)⟩

theorem Next.mades {s s' : St} {S S' : Sol} (h : Next s S s' S') (ts : Tys Cell) (ht : Mades s S ts) : Mades s' S' ts := h.made (.tuple ts) ht

theorem Next.sames {s s' : St} {S S' : Sol} (h : Next s S s' S') (ts : Tys Cell) (ht : Mades s S ts) : S'.ofs ts = S.ofs ts := by
  have := h.same (.tuple ts) ht
  rw [Sol.of_tuple, Sol.of_tuple, Ty.tuple.injEq] at this
  exact this

/-- The computation keeps the solution and ends like this. Only if nothing is `strict` it may reject. -/
def Best (strict : Prop) {α : Type} (x : I α) (s : St) (S : Sol) (Q : α → St → Sol → Prop) : Prop :=
  match x s with
  | .ok (a, s') => ∃ S', Next s S s' S' ∧ Q a s' S'
  | .error .rejected => ¬ strict
  | .error .fuel => True

section
variable {strict : Prop} {α β : Type}

theorem Best.bind {x : I α} {f : α → I β} {s : St} {S : Sol} {Q : α → St → Sol → Prop} {Q' : β → St → Sol → Prop} (h : Best strict x s S Q)
    (h' : ∀ a s' S', Next s S s' S' → Q a s' S' → Best strict (f a) s' S' Q') : Best strict (x >>= f) s S Q' := by
  unfold Best at h ⊢
  show match I.bind x f s with | .ok (a, s') => _ | .error .rejected => _ | .error .fuel => _
  unfold I.bind
  cases hx : x s with
  | error e =>
    rw [hx] at h
    cases e with
    | rejected => exact h
    | fuel => trivial
  | ok p =>
    obtain ⟨a, s'⟩ := p
    rw [hx] at h
    obtain ⟨S', h1, h2⟩ := h
    have h3 := h' a s' S' h1 h2
    unfold Best at h3
    show match f a s' with | .ok (a, s') => _ | .error .rejected => _ | .error .fuel => _
    split at h3
    · next b s'' hb =>
      obtain ⟨S'', h4, h5⟩ := h3
      exact ⟨S'', h1.trans h4, h5⟩
    · exact h3
    · trivial

theorem Best.pure {a : α} {s : St} {S : Sol} {Q : α → St → Sol → Prop} (hi : Fine s S) (h : Q a s S) : Best strict (Pure.pure a : I α) s S Q :=
  ⟨S, .refl hi, h⟩

theorem Best.reject {s : St} {S : Sol} {Q : α → St → Sol → Prop} (h : ¬ strict) : Best strict (reject : I α) s S Q := h

theorem Best.outOfFuel {s : St} {S : Sol} {Q : α → St → Sol → Prop} : Best strict (outOfFuel : I α) s S Q := trivial

theorem Best.mono {x : I α} {s : St} {S : Sol} {Q Q' : α → St → Sol → Prop} (h : Best strict x s S Q)
    (h' : ∀ a s' S', Next s S s' S' → Q a s' S' → Q' a s' S') : Best strict x s S Q' := by
  unfold Best at h ⊢
  split at h
  · next a s' hx =>
    obtain ⟨S', h1, h2⟩ := h
    exact ⟨S', h1, h' _ _ _ h1 h2⟩
  · exact h
  · trivial

theorem Best.expect {o : Option α} {s : St} {S : Sol} {Q : α → St → Sol → Prop} (hi : Fine s S) (h : ∀ a, o = some a → Q a s S)
    (hn : strict → o ≠ none) : Best strict (expect o) s S Q := by
  cases o with
  | none => exact Best.reject fun h => hn h rfl
  | some a => exact Best.pure hi (h a rfl)

theorem Best.check {b : Bool} {s : St} {S : Sol} {Q : Unit → St → Sol → Prop} (hi : Fine s S) (h : b = true → Q () s S)
    (hn : strict → b = true) : Best strict (check b) s S Q := by
  cases b with
  | false => exact Best.reject fun h => by simpa using hn h
  | true => exact Best.pure hi (h rfl)

theorem Best.inScope {x : I α} {s : St} {S : Sol} {Q : α → St → Sol → Prop} (hi : Fine s S) (h : Best strict x s S Q)
    (hq : ∀ a s' S', Q a s' S' → Q a { s' with hydrator := s.hydrator } S') : Best strict (inScope x) s S Q := by
  unfold Best at h ⊢
  unfold Infer.inScope
  cases hx : x s with
  | error e =>
    rw [hx] at h
    cases e with
    | rejected => exact h
    | fuel => trivial
  | ok p =>
    obtain ⟨a, s'⟩ := p
    rw [hx] at h
    obtain ⟨S', h1, h2⟩ := h
    exact ⟨S', ⟨⟨h1.fine.good, h1.fine.fresh, hi.hydrator⟩, h1.made, h1.same⟩, hq _ _ _ h2⟩

/-! ### Primitive steps -/

theorem unifyI_best {n : Nat} {t u : Ty Cell} {s : St} {S : Sol} (hi : Fine s S) (ht : Made s S t) (hu : Made s S u) (h : S.of t = S.of u) :
    Best strict (unifyI n t u) s S fun _ _ _ => True := by
  unfold Best unifyI
  cases hh : unify n [] s.heap t u with
  | none => trivial
  | some p =>
    obtain ⟨o, h'⟩ := p
    obtain ⟨σ, h1, h2, h3, h4⟩ := unify_sound n [] s.heap t u o h' S.ρ hh hi.good (by simp)
    cases o with
    | panic => trivial
    | fail => exact fun _ => h4 rfl S.θ h
    | ok =>
      obtain ⟨h5, h6⟩ := h3 rfl
      obtain ⟨l1, l2⟩ := unify_low ht hu h5 h6
      have hr := h6 S.θ h
      refine ⟨⟨fun c => σ.on (S.ρ c), S.θ⟩, ⟨⟨h1.good, fun c hc => ?_, hi.hydrator⟩, fun v hv => ?_, fun v _ => ?_⟩, trivial⟩
      · have hc' : s.heap c = .unbound c := hi.fresh c hc
        have e1 : σ.on (S.ρ c) = .var (.unbound c) := by
          rw [hi.good.reading.unbound c c hc']
          exact l2 c hc
        show h' c = _
        cases hv : h' c with
        | link v =>
          exfalso
          obtain ⟨d, hd⟩ := chain_end h1.good c c e1
          have hd' := h1.unbound d c hd
          have := hi.good.unique d c c hd' hc'
          subst this
          rw [hv] at hd
          cases hd
        | unbound id =>
          have := h1.good.reading.unbound c id hv
          rw [e1] at this
          cases this
          rfl
        | generic id =>
          have := h1.good.reading.generic c id hv
          rw [e1] at this
          cases this
      · show Low s.next (v.sub fun c => σ.on (S.ρ c))
        rw [sub_on]
        exact Low.on l1 hv
      · show S.θ.on (v.sub fun c => σ.on (S.ρ c)) = S.θ.on (v.sub S.ρ)
        rw [sub_on, hr.on]

/-- A new variable can stand for any type. -/
theorem fresh_best {s : St} {S : Sol} (hi : Fine s S) (τ : Tree) :
    Best strict fresh s S fun t s' S' => Made s' S' t ∧ S'.of t = τ ∧ s'.heap = s.heap ∧ S'.ρ = S.ρ := by
  unfold Best fresh
  have h0 := hi.fresh s.next (Nat.le_refl _)
  simp only [h0]
  have e0 := hi.good.reading.unbound _ _ h0
  refine ⟨⟨S.ρ, fun id => if id = s.next then τ else S.θ id⟩, ⟨⟨hi.good, fun c hc => hi.fresh c (by simp only at hc; omega), hi.hydrator⟩,
    fun v hv => Low.mono hv (Nat.le_succ _), fun v hv => ?_⟩, ?_, ?_, trivial, rfl⟩
  · exact Low.congr (fun id hid => if_neg (Nat.ne_of_lt hid)) hv
  · intro l hl
    simp only [Ty.sub, e0] at hl
    cases hl
    exact ⟨_, Nat.lt_succ_self _, rfl⟩
  · simp only [Sol.of, Ty.sub, e0, Assignment.on, Assignment.leaf, if_true]

theorem freshes_best : ∀ (k : Nat) {s : St} {S : Sol} (_ : Fine s S) (τs : Tys Leaf), τs.length = k →
    Best strict (freshes k) s S fun ts s' S' => Mades s' S' ts ∧ S'.ofs ts = τs ∧ s'.heap = s.heap ∧ S'.ρ = S.ρ
  | 0, s, S, hi, .nil, _ => Best.pure hi ⟨.nil, rfl, rfl, rfl⟩
  | k + 1, s, S, hi, .cons τ τs, hl => by
    refine Best.bind (fresh_best hi τ) fun t s₁ S₁ n₁ ⟨m₁, e₁, p₁, r₁⟩ => ?_
    refine Best.bind (freshes_best k n₁.fine τs (by simpa [Tys.length] using hl)) fun ts s₂ S₂ n₂ ⟨m₂, e₂, p₂, r₂⟩ => ?_
    refine Best.pure n₂.fine ⟨Lows.cons.2 ⟨n₂.made _ m₁, m₂⟩, ?_, p₂.trans p₁, r₂.trans r₁⟩
    rw [Sol.ofs_cons, n₂.same _ m₁, e₁, e₂]

theorem collapseI_best {n : Nat} {t : Ty Cell} {s : St} {S : Sol} (hi : Fine s S) :
    Best strict (collapseI n t) s S fun u s' S' => s' = s ∧ S' = S ∧ u.sub S.ρ = t.sub S.ρ ∧ NotLink s.heap u := by
  unfold Best collapseI
  cases hv : collapse n s.heap t with
  | none => trivial
  | some u =>
    obtain ⟨h1, h2⟩ := collapse_right _ _ hi.good.reading _ _ _ hv
    exact ⟨S, .refl hi, rfl, rfl, h2, h1⟩

theorem getHeap_best {s : St} {S : Sol} (hi : Fine s S) : Best strict getHeap s S fun h s' S' => h = s.heap ∧ s' = s ∧ S' = S :=
  ⟨S, .refl hi, rfl, rfl, rfl⟩

/-- Giving an unbound variable the type it has in the solution. -/
theorem linkTo_best {c : Cell} {id : Nat} {t : Ty Cell} {s : St} {S : Sol} (hi : Fine s S) (hc : s.heap c = .unbound id) (hn : NotLink s.heap t)
    (hf : ¬ (t.sub S.ρ).Has (.unbound id)) (ht : Made s S t) (hm : Made s S (.var c)) (h : S.of (.var c) = S.of t) :
    Best strict (linkTo c t) s S fun _ _ _ => True := by
  unfold Best linkTo
  simp only [hc]
  have hg := good_bind s.heap S.ρ c id t hi.good hc hn hf
  have e0 := hi.good.reading.unbound c id hc
  have hid : id < s.next := by
    have := hm (.unbound id) (by simp only [Ty.sub, e0, Ty.Has])
    obtain ⟨i, h1, h2⟩ := this
    cases h2
    exact h1
  have hr : S.θ.Refines (Assignment.one id (t.sub S.ρ)) := by
    refine Assignment.refines_one _ _ _ ?_
    have : S.of (.var c) = S.θ id := by simp only [Sol.of, Ty.sub, e0, Assignment.on, Assignment.leaf]
    rw [← this, h]
    rfl
  refine ⟨⟨fun v => (Assignment.one id (t.sub S.ρ)).on (S.ρ v), S.θ⟩, ⟨⟨hg, fun d hd => ?_, hi.hydrator⟩, fun v hv => ?_, fun v _ => ?_⟩, trivial⟩
  · have hd' := hi.fresh d hd
    have : d ≠ c := by
      rintro rfl
      rw [hc] at hd'
      cases hd'
      simp only at hd
      omega
    show s.heap.set c (.link t) d = _
    rw [set_other _ _ _ _ this]
    exact hd'
  · show Low s.next (v.sub fun c => (Assignment.one id (t.sub S.ρ)).on (S.ρ c))
    rw [sub_on]
    refine Low.on (fun i hi => ?_) hv
    unfold Assignment.one
    split
    · exact ht
    · intro l hl
      cases hl
      exact ⟨i, hi, rfl⟩
  · show S.θ.on (v.sub fun c => (Assignment.one id (t.sub S.ρ)).on (S.ρ c)) = S.θ.on (v.sub S.ρ)
    rw [sub_on, hr.on]

/-! ### Instances -/

/-- A type without generic variables stays the same. -/
theorem instantiateAll_best {S : Sol} {s : St} (f : Ty Cell → Ids → I (Ty Cell × Ids))
    (hf : ∀ t ids, Made s S t → Best strict (f t ids) s S fun p s' S' => s' = s ∧ S' = S ∧ p.1.sub S.ρ = t.sub S.ρ) :
    ∀ (ts : Tys Cell) (ids : Ids), Fine s S → Mades s S ts →
      Best strict (instantiateAll f ts ids) s S fun p s' S' => s' = s ∧ S' = S ∧ p.1.sub S.ρ = ts.sub S.ρ
  | .nil, ids, hi, h => Best.pure hi ⟨rfl, rfl, rfl⟩
  | .cons t ts, ids, hi, h => by
    have hc := Lows.cons.1 h
    refine Best.bind (hf t ids hc.1) fun p _ _ _ hp => ?_
    obtain ⟨rfl, rfl, e1⟩ := hp
    refine Best.bind (instantiateAll_best f hf ts p.2 hi hc.2) fun q _ _ _ hq => ?_
    obtain ⟨rfl, rfl, e2⟩ := hq
    refine Best.pure hi ⟨rfl, rfl, ?_⟩
    simp only [Tys.sub, e1, e2]

theorem instantiate_best {S : Sol} {s : St} (hi : Fine s S) : ∀ (n : Nat) (t : Ty Cell) (ids : Ids), Made s S t →
    Best strict (instantiate n t ids) s S fun p s' S' => s' = s ∧ S' = S ∧ p.1.sub S.ρ = t.sub S.ρ
  | 0, t, ids, h => Best.outOfFuel
  | n + 1, .var c, ids, h => by
    unfold instantiate
    refine Best.bind (getHeap_best hi) fun hp s₁ S₁ _ hq => ?_
    obtain ⟨rfl, rfl, rfl⟩ := hq
    cases hv : s₁.heap c with
    | link t =>
      have e := hi.good.reading.link c t hv
      refine Best.mono (instantiate_best hi n t ids (by unfold Made at h ⊢; rw [← e]; exact h)) fun p s' S' _ hq => ?_
      refine ⟨hq.1, hq.2.1, hq.2.2.trans ?_⟩
      simp only [Ty.sub, e]
    | unbound id => exact Best.pure hi ⟨rfl, rfl, rfl⟩
    | generic id =>
      have e := hi.good.reading.generic c id hv
      obtain ⟨_, _, h2⟩ := h (.generic id) (by simp only [Ty.sub, e, Ty.Has])
      cases h2
  | n + 1, .named m x as, ids, h => by
    unfold instantiate
    refine Best.bind (instantiateAll_best _ (fun t ids ht => instantiate_best hi n t ids ht) as ids hi h) fun p _ _ _ hp => ?_
    obtain ⟨rfl, rfl, e1⟩ := hp
    refine Best.pure hi ⟨rfl, rfl, ?_⟩
    simp only [Ty.sub, e1]
  | n + 1, .tuple as, ids, h => by
    unfold instantiate
    refine Best.bind (instantiateAll_best _ (fun t ids ht => instantiate_best hi n t ids ht) as ids hi h) fun p _ _ _ hp => ?_
    obtain ⟨rfl, rfl, e1⟩ := hp
    refine Best.pure hi ⟨rfl, rfl, ?_⟩
    simp only [Ty.sub, e1]
  | n + 1, .fn as r, ids, h => by
    unfold instantiate
    have hc := Low.fn.1 h
    refine Best.bind (instantiateAll_best _ (fun t ids ht => instantiate_best hi n t ids ht) as ids hi hc.1) fun p _ _ _ hp => ?_
    obtain ⟨rfl, rfl, e1⟩ := hp
    refine Best.bind (instantiate_best hi n r p.2 hc.2) fun q _ _ _ hq => ?_
    obtain ⟨rfl, rfl, e2⟩ := hq
    refine Best.pure hi ⟨rfl, rfl, ?_⟩
    simp only [Ty.sub, e1, e2]

/-- The ids have their types in the solution. -/
def IdsAre (s : St) (S : Sol) (f : Nat → Tree) (ids : Ids) : Prop := ∀ id t, ids.lookup id = some t → Made s S t ∧ S.of t = f id

theorem IdsAre.next {s s' : St} {S S' : Sol} {f : Nat → Tree} {ids : Ids} (h : IdsAre s S f ids) (hn : Next s S s' S') : IdsAre s' S' f ids := by
  intro id t hi
  obtain ⟨h1, h2⟩ := h id t hi
  exact ⟨hn.made t h1, (hn.same t h1).trans h2⟩

mutual

/-- An instance of a scheme can stand for each of its instances. -/
theorem instScheme_best (f : Nat → Tree) : ∀ (T : Ty Nat) (ids : Ids) {s : St} {S : Sol}, Fine s S → IdsAre s S f ids →
    Best strict (instScheme T ids) s S fun p s' S' => Made s' S' p.1 ∧ S'.of p.1 = T.sub f ∧ IdsAre s' S' f p.2
  | .var id, ids, s, S, hi, h => by
    unfold instScheme instantiateId
    cases hl : ids.lookup id with
    | some t => exact Best.pure hi ⟨(h id t hl).1, (h id t hl).2, h⟩
    | none =>
      refine Best.bind (fresh_best hi (f id)) fun t s₁ S₁ n₁ ⟨m₁, e₁, _, _⟩ => ?_
      refine Best.pure n₁.fine ⟨m₁, e₁, fun i u hu => ?_⟩
      rcases lookup_cons_cases hu with ⟨rfl, rfl⟩ | hu
      · exact ⟨m₁, e₁⟩
      · exact h.next n₁ i u hu
  | .named m x as, ids, s, S, hi, h => by
    unfold instScheme
    refine Best.bind (instSchemes_best f as ids hi h) fun p s₁ S₁ n₁ ⟨m₁, e₁, i₁⟩ => ?_
    exact Best.pure n₁.fine ⟨m₁, by simp only [Sol.of_named, Ty.sub, e₁], i₁⟩
  | .tuple as, ids, s, S, hi, h => by
    unfold instScheme
    refine Best.bind (instSchemes_best f as ids hi h) fun p s₁ S₁ n₁ ⟨m₁, e₁, i₁⟩ => ?_
    exact Best.pure n₁.fine ⟨m₁, by simp only [Sol.of_tuple, Ty.sub, e₁], i₁⟩
  | .fn as r, ids, s, S, hi, h => by
    unfold instScheme
    refine Best.bind (instSchemes_best f as ids hi h) fun p s₁ S₁ n₁ ⟨m₁, e₁, i₁⟩ => ?_
    refine Best.bind (instScheme_best f r p.2 n₁.fine i₁) fun q s₂ S₂ n₂ ⟨m₂, e₂, i₂⟩ => ?_
    exact Best.pure n₂.fine ⟨Low.fn.2 ⟨n₂.mades _ m₁, m₂⟩, by simp only [Sol.of_fn, Ty.sub, n₂.sames _ m₁, e₁, e₂], i₂⟩

theorem instSchemes_best (f : Nat → Tree) : ∀ (Ts : Tys Nat) (ids : Ids) {s : St} {S : Sol}, Fine s S → IdsAre s S f ids →
    Best strict (instSchemes Ts ids) s S fun p s' S' => Mades s' S' p.1 ∧ S'.ofs p.1 = Ts.sub f ∧ IdsAre s' S' f p.2
  | .nil, ids, s, S, hi, h => Best.pure hi ⟨.nil, rfl, h⟩
  | .cons T Ts, ids, s, S, hi, h => by
    unfold instSchemes
    refine Best.bind (instScheme_best f T ids hi h) fun p s₁ S₁ n₁ ⟨m₁, e₁, i₁⟩ => ?_
    refine Best.bind (instSchemes_best f Ts p.2 n₁.fine i₁) fun q s₂ S₂ n₂ ⟨m₂, e₂, i₂⟩ => ?_
    exact Best.pure n₂.fine ⟨Lows.cons.2 ⟨n₂.made _ m₁, m₂⟩, by simp only [Sol.ofs_cons, Tys.sub, n₂.same _ m₁, e₁, e₂], i₂⟩

end

end
end Verif.Infer
