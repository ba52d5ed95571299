import Verif.Infer.Subst
import Verif.Unify.Main

/-!
What one step of the inference does: variables get types, and no generic variable turns up that is not one of the function's own.
-/

namespace Verif.Infer

open Verif.Unify

/-! ### The monad -/

theorem bind_ok {α β : Type} {x : I α} {f : α → I β} {s s'' : St} {b : β} :
    (x >>= f) s = .ok (b, s'') ↔ ∃ a s', x s = .ok (a, s') ∧ f a s' = .ok (b, s'') := by
  show I.bind x f s = _ ↔ _
  unfold I.bind
  cases h : x s with
  | error e => simp
  | ok p =>
    obtain ⟨a, s'⟩ := p
    constructor
    · exact fun hf => ⟨a, s', rfl, hf⟩
    · rintro ⟨a', s'', h', hf⟩; cases h'; exact hf

theorem pure_ok {α : Type} {a b : α} {s s' : St} : (pure a : I α) s = .ok (b, s') ↔ a = b ∧ s = s' := by
  show Except.ok (a, s) = .ok (b, s') ↔ _
  simp

theorem reject_ok {α : Type} {b : α} {s s' : St} : (reject : I α) s = .ok (b, s') ↔ False := by
  simp [reject]

theorem outOfFuel_ok {α : Type} {b : α} {s s' : St} : (outOfFuel : I α) s = .ok (b, s') ↔ False := by
  simp [outOfFuel]

theorem expect_ok {α : Type} {o : Option α} {b : α} {s s' : St} : expect o s = .ok (b, s') ↔ o = some b ∧ s = s' := by
  cases o with
  | none => simp [expect, reject]
  | some a => simp only [expect, pure_ok, Option.some.injEq]

theorem ofFuel_ok {α : Type} {o : Option α} {b : α} {s s' : St} : ofFuel o s = .ok (b, s') ↔ o = some b ∧ s = s' := by
  cases o with
  | none => simp [ofFuel, outOfFuel]
  | some a => simp [ofFuel]

theorem check_ok {b : Bool} {s s' : St} {u : Unit} : check b s = .ok (u, s') ↔ b = true ∧ s = s' := by
  cases b <;> simp [check, reject_ok, pure_ok]

theorem getHeap_ok {h : Heap} {s s' : St} : getHeap s = .ok (h, s') ↔ s.heap = h ∧ s = s' := by simp [getHeap]

theorem getHydrator_ok {h : Hydrator} {s s' : St} : getHydrator s = .ok (h, s') ↔ s.hydrator = h ∧ s = s' := by simp [getHydrator]

theorem setHydrator_ok {h : Hydrator} {s s' : St} {u : Unit} : setHydrator h s = .ok (u, s') ↔ { s with hydrator := h } = s' := by simp [setHydrator]

/-! ### Clean types -/

/-- All generic variables are among these. -/
def Clean (R : List Nat) (t : Tree) : Prop := ∀ id, t.Has (.generic id) → id ∈ R

def Cleans (R : List Nat) (t : Tys Leaf) : Prop := ∀ id, t.Has (.generic id) → id ∈ R

/-- No unbound variables are left. -/
def Closed (t : Tree) : Prop := ∀ id, ¬ t.Has (.unbound id)

theorem Clean.unbound (R : List Nat) (id : Nat) : Clean R (.var (.unbound id)) := fun i h => nomatch h

theorem Clean.named {R : List Nat} {m x : String} {as : Tys Leaf} : Clean R (.named m x as) ↔ Cleans R as := Iff.rfl

theorem Clean.tuple {R : List Nat} {as : Tys Leaf} : Clean R (.tuple as) ↔ Cleans R as := Iff.rfl

theorem Clean.fn {R : List Nat} {as : Tys Leaf} {r : Tree} : Clean R (.fn as r) ↔ Cleans R as ∧ Clean R r :=
  ⟨fun h => ⟨fun id hi => h id (.inl hi), fun id hi => h id (.inr hi)⟩, fun h id hi => hi.elim (h.1 id) (h.2 id)⟩

theorem Cleans.nil {R : List Nat} : Cleans R .nil := fun id h => h.elim

theorem Cleans.cons {R : List Nat} {a : Tree} {as : Tys Leaf} : Cleans R (.cons a as) ↔ Clean R a ∧ Cleans R as :=
  ⟨fun h => ⟨fun id hi => h id (.inl hi), fun id hi => h id (.inr hi)⟩, fun h id hi => hi.elim (h.1 id) (h.2 id)⟩

theorem Clean.list {R : List Nat} {a : Tree} : Clean R (tList a) ↔ Clean R a := by
  rw [tList, Clean.named, Cleans.cons]
  exact ⟨fun h => h.1, fun h => ⟨h, .nil⟩⟩

theorem Clean.zero (R : List Nat) (x : String) : Clean R (named0 x) := fun id h => h.elim

theorem Cleans.get {R : List Nat} : ∀ {ts : Tys Leaf}, Cleans R ts → ∀ {i : Nat} {t : Tree}, (Tys.list ts)[i]? = some t → Clean R t
  | .nil, h, i, t, hi => by cases hi
  | .cons a as, h, 0, t, hi => by cases hi; exact (Cleans.cons.1 h).1
  | .cons a as, h, i + 1, t, hi => Cleans.get (Cleans.cons.1 h).2 (i := i) hi

theorem Clean.sub {R : List Nat} {V : Type} {t : Ty V} {f : V → Tree} (h : ∀ v, t.Has v → Clean R (f v)) : Clean R (t.sub f) := by
  intro id hi
  rw [Ty.has_sub] at hi
  obtain ⟨v, hv, hi⟩ := hi
  exact h v hv id hi

theorem Cleans.sub {R : List Nat} {V : Type} {t : Tys V} {f : V → Tree} (h : ∀ v, t.Has v → Clean R (f v)) : Cleans R (t.sub f) := by
  intro id hi
  rw [Tys.has_sub] at hi
  obtain ⟨v, hv, hi⟩ := hi
  exact h v hv id hi

theorem Clean.on {R : List Nat} {σ : Assignment} (hσ : ∀ id, Clean R (σ id)) {t : Tree} (h : Clean R t) : Clean R (σ.on t) :=
  Clean.sub fun l hl => by
    cases l with
    | unbound id => exact hσ id
    | generic id => intro i hi; cases hi; exact h id hl

theorem Clean.mono {R R' : List Nat} {t : Tree} (h : Clean R t) (hR : R ⊆ R') : Clean R' t := fun id hi => hR (h id hi)

theorem Closed.on {t : Tree} (h : Closed t) (σ : Assignment) : σ.on t = t := by
  conv => rhs; rw [← Ty.sub_var t]
  refine Ty.sub_congr _ _ t fun l hl => ?_
  cases l with
  | unbound id => exact absurd hl (h id)
  | generic id => rfl

/-! ### Steps -/

/-- Some unbound variables got a type, with no generic variables but these. -/
def To (R : List Nat) (ρ ρ' : Cell → Tree) : Prop := ∃ σ : Assignment, (∀ id, Clean R (σ id)) ∧ ρ' = fun c => σ.on (ρ c)

theorem To.refl (R : List Nat) (ρ : Cell → Tree) : To R ρ ρ :=
  ⟨.none_, fun id => Clean.unbound R id, by funext c; rw [Assignment.on_none]⟩

theorem To.trans {R : List Nat} {ρ ρ' ρ'' : Cell → Tree} (h : To R ρ ρ') (h' : To R ρ' ρ'') : To R ρ ρ'' := by
  obtain ⟨σ, h1, rfl⟩ := h
  obtain ⟨τ, h2, rfl⟩ := h'
  exact ⟨σ.then_ τ, fun id => Clean.on h2 (h1 id), by funext c; rw [Assignment.on_then]⟩

theorem To.mono {R R' : List Nat} {ρ ρ' : Cell → Tree} (h : To R ρ ρ') (hR : R ⊆ R') : To R' ρ ρ' := by
  obtain ⟨σ, h1, rfl⟩ := h
  exact ⟨σ, fun id => (h1 id).mono hR, rfl⟩

theorem To.clean {R : List Nat} {ρ ρ' : Cell → Tree} (h : To R ρ ρ') {t : Ty Cell} (ht : Clean R (t.sub ρ)) : Clean R (t.sub ρ') := by
  obtain ⟨σ, h1, rfl⟩ := h
  rw [sub_on]
  exact Clean.on h1 ht

theorem To.cleans {R : List Nat} {ρ ρ' : Cell → Tree} (h : To R ρ ρ') {t : Tys Cell} (ht : Cleans R (t.sub ρ)) : Cleans R (t.sub ρ') :=
  h.clean (t := .tuple t) ht

theorem To.closed {R : List Nat} {ρ ρ' : Cell → Tree} (h : To R ρ ρ') {t : Ty Cell} (ht : Closed (t.sub ρ)) : t.sub ρ' = t.sub ρ := by
  obtain ⟨σ, _, rfl⟩ := h
  rw [sub_on, ht.on]

theorem To.eq {R : List Nat} {ρ ρ' : Cell → Tree} (h : To R ρ ρ') {t u : Ty Cell} (ht : t.sub ρ = u.sub ρ) : t.sub ρ' = u.sub ρ' := by
  obtain ⟨σ, _, rfl⟩ := h
  rw [sub_on, sub_on, ht]

theorem To.eqs {R : List Nat} {ρ ρ' : Cell → Tree} (h : To R ρ ρ') {t u : Tys Cell} (ht : t.sub ρ = u.sub ρ) : t.sub ρ' = u.sub ρ' := by
  obtain ⟨σ, _, rfl⟩ := h
  rw [subs_on, subs_on, ht]

/-! ### Unification does not invent generic variables -/

/-- Foreign generic variables become `Int`. -/
def washLeaf (R : List Nat) : Leaf → Tree
  | .unbound id => .var (.unbound id)
  | .generic id => if id ∈ R then .var (.generic id) else tInt

theorem wash_clean (R : List Nat) (t : Tree) : Clean R (t.sub (washLeaf R)) := Clean.sub fun l _ => by
  cases l with
  | unbound id => exact Clean.unbound R id
  | generic id =>
    simp only [washLeaf]
    split
    · next h => intro i hi; cases hi; exact h
    · exact Clean.zero R _

theorem wash_on (R : List Nat) (σ : Assignment) {t : Tree} (h : Clean R t) :
    Assignment.on (fun id => (σ id).sub (washLeaf R)) t = (σ.on t).sub (washLeaf R) := by
  unfold Assignment.on
  rw [Ty.sub_sub]
  refine Ty.sub_congr _ _ t fun l hl => ?_
  cases l with
  | unbound id => rfl
  | generic id => simp only [Assignment.leaf, Ty.sub, washLeaf, if_pos (h id hl)]

theorem unify_clean {R : List Nat} {σ : Assignment} {t u : Tree} (ht : Clean R t) (hu : Clean R u) (hs : σ.on t = σ.on u)
    (hm : ∀ θ : Assignment, θ.on t = θ.on u → θ.Refines σ) : ∀ id, Clean R (σ id) := by
  intro id g hg
  by_contra hR
  have h := hm (fun id => (σ id).sub (washLeaf R)) (by rw [wash_on R σ ht, wash_on R σ hu, hs]) id
  have h1 : (Assignment.on (fun id => (σ id).sub (washLeaf R)) (σ id)).Has (.generic g) := by
    unfold Assignment.on
    rw [Ty.has_sub]
    exact ⟨_, hg, rfl⟩
  rw [h] at h1
  exact hR (wash_clean R _ g h1)

/-! ### States -/

/-- The state while a function is inferred. The variables in the annotations of its head are its rigid ones. -/
structure Ok (s : St) (ρ : Cell → Tree) : Prop where
  good : Good s.heap ρ
  created : ∀ x t, s.hydrator.created.lookup x = some t → ∃ id ∈ s.hydrator.rigid, t.sub ρ = .var (.generic id)

theorem Ok.after {s s' : St} {ρ ρ' : Cell → Tree} {R : List Nat} (h : Ok s ρ) (ht : To R ρ ρ') (hg : Good s'.heap ρ') (hh : s'.hydrator = s.hydrator) : Ok s' ρ' := by
  refine ⟨hg, fun x t hx => ?_⟩
  rw [hh] at hx ⊢
  obtain ⟨id, h1, h2⟩ := h.created x t hx
  refine ⟨id, h1, ?_⟩
  rw [ht.closed (by rw [h2]; intro i hi; cases hi), h2]

/-- What holds after a step. -/
structure After (R : List Nat) (s : St) (ρ : Cell → Tree) (s' : St) (ρ' : Cell → Tree) : Prop where
  step : To R ρ ρ'
  ok : Ok s' ρ'
  hydrator : s'.hydrator = s.hydrator

theorem After.refl {R : List Nat} {s : St} {ρ : Cell → Tree} (h : Ok s ρ) : After R s ρ s ρ := ⟨.refl R ρ, h, rfl⟩

theorem After.trans {R : List Nat} {s s' s'' : St} {ρ ρ' ρ'' : Cell → Tree} (h : After R s ρ s' ρ') (h' : After R s' ρ' s'' ρ'') : After R s ρ s'' ρ'' :=
  ⟨h.step.trans h'.step, h'.ok, h'.hydrator.trans h.hydrator⟩

theorem unifyI_right {R : List Nat} {n : Nat} {t u : Ty Cell} {s s' : St} {ρ : Cell → Tree} {x : Unit} (ho : Ok s ρ) (ht : Clean R (t.sub ρ))
    (hu : Clean R (u.sub ρ)) (h : unifyI n t u s = .ok (x, s')) : ∃ ρ', After R s ρ s' ρ' ∧ t.sub ρ' = u.sub ρ' := by
  unfold unifyI at h
  split at h
  · next h' hh =>
    cases h
    obtain ⟨σ, h1, h2, h3, _⟩ := unify_sound n [] s.heap t u .ok h' ρ hh ho.good (by simp)
    obtain ⟨h4, h5⟩ := h3 rfl
    have hc := unify_clean ht hu h4 h5
    have hto : To R ρ fun c => σ.on (ρ c) := ⟨σ, hc, rfl⟩
    have h5' : (t.sub fun c => σ.on (ρ c)) = u.sub fun c => σ.on (ρ c) := by rw [sub_on, sub_on]; exact h4
    exact ⟨_, ⟨hto, ho.after hto h1.good rfl, rfl⟩, h5'⟩
  all_goals simp at h

theorem fresh_right {R : List Nat} {s s' : St} {t : Ty Cell} {ρ : Cell → Tree} (ho : Ok s ρ) (h : fresh s = .ok (t, s')) :
    After R s ρ s' ρ ∧ Clean R (t.sub ρ) ∧ s'.heap = s.heap := by
  unfold fresh at h
  split at h
  · next id hi =>
    cases h
    refine ⟨⟨.refl R ρ, ⟨ho.good, ho.created⟩, rfl⟩, ?_, rfl⟩
    simp only [Ty.sub, ho.good.reading.unbound _ _ hi]
    exact Clean.unbound R id
  · simp at h

theorem freshes_right {R : List Nat} : ∀ (k : Nat) {s s' : St} {ts : Tys Cell} {ρ : Cell → Tree}, Ok s ρ → freshes k s = .ok (ts, s') →
    After R s ρ s' ρ ∧ Cleans R (ts.sub ρ) ∧ s'.heap = s.heap ∧ ts.length = k
  | 0, s, s', ts, ρ, ho, h => by
    simp only [freshes, pure_ok] at h
    obtain ⟨rfl, rfl⟩ := h
    exact ⟨.refl ho, .nil, rfl, rfl⟩
  | k + 1, s, s', ts, ρ, ho, h => by
    simp only [freshes, bind_ok, pure_ok] at h
    obtain ⟨t, s₁, h1, us, s₂, h2, rfl, rfl⟩ := h
    obtain ⟨a1, c1, e1⟩ := fresh_right (R := R) ho h1
    obtain ⟨a2, c2, e2, l2⟩ := freshes_right k a1.ok h2
    exact ⟨a1.trans a2, Cleans.cons.2 ⟨c1, c2⟩, e2.trans e1, by simp only [Tys.length, l2]⟩

theorem collapseI_right {n : Nat} {s s' : St} {t u : Ty Cell} {ρ : Cell → Tree} (ho : Ok s ρ) (h : collapseI n t s = .ok (u, s')) :
    s' = s ∧ u.sub ρ = t.sub ρ ∧ NotLink s.heap u := by
  unfold collapseI at h
  split at h
  · next v hv =>
    cases h
    obtain ⟨h1, h2⟩ := collapse_right _ _ ho.good.reading _ _ _ hv
    exact ⟨rfl, h2, h1⟩
  · simp at h

/-- Giving an unbound variable a type. -/
theorem linkTo_right {R : List Nat} {s s' : St} {c : Cell} {t : Ty Cell} {x : Unit} {ρ : Cell → Tree} (ho : Ok s ρ) (hn : NotLink s.heap t)
    (hf : ∀ id, s.heap c = .unbound id → ¬ (t.sub ρ).Has (.unbound id)) (ht : Clean R (t.sub ρ)) (h : linkTo c t s = .ok (x, s')) :
    ∃ ρ', After R s ρ s' ρ' ∧ ρ' c = t.sub ρ' := by
  unfold linkTo at h
  split at h
  · next id hi =>
    cases h
    have hg := good_bind s.heap ρ c id t ho.good hi hn (hf id hi)
    have hto : To R ρ fun v => (Assignment.one id (t.sub ρ)).on (ρ v) := ⟨_, fun i => by
      unfold Assignment.one
      split
      · exact ht
      · exact Clean.unbound R i, rfl⟩
    refine ⟨_, ⟨hto, ho.after hto hg rfl, rfl⟩, ?_⟩
    exact hg.reading.link c t (set_same _ _ _)
  · simp at h

end Verif.Infer
