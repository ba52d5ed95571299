import Verif.Unify.Spec
import Mathlib.Tactic.Common
import Mathlib.Order.Nat

namespace Verif.Unify

/-! ### Replacing -/

mutual
theorem Ty.sub_sub {U V W : Type} (f : V → Ty W) (g : U → Ty V) : ∀ t : Ty U, (t.sub g).sub f = t.sub fun v => (g v).sub f
  | .var _ => rfl
  | .named m x as => by simp only [Ty.sub]; rw [Tys.sub_sub f g as]
  | .fn as r => by simp only [Ty.sub]; rw [Tys.sub_sub f g as, Ty.sub_sub f g r]
  | .tuple as => by simp only [Ty.sub]; rw [Tys.sub_sub f g as]
theorem Tys.sub_sub {U V W : Type} (f : V → Ty W) (g : U → Ty V) : ∀ t : Tys U, (t.sub g).sub f = t.sub fun v => (g v).sub f
  | .nil => rfl
  | .cons a as => by simp only [Tys.sub]; rw [Ty.sub_sub f g a, Tys.sub_sub f g as]
end

mutual
theorem Ty.sub_congr {V W : Type} (f g : V → Ty W) : ∀ t : Ty V, (∀ v, t.Has v → f v = g v) → t.sub f = t.sub g
  | .var v, h => h v rfl
  | .named m x as, h => by simp only [Ty.sub]; rw [Tys.sub_congr f g as h]
  | .fn as r, h => by
    simp only [Ty.sub]; rw [Tys.sub_congr f g as (fun v hv => h v (Or.inl hv)), Ty.sub_congr f g r (fun v hv => h v (Or.inr hv))]
  | .tuple as, h => by simp only [Ty.sub]; rw [Tys.sub_congr f g as h]
theorem Tys.sub_congr {V W : Type} (f g : V → Ty W) : ∀ t : Tys V, (∀ v, t.Has v → f v = g v) → t.sub f = t.sub g
  | .nil, _ => rfl
  | .cons a as, h => by
    simp only [Tys.sub]; rw [Ty.sub_congr f g a (fun v hv => h v (Or.inl hv)), Tys.sub_congr f g as (fun v hv => h v (Or.inr hv))]
end

mutual
theorem Ty.sub_var {V : Type} : ∀ t : Ty V, t.sub .var = t
  | .var _ => rfl
  | .named m x as => by simp only [Ty.sub]; rw [Tys.sub_var as]
  | .fn as r => by simp only [Ty.sub]; rw [Tys.sub_var as, Ty.sub_var r]
  | .tuple as => by simp only [Ty.sub]; rw [Tys.sub_var as]
theorem Tys.sub_var {V : Type} : ∀ t : Tys V, t.sub .var = t
  | .nil => rfl
  | .cons a as => by simp only [Tys.sub]; rw [Ty.sub_var a, Tys.sub_var as]
end

mutual
def Ty.size {V : Type} : Ty V → Nat
  | .var _ => 1
  | .named _ _ as => as.size + 1
  | .fn as r => as.size + r.size + 1
  | .tuple as => as.size + 1
def Tys.size {V : Type} : Tys V → Nat
  | .nil => 0
  | .cons a as => a.size + as.size
end

theorem Ty.size_pos {V : Type} (t : Ty V) : 0 < t.size := by cases t <;> simp [Ty.size]

mutual
theorem Ty.size_sub_le {V W : Type} (f : V → Ty W) (v : V) : ∀ t : Ty V, t.Has v → (f v).size ≤ (t.sub f).size
  | .var w, h => by simp only [Ty.Has] at h; subst h; simp [Ty.sub]
  | .named m x as, h => by have := Tys.size_sub_le f v as h; simp only [Ty.sub, Ty.size]; omega
  | .fn as r, h => by
    simp only [Ty.sub, Ty.size]
    rcases h with h | h
    · have := Tys.size_sub_le f v as h; omega
    · have := Ty.size_sub_le f v r h; omega
  | .tuple as, h => by have := Tys.size_sub_le f v as h; simp only [Ty.sub, Ty.size]; omega
theorem Tys.size_sub_le {V W : Type} (f : V → Ty W) (v : V) : ∀ t : Tys V, t.Has v → (f v).size ≤ (t.sub f).size
  | .nil, h => h.elim
  | .cons a as, h => by
    simp only [Tys.sub, Tys.size]
    rcases h with h | h
    · have := Ty.size_sub_le f v a h; omega
    · have := Tys.size_sub_le f v as h; omega
end

def Ty.IsVar {V : Type} : Ty V → Prop
  | .var _ => True
  | _ => False

/-- A variable inside a proper structure stands for something smaller. -/
theorem Ty.size_sub_lt {V W : Type} (f : V → Ty W) (v : V) (t : Ty V) (h : t.Has v) (ht : ¬ t.IsVar) : (f v).size < (t.sub f).size := by
  cases t with
  | var w => exact (ht trivial).elim
  | named m x as => have := Tys.size_sub_le f v as h; simp only [Ty.sub, Ty.size]; omega
  | fn as r =>
    simp only [Ty.sub, Ty.size]
    rcases h with h | h
    · have := Tys.size_sub_le f v as h; have := Ty.size_pos (r.sub f); omega
    · have := Ty.size_sub_le f v r h; omega
  | tuple as => have := Tys.size_sub_le f v as h; simp only [Ty.sub, Ty.size]; omega

mutual
theorem Ty.has_sub {V W : Type} (f : V → Ty W) (w : W) : ∀ t : Ty V, (t.sub f).Has w ↔ ∃ v, t.Has v ∧ (f v).Has w
  | .var v => by simp [Ty.sub, Ty.Has]
  | .named m x as => by simp only [Ty.sub, Ty.Has]; exact Tys.has_sub f w as
  | .fn as r => by
    simp only [Ty.sub, Ty.Has]; rw [Tys.has_sub f w as, Ty.has_sub f w r]
    constructor
    · rintro (⟨v, h1, h2⟩ | ⟨v, h1, h2⟩)
      · exact ⟨v, Or.inl h1, h2⟩
      · exact ⟨v, Or.inr h1, h2⟩
    · rintro ⟨v, h1 | h1, h2⟩
      · exact Or.inl ⟨v, h1, h2⟩
      · exact Or.inr ⟨v, h1, h2⟩
  | .tuple as => by simp only [Ty.sub, Ty.Has]; exact Tys.has_sub f w as
theorem Tys.has_sub {V W : Type} (f : V → Ty W) (w : W) : ∀ t : Tys V, (t.sub f).Has w ↔ ∃ v, t.Has v ∧ (f v).Has w
  | .nil => by simp [Tys.sub, Tys.Has]
  | .cons a as => by
    simp only [Tys.sub, Tys.Has]; rw [Ty.has_sub f w a, Tys.has_sub f w as]
    constructor
    · rintro (⟨v, h1, h2⟩ | ⟨v, h1, h2⟩)
      · exact ⟨v, Or.inl h1, h2⟩
      · exact ⟨v, Or.inr h1, h2⟩
    · rintro ⟨v, h1 | h1, h2⟩
      · exact Or.inl ⟨v, h1, h2⟩
      · exact Or.inr ⟨v, h1, h2⟩
end

theorem Tys.length_sub {V W : Type} (f : V → Ty W) : ∀ t : Tys V, (t.sub f).length = t.length
  | .nil => rfl
  | .cons a as => by simp only [Tys.sub, Tys.length]; rw [Tys.length_sub f as]

/-! ### Assignments -/

namespace Assignment

def none_ : Assignment := fun id => .var (.unbound id)

theorem on_none (t : Tree) : none_.on t = t := by
  have : none_.leaf = Ty.var := by funext l; cases l <;> rfl
  rw [on, this, Ty.sub_var]

def then_ (σ τ : Assignment) : Assignment := fun id => τ.on (σ id)

theorem on_then (σ τ : Assignment) (t : Tree) : (σ.then_ τ).on t = τ.on (σ.on t) := by
  unfold on
  rw [Ty.sub_sub]
  congr 1
  funext l
  cases l <;> rfl

def one (id : Nat) (u : Tree) : Assignment := fun i => if i = id then u else .var (.unbound i)

theorem one_absent (id : Nat) (u t : Tree) (h : ¬ t.Has (.unbound id)) : (one id u).on t = t := by
  conv => rhs; rw [← Ty.sub_var t]
  refine Ty.sub_congr _ _ t fun l hl => ?_
  cases l with
  | unbound i =>
    have : i ≠ id := by rintro rfl; exact h hl
    simp [leaf, one, this]
  | generic => rfl

/-- Refining: what the more particular assignment makes of the more general one. -/
def Refines (θ σ : Assignment) : Prop := ∀ id, θ.on (σ id) = θ id

theorem Refines.on {θ σ : Assignment} (h : Refines θ σ) (t : Tree) : θ.on (σ.on t) = θ.on t := by
  rw [← on_then]
  have : σ.then_ θ = θ := by funext id; exact h id
  rw [this]

theorem Refines.then_ {θ σ τ : Assignment} (h : Refines θ σ) (h' : Refines θ τ) : Refines θ (σ.then_ τ) := by
  intro id
  show θ.on (τ.on (σ id)) = θ id
  rw [h'.on, h id]

theorem refines_none (θ : Assignment) : Refines θ none_ := fun _ => rfl

theorem refines_one (θ : Assignment) (id : Nat) (u : Tree) (h : θ id = θ.on u) : Refines θ (one id u) := by
  intro i
  unfold one
  by_cases hi : i = id
  · subst hi; rw [if_pos rfl, h]
  · rw [if_neg hi]; rfl

end Assignment

/-! ### States -/

/-- Chains of links from variable to variable end. -/
def Chains (s : Heap) : Prop := ∃ rank : Cell → Nat, ∀ c d, s c = .link (.var d) → rank d < rank c

structure Good (s : Heap) (ρ : Cell → Tree) : Prop where
  reading : Reading s ρ
  unique : UniqueIds s
  chains : Chains s

theorem set_same (s : Heap) (c : Cell) (v : TypeVar) : (s.set c v) c = v := by simp [Heap.set]
theorem set_other (s : Heap) (c d : Cell) (v : TypeVar) (h : d ≠ c) : (s.set c v) d = s d := by simp [Heap.set, h]

def NotLink (s : Heap) : Ty Cell → Prop
  | .var c => ∀ t, s c ≠ .link t
  | _ => True

/-- Chains stay finite when a cell is made to point to something that is no link. -/
theorem chains_set_link (s : Heap) (c : Cell) (u : Ty Cell) (hs : Chains s) (hu : NotLink s u) (hc : u ≠ .var c) :
    Chains (s.set c (.link u)) := by
  obtain ⟨rank, hr⟩ := hs
  classical
  refine ⟨fun d => if d ≠ c ∧ ∀ t, s d ≠ .link t then 0 else rank d + 1, ?_⟩
  intro a b hab
  by_cases ha : a = c
  · subst ha
    rw [set_same] at hab
    injection hab with hab
    subst hab
    have hb : b ≠ a := by rintro rfl; exact hc rfl
    have h1 : b ≠ a ∧ ∀ t, s b ≠ .link t := ⟨hb, hu⟩
    simp only [if_pos h1]
    rw [if_neg (by rintro ⟨h, _⟩; exact h rfl)]
    omega
  · rw [set_other _ _ _ _ ha] at hab
    have := hr a b hab
    have h2 : ¬ (a ≠ c ∧ ∀ t, s a ≠ .link t) := fun h => h.2 _ hab
    simp only [if_neg h2]
    split <;> omega

theorem chains_set_generic (s : Heap) (c : Cell) (id : Nat) (hs : Chains s) : Chains (s.set c (.generic id)) := by
  obtain ⟨rank, hr⟩ := hs
  refine ⟨rank, ?_⟩
  intro a b hab
  by_cases ha : a = c
  · subst ha; rw [set_same] at hab; cases hab
  · rw [set_other _ _ _ _ ha] at hab; exact hr a b hab

theorem unique_set (s : Heap) (c : Cell) (v : TypeVar) (hv : ∀ id, v ≠ .unbound id) (hs : UniqueIds s) : UniqueIds (s.set c v) := by
  intro a b id ha hb
  by_cases h1 : a = c
  · subst h1; rw [set_same] at ha; exact (hv _ ha).elim
  · by_cases h2 : b = c
    · subst h2; rw [set_same] at hb; exact (hv _ hb).elim
    · rw [set_other _ _ _ _ h1] at ha; rw [set_other _ _ _ _ h2] at hb; exact hs a b id ha hb

theorem sub_on (ρ : Cell → Tree) (σ : Assignment) (t : Ty Cell) : (t.sub fun v => σ.on (ρ v)) = σ.on (t.sub ρ) := by
  unfold Assignment.on; rw [Ty.sub_sub]

theorem subs_on (ρ : Cell → Tree) (σ : Assignment) (t : Tys Cell) : (t.sub fun v => σ.on (ρ v)) = (t.sub ρ).sub σ.leaf := by
  unfold Assignment.on; rw [Tys.sub_sub]

/-- Binding an unbound variable. -/
theorem good_bind (s : Heap) (ρ : Cell → Tree) (c : Cell) (id : Nat) (u : Ty Cell) (g : Good s ρ) (hc : s c = .unbound id)
    (hu : NotLink s u) (ho : ¬ (u.sub ρ).Has (.unbound id)) :
    Good (s.set c (.link u)) (fun v => (Assignment.one id (u.sub ρ)).on (ρ v)) := by
  refine ⟨⟨?_, ?_, ?_⟩, unique_set _ _ _ (by simp) g.unique, chains_set_link _ _ _ g.chains hu ?_⟩
  · intro d t hd
    rw [sub_on]
    by_cases h : d = c
    · subst h
      rw [set_same] at hd
      injection hd with hd
      subst hd
      show (Assignment.one id _).on (ρ d) = _
      rw [g.reading.unbound d id hc, Assignment.one_absent _ _ _ ho]
      simp [Assignment.on, Ty.sub, Assignment.leaf, Assignment.one]
    · rw [set_other _ _ _ _ h] at hd
      show (Assignment.one id _).on (ρ d) = _
      rw [g.reading.link d t hd]
  · intro d i hd
    by_cases h : d = c
    · subst h; rw [set_same] at hd; cases hd
    · rw [set_other _ _ _ _ h] at hd
      show (Assignment.one id _).on (ρ d) = _
      rw [g.reading.unbound d i hd]
      have : i ≠ id := by rintro rfl; exact h (g.unique d c i hd hc)
      simp [Assignment.on, Ty.sub, Assignment.leaf, Assignment.one, this]
  · intro d i hd
    by_cases h : d = c
    · subst h; rw [set_same] at hd; cases hd
    · rw [set_other _ _ _ _ h] at hd
      show (Assignment.one id _).on (ρ d) = _
      rw [g.reading.generic d i hd]
      rfl
  · rintro rfl
    apply ho
    simp only [Ty.sub]
    rw [g.reading.unbound c id hc]
    simp [Ty.Has]

/-- Making an unbound variable generic. -/
theorem good_generic (s : Heap) (ρ : Cell → Tree) (c : Cell) (id i : Nat) (g : Good s ρ) (hc : s c = .unbound id) :
    Good (s.set c (.generic i)) (fun v => (Assignment.one id (.var (.generic i))).on (ρ v)) := by
  refine ⟨⟨?_, ?_, ?_⟩, unique_set _ _ _ (by simp) g.unique, chains_set_generic _ _ _ g.chains⟩
  · intro d t hd
    rw [sub_on]
    by_cases h : d = c
    · subst h; rw [set_same] at hd; cases hd
    · rw [set_other _ _ _ _ h] at hd
      show (Assignment.one id _).on (ρ d) = _
      rw [g.reading.link d t hd]
  · intro d j hd
    by_cases h : d = c
    · subst h; rw [set_same] at hd; cases hd
    · rw [set_other _ _ _ _ h] at hd
      show (Assignment.one id _).on (ρ d) = _
      rw [g.reading.unbound d j hd]
      have : j ≠ id := by rintro rfl; exact h (g.unique d c j hd hc)
      simp [Assignment.on, Ty.sub, Assignment.leaf, Assignment.one, this]
  · intro d j hd
    show (Assignment.one id _).on (ρ d) = _
    by_cases h : d = c
    · subst h
      rw [set_same] at hd
      injection hd with hd
      subst hd
      rw [g.reading.unbound d id hc]
      simp [Assignment.on, Ty.sub, Assignment.leaf, Assignment.one]
    · rw [set_other _ _ _ _ h] at hd
      rw [g.reading.generic d j hd]
      rfl

/-- Shortening a link. -/
theorem good_shorten (s : Heap) (ρ : Cell → Tree) (c : Cell) (t u : Ty Cell) (g : Good s ρ) (hc : s c = .link t)
    (hu : NotLink s u) (he : u.sub ρ = ρ c) : Good (s.set c (.link u)) ρ := by
  refine ⟨⟨?_, ?_, ?_⟩, unique_set _ _ _ (by simp) g.unique, chains_set_link _ _ _ g.chains hu ?_⟩
  · intro d v hd
    by_cases h : d = c
    · subst h
      rw [set_same] at hd
      injection hd with hd
      subst hd
      exact he.symm
    · rw [set_other _ _ _ _ h] at hd; exact g.reading.link d v hd
  · intro d i hd
    by_cases h : d = c
    · subst h; rw [set_same] at hd; cases hd
    · rw [set_other _ _ _ _ h] at hd; exact g.reading.unbound d i hd
  · intro d i hd
    by_cases h : d = c
    · subst h; rw [set_same] at hd; cases hd
    · rw [set_other _ _ _ _ h] at hd; exact g.reading.generic d i hd
  · rintro rfl
    exact hu t hc

/-! ### The helpers are right -/

theorem sameAll_sound (ρ : Cell → Tree) (f : Ty Cell → Ty Cell → Option Bool) (hf : ∀ a b, f a b = some true → a.sub ρ = b.sub ρ) :
    ∀ as bs : Tys Cell, sameAll f as bs = some true → as.sub ρ = bs.sub ρ
  | .nil, .nil, _ => rfl
  | .nil, .cons b bs, h => by simp [sameAll] at h
  | .cons a as, .nil, h => by simp [sameAll] at h
  | .cons a as, .cons b bs, h => by
    simp only [sameAll] at h
    cases h1 : f a b with
    | none => simp [h1] at h
    | some v =>
      cases v with
      | false => simp [h1] at h
      | true =>
        simp only [h1] at h
        simp only [Tys.sub]
        rw [hf a b h1, sameAll_sound ρ f hf as bs h]

theorem same_sound (s : Heap) (ρ : Cell → Tree) (g : Reading s ρ) :
    ∀ n t u, same n s t u = some true → t.sub ρ = u.sub ρ := by
  intro n
  induction n with
  | zero => intro t u h; simp [same] at h
  | succ n ih =>
    intro t u h
    cases t with
    | var c =>
      cases u with
      | var d =>
        simp only [same] at h
        simp only [Ty.sub]
        cases hc : s c with
        | link t =>
          cases hd : s d with
          | link u => simp only [hc, hd] at h; rw [g.link c t hc, g.link d u hd]; exact ih t u h
          | unbound j => simp [hc, hd] at h
          | generic j => simp [hc, hd] at h
        | unbound i =>
          cases hd : s d with
          | link u => simp [hc, hd] at h
          | unbound j => simp [hc, hd] at h; subst h; rw [g.unbound c i hc, g.unbound d i hd]
          | generic j => simp [hc, hd] at h
        | generic i =>
          cases hd : s d with
          | link u => simp [hc, hd] at h
          | unbound j => simp [hc, hd] at h
          | generic j => simp [hc, hd] at h; subst h; rw [g.generic c i hc, g.generic d i hd]
      | named | fn | tuple => simp [same] at h
    | named m x as =>
      cases u with
      | named m' x' bs =>
        simp only [same] at h
        split at h
        · rename_i he
          obtain ⟨rfl, rfl⟩ := he
          simp only [Ty.sub]
          rw [sameAll_sound ρ _ ih as bs h]
        · simp at h
      | var | fn | tuple => simp [same] at h
    | fn as r =>
      cases u with
      | fn bs r' =>
        simp only [same] at h
        cases h1 : sameAll (same n s) as bs with
        | none => simp [h1] at h
        | some v =>
          cases v with
          | false => simp [h1] at h
          | true =>
            simp only [h1] at h
            simp only [Ty.sub]
            rw [sameAll_sound ρ _ ih as bs h1, ih r r' h]
      | var | named | tuple => simp [same] at h
    | tuple as =>
      cases u with
      | tuple bs =>
        simp only [same] at h
        simp only [Ty.sub]
        rw [sameAll_sound ρ _ ih as bs h]
      | var | named | fn => simp [same] at h

theorem same_self_var (s : Heap) (c : Cell) (id : Nat) (h : s c = .unbound id ∨ s c = .generic id) (n : Nat) (d : Cell)
    (h' : s d = s c) (b : Bool) (hs : same n s (.var c) (.var d) = some b) : b = true := by
  cases n with
  | zero => simp [same] at hs
  | succ n => rcases h with h | h <;> simpa [same, h', h] using hs.symm

theorem occursAny_right (ρ : Cell → Tree) (id : Nat) (f : Ty Cell → Option Bool)
    (hf : ∀ a b, f a = some b → (b = true ↔ (a.sub ρ).Has (.unbound id))) :
    ∀ (as : Tys Cell) (b : Bool), occursAny f as = some b → (b = true ↔ (as.sub ρ).Has (.unbound id))
  | .nil, b, h => by simp only [occursAny, Option.some.injEq] at h; subst h; simp [Tys.sub, Tys.Has]
  | .cons a as, b, h => by
    simp only [occursAny] at h
    simp only [Tys.sub, Tys.Has]
    cases h1 : f a with
    | none => simp [h1] at h
    | some v =>
      have := hf a v h1
      cases v with
      | true => simp only [h1, Option.some.injEq] at h; subst h; simp only [true_iff]; exact Or.inl (this.1 rfl)
      | false =>
        simp only [h1] at h
        have h2 := occursAny_right ρ id f hf as b h
        rw [h2]
        constructor
        · exact Or.inr
        · rintro (h3 | h3)
          · exact absurd (this.2 h3) (by simp)
          · exact h3

theorem occurs_right (s : Heap) (ρ : Cell → Tree) (g : Reading s ρ) (id : Nat) :
    ∀ n t b, occurs n s id t = some b → (b = true ↔ (t.sub ρ).Has (.unbound id)) := by
  intro n
  induction n with
  | zero => intro t b h; simp [occurs] at h
  | succ n ih =>
    intro t b h
    cases t with
    | var c =>
      simp only [occurs] at h
      simp only [Ty.sub]
      cases hc : s c with
      | link t => simp only [hc] at h; rw [g.link c t hc]; exact ih t b h
      | unbound i =>
        simp only [hc, Option.some.injEq] at h
        rw [g.unbound c i hc, ← h]
        simp [Ty.Has]
      | generic i =>
        simp only [hc, Option.some.injEq] at h
        rw [g.generic c i hc, ← h]
        simp [Ty.Has]
    | named m x as =>
      simp only [occurs] at h
      simp only [Ty.sub, Ty.Has]
      exact occursAny_right ρ id _ ih as b h
    | fn as r =>
      simp only [occurs] at h
      simp only [Ty.sub, Ty.Has]
      cases h1 : occursAny (occurs n s id) as with
      | none => simp [h1] at h
      | some v =>
        have := occursAny_right ρ id _ ih as v h1
        cases v with
        | true => simp only [h1, Option.some.injEq] at h; subst h; simp only [true_iff]; exact Or.inl (this.1 rfl)
        | false =>
          simp only [h1] at h
          rw [ih r b h]
          constructor
          · exact Or.inr
          · rintro (h3 | h3)
            · exact absurd (this.2 h3) (by simp)
            · exact h3
    | tuple as =>
      simp only [occurs] at h
      simp only [Ty.sub, Ty.Has]
      exact occursAny_right ρ id _ ih as b h

theorem collapse_right (s : Heap) (ρ : Cell → Tree) (g : Reading s ρ) :
    ∀ n t u, collapse n s t = some u → NotLink s u ∧ u.sub ρ = t.sub ρ := by
  intro n
  induction n with
  | zero => intro t u h; simp [collapse] at h
  | succ n ih =>
    intro t u h
    cases t with
    | var c =>
      simp only [collapse] at h
      cases hc : s c with
      | link t =>
        simp only [hc] at h
        have := ih t u h
        refine ⟨this.1, ?_⟩
        rw [this.2]
        simp only [Ty.sub]
        rw [g.link c t hc]
      | unbound i =>
        simp only [hc, Option.some.injEq] at h
        subst h
        exact ⟨fun t ht => (by rw [hc] at ht; cases ht), rfl⟩
      | generic i =>
        simp only [hc, Option.some.injEq] at h
        subst h
        exact ⟨fun t ht => (by rw [hc] at ht; cases ht), rfl⟩
    | named | fn | tuple => simp only [collapse, Option.some.injEq] at h; subst h; exact ⟨trivial, rfl⟩

end Verif.Unify
