import Verif.Unify.Main

namespace Verif.Unify

open Assignment (one none_)

/-! ### More fuel gives the same result -/

theorem sameAll_mono {f f' : Ty Cell → Ty Cell → Option Bool} (hf : ∀ a b r, f a b = some r → f' a b = some r) :
    ∀ (as bs : Tys Cell) (r : Bool), sameAll f as bs = some r → sameAll f' as bs = some r
  | .nil, .nil, r, h => h
  | .nil, .cons b bs, r, h => h
  | .cons a as, .nil, r, h => h
  | .cons a as, .cons b bs, r, h => by
    simp only [sameAll] at h ⊢
    cases h1 : f a b with
    | none => simp [h1] at h
    | some v =>
      rw [hf a b v h1]
      cases v with
      | false => simpa [h1] using h
      | true => simp only [h1] at h; exact sameAll_mono hf as bs r h

theorem same_succ (s : Heap) : ∀ n t u r, same n s t u = some r → same (n + 1) s t u = some r := by
  intro n
  induction n with
  | zero => intro t u r h; simp [same] at h
  | succ n ih =>
    intro t u r h
    cases t with
    | var c =>
      cases u with
      | var d =>
        unfold same at h ⊢
        cases hc : s c with
        | link t =>
          cases hd : s d with
          | link u => simp only [hc, hd] at h ⊢; exact ih t u r h
          | unbound j => simpa [hc, hd] using h
          | generic j => simpa [hc, hd] using h
        | unbound i => cases hd : s d <;> simpa [hc, hd] using h
        | generic i => cases hd : s d <;> simpa [hc, hd] using h
      | named | fn | tuple => simpa [same] using h
    | named m x as =>
      cases u with
      | named m' x' bs =>
        unfold same at h ⊢
        split at h
        · rename_i he
          rw [if_pos he]
          exact sameAll_mono ih as bs r h
        · rename_i he
          rw [if_neg he]; exact h
      | var | fn | tuple => simpa [same] using h
    | fn as p =>
      cases u with
      | fn bs p' =>
        unfold same at h ⊢
        cases h1 : sameAll (same n s) as bs with
        | none => simp [h1] at h
        | some v =>
          rw [sameAll_mono ih as bs v h1]
          cases v with
          | false => simpa [h1] using h
          | true => simp only [h1] at h; exact ih p p' r h
      | var | named | tuple => simpa [same] using h
    | tuple as =>
      cases u with
      | tuple bs => unfold same at h ⊢; exact sameAll_mono ih as bs r h
      | var | named | fn => simpa [same] using h

theorem same_mono (s : Heap) {n m : Nat} (hnm : n ≤ m) {t u r} (h : same n s t u = some r) : same m s t u = some r := by
  induction hnm with
  | refl => exact h
  | step _ ih => exact same_succ s _ t u r ih

theorem occursAny_mono {f f' : Ty Cell → Option Bool} (hf : ∀ a r, f a = some r → f' a = some r) :
    ∀ (as : Tys Cell) (r : Bool), occursAny f as = some r → occursAny f' as = some r
  | .nil, r, h => h
  | .cons a as, r, h => by
    simp only [occursAny] at h ⊢
    cases h1 : f a with
    | none => simp [h1] at h
    | some v =>
      rw [hf a v h1]
      cases v with
      | true => simpa [h1] using h
      | false => simp only [h1] at h; exact occursAny_mono hf as r h

theorem occurs_succ (s : Heap) (id : Nat) : ∀ n t r, occurs n s id t = some r → occurs (n + 1) s id t = some r := by
  intro n
  induction n with
  | zero => intro t r h; simp [occurs] at h
  | succ n ih =>
    intro t r h
    cases t with
    | var c =>
      unfold occurs at h ⊢
      cases hc : s c with
      | link t => simp only [hc] at h ⊢; exact ih t r h
      | unbound i => simpa [hc] using h
      | generic i => simpa [hc] using h
    | named m x as => unfold occurs at h ⊢; exact occursAny_mono ih as r h
    | fn as p =>
      unfold occurs at h ⊢
      cases h1 : occursAny (occurs n s id) as with
      | none => simp [h1] at h
      | some v =>
        rw [occursAny_mono ih as v h1]
        cases v with
        | true => simpa [h1] using h
        | false => simp only [h1] at h; exact ih p r h
    | tuple as => unfold occurs at h ⊢; exact occursAny_mono ih as r h

theorem occurs_mono (s : Heap) (id : Nat) {n m : Nat} (hnm : n ≤ m) {t r} (h : occurs n s id t = some r) : occurs m s id t = some r := by
  induction hnm with
  | refl => exact h
  | step _ ih => exact occurs_succ s id _ t r ih

theorem collapse_succ (s : Heap) : ∀ n t r, collapse n s t = some r → collapse (n + 1) s t = some r := by
  intro n
  induction n with
  | zero => intro t r h; simp [collapse] at h
  | succ n ih =>
    intro t r h
    cases t with
    | var c =>
      unfold collapse at h ⊢
      cases hc : s c with
      | link t => simp only [hc] at h ⊢; exact ih t r h
      | unbound i => simpa [hc] using h
      | generic i => simpa [hc] using h
    | named | fn | tuple => simpa [collapse] using h

theorem collapse_mono (s : Heap) {n m : Nat} (hnm : n ≤ m) {t r} (h : collapse n s t = some r) : collapse m s t = some r := by
  induction hnm with
  | refl => exact h
  | step _ ih => exact collapse_succ s _ t r ih

theorem unifyAll_mono {f f' : Heap → Ty Cell → Ty Cell → Option (Outcome × Heap)} (hf : ∀ s a b r, f s a b = some r → f' s a b = some r) :
    ∀ (as bs : Tys Cell) (s : Heap) (r : Outcome × Heap), unifyAll f s as bs = some r → unifyAll f' s as bs = some r
  | .nil, .nil, _, _, h => h
  | .nil, .cons _ _, _, _, h => h
  | .cons _ _, .nil, _, _, h => h
  | .cons a as, .cons b bs, s, r, h => by
    simp only [unifyAll] at h ⊢
    cases h1 : f s a b with
    | none => simp [h1] at h
    | some q =>
      rw [hf s a b q h1]
      obtain ⟨o, s1⟩ := q
      cases o with
      | ok => simp only [h1] at h; exact unifyAll_mono hf as bs s1 r h
      | fail => simpa [h1] using h
      | panic => simpa [h1] using h

theorem unifyStructures_mono {f f' : Heap → Ty Cell → Ty Cell → Option (Outcome × Heap)}
    (hf : ∀ s a b r, f s a b = some r → f' s a b = some r) (s : Heap) (t u : Ty Cell) (r : Outcome × Heap)
    (h : unifyStructures f s t u = some r) : unifyStructures f' s t u = some r := by
  cases t with
  | var => cases u <;> simpa [unifyStructures] using h
  | named m x as =>
    cases u with
    | named m' x' bs =>
      simp only [unifyStructures] at h ⊢
      split at h
      · rename_i he; rw [if_pos he]; exact unifyAll_mono hf as bs s r h
      · rename_i he; rw [if_neg he]; exact h
    | var | fn | tuple => simpa [unifyStructures] using h
  | fn as p =>
    cases u with
    | fn bs p' =>
      simp only [unifyStructures] at h ⊢
      split at h
      · rename_i he
        rw [if_pos he]
        cases h1 : unifyAll f s as bs with
        | none => simp [h1] at h
        | some q =>
          rw [unifyAll_mono hf as bs s q h1]
          obtain ⟨o, s1⟩ := q
          cases o with
          | ok => simp only [h1] at h; exact hf s1 p p' r h
          | fail => simpa [h1] using h
          | panic => simpa [h1] using h
      · rename_i he; rw [if_neg he]; exact h
    | var | named | tuple => simpa [unifyStructures] using h
  | tuple as =>
    cases u with
    | tuple bs =>
      simp only [unifyStructures] at h ⊢
      split at h
      · rename_i he; rw [if_pos he]; exact unifyAll_mono hf as bs s r h
      · rename_i he; rw [if_neg he]; exact h
    | var | named | fn => simpa [unifyStructures] using h

theorem unifyLink_mono {n : Nat} {held : List Cell} {c : Cell} {t : Ty Cell} {q q' : Option (Outcome × Heap)}
    (hq : ∀ r, q = some r → q' = some r) (r : Outcome × Heap) (h : unifyLink n held c t q = some r) :
    unifyLink (n + 1) held c t q' = some r := by
  cases q with
  | none => simp [unifyLink] at h
  | some v =>
    rw [hq v rfl]
    obtain ⟨o, s1⟩ := v
    cases o with
    | ok =>
      simp only [unifyLink] at h ⊢
      split at h
      · rename_i he; rw [if_pos he]; exact h
      · rename_i he
        rw [if_neg he]
        cases hc : collapse n s1 t with
        | none => simp [hc] at h
        | some u => rw [collapse_succ s1 n t u hc]; simpa [hc] using h
    | fail => simpa [unifyLink] using h
    | panic => simpa [unifyLink] using h

theorem unifyUnbound_mono {n : Nat} {held : List Cell} {s : Heap} {c : Cell} {id : Nat} {t2 : Ty Cell} (r : Outcome × Heap)
    (h : unifyUnbound n held s c id t2 = some r) : unifyUnbound (n + 1) held s c id t2 = some r := by
  unfold unifyUnbound at h ⊢
  cases ho : occurs n s id t2 with
  | none => simp [ho] at h
  | some b => rw [occurs_succ s id n t2 b ho]; simpa [ho] using h

theorem unify_succ : ∀ n held s t1 t2 r, unify n held s t1 t2 = some r → unify (n + 1) held s t1 t2 = some r := by
  intro n
  induction n with
  | zero => intro held s t1 t2 r h; simp [unify] at h
  | succ n ih =>
    intro held s t1 t2 r h
    unfold unify at h ⊢
    cases hs : same n s t1 t2 with
    | none => simp [hs] at h
    | some b =>
      rw [same_succ s n t1 t2 b hs]
      cases b with
      | true => simpa [hs] using h
      | false =>
        simp only [hs] at h ⊢
        cases hl : linkOf s t2 with
        | some q =>
          obtain ⟨d, t⟩ := q
          simp only [hl] at h ⊢
          exact ih _ s t1 t r h
        | none =>
          simp only [hl] at h ⊢
          cases t1 with
          | var c =>
            simp only at h ⊢
            cases hc : s c with
            | link t => simp only [hc] at h ⊢; exact unifyLink_mono (fun r => ih held s t t2 r) r h
            | unbound id => simp only [hc] at h ⊢; exact unifyUnbound_mono r h
            | generic id => simp only [hc] at h ⊢; exact h
          | named m x as =>
            cases t2 with
            | var d => exact ih held s _ _ r h
            | named | fn | tuple => exact unifyStructures_mono (ih held) s _ _ r h
          | fn as p =>
            cases t2 with
            | var d => exact ih held s _ _ r h
            | named | fn | tuple => exact unifyStructures_mono (ih held) s _ _ r h
          | tuple as =>
            cases t2 with
            | var d => exact ih held s _ _ r h
            | named | fn | tuple => exact unifyStructures_mono (ih held) s _ _ r h

theorem unify_mono {n m : Nat} (hnm : n ≤ m) {held s t1 t2 r} (h : unify n held s t1 t2 = some r) : unify m held s t1 t2 = some r := by
  induction hnm with
  | refl => exact h
  | step _ ih => exact unify_succ _ held s t1 t2 r ih

/-! ### Enough fuel -/

def Tys.All (P : Ty Cell → Prop) : Tys Cell → Prop
  | .nil => True
  | .cons a as => P a ∧ as.All P

theorem Tys.all_of_size {V : Type} (f : Cell → Ty V) (P : Ty Cell → Prop) (k : Nat) (h : ∀ t : Ty Cell, (t.sub f).size < k → P t) :
    ∀ as : Tys Cell, (as.sub f).size < k → as.All P
  | .nil, _ => trivial
  | .cons a as, hs => by
    simp only [Tys.sub, Tys.size] at hs
    exact ⟨h a (by omega), Tys.all_of_size f P k h as (by omega)⟩

def chainRank (rank : Cell → Nat) : Ty Cell → Nat
  | .var c => rank c + 1
  | _ => 0

theorem chainRank_link {s : Heap} {rank : Cell → Nat} (hr : ∀ c d, s c = .link (.var d) → rank d < rank c) {c : Cell} {t : Ty Cell}
    (h : s c = .link t) : chainRank rank t < chainRank rank (.var c) := by
  cases t with
  | var d => have := hr c d h; simp only [chainRank]; omega
  | named | fn | tuple => simp [chainRank]

/-- Induction along what types stand for. -/
theorem ty_induct {s : Heap} {ρ : Cell → Tree} (g : Good s ρ) (P : Ty Cell → Prop)
    (hvar : ∀ c, (∀ t, s c = .link t → P t) → P (.var c)) (hnamed : ∀ m x as, Tys.All P as → P (.named m x as))
    (hfn : ∀ as r, Tys.All P as → P r → P (.fn as r)) (htuple : ∀ as, Tys.All P as → P (.tuple as)) : ∀ t, P t := by
  obtain ⟨rank, hr⟩ := g.chains
  have key : ∀ k, ∀ t : Ty Cell, (t.sub ρ).size = k → P t := by
    intro k
    induction k using Nat.strong_induction_on with
    | _ k ih =>
      have ih' : ∀ t : Ty Cell, (t.sub ρ).size < k → P t := fun t h => ih _ h t rfl
      have inner : ∀ j, ∀ t : Ty Cell, (t.sub ρ).size = k → chainRank rank t = j → P t := by
        intro j
        induction j using Nat.strong_induction_on with
        | _ j jh =>
          intro t ht hj
          cases t with
          | var c =>
            refine hvar c fun u hu => ?_
            refine jh (chainRank rank u) (hj ▸ chainRank_link hr hu) u ?_ rfl
            rw [← ht]
            simp only [Ty.sub]
            rw [g.reading.link c u hu]
          | named m x as =>
            simp only [Ty.sub, Ty.size] at ht
            exact hnamed m x as (Tys.all_of_size ρ P k ih' as (by omega))
          | fn as r =>
            simp only [Ty.sub, Ty.size] at ht
            have := Ty.size_pos (r.sub ρ)
            exact hfn as r (Tys.all_of_size ρ P k ih' as (by omega)) (ih' r (by omega))
          | tuple as =>
            simp only [Ty.sub, Ty.size] at ht
            exact htuple as (Tys.all_of_size ρ P k ih' as (by omega))
      exact fun t ht => inner _ t ht rfl
  exact fun t => key _ t rfl

theorem sameAll_total (s : Heap) : ∀ as : Tys Cell, as.All (fun t => ∃ n, ∀ u, ∃ r, same n s t u = some r) →
    ∃ n, ∀ bs, ∃ r, sameAll (same n s) as bs = some r
  | .nil, _ => ⟨0, fun bs => by cases bs <;> exact ⟨_, rfl⟩⟩
  | .cons a as, h => by
    obtain ⟨⟨n1, h1⟩, h2⟩ := h
    obtain ⟨n2, h2⟩ := sameAll_total s as h2
    refine ⟨max n1 n2, fun bs => ?_⟩
    cases bs with
    | nil => exact ⟨_, rfl⟩
    | cons b bs =>
      obtain ⟨r1, e1⟩ := h1 b
      obtain ⟨r2, e2⟩ := h2 bs
      simp only [sameAll]
      rw [same_mono s (Nat.le_max_left n1 n2) e1]
      cases r1 with
      | false => exact ⟨_, rfl⟩
      | true => exact ⟨r2, sameAll_mono (fun a b r h => same_mono s (Nat.le_max_right n1 n2) h) as bs r2 e2⟩

theorem same_total {s : Heap} {ρ : Cell → Tree} (g : Good s ρ) (t : Ty Cell) : ∃ n, ∀ u, ∃ r, same n s t u = some r := by
  refine ty_induct g (fun t => ∃ n, ∀ u, ∃ r, same n s t u = some r) ?_ ?_ ?_ ?_ t
  · intro c h
    cases hc : s c with
    | link t =>
      obtain ⟨n, hn⟩ := h t hc
      refine ⟨n + 1, fun u => ?_⟩
      cases u with
      | var d =>
        simp only [same, hc]
        cases hd : s d with
        | link u => exact hn u
        | unbound j => exact ⟨_, rfl⟩
        | generic j => exact ⟨_, rfl⟩
      | named | fn | tuple => exact ⟨_, rfl⟩
    | unbound i =>
      refine ⟨1, fun u => ?_⟩
      cases u with
      | var d => simp only [same, hc]; cases hd : s d <;> exact ⟨_, rfl⟩
      | named | fn | tuple => exact ⟨_, rfl⟩
    | generic i =>
      refine ⟨1, fun u => ?_⟩
      cases u with
      | var d => simp only [same, hc]; cases hd : s d <;> exact ⟨_, rfl⟩
      | named | fn | tuple => exact ⟨_, rfl⟩
  · intro m x as h
    obtain ⟨n, hn⟩ := sameAll_total s as h
    refine ⟨n + 1, fun u => ?_⟩
    cases u with
    | named m' x' bs =>
      simp only [same]
      split
      · exact hn bs
      · exact ⟨_, rfl⟩
    | var | fn | tuple => exact ⟨_, rfl⟩
  · intro as p h hp
    obtain ⟨n, hn⟩ := sameAll_total s as h
    obtain ⟨n', hn'⟩ := hp
    refine ⟨max n n' + 1, fun u => ?_⟩
    cases u with
    | fn bs p' =>
      obtain ⟨r1, e1⟩ := hn bs
      obtain ⟨r2, e2⟩ := hn' p'
      simp only [same]
      rw [sameAll_mono (fun a b r h => same_mono s (Nat.le_max_left n n') h) as bs r1 e1]
      cases r1 with
      | false => exact ⟨_, rfl⟩
      | true => exact ⟨r2, same_mono s (Nat.le_max_right n n') e2⟩
    | var | named | tuple => exact ⟨_, rfl⟩
  · intro as h
    obtain ⟨n, hn⟩ := sameAll_total s as h
    refine ⟨n + 1, fun u => ?_⟩
    cases u with
    | tuple bs => exact hn bs
    | var | named | fn => exact ⟨_, rfl⟩

theorem occursAny_total (s : Heap) (id : Nat) : ∀ as : Tys Cell, as.All (fun t => ∃ n r, occurs n s id t = some r) →
    ∃ n r, occursAny (occurs n s id) as = some r
  | .nil, _ => ⟨0, _, rfl⟩
  | .cons a as, h => by
    obtain ⟨⟨n1, r1, e1⟩, h2⟩ := h
    obtain ⟨n2, r2, e2⟩ := occursAny_total s id as h2
    refine ⟨max n1 n2, ?_⟩
    simp only [occursAny]
    rw [occurs_mono s id (Nat.le_max_left n1 n2) e1]
    cases r1 with
    | true => exact ⟨_, rfl⟩
    | false => exact ⟨r2, occursAny_mono (fun a r h => occurs_mono s id (Nat.le_max_right n1 n2) h) as r2 e2⟩

theorem occurs_total {s : Heap} {ρ : Cell → Tree} (g : Good s ρ) (id : Nat) (t : Ty Cell) : ∃ n r, occurs n s id t = some r := by
  refine ty_induct g (fun t => ∃ n r, occurs n s id t = some r) ?_ ?_ ?_ ?_ t
  · intro c h
    cases hc : s c with
    | link t => obtain ⟨n, r, e⟩ := h t hc; exact ⟨n + 1, r, by simp only [occurs, hc]; exact e⟩
    | unbound i => exact ⟨1, i == id, by simp only [occurs, hc]⟩
    | generic i => exact ⟨1, false, by simp only [occurs, hc]⟩
  · intro m x as h
    obtain ⟨n, r, e⟩ := occursAny_total s id as h
    exact ⟨n + 1, r, e⟩
  · intro as p h hp
    obtain ⟨n, r, e⟩ := occursAny_total s id as h
    obtain ⟨n', r', e'⟩ := hp
    refine ⟨max n n' + 1, ?_⟩
    simp only [occurs]
    rw [occursAny_mono (fun a r h => occurs_mono s id (Nat.le_max_left n n') h) as r e]
    cases r with
    | true => exact ⟨_, rfl⟩
    | false => exact ⟨r', occurs_mono s id (Nat.le_max_right n n') e'⟩
  · intro as h
    obtain ⟨n, r, e⟩ := occursAny_total s id as h
    exact ⟨n + 1, r, e⟩

theorem collapse_total {s : Heap} {ρ : Cell → Tree} (g : Good s ρ) (t : Ty Cell) : ∃ n r, collapse n s t = some r := by
  refine ty_induct g (fun t => ∃ n r, collapse n s t = some r) ?_ ?_ ?_ ?_ t
  · intro c h
    cases hc : s c with
    | link t => obtain ⟨n, r, e⟩ := h t hc; exact ⟨n + 1, r, by simp only [collapse, hc]; exact e⟩
    | unbound i => exact ⟨1, .var c, by simp only [collapse, hc]⟩
    | generic i => exact ⟨1, .var c, by simp only [collapse, hc]⟩
  · intro m x as _; exact ⟨1, _, rfl⟩
  · intro as p _ _; exact ⟨1, _, rfl⟩
  · intro as _; exact ⟨1, _, rfl⟩

/-! ### Counting unbound variables -/

def count (N : Nat) (s : Heap) : Nat := ((List.range N).filter fun c => (s c).isUnbound).length

theorem filter_length_le {α : Type} (p q : α → Bool) (h : ∀ a, q a = true → p a = true) : ∀ l : List α,
    (l.filter q).length ≤ (l.filter p).length
  | [] => Nat.le_refl _
  | a :: l => by
    have ih := filter_length_le p q h l
    simp only [List.filter_cons]
    cases hq : q a with
    | true => simp [h a hq, ih]
    | false => cases p a <;> simp <;> omega

theorem filter_length_lt {α : Type} (p q : α → Bool) (h : ∀ a, q a = true → p a = true) : ∀ (l : List α) (b : α), b ∈ l →
    p b = true → q b = false → (l.filter q).length < (l.filter p).length
  | [], _, hb, _, _ => by simp at hb
  | a :: l, b, hb, h1, h2 => by
    simp only [List.filter_cons]
    rcases List.mem_cons.1 hb with rfl | hb
    · have := filter_length_le p q h l
      simp [h1, h2]; omega
    · have ih := filter_length_lt p q h l b hb h1 h2
      cases hq : q a with
      | true => simp [h a hq, ih]
      | false => cases p a <;> simp <;> omega

theorem isUnbound_iff (v : TypeVar) : v.isUnbound = true ↔ ∃ id, v = .unbound id := by cases v <;> simp [TypeVar.isUnbound]

theorem Step.count {N : Nat} {s s' : Heap} {ρ : Cell → Tree} {σ : Assignment} (st : Step s s' ρ σ) (hN : ∀ c id, s c = .unbound id → c < N) :
    (Good s' ρ ∧ count N s' ≤ count N s) ∨ count N s' < count N s := by
  have hsub : ∀ c, (s' c).isUnbound = true → (s c).isUnbound = true := by
    intro c hc
    obtain ⟨id, hid⟩ := (isUnbound_iff _).1 hc
    exact (isUnbound_iff _).2 ⟨id, st.unbound c id hid⟩
  rcases st.progress with ⟨e, _⟩ | ⟨c, id, h1, h2⟩
  · left
    refine ⟨?_, filter_length_le _ _ hsub _⟩
    have := st.good
    have he : (fun v => σ.on (ρ v)) = ρ := by subst e; funext v; exact Assignment.on_none _
    rwa [he] at this
  · right
    refine filter_length_lt _ _ hsub (List.range N) c (List.mem_range.2 (hN c id h1)) ((isUnbound_iff _).2 ⟨id, h1⟩) ?_
    cases hu : (s' c).isUnbound with
    | false => rfl
    | true => obtain ⟨i, hi⟩ := (isUnbound_iff _).1 hu; exact (h2 i hi).elim

/-- Runs end: for heaps with at most `k` unbound variables and types of less than the given size. -/
def Ends (N k z : Nat) : Prop := ∀ held s ρ (t1 t2 : Ty Cell), Good s ρ → (∀ c id, s c = .unbound id → c < N) →
  (∀ c ∈ held, ∃ t, s c = .link t) → count N s ≤ k → (t1.sub ρ).size + (t2.sub ρ).size < z → ∃ n r, unify n held s t1 t2 = some r

theorem unifyAll_ends (N : Nat) (held : List Cell) : ∀ (as bs : Tys Cell) (k z : Nat) (s : Heap) (ρ : Cell → Tree), (∀ k' < k, ∀ z, Ends N k' z) → Ends N k z →
    Good s ρ → (∀ c id, s c = .unbound id → c < N) → (∀ c ∈ held, ∃ t, s c = .link t) → count N s ≤ k →
    (as.sub ρ).size + (bs.sub ρ).size < z → ∃ n r, unifyAll (unify n held) s as bs = some r
  | .nil, .nil, _, _, _, _, _, _, _, _, _, _, _ => ⟨0, _, rfl⟩
  | .nil, .cons _ _, _, _, _, _, _, _, _, _, _, _, _ => ⟨0, _, rfl⟩
  | .cons _ _, .nil, _, _, _, _, _, _, _, _, _, _, _ => ⟨0, _, rfl⟩
  | .cons a as, .cons b bs, k, z, s, ρ, hk, hz, g, hN, hh, hc, hsz => by
    simp only [Tys.sub, Tys.size] at hsz
    obtain ⟨n1, ⟨o1, s1⟩, e1⟩ := hz held s ρ a b g hN hh hc (by omega)
    cases o1 with
    | fail => exact ⟨n1, (.fail, s1), by simp [unifyAll, e1]⟩
    | panic => exact ⟨n1, (.panic, s1), by simp [unifyAll, e1]⟩
    | ok =>
      have cl := unify_sound n1 held s a b .ok s1 ρ e1 g hh
      have hh1 := held_after cl hh
      obtain ⟨σ, st, _⟩ := cl
      have hN1 : ∀ c id, s1 c = .unbound id → c < N := fun c id h => hN c id (st.unbound c id h)
      have rest : ∃ n r, unifyAll (unify n held) s1 as bs = some r := by
        rcases st.count hN with ⟨g1, hc1⟩ | hlt
        · exact unifyAll_ends N held as bs k z s1 ρ hk hz g1 hN1 hh1 (by omega) (by omega)
        · exact unifyAll_ends N held as bs (count N s1) (((as.sub fun v => σ.on (ρ v)).size + (bs.sub fun v => σ.on (ρ v)).size) + 1) s1 _
            (fun k' h z => hk k' (by omega) z) (hk _ (by omega) _) st.good hN1 hh1 (Nat.le_refl _) (by omega)
      obtain ⟨n2, r, e2⟩ := rest
      refine ⟨max n1 n2, r, ?_⟩
      simp only [unifyAll]
      rw [unify_mono (Nat.le_max_left n1 n2) e1]
      exact unifyAll_mono (fun s a b r h => unify_mono (Nat.le_max_right n1 n2) h) as bs s1 r e2

theorem unifyStructures_ends (N : Nat) (held : List Cell) (k z : Nat) (s : Heap) (ρ : Cell → Tree) (t1 t2 : Ty Cell) (hk : ∀ k' < k, ∀ z, Ends N k' z) (hz : Ends N k z)
    (g : Good s ρ) (hN : ∀ c id, s c = .unbound id → c < N) (hh : ∀ c ∈ held, ∃ t, s c = .link t) (hc : count N s ≤ k)
    (hsz : (t1.sub ρ).size + (t2.sub ρ).size ≤ z) : ∃ n r, unifyStructures (unify n held) s t1 t2 = some r := by
  cases t1 with
  | var => cases t2 <;> exact ⟨0, _, rfl⟩
  | named m x as =>
    cases t2 with
    | named m' x' bs =>
      simp only [Ty.sub, Ty.size] at hsz
      obtain ⟨n, r, e⟩ := unifyAll_ends N held as bs k z s ρ hk hz g hN hh hc (by omega)
      simp only [unifyStructures]
      split
      · exact ⟨n, r, e⟩
      · exact ⟨0, _, rfl⟩
    | var | fn | tuple => exact ⟨0, _, rfl⟩
  | tuple as =>
    cases t2 with
    | tuple bs =>
      simp only [Ty.sub, Ty.size] at hsz
      obtain ⟨n, r, e⟩ := unifyAll_ends N held as bs k z s ρ hk hz g hN hh hc (by omega)
      simp only [unifyStructures]
      split
      · exact ⟨n, r, e⟩
      · exact ⟨0, _, rfl⟩
    | var | fn | named => exact ⟨0, _, rfl⟩
  | fn as p =>
    cases t2 with
    | fn bs p' =>
      simp only [Ty.sub, Ty.size] at hsz
      obtain ⟨n1, ⟨o1, s1⟩, e1⟩ := unifyAll_ends N held as bs k z s ρ hk hz g hN hh hc (by omega)
      simp only [unifyStructures]
      split
      · rename_i hl
        cases o1 with
        | fail => exact ⟨n1, (.fail, s1), by simp [e1]⟩
        | panic => exact ⟨n1, (.panic, s1), by simp [e1]⟩
        | ok =>
          have cl := unifyAll_sound _ held (unify_sound n1 held) as bs s .ok s1 ρ hl e1 g hh
          have hh1 := held_after cl hh
          obtain ⟨σ, st, _⟩ := cl
          have hN1 : ∀ c id, s1 c = .unbound id → c < N := fun c id h => hN c id (st.unbound c id h)
          have rest : ∃ n r, unify n held s1 p p' = some r := by
            rcases st.count hN with ⟨g1, hc1⟩ | hlt
            · exact hz held s1 ρ p p' g1 hN1 hh1 (by omega) (by omega)
            · exact hk (count N s1) (by omega) _ held s1 _ p p' st.good hN1 hh1 (Nat.le_refl _) (Nat.lt_succ_self _)
          obtain ⟨n2, r, e2⟩ := rest
          refine ⟨max n1 n2, r, ?_⟩
          rw [unifyAll_mono (fun s a b r h => unify_mono (Nat.le_max_left n1 n2) h) as bs s _ e1]
          exact unify_mono (Nat.le_max_right n1 n2) e2
      · exact ⟨0, _, rfl⟩
    | var | named | tuple => exact ⟨0, _, rfl⟩

theorem unify_structures {n : Nat} {held : List Cell} {s : Heap} {t1 t2 : Ty Cell} (h1 : ¬ t1.IsVar) (h2 : ¬ t2.IsVar)
    (hb : same n s t1 t2 = some false) : unify (n + 1) held s t1 t2 = unifyStructures (unify n held) s t1 t2 := by
  cases t1 with
  | var => exact (h1 trivial).elim
  | named =>
    cases t2 with
    | var => exact (h2 trivial).elim
    | named | fn | tuple => simp only [unify, hb, linkOf]
  | fn =>
    cases t2 with
    | var => exact (h2 trivial).elim
    | named | fn | tuple => simp only [unify, hb, linkOf]
  | tuple =>
    cases t2 with
    | var => exact (h2 trivial).elim
    | named | fn | tuple => simp only [unify, hb, linkOf]

/-- One step of the main loop. -/
theorem unify_ends_step (N k z : Nat) (hk : ∀ k' < k, ∀ z, Ends N k' z) (hz : Ends N k z) : Ends N k (z + 1) := by
  intro held s ρ t1 t2 g hN hh hc hsz
  obtain ⟨rank, hr⟩ := g.chains
  suffices H : ∀ j held (t1 t2 : Ty Cell), (∀ c ∈ held, ∃ t, s c = .link t) → (t1.sub ρ).size + (t2.sub ρ).size < z + 1 →
      chainRank rank t1 + chainRank rank t2 = j → ∃ n r, unify n held s t1 t2 = some r from H _ held t1 t2 hh hsz rfl
  intro j
  induction j using Nat.strong_induction_on with
  | _ j jh =>
    intro held t1 t2 hh hsz hj
    obtain ⟨ns, hs⟩ := same_total g t1
    obtain ⟨b, hb⟩ := hs t2
    cases b with
    | true => exact ⟨ns + 1, (.ok, s), by simp [unify, hb]⟩
    | false =>
      cases hl : linkOf s t2 with
      | some q =>
        obtain ⟨d, t⟩ := q
        obtain ⟨rfl, hd⟩ := linkOf_some hl
        have hlt := chainRank_link hr hd
        have hsz' : (t1.sub ρ).size + (t.sub ρ).size < z + 1 := by
          rw [← g.reading.link d t hd]; simpa only [Ty.sub] using hsz
        have hh' : ∀ c ∈ d :: held, ∃ t, s c = .link t := by
          intro c hc
          rcases List.mem_cons.1 hc with rfl | hc
          · exact ⟨t, hd⟩
          · exact hh c hc
        obtain ⟨n, r, e⟩ := jh _ (by omega) (d :: held) t1 t hh' hsz' rfl
        refine ⟨max ns n + 1, r, ?_⟩
        simp only [unify, same_mono s (Nat.le_max_left ns n) hb, hl]
        exact unify_mono (Nat.le_max_right ns n) e
      | none =>
        -- an unbound or generic variable on the left needs no recursion
        have leaf : ∀ c t2 held ns, same ns s (.var c) t2 = some false → linkOf s t2 = none → (∀ t, s c ≠ .link t) →
            ∃ n r, unify n held s (.var c) t2 = some r := by
          intro c t2 held ns hb hl hnl
          cases hc : s c with
          | link t => exact (hnl t hc).elim
          | unbound id =>
            obtain ⟨n, b, e⟩ := occurs_total g id t2
            have e' := occurs_mono s id (Nat.le_max_right ns n) e
            cases b with
            | true => exact ⟨max ns n + 1, (.fail, s), by simp [unify, same_mono s (Nat.le_max_left ns n) hb, hl, hc, unifyUnbound, e']⟩
            | false =>
              by_cases hm : c ∈ held
              · exact ⟨max ns n + 1, (.panic, s), by simp [unify, same_mono s (Nat.le_max_left ns n) hb, hl, hc, unifyUnbound, e', hm]⟩
              · exact ⟨max ns n + 1, (.ok, s.set c (.link t2)), by simp [unify, same_mono s (Nat.le_max_left ns n) hb, hl, hc, unifyUnbound, e', hm]⟩
          | generic id =>
            have : ∃ r, unifyGeneric held s id t2 = some r := by
              cases t2 with
              | var d =>
                simp only [unifyGeneric]
                split
                · split <;> exact ⟨_, rfl⟩
                · exact ⟨_, rfl⟩
              | named | fn | tuple => exact ⟨_, rfl⟩
            obtain ⟨r, e⟩ := this
            exact ⟨ns + 1, r, by simp [unify, hb, hl, hc, e]⟩
        have structs : ¬ t1.IsVar → ¬ t2.IsVar → ∃ n r, unify n held s t1 t2 = some r := by
          intro h1 h2
          obtain ⟨n, r, e⟩ := unifyStructures_ends N held k z s ρ t1 t2 hk hz g hN hh hc (by omega)
          refine ⟨max ns n + 1, r, ?_⟩
          rw [unify_structures h1 h2 (same_mono s (Nat.le_max_left ns n) hb)]
          exact unifyStructures_mono (fun s a b r h => unify_mono (Nat.le_max_right ns n) h) s _ _ r e
        have struct : ¬ t1.IsVar → ∃ n r, unify n held s t1 t2 = some r := by
          intro h1
          cases t2 with
          | var d =>
            have hnl := linkOf_none hl
            obtain ⟨n2, hs2⟩ := same_total g (.var d)
            have hb2 : ∃ n, same n s (.var d) t1 = some false := by
              refine ⟨1, ?_⟩
              cases t1 with
              | var => exact (h1 trivial).elim
              | named | fn | tuple => rfl
            obtain ⟨n3, hb3⟩ := hb2
            have hl1 : linkOf s t1 = none := by
              cases t1 with
              | var => exact (h1 trivial).elim
              | named | fn | tuple => rfl
            obtain ⟨n, r, e⟩ := leaf d t1 held n3 hb3 hl1 hnl
            refine ⟨max ns n + 1, r, ?_⟩
            have e' := unify_mono (Nat.le_max_right ns n) e
            cases t1 with
            | var => exact (h1 trivial).elim
            | named | fn | tuple => simp [unify, same_mono s (Nat.le_max_left ns n) hb, hl, e']
          | named | fn | tuple => exact structs h1 (by simp [Ty.IsVar])
        cases t1 with
        | named | fn | tuple => exact struct (by simp [Ty.IsVar])
        | var c =>
          by_cases hlk : ∃ t, s c = .link t
          · obtain ⟨t, hc'⟩ := hlk
            have hlt := chainRank_link hr hc'
            have hsz' : (t.sub ρ).size + (t2.sub ρ).size < z + 1 := by
              rw [← g.reading.link c t hc']; simpa only [Ty.sub] using hsz
            obtain ⟨n, ⟨o1, s1⟩, e⟩ := jh _ (by omega) held t t2 hh hsz' rfl
            have cl := unify_sound n held s t t2 o1 s1 ρ e g hh
            obtain ⟨σ, st, _⟩ := cl
            obtain ⟨n3, u, e3⟩ := collapse_total st.good t
            have hb' := same_mono s (Nat.le_max_left ns (max n n3)) hb
            have e' := unify_mono (Nat.le_trans (Nat.le_max_left n n3) (Nat.le_max_right ns (max n n3))) e
            have e3' := collapse_mono s1 (Nat.le_trans (Nat.le_max_right n n3) (Nat.le_max_right ns (max n n3))) e3
            have : ∃ r, unifyLink (max ns (max n n3)) held c t (some (o1, s1)) = some r := by
              cases o1 with
              | ok =>
                simp only [unifyLink]
                split
                · exact ⟨_, rfl⟩
                · rw [e3']; exact ⟨_, rfl⟩
              | fail | panic => exact ⟨_, rfl⟩
            obtain ⟨r, hr'⟩ := this
            exact ⟨max ns (max n n3) + 1, r, by simp [unify, hb', hl, hc', e', hr']⟩
          · exact leaf c t2 held ns hb hl (fun t ht => hlk ⟨t, ht⟩)

theorem unify_ends (N : Nat) : ∀ k z, Ends N k z := by
  intro k
  induction k using Nat.strong_induction_on with
  | _ k ih =>
    intro z
    induction z with
    | zero => intro held s ρ t1 t2 _ _ _ _ h; omega
    | succ z hz => exact unify_ends_step N k z ih hz

end Verif.Unify
