import Verif.Infer.Local
import Verif.Infer.Instances

/-!
Inference comes to an end: with enough fuel it either finds a type or an error, and more fuel does not change the outcome.
-/

namespace Verif.Infer

open Verif.Unify

/-- States in which nothing is broken. -/
structure Live (s : St) : Prop where
  good : ∃ ρ, Good s.heap ρ
  later : ∀ c, s.next ≤ c → s.heap c = .unbound c
  inside : Inside s.next s.heap
  created : ∀ x t, s.hydrator.created.lookup x = some t → Within s.next t

/-- With enough fuel, the outcome is an error or a result. -/
def Total {α : Type} (x : Nat → I α) (s : St) (Q : α → St → Prop) : Prop :=
  ∃ N, (∃ a s', Live s' ∧ s.next ≤ s'.next ∧ Q a s' ∧ ∀ n, N ≤ n → x n s = .ok (a, s')) ∨ ∀ n, N ≤ n → x n s = .error .rejected

section
variable {α β : Type} {s : St}

theorem Total.bind {x : Nat → I α} {f : Nat → α → I β} {Q : α → St → Prop} {Q' : β → St → Prop} (hx : Total x s Q)
    (hf : ∀ a s', Live s' → s.next ≤ s'.next → Q a s' → Total (fun n => f n a) s' Q') : Total (fun n => x n >>= f n) s Q' := by
  obtain ⟨N, ⟨a, s', h1, h2, h3, h4⟩ | h⟩ := hx
  · obtain ⟨M, ⟨b, s'', k1, k2, k3, k4⟩ | k⟩ := hf a s' h1 h2 h3
    · refine ⟨max N M, .inl ⟨b, s'', k1, Nat.le_trans h2 k2, k3, fun n hn => ?_⟩⟩
      show I.bind (x n) (f n) s = _
      unfold I.bind
      rw [h4 n (Nat.le_trans (Nat.le_max_left ..) hn)]
      exact k4 n (Nat.le_trans (Nat.le_max_right ..) hn)
    · refine ⟨max N M, .inr fun n hn => ?_⟩
      show I.bind (x n) (f n) s = _
      unfold I.bind
      rw [h4 n (Nat.le_trans (Nat.le_max_left ..) hn)]
      exact k n (Nat.le_trans (Nat.le_max_right ..) hn)
  · refine ⟨N, .inr fun n hn => ?_⟩
    show I.bind (x n) (f n) s = _
    unfold I.bind
    rw [h n hn]

theorem Total.pure {a : α} {Q : α → St → Prop} (hs : Live s) (h : Q a s) : Total (fun _ => (Pure.pure a : I α)) s Q :=
  ⟨0, .inl ⟨a, s, hs, Nat.le_refl _, h, fun _ _ => rfl⟩⟩

theorem Total.reject {Q : α → St → Prop} : Total (fun _ => (reject : I α)) s Q := ⟨0, .inr fun _ _ => rfl⟩

theorem Total.mono {x : Nat → I α} {Q Q' : α → St → Prop} (hx : Total x s Q) (h : ∀ a s', s.next ≤ s'.next → Q a s' → Q' a s') : Total x s Q' := by
  obtain ⟨N, ⟨a, s', h1, h2, h3, h4⟩ | k⟩ := hx
  · exact ⟨N, .inl ⟨a, s', h1, h2, h a s' h2 h3, h4⟩⟩
  · exact ⟨N, .inr k⟩

theorem Total.succ {x : Nat → I α} {Q : α → St → Prop} (hx : Total (fun n => x (n + 1)) s Q) : Total x s Q := by
  obtain ⟨N, ⟨a, s', h1, h2, h3, h4⟩ | k⟩ := hx
  · refine ⟨N + 1, .inl ⟨a, s', h1, h2, h3, fun n hn => ?_⟩⟩
    obtain ⟨m, rfl⟩ : ∃ m, n = m + 1 := ⟨n - 1, by omega⟩
    exact h4 m (by omega)
  · refine ⟨N + 1, .inr fun n hn => ?_⟩
    obtain ⟨m, rfl⟩ : ∃ m, n = m + 1 := ⟨n - 1, by omega⟩
    exact k m (by omega)

/-- Only what happens with much fuel matters. -/
theorem Total.congr {x y : Nat → I α} {Q : α → St → Prop} (M : Nat) (hxy : ∀ n, M ≤ n → x n = y n) (hy : Total y s Q) : Total x s Q := by
  obtain ⟨N, ⟨a, s', h1, h2, h3, h4⟩ | k⟩ := hy
  · exact ⟨max N M, .inl ⟨a, s', h1, h2, h3, fun n hn => by
      rw [hxy n (Nat.le_trans (Nat.le_max_right ..) hn)]; exact h4 n (Nat.le_trans (Nat.le_max_left ..) hn)⟩⟩
  · exact ⟨max N M, .inr fun n hn => by
      rw [hxy n (Nat.le_trans (Nat.le_max_right ..) hn)]; exact k n (Nat.le_trans (Nat.le_max_left ..) hn)⟩

theorem Total.expect {o : Option α} {Q : α → St → Prop} (hs : Live s) (h : ∀ a, o = some a → Q a s) : Total (fun _ => Verif.Infer.expect o) s Q := by
  cases o with
  | none => exact .reject
  | some a => exact .pure hs (h a rfl)

theorem Total.check {b : Bool} (hs : Live s) : Total (fun _ => Verif.Infer.check b) s fun _ s' => s' = s := by
  cases b with
  | false => exact .reject
  | true => exact .pure hs rfl

theorem Total.inScope {x : Nat → I α} {Q : α → St → Prop} (hs : Live s) (hx : Total x s Q) (hQ : ∀ a s' h, Q a s' → Q a { s' with hydrator := h }) :
    Total (fun n => Verif.Infer.inScope (x n)) s Q := by
  obtain ⟨N, ⟨a, s', h1, h2, h3, h4⟩ | k⟩ := hx
  · refine ⟨N, .inl ⟨a, { s' with hydrator := s.hydrator }, ⟨h1.good, h1.later, h1.inside, fun x t h => (hs.created x t h).mono h2⟩, h2, hQ _ _ _ h3, fun n hn => ?_⟩⟩
    simp only [Verif.Infer.inScope, h4 n hn]
  · refine ⟨N, .inr fun n hn => ?_⟩
    simp only [Verif.Infer.inScope, k n hn]

theorem Total.getHeap (hs : Live s) : Total (fun _ => Verif.Infer.getHeap) s fun h s' => h = s.heap ∧ s' = s :=
  ⟨0, .inl ⟨_, s, hs, Nat.le_refl _, ⟨rfl, rfl⟩, fun _ _ => rfl⟩⟩

theorem Total.getHydrator (hs : Live s) : Total (fun _ => Verif.Infer.getHydrator) s fun h s' => h = s.hydrator ∧ s' = s :=
  ⟨0, .inl ⟨_, s, hs, Nat.le_refl _, ⟨rfl, rfl⟩, fun _ _ => rfl⟩⟩

theorem Total.setHydrator {h : Hydrator} (hs : Live s) (hh : ∀ x t, h.created.lookup x = some t → Within s.next t) :
    Total (fun _ => Verif.Infer.setHydrator h) s fun _ s' => s' = { s with hydrator := h } :=
  ⟨0, .inl ⟨(), { s with hydrator := h }, ⟨hs.good, hs.later, hs.inside, hh⟩, Nat.le_refl _, rfl, fun _ _ => rfl⟩⟩

theorem inside_succ (hs : Live s) : Inside (s.next + 1) s.heap := fun c t hc h => by
  rcases Nat.lt_or_ge c s.next with h' | h'
  · exact (hs.inside c t h' h).mono (Nat.le_succ _)
  · rw [hs.later c h'] at h; cases h

theorem Total.fresh (hs : Live s) : Total (fun _ => Verif.Infer.fresh) s fun t s' => t = .var s.next ∧ s'.heap = s.heap ∧ s'.next = s.next + 1 := by
  refine ⟨0, .inl ⟨.var s.next, { s with next := s.next + 1 }, ⟨hs.good, fun c hc => hs.later c (Nat.le_of_succ_le hc), inside_succ hs,
    fun x t h => (hs.created x t h).mono (Nat.le_succ _)⟩, Nat.le_succ _, ⟨rfl, rfl, rfl⟩, fun n _ => ?_⟩⟩
  simp only [Verif.Infer.fresh, hs.later s.next (Nat.le_refl _)]

/-- A new variable, when only its being known matters. -/
theorem Total.fresh' (hs : Live s) : Total (fun _ => Verif.Infer.fresh) s fun t s' => Within s'.next t :=
  (Total.fresh hs).mono fun t s' _ ⟨h1, _, h3⟩ => by rw [h1, Within.var, h3]; exact Nat.lt_succ_self _

theorem Total.freshes : ∀ (k : Nat) {s : St}, Live s → Total (fun _ => Verif.Infer.freshes k) s fun ts s' => Withins s'.next ts ∧ s'.heap = s.heap ∧
    ∀ c, ts.Has c → s.next ≤ c
  | 0, s, hs => by simp only [Verif.Infer.freshes]; exact .pure hs ⟨.nil, rfl, fun c h => h.elim⟩
  | k + 1, s, hs => by
    simp only [Verif.Infer.freshes]
    refine Total.bind (Total.fresh hs) fun t s₁ l₁ m₁ ⟨e₁, h₁, n₁⟩ => ?_
    refine Total.bind (Total.freshes k l₁) fun ts s₂ l₂ m₂ ⟨w₂, h₂, n₂⟩ => ?_
    refine .pure l₂ ⟨Withins.cons.2 ⟨?_, w₂⟩, h₂.trans h₁, ?_⟩
    · rw [e₁, Within.var]; exact Nat.lt_of_lt_of_le (Nat.lt_succ_self _) (Nat.le_trans (Nat.le_of_eq n₁.symm) m₂)
    · rintro c (h | h)
      · rw [e₁] at h; cases h; exact Nat.le_refl _
      · exact Nat.le_trans m₁ (n₂ c h)

theorem Total.newGeneric (hs : Live s) : Total (fun _ => Verif.Infer.newGeneric) s fun i s' => i < s'.next ∧ s'.hydrator = s.hydrator := by
  obtain ⟨ρ, g⟩ := hs.good
  have hn := hs.later s.next (Nat.le_refl _)
  refine ⟨0, .inl ⟨s.next, { s with heap := s.heap.set s.next (.generic s.next), next := s.next + 1 }, ⟨⟨_, good_generic s.heap ρ s.next s.next s.next g hn⟩,
    fun c hc => ?_, (inside_succ hs).set (fun t h => by cases h), fun x t h => (hs.created x t h).mono (Nat.le_succ _)⟩, Nat.le_succ _, ⟨Nat.lt_succ_self _, rfl⟩, fun n _ => ?_⟩⟩
  · have hc : s.next < c := hc
    show (s.heap.set s.next _) c = _
    rw [set_other _ _ _ _ (Nat.ne_of_gt hc)]
    exact hs.later c (Nat.le_of_lt hc)
  · simp only [Verif.Infer.newGeneric, hn]

theorem Total.collapse {t : Ty Cell} (hs : Live s) (ht : Within s.next t) : Total (fun n => collapseI n t) s fun u s' => s' = s ∧ Within s.next u ∧ NotLink s.heap u := by
  obtain ⟨ρ, g⟩ := hs.good
  obtain ⟨n, u, h⟩ := collapse_total g t
  refine ⟨n, .inl ⟨u, s, hs, Nat.le_refl _, ⟨rfl, (collapse_local hs.inside n t ht).2 u h, (collapse_right _ _ g.reading _ _ _ h).1⟩, fun m hm => ?_⟩⟩
  simp only [collapseI, collapse_mono s.heap hm h]

theorem Total.unify {t u : Ty Cell} (hs : Live s) (ht : Within s.next t) (hu : Within s.next u) : Total (fun n => unifyI n t u) s fun _ s' => s'.next = s.next := by
  obtain ⟨ρ, g⟩ := hs.good
  obtain ⟨n, o, h, h1, h2, h3, h4, h5⟩ := unify_total g hs.inside t u ht hu
  refine ⟨n, ?_⟩
  cases o with
  | ok =>
    refine .inl ⟨(), { s with heap := h }, ⟨h2, fun c hc => (h4 c hc).trans (hs.later c hc), h3, hs.created⟩, Nat.le_refl _, rfl, fun m hm => ?_⟩
    simp only [unifyI, h5 m hm]
  | fail =>
    refine .inr fun m hm => ?_
    simp only [unifyI, h5 m hm]
  | panic => exact absurd rfl h1

theorem Total.link {c : Cell} {id : Nat} {t : Ty Cell} (hs : Live s) (hc : s.heap c = .unbound id) (hlt : c < s.next) (ht : Within s.next t)
    (hn : NotLink s.heap t) (ho : ∃ n, occurs n s.heap id t = some false) : Total (fun _ => linkTo c t) s fun _ s' => s'.next = s.next := by
  obtain ⟨ρ, g⟩ := hs.good
  obtain ⟨n, ho⟩ := ho
  have hno : ¬ (t.sub ρ).Has (.unbound id) := fun h => by
    have := (occurs_right s.heap ρ g.reading id n t false ho).2 h
    cases this
  refine ⟨0, .inl ⟨(), { s with heap := s.heap.set c (.link t) }, ⟨⟨_, good_bind s.heap ρ c id t g hc hn hno⟩, fun d hd => ?_,
    hs.inside.set (fun u h => by cases h; exact ht), hs.created⟩, Nat.le_refl _, rfl, fun _ _ => ?_⟩⟩
  · exact (rest_set _ hlt d hd).trans (hs.later d hd)
  · simp only [linkTo, hc]

end

/-! ### Instances -/

/-- The instances so far are known. -/
def Knowns (N : Nat) (ids : Ids) : Prop := ∀ id t, ids.lookup id = some t → Within N t

theorem Knowns.mono {N N' : Nat} {ids : Ids} (h : Knowns N ids) (hN : N ≤ N') : Knowns N' ids := fun id t hi => (h id t hi).mono hN

theorem Knowns.nil {N : Nat} : Knowns N [] := fun id t h => by cases h

theorem instantiateId_total {id : Nat} {ids : Ids} {s : St} (hs : Live s) (hi : Knowns s.next ids) :
    Total (fun _ => instantiateId id ids) s fun p s' => Within s'.next p.1 ∧ Knowns s'.next p.2 ∧ s'.heap = s.heap := by
  unfold instantiateId
  cases h : ids.lookup id with
  | some t => exact .pure hs ⟨hi id t h, hi, rfl⟩
  | none =>
    refine Total.bind (Total.fresh hs) fun t s₁ l₁ m₁ ⟨e₁, h₁, n₁⟩ => ?_
    have hw : Within s₁.next t := by rw [e₁, Within.var, n₁]; exact Nat.lt_succ_self _
    refine .pure l₁ ⟨hw, fun i u hu => ?_, h₁⟩
    rcases lookup_cons_cases hu with ⟨_, rfl⟩ | hu
    · exact hw
    · exact (hi i u hu).mono m₁

theorem instantiateAll_total {H : Heap} : ∀ (ts : Tys Cell), Tys.All (fun t => ∀ (s : St) (ids : Ids), s.heap = H → Live s → Within s.next t → Knowns s.next ids →
      Total (fun n => instantiate n t ids) s fun p s' => Within s'.next p.1 ∧ Knowns s'.next p.2 ∧ s'.heap = H) ts →
    ∀ (s : St) (ids : Ids), s.heap = H → Live s → Withins s.next ts → Knowns s.next ids →
      Total (fun n => instantiateAll (instantiate n) ts ids) s fun p s' => Withins s'.next p.1 ∧ Knowns s'.next p.2 ∧ s'.heap = H
  | .nil, _, s, ids, hH, hs, ht, hi => by
    simp only [instantiateAll]
    exact .pure hs ⟨.nil, hi, hH⟩
  | .cons t ts, ⟨h1, h2⟩, s, ids, hH, hs, ht, hi => by
    have ht := Withins.cons.1 ht
    simp only [instantiateAll]
    refine Total.bind (h1 s ids hH hs ht.1 hi) fun ⟨u, ids₁⟩ s₁ l₁ m₁ ⟨a₁, b₁, c₁⟩ => ?_
    refine Total.bind (instantiateAll_total ts h2 s₁ ids₁ c₁ l₁ (ht.2.mono m₁) b₁) fun ⟨us, ids₂⟩ s₂ l₂ m₂ ⟨a₂, b₂, c₂⟩ => ?_
    exact .pure l₂ ⟨Withins.cons.2 ⟨a₁.mono m₂, a₂⟩, b₂, c₂⟩

theorem instantiate_total {H : Heap} {ρ : Cell → Tree} (g : Good H ρ) (t : Ty Cell) : ∀ (s : St) (ids : Ids), s.heap = H → Live s → Within s.next t → Knowns s.next ids →
    Total (fun n => instantiate n t ids) s fun p s' => Within s'.next p.1 ∧ Knowns s'.next p.2 ∧ s'.heap = H := by
  refine ty_induct g (fun t => ∀ (s : St) (ids : Ids), s.heap = H → Live s → Within s.next t → Knowns s.next ids →
    Total (fun n => instantiate n t ids) s fun p s' => Within s'.next p.1 ∧ Knowns s'.next p.2 ∧ s'.heap = H) ?_ ?_ ?_ ?_ t
  · intro c ih s ids hH hs ht hi
    refine .succ ?_
    simp only [instantiate]
    refine Total.bind (Total.getHeap hs) fun h s₁ l₁ m₁ ⟨e₁, e₁'⟩ => ?_
    subst e₁ e₁'
    cases hc : s₁.heap c with
    | link u => exact ih u (hH ▸ hc) s₁ ids hH l₁ (l₁.inside c u (Within.var.1 ht) hc) hi
    | unbound i => exact .pure l₁ ⟨ht, hi, hH⟩
    | generic i =>
      simp only
      refine Total.bind (Total.getHydrator l₁) fun hy s₂ l₂ m₂ ⟨e₂, e₂'⟩ => ?_
      subst e₂'
      cases hl : ids.lookup i with
      | some u => exact .pure l₁ ⟨hi i u hl, hi, hH⟩
      | none =>
        simp only
        split
        · exact .pure l₁ ⟨ht, hi, hH⟩
        · exact (instantiateId_total l₁ hi).mono fun p s' _ h => ⟨h.1, h.2.1, h.2.2.trans hH⟩
  · intro m x as ih s ids hH hs ht hi
    refine .succ ?_
    simp only [instantiate]
    refine Total.bind (instantiateAll_total as ih s ids hH hs ht hi) fun ⟨us, ids₁⟩ s₁ l₁ m₁ ⟨a₁, b₁, c₁⟩ => ?_
    exact .pure l₁ ⟨a₁, b₁, c₁⟩
  · intro as r ih ih' s ids hH hs ht hi
    have ht := Within.fn.1 ht
    refine .succ ?_
    simp only [instantiate]
    refine Total.bind (instantiateAll_total as ih s ids hH hs ht.1 hi) fun ⟨us, ids₁⟩ s₁ l₁ m₁ ⟨a₁, b₁, c₁⟩ => ?_
    refine Total.bind (ih' s₁ ids₁ c₁ l₁ (ht.2.mono m₁) b₁) fun ⟨u, ids₂⟩ s₂ l₂ m₂ ⟨a₂, b₂, c₂⟩ => ?_
    exact .pure l₂ ⟨Within.fn.2 ⟨a₁.mono m₂, a₂⟩, b₂, c₂⟩
  · intro as ih s ids hH hs ht hi
    refine .succ ?_
    simp only [instantiate]
    refine Total.bind (instantiateAll_total as ih s ids hH hs ht hi) fun ⟨us, ids₁⟩ s₁ l₁ m₁ ⟨a₁, b₁, c₁⟩ => ?_
    exact .pure l₁ ⟨a₁, b₁, c₁⟩

theorem Total.instantiate {t : Ty Cell} {s : St} (hs : Live s) (ht : Within s.next t) : Total (fun n => Verif.Infer.instantiate n t []) s fun p s' => Within s'.next p.1 := by
  obtain ⟨ρ, g⟩ := hs.good
  exact (instantiate_total g t s [] rfl hs ht .nil).mono fun p s' _ h => h.1

/-- Types with the same outermost constructor. -/
def SameShape : Ty Nat → Ty Cell → Prop
  | .var _, _ => True
  | .named .., .named .. => True
  | .fn .., .fn .. => True
  | .tuple .., .tuple .. => True
  | _, _ => False

mutual

theorem instScheme_total : ∀ (t : Ty Nat) (ids : Ids) (s : St), Live s → Knowns s.next ids →
    Total (fun _ => instScheme t ids) s fun p s' => Within s'.next p.1 ∧ Knowns s'.next p.2 ∧ SameShape t p.1
  | .var id, ids, s, hs, hi => by
    simp only [instScheme]
    exact (instantiateId_total hs hi).mono fun p s' _ h => ⟨h.1, h.2.1, trivial⟩
  | .named m x as, ids, s, hs, hi => by
    simp only [instScheme]
    refine Total.bind (instSchemes_total as ids s hs hi) fun ⟨us, ids₁⟩ s₁ l₁ m₁ ⟨a₁, b₁⟩ => ?_
    exact .pure l₁ ⟨a₁, b₁, trivial⟩
  | .fn as r, ids, s, hs, hi => by
    simp only [instScheme]
    refine Total.bind (instSchemes_total as ids s hs hi) fun ⟨us, ids₁⟩ s₁ l₁ m₁ ⟨a₁, b₁⟩ => ?_
    refine Total.bind (instScheme_total r ids₁ s₁ l₁ b₁) fun ⟨u, ids₂⟩ s₂ l₂ m₂ ⟨a₂, b₂, _⟩ => ?_
    exact .pure l₂ ⟨Within.fn.2 ⟨a₁.mono m₂, a₂⟩, b₂, trivial⟩
  | .tuple as, ids, s, hs, hi => by
    simp only [instScheme]
    refine Total.bind (instSchemes_total as ids s hs hi) fun ⟨us, ids₁⟩ s₁ l₁ m₁ ⟨a₁, b₁⟩ => ?_
    exact .pure l₁ ⟨a₁, b₁, trivial⟩

theorem instSchemes_total : ∀ (ts : Tys Nat) (ids : Ids) (s : St), Live s → Knowns s.next ids →
    Total (fun _ => instSchemes ts ids) s fun p s' => Withins s'.next p.1 ∧ Knowns s'.next p.2
  | .nil, ids, s, hs, hi => by
    simp only [instSchemes]
    exact .pure hs ⟨.nil, hi⟩
  | .cons t ts, ids, s, hs, hi => by
    simp only [instSchemes]
    refine Total.bind (instScheme_total t ids s hs hi) fun ⟨u, ids₁⟩ s₁ l₁ m₁ ⟨a₁, b₁, _⟩ => ?_
    refine Total.bind (instSchemes_total ts ids₁ s₁ l₁ b₁) fun ⟨us, ids₂⟩ s₂ l₂ m₂ ⟨a₂, b₂⟩ => ?_
    exact .pure l₂ ⟨Withins.cons.2 ⟨a₁.mono m₂, a₂⟩, b₂⟩

end

theorem generaliseAll_total {h : Heap} : ∀ (ts : Tys Cell), Tys.All (fun t => ∃ N T, ∀ n, N ≤ n → generalise n h t = some T) ts →
    ∃ N Ts, ∀ n, N ≤ n → generaliseAll (generalise n h) ts = some Ts
  | .nil, _ => ⟨0, .nil, fun _ _ => rfl⟩
  | .cons t ts, ⟨⟨N, T, h1⟩, h2⟩ => by
    obtain ⟨M, Ts, h2⟩ := generaliseAll_total ts h2
    refine ⟨max N M, .cons T Ts, fun n hn => ?_⟩
    simp only [generaliseAll, h1 n (Nat.le_trans (Nat.le_max_left ..) hn), h2 n (Nat.le_trans (Nat.le_max_right ..) hn)]

theorem generalise_total {h : Heap} {ρ : Cell → Tree} (g : Good h ρ) (t : Ty Cell) : ∃ N T, ∀ n, N ≤ n → generalise n h t = some T := by
  have up : ∀ {t : Ty Cell} {N : Nat} {T : Ty Nat}, (∀ n, N ≤ n → generalise (n + 1) h t = some T) → ∃ N T, ∀ n, N ≤ n → generalise n h t = some T :=
    fun {t N T} k => ⟨N + 1, T, fun n hn => by
      obtain ⟨m, rfl⟩ : ∃ m, n = m + 1 := ⟨n - 1, by omega⟩
      exact k m (by omega)⟩
  refine ty_induct g (fun t => ∃ N T, ∀ n, N ≤ n → generalise n h t = some T) ?_ ?_ ?_ ?_ t
  · intro c ih
    cases hc : h c with
    | link u =>
      obtain ⟨N, T, k⟩ := ih u hc
      exact up fun n hn => by simp only [generalise, hc]; exact k n hn
    | unbound i => exact up (N := 0) fun n _ => by simp only [generalise, hc]; rfl
    | generic i => exact up (N := 0) fun n _ => by simp only [generalise, hc]; rfl
  · intro m x as ih
    obtain ⟨N, Ts, k⟩ := generaliseAll_total as ih
    exact up (N := N) fun n hn => by simp only [generalise, k n hn, Option.map_some]; rfl
  · intro as r ih ih'
    obtain ⟨N, Ts, k⟩ := generaliseAll_total as ih
    obtain ⟨M, T, k'⟩ := ih'
    exact up (N := max N M) fun n hn => by
      simp only [generalise, k n (Nat.le_trans (Nat.le_max_left ..) hn), k' n (Nat.le_trans (Nat.le_max_right ..) hn)]; rfl
  · intro as ih
    obtain ⟨N, Ts, k⟩ := generaliseAll_total as ih
    exact up (N := N) fun n hn => by simp only [generalise, k n hn, Option.map_some]; rfl

/-! ### Annotations -/

mutual

theorem hydrate_total (types : List CustomType) : ∀ (a : TypeAst) (s : St), Live s → Total (fun _ => hydrate types a) s fun t s' => Within s'.next t
  | .con name as, s, hs => by
    simp only [hydrate]
    refine Total.bind (hydrateAll_total types as s hs) fun ts s₁ l₁ m₁ w₁ => ?_
    cases typeArity types name with
    | none => exact .reject
    | some p =>
      obtain ⟨m, k⟩ := p
      simp only
      split
      · exact .pure l₁ w₁
      · exact .reject
  | .fn as r, s, hs => by
    simp only [hydrate]
    refine Total.bind (hydrateAll_total types as s hs) fun ts s₁ l₁ m₁ w₁ => ?_
    refine Total.bind (hydrate_total types r s₁ l₁) fun t s₂ l₂ m₂ w₂ => ?_
    exact .pure l₂ (Within.fn.2 ⟨w₁.mono m₂, w₂⟩)
  | .tuple as, s, hs => by
    simp only [hydrate]
    refine Total.bind (hydrateAll_total types as s hs) fun ts s₁ l₁ m₁ w₁ => ?_
    exact .pure l₁ w₁
  | .var name, s, hs => by
    simp only [hydrate]
    refine Total.bind (Total.getHydrator hs) fun hy s₁ l₁ m₁ ⟨e₁, e₁'⟩ => ?_
    subst e₁ e₁'
    cases hl : s₁.hydrator.created.lookup name with
    | some t => exact .pure l₁ (l₁.created name t hl)
    | none =>
      simp only
      refine Total.bind (Total.newGeneric l₁) fun i s₂ l₂ m₂ ⟨w₂, e₂⟩ => ?_
      refine Total.bind (Total.setHydrator l₂ fun x t h => ?_) fun _ s₃ l₃ m₃ e₃ => ?_
      · simp only [List.lookup_cons] at h
        split at h
        · cases h; exact Within.var.2 w₂
        · exact (l₁.created x t h).mono m₂
      · subst e₃
        exact .pure l₃ (Within.var.2 w₂)
  | .hole, s, hs => by
    simp only [hydrate]
    exact Total.fresh' hs

theorem hydrateAll_total (types : List CustomType) : ∀ (as : List TypeAst) (s : St), Live s → Total (fun _ => hydrateAll types as) s fun ts s' => Withins s'.next ts
  | [], s, hs => by simp only [hydrateAll]; exact .pure hs .nil
  | a :: as, s, hs => by
    simp only [hydrateAll]
    refine Total.bind (hydrate_total types a s hs) fun t s₁ l₁ m₁ w₁ => ?_
    refine Total.bind (hydrateAll_total types as s₁ l₁) fun ts s₂ l₂ m₂ w₂ => ?_
    exact .pure l₂ (Withins.cons.2 ⟨w₁.mono m₂, w₂⟩)

end

theorem hydrateOption_total (types : List CustomType) (a : Option TypeAst) (s : St) (hs : Live s) : Total (fun _ => hydrateOption types a) s fun t s' => Within s'.next t := by
  cases a with
  | none => exact Total.fresh' hs
  | some a => exact hydrate_total types a s hs

theorem hydrateParameters_total (types : List CustomType) : ∀ (ps : List Param) (s : St), Live s →
    Total (fun _ => hydrateParameters types ps) s fun ts s' => Withins s'.next ts
  | [], s, hs => by simp only [hydrateParameters]; exact .pure hs .nil
  | p :: ps, s, hs => by
    simp only [hydrateParameters]
    refine Total.bind (hydrateOption_total types p.annotation s hs) fun t s₁ l₁ m₁ w₁ => ?_
    refine Total.bind (hydrateParameters_total types ps s₁ l₁) fun ts s₂ l₂ m₂ w₂ => ?_
    exact .pure l₂ (Withins.cons.2 ⟨w₁.mono m₂, w₂⟩)

end Verif.Infer
