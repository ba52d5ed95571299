import Verif.Unify.Acyclic
import Verif.Unify.Total

/-!
Unification only looks at the variables that its types lead to: variables that were not made yet do not matter.
-/

namespace Verif.Infer

open Verif.Unify

/-- The type only mentions variables before `N`. -/
def Within (N : Nat) (t : Ty Cell) : Prop := ∀ c, t.Has c → c < N

def Withins (N : Nat) (t : Tys Cell) : Prop := ∀ c, t.Has c → c < N

theorem Within.var {N : Nat} {c : Cell} : Within N (.var c) ↔ c < N := ⟨fun h => h c rfl, fun h d hd => by cases hd; exact h⟩
theorem Within.named {N : Nat} {m x : String} {as : Tys Cell} : Within N (.named m x as) ↔ Withins N as := Iff.rfl
theorem Within.tuple {N : Nat} {as : Tys Cell} : Within N (.tuple as) ↔ Withins N as := Iff.rfl
theorem Within.fn {N : Nat} {as : Tys Cell} {r : Ty Cell} : Within N (.fn as r) ↔ Withins N as ∧ Within N r :=
  ⟨fun h => ⟨fun c hc => h c (.inl hc), fun c hc => h c (.inr hc)⟩, fun h c hc => hc.elim (h.1 c) (h.2 c)⟩
theorem Withins.nil {N : Nat} : Withins N .nil := fun _ h => h.elim
theorem Withins.cons {N : Nat} {a : Ty Cell} {as : Tys Cell} : Withins N (.cons a as) ↔ Within N a ∧ Withins N as :=
  ⟨fun h => ⟨fun c hc => h c (.inl hc), fun c hc => h c (.inr hc)⟩, fun h c hc => hc.elim (h.1 c) (h.2 c)⟩

theorem Within.mono {N N' : Nat} {t : Ty Cell} (h : Within N t) (hN : N ≤ N') : Within N' t := fun c hc => Nat.lt_of_lt_of_le (h c hc) hN
theorem Withins.mono {N N' : Nat} {t : Tys Cell} (h : Withins N t) (hN : N ≤ N') : Withins N' t := fun c hc => Nat.lt_of_lt_of_le (h c hc) hN

/-- Links before `N` lead to variables before `N`. -/
def Inside (N : Nat) (s : Heap) : Prop := ∀ c t, c < N → s c = .link t → Within N t

/-- Without the variables from `N` on. -/
def cut (N : Nat) (s : Heap) : Heap := fun c => if c < N then s c else .generic 0

theorem cut_of {N : Nat} {c : Cell} (s : Heap) (h : c < N) : cut N s c = s c := if_pos h

theorem cut_set {N : Nat} {c : Cell} (s : Heap) (v : TypeVar) (h : c < N) : (cut N s).set c v = cut N (s.set c v) := by
  funext d
  unfold cut Heap.set
  by_cases hd : d = c
  · subst hd; simp [h]
  · simp [hd]

section
variable {N : Nat}

theorem sameAll_local {f f' : Ty Cell → Ty Cell → Option Bool} (hf : ∀ t u, Within N t → Within N u → f t u = f' t u) :
    ∀ (as bs : Tys Cell), Withins N as → Withins N bs → sameAll f as bs = sameAll f' as bs
  | .nil, .nil, _, _ => rfl
  | .nil, .cons .., _, _ => rfl
  | .cons .., .nil, _, _ => rfl
  | .cons a as, .cons b bs, ha, hb => by
    have ha := Withins.cons.1 ha
    have hb := Withins.cons.1 hb
    simp only [sameAll]
    rw [hf a b ha.1 hb.1, sameAll_local hf as bs ha.2 hb.2]

theorem same_local {s : Heap} (hs : Inside N s) : ∀ (n : Nat) (t u : Ty Cell), Within N t → Within N u → same n (cut N s) t u = same n s t u := by
  intro n
  induction n with
  | zero => intro t u _ _; rfl
  | succ n ih =>
    intro t u ht hu
    cases t with
    | var c =>
      cases u with
      | var d =>
        simp only [same]
        rw [cut_of s (Within.var.1 ht), cut_of s (Within.var.1 hu)]
        split
        · next h1 h2 => exact ih _ _ (hs _ _ (Within.var.1 ht) h1) (hs _ _ (Within.var.1 hu) h2)
        all_goals rfl
      | named | fn | tuple => rfl
    | named m x as =>
      cases u with
      | named m' x' bs => simp only [same]; rw [sameAll_local ih as bs ht hu]
      | var | fn | tuple => rfl
    | fn as r =>
      cases u with
      | fn bs r' =>
        have ht := Within.fn.1 ht
        have hu := Within.fn.1 hu
        simp only [same]; rw [sameAll_local ih as bs ht.1 hu.1, ih r r' ht.2 hu.2]
      | var | named | tuple => rfl
    | tuple as =>
      cases u with
      | tuple bs => simp only [same]; rw [sameAll_local ih as bs ht hu]
      | var | named | fn => rfl

theorem occursAny_local {f f' : Ty Cell → Option Bool} (hf : ∀ t, Within N t → f t = f' t) : ∀ (as : Tys Cell), Withins N as →
    occursAny f as = occursAny f' as
  | .nil, _ => rfl
  | .cons a as, ha => by
    have ha := Withins.cons.1 ha
    simp only [occursAny]
    rw [hf a ha.1, occursAny_local hf as ha.2]

theorem occurs_local {s : Heap} (hs : Inside N s) (own : Nat) : ∀ (n : Nat) (t : Ty Cell), Within N t → occurs n (cut N s) own t = occurs n s own t := by
  intro n
  induction n with
  | zero => intro t _; rfl
  | succ n ih =>
    intro t ht
    cases t with
    | var c =>
      simp only [occurs]
      rw [cut_of s (Within.var.1 ht)]
      split
      · next h1 => exact ih _ (hs _ _ (Within.var.1 ht) h1)
      all_goals rfl
    | named m x as => simp only [occurs]; exact occursAny_local ih as ht
    | fn as r => simp only [occurs]; rw [occursAny_local ih as (Within.fn.1 ht).1, ih r (Within.fn.1 ht).2]
    | tuple as => simp only [occurs]; exact occursAny_local ih as ht

theorem collapse_local {s : Heap} (hs : Inside N s) : ∀ (n : Nat) (t : Ty Cell), Within N t → collapse n (cut N s) t = collapse n s t ∧
    ∀ u, collapse n s t = some u → Within N u := by
  intro n
  induction n with
  | zero => intro t _; exact ⟨rfl, fun u h => by cases h⟩
  | succ n ih =>
    intro t ht
    cases t with
    | var c =>
      simp only [collapse]
      rw [cut_of s (Within.var.1 ht)]
      split
      · next h1 => exact ih _ (hs _ _ (Within.var.1 ht) h1)
      · exact ⟨rfl, fun u h => by cases h; exact ht⟩
    | named m x as => exact ⟨rfl, fun u h => by cases h; exact ht⟩
    | fn as r => exact ⟨rfl, fun u h => by cases h; exact ht⟩
    | tuple as => exact ⟨rfl, fun u h => by cases h; exact ht⟩

/-- The same result, but for the variables from `N` on, which are as they were. -/
inductive Alike (N : Nat) (s : Heap) : Option (Outcome × Heap) → Option (Outcome × Heap) → Prop where
  | none : Alike N s none none
  | some (o : Outcome) (s' : Heap) (inside : Inside N s') (rest : ∀ c, N ≤ c → s' c = s c) : Alike N s (some (o, cut N s')) (some (o, s'))

theorem Alike.same {s : Heap} (hs : Inside N s) (o : Outcome) : Alike N s (Option.some (o, cut N s)) (Option.some (o, s)) := .some o s hs fun _ _ => rfl

theorem Alike.from {s s' : Heap} {r r' : Option (Outcome × Heap)} (h : Alike N s' r r') (hr : ∀ c, N ≤ c → s' c = s c) : Alike N s r r' := by
  cases h with
  | none => exact .none
  | some o s'' h1 h2 => exact .some o s'' h1 fun c hc => (h2 c hc).trans (hr c hc)

theorem Inside.set {s : Heap} (hs : Inside N s) {c : Cell} {v : TypeVar} (hv : ∀ t, v = .link t → Within N t) : Inside N (s.set c v) := by
  intro d t hd h
  unfold Heap.set at h
  split at h
  · exact hv t h
  · exact hs d t hd h

theorem rest_set {s : Heap} {c : Cell} (v : TypeVar) (hc : c < N) : ∀ d, N ≤ d → (s.set c v) d = s d := fun d hd => by
  unfold Heap.set
  rw [if_neg]
  rintro rfl
  exact absurd hc (Nat.not_lt.2 hd)

theorem unifyAll_local {f f' : Heap → Ty Cell → Ty Cell → Option (Outcome × Heap)}
    (hf : ∀ s t u, Inside N s → Within N t → Within N u → Alike N s (f (cut N s) t u) (f' s t u)) :
    ∀ (as bs : Tys Cell) (s : Heap), Inside N s → Withins N as → Withins N bs → Alike N s (unifyAll f (cut N s) as bs) (unifyAll f' s as bs)
  | .nil, .nil, s, hs, _, _ => .same hs _
  | .nil, .cons .., s, hs, _, _ => .same hs _
  | .cons .., .nil, s, hs, _, _ => .same hs _
  | .cons a as, .cons b bs, s, hs, ha, hb => by
    have ha := Withins.cons.1 ha
    have hb := Withins.cons.1 hb
    simp only [unifyAll]
    have h := hf s a b hs ha.1 hb.1
    generalize f (cut N s) a b = r at h
    generalize f' s a b = r' at h
    cases h with
    | none => exact .none
    | some o s' h1 h2 =>
      cases o with
      | ok => exact (unifyAll_local hf as bs s' h1 ha.2 hb.2).from h2
      | fail => exact .some _ _ h1 h2
      | panic => exact .some _ _ h1 h2

theorem unifyStructures_local {f f' : Heap → Ty Cell → Ty Cell → Option (Outcome × Heap)}
    (hf : ∀ s t u, Inside N s → Within N t → Within N u → Alike N s (f (cut N s) t u) (f' s t u))
    {s : Heap} (hs : Inside N s) : ∀ (t u : Ty Cell), Within N t → Within N u → Alike N s (unifyStructures f (cut N s) t u) (unifyStructures f' s t u)
  | .named m x as, .named m' x' bs, ht, hu => by
    simp only [unifyStructures]
    split
    · exact unifyAll_local hf as bs s hs ht hu
    · exact .same hs _
  | .tuple as, .tuple bs, ht, hu => by
    simp only [unifyStructures]
    split
    · exact unifyAll_local hf as bs s hs ht hu
    · exact .same hs _
  | .fn as r, .fn bs r', ht, hu => by
    have ht := Within.fn.1 ht
    have hu := Within.fn.1 hu
    simp only [unifyStructures]
    split
    · have h := unifyAll_local hf as bs s hs ht.1 hu.1
      generalize unifyAll f (cut N s) as bs = q at h
      generalize unifyAll f' s as bs = q' at h
      cases h with
      | none => exact .none
      | some o s' h1 h2 =>
        cases o with
        | ok => exact (hf s' r r' h1 ht.2 hu.2).from h2
        | fail => exact .some _ _ h1 h2
        | panic => exact .some _ _ h1 h2
    · exact .same hs _
  | .var _, _, ht, hu => .same hs _
  | .named .., .var _, ht, hu => .same hs _
  | .named .., .fn .., ht, hu => .same hs _
  | .named .., .tuple .., ht, hu => .same hs _
  | .fn .., .var _, ht, hu => .same hs _
  | .fn .., .named .., ht, hu => .same hs _
  | .fn .., .tuple .., ht, hu => .same hs _
  | .tuple .., .var _, ht, hu => .same hs _
  | .tuple .., .fn .., ht, hu => .same hs _
  | .tuple .., .named .., ht, hu => .same hs _

theorem unify_local : ∀ (n : Nat) (held : List Cell) (s : Heap) (t u : Ty Cell), Inside N s → Within N t → Within N u →
    Alike N s (unify n held (cut N s) t u) (unify n held s t u) := by
  intro n
  induction n with
  | zero => intro held s t u _ _ _; exact .none
  | succ n ih =>
    intro held s t u hs ht hu
    simp only [unify]
    rw [same_local hs n t u ht hu]
    cases hsame : same n s t u with
    | none => exact .none
    | some b =>
      cases b with
      | true => exact .same hs _
      | false =>
        simp only
        have hl : linkOf (cut N s) u = linkOf s u := by
          cases u with
          | var d => simp only [linkOf]; rw [cut_of s (Within.var.1 hu)]
          | named | fn | tuple => rfl
        rw [hl]
        cases hlink : linkOf s u with
        | some p =>
          obtain ⟨d, v⟩ := p
          refine ih (d :: held) s t v hs ht ?_
          cases u with
          | var d' =>
            simp only [linkOf] at hlink
            cases hd : s d' with
            | link v' =>
              rw [hd] at hlink
              simp only [TypeVar.linked, Option.map_some, Option.some.injEq, Prod.mk.injEq] at hlink
              obtain ⟨_, rfl⟩ := hlink
              exact hs _ _ (Within.var.1 hu) hd
            | unbound | generic => rw [hd] at hlink; cases hlink
          | named | fn | tuple => cases hlink
        | none =>
          simp only
          cases t with
          | var c =>
            have hc := Within.var.1 ht
            simp only
            rw [cut_of s hc]
            cases hsc : s c with
            | link v =>
              simp only
              have hv := hs c v hc hsc
              have h := ih held s v u hs hv hu
              generalize unify n held (cut N s) v u = q at h
              generalize unify n held s v u = q' at h
              cases h with
              | none => exact .none
              | some o s' h1 h2 =>
                cases o with
                | fail => exact .some _ _ h1 h2
                | panic => exact .some _ _ h1 h2
                | ok =>
                  simp only [unifyLink]
                  split
                  · exact .some _ _ h1 h2
                  · obtain ⟨h3, h4⟩ := collapse_local h1 n v hv
                    rw [h3]
                    cases hcol : collapse n s' v with
                    | none => exact .none
                    | some w =>
                      simp only
                      rw [cut_set s' _ hc]
                      exact .some _ _ (h1.set fun t ht => by cases ht; exact h4 w hcol) fun d hd => (rest_set _ hc d hd).trans (h2 d hd)
            | unbound id =>
              simp only [unifyUnbound]
              rw [occurs_local hs id n u hu]
              cases ho : occurs n s id u with
              | none => exact .none
              | some b =>
                cases b with
                | true => exact .same hs _
                | false =>
                  simp only
                  split
                  · exact .same hs _
                  · rw [cut_set s _ hc]
                    exact .some _ _ (hs.set fun t ht => by cases ht; exact hu) (rest_set _ hc)
            | generic id =>
              cases u with
              | var d =>
                have hd := Within.var.1 hu
                simp only [unifyGeneric]
                rw [cut_of s hd]
                split
                · split
                  · exact .same hs _
                  · rw [cut_set s _ hd]
                    exact .some _ _ (hs.set fun t ht => by cases ht) (rest_set _ hd)
                · exact .same hs _
              | named | fn | tuple => exact .same hs _
          | named m x as =>
            cases u with
            | var d => exact ih held s (.var d) _ hs hu ht
            | named | fn | tuple => exact unifyStructures_local (ih held) hs _ _ ht hu
          | fn as r =>
            cases u with
            | var d => exact ih held s (.var d) _ hs hu ht
            | named | fn | tuple => exact unifyStructures_local (ih held) hs _ _ ht hu
          | tuple as =>
            cases u with
            | var d => exact ih held s (.var d) _ hs hu ht
            | named | fn | tuple => exact unifyStructures_local (ih held) hs _ _ ht hu

/-- The heap without the variables from `N` on still has a meaning. -/
theorem cut_good {s : Heap} {ρ : Cell → Tree} (g : Good s ρ) (hs : Inside N s) :
    Good (cut N s) fun c => if c < N then ρ c else .var (.generic 0) := by
  have hc : ∀ c v, cut N s c = v → (c < N ∧ s c = v) ∨ (¬ c < N ∧ v = .generic 0) := fun c v h => by
    unfold cut at h
    split at h
    · next hc => exact .inl ⟨hc, h⟩
    · next hc => exact .inr ⟨hc, h.symm⟩
  refine ⟨⟨fun c t h => ?_, fun c id h => ?_, fun c id h => ?_⟩, fun c d id h h' => ?_, ?_⟩
  · rcases hc c _ h with ⟨h1, h2⟩ | ⟨_, h2⟩
    · simp only [if_pos h1]
      rw [g.reading.link c t h2]
      refine Ty.sub_congr _ _ t fun d hd => ?_
      simp only [if_pos (hs c t h1 h2 d hd)]
    · cases h2
  · rcases hc c _ h with ⟨h1, h2⟩ | ⟨_, h2⟩
    · simp only [if_pos h1]; exact g.reading.unbound c id h2
    · cases h2
  · rcases hc c _ h with ⟨h1, h2⟩ | ⟨h1, h2⟩
    · simp only [if_pos h1]; exact g.reading.generic c id h2
    · cases h2; simp only [if_neg h1]
  · rcases hc c _ h with ⟨h1, h2⟩ | ⟨_, h2⟩
    · rcases hc d _ h' with ⟨h3, h4⟩ | ⟨_, h4⟩
      · exact g.unique c d id h2 h4
      · cases h4
    · cases h2
  · obtain ⟨rank, hr⟩ := g.chains
    refine ⟨rank, fun c d h => ?_⟩
    rcases hc c _ h with ⟨_, h2⟩ | ⟨_, h2⟩
    · exact hr c d h2
    · cases h2

/-- Unification comes to an end and does not panic. -/
theorem unify_total {s : Heap} {ρ : Cell → Tree} (g : Good s ρ) (hs : Inside N s) (t u : Ty Cell) (ht : Within N t) (hu : Within N u) :
    ∃ n o s', o ≠ .panic ∧ (∃ ρ', Good s' ρ') ∧ Inside N s' ∧ (∀ c, N ≤ c → s' c = s c) ∧ ∀ m, n ≤ m → unify m [] s t u = some (o, s') := by
  have gc := cut_good g hs
  obtain ⟨n, ⟨o, s₁⟩, h⟩ := unify_ends N (count N (cut N s)) _ [] (cut N s) _ t u gc (fun c id h => by
    unfold cut at h
    split at h
    · assumption
    · cases h) (by simp) (Nat.le_refl _) (Nat.lt_succ_self _)
  have ha := unify_local n [] s t u hs ht hu
  rw [h] at ha
  generalize hr : unify n [] s t u = r at ha
  cases ha with
  | some o s' h1 h2 =>
    obtain ⟨σ, st, np, _⟩ := unify_sound n [] s t u o s' ρ hr g (by simp)
    exact ⟨n, o, s', np, ⟨_, st.good⟩, h1, h2, fun m hm => unify_mono hm hr⟩

end
end Verif.Infer
