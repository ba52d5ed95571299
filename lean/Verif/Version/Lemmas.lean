import Verif.Version.Spec
import Mathlib.Data.List.Basic
import Mathlib.Tactic.SplitIfs

namespace Verif.Version

open Verif.Decimal

/-! ### Order -/

theorem compare_nat_lt (a b : Nat) : compare a b = .lt ↔ a < b := Nat.compare_eq_lt
theorem compare_nat_eq (a b : Nat) : compare a b = .eq ↔ a = b := Nat.compare_eq_eq
theorem compare_nat_gt (a b : Nat) : compare a b = .gt ↔ b < a := Nat.compare_eq_gt

theorem then_lt (o p : Ordering) : o.then p = .lt ↔ o = .lt ∨ o = .eq ∧ p = .lt := by
  cases o <;> simp [Ordering.then]

theorem then_eq (o p : Ordering) : o.then p = .eq ↔ o = .eq ∧ p = .eq := by
  cases o <;> simp [Ordering.then]

theorem then_swap (o p : Ordering) : (o.then p).swap = o.swap.then p.swap := by
  cases o <;> simp [Ordering.then]

theorem dictLt_nil_left (R : α → α → Prop) (b : List α) : Spec.DictLt R [] b ↔ b ≠ [] := by
  unfold Spec.DictLt
  constructor
  · rintro (⟨c, cs, rfl⟩ | ⟨p, x, y, s, t, h, _⟩)
    · simp
    · simp at h
  · intro h
    cases b with
    | nil => exact absurd rfl h
    | cons b bs => exact Or.inl ⟨b, bs, rfl⟩

theorem dictLt_nil_right (R : α → α → Prop) (a : List α) : ¬ Spec.DictLt R a [] := by
  unfold Spec.DictLt
  rintro (⟨c, cs, h⟩ | ⟨p, x, y, s, t, _, h, _⟩) <;> simp at h

theorem dictLt_cons (R : α → α → Prop) (x y : α) (s t : List α) :
    Spec.DictLt R (x :: s) (y :: t) ↔ R x y ∨ x = y ∧ Spec.DictLt R s t := by
  unfold Spec.DictLt
  constructor
  · rintro (⟨c, cs, h⟩ | ⟨p, x', y', s', t', h1, h2, hr⟩)
    · simp at h
      exact Or.inr ⟨h.1.symm, Or.inl ⟨c, cs, h.2⟩⟩
    · cases p with
      | nil =>
        simp only [List.nil_append, List.cons.injEq] at h1 h2
        exact Or.inl (h1.1 ▸ h2.1 ▸ hr)
      | cons q p =>
        simp only [List.cons_append, List.cons.injEq] at h1 h2
        exact Or.inr ⟨by rw [h1.1, h2.1], Or.inr ⟨p, x', y', s', t', h1.2, h2.2, hr⟩⟩
  · rintro (h | ⟨rfl, ⟨c, cs, rfl⟩ | ⟨p, x', y', s', t', rfl, rfl, hr⟩⟩)
    · exact Or.inr ⟨[], x, y, s, t, rfl, rfl, h⟩
    · exact Or.inl ⟨c, cs, rfl⟩
    · exact Or.inr ⟨x :: p, x', y', s', t', rfl, rfl, hr⟩

theorem cmpChars_lt (a b : List Char) :
    cmpChars a b = .lt ↔ Spec.DictLt (fun a b : Char => a.toNat < b.toNat) a b := by
  induction a generalizing b with
  | nil => cases b <;> simp [cmpChars, dictLt_nil_left]
  | cons x xs ih =>
    cases b with
    | nil => simp [cmpChars, dictLt_nil_right]
    | cons y ys =>
      rw [cmpChars, then_lt, compare_nat_lt, compare_nat_eq, ih, dictLt_cons]
      have : x.toNat = y.toNat ↔ x = y := ⟨char_ext, fun h => h ▸ rfl⟩
      rw [this]

theorem cmpChars_eq (a b : List Char) : cmpChars a b = .eq ↔ a = b := by
  induction a generalizing b with
  | nil => cases b <;> simp [cmpChars]
  | cons x xs ih =>
    cases b with
    | nil => simp [cmpChars]
    | cons y ys =>
      rw [cmpChars, then_eq, compare_nat_eq, ih, List.cons.injEq]
      have : x.toNat = y.toNat ↔ x = y := ⟨char_ext, fun h => h ▸ rfl⟩
      rw [this]

theorem cmpChars_swap (a b : List Char) : (cmpChars a b).swap = cmpChars b a := by
  induction a generalizing b with
  | nil => cases b <;> simp [cmpChars]
  | cons x xs ih =>
    cases b with
    | nil => simp [cmpChars]
    | cons y ys => rw [cmpChars, cmpChars, then_swap, ih, Nat.compare_swap]

theorem idCmp_lt (a b : Identifier) : a.cmp b = .lt ↔ Spec.IdLt a b := by
  cases a <;> cases b <;> simp [Identifier.cmp, Spec.IdLt, compare_nat_lt, cmpChars_lt]

theorem idCmp_eq (a b : Identifier) : a.cmp b = .eq ↔ a = b := by
  cases a <;> cases b <;> simp [Identifier.cmp, compare_nat_eq, cmpChars_eq]

theorem idCmp_swap (a b : Identifier) : (a.cmp b).swap = b.cmp a := by
  cases a <;> cases b <;> simp [Identifier.cmp, cmpChars_swap, Nat.compare_swap]

theorem cmpIds_lt (a b : List Identifier) : cmpIds a b = .lt ↔ Spec.DictLt Spec.IdLt a b := by
  induction a generalizing b with
  | nil => cases b <;> simp [cmpIds, dictLt_nil_left]
  | cons x xs ih =>
    cases b with
    | nil => simp [cmpIds, dictLt_nil_right]
    | cons y ys => rw [cmpIds, then_lt, idCmp_lt, idCmp_eq, ih, dictLt_cons]

theorem cmpIds_eq (a b : List Identifier) : cmpIds a b = .eq ↔ a = b := by
  induction a generalizing b with
  | nil => cases b <;> simp [cmpIds]
  | cons x xs ih =>
    cases b with
    | nil => simp [cmpIds]
    | cons y ys => rw [cmpIds, then_eq, idCmp_eq, ih, List.cons.injEq]

theorem cmpIds_swap (a b : List Identifier) : (cmpIds a b).swap = cmpIds b a := by
  induction a generalizing b with
  | nil => cases b <;> simp [cmpIds]
  | cons x xs ih =>
    cases b with
    | nil => simp [cmpIds]
    | cons y ys => rw [cmpIds, cmpIds, then_swap, ih, idCmp_swap]

theorem cmpPre_lt (a b : List Identifier) : cmpPre a b = .lt ↔ Spec.PreLt a b := by
  unfold cmpPre Spec.PreLt
  cases a <;> cases b <;> simp [cmpIds_lt]

theorem cmpPre_eq (a b : List Identifier) : cmpPre a b = .eq ↔ a = b := by
  unfold cmpPre
  cases a <;> cases b <;> simp [cmpIds_eq]

theorem cmpPre_swap (a b : List Identifier) : (cmpPre a b).swap = cmpPre b a := by
  unfold cmpPre
  cases a <;> cases b <;> simp [cmpIds_swap]

theorem cmp_swap' (a b : Version) : (a.cmp b).swap = b.cmp a := by
  simp only [Version.cmp, then_swap, Nat.compare_swap, cmpPre_swap]

theorem cmp_lt' (a b : Version) : a.cmp b = .lt ↔ Spec.Precedes a b := by
  simp only [Version.cmp, then_lt, compare_nat_lt, compare_nat_eq, cmpPre_lt, Spec.Precedes]

theorem cmp_eq' (a b : Version) : a.cmp b = .eq ↔ Spec.SameRelease a b := by
  simp only [Version.cmp, then_eq, compare_nat_eq, cmpPre_eq, Spec.SameRelease]

theorem cmp_gt' (a b : Version) : a.cmp b = .gt ↔ Spec.Precedes b a := by
  rw [← cmp_lt', ← cmp_swap']
  cases a.cmp b <;> simp

theorem dictLt_trans {R : α → α → Prop} (hR : ∀ a b c, R a b → R b c → R a c) (a b c : List α)
    (h1 : Spec.DictLt R a b) (h2 : Spec.DictLt R b c) : Spec.DictLt R a c := by
  induction a generalizing b c with
  | nil =>
    rw [dictLt_nil_left] at h1 ⊢
    intro h; subst h
    exact dictLt_nil_right R b h2
  | cons x xs ih =>
    cases b with
    | nil => exact absurd h1 (dictLt_nil_right R _)
    | cons y ys =>
      cases c with
      | nil => exact absurd h2 (dictLt_nil_right R _)
      | cons z zs =>
        rw [dictLt_cons] at *
        rcases h1 with h1 | ⟨rfl, h1⟩
        · rcases h2 with h2 | ⟨rfl, h2⟩
          · exact Or.inl (hR _ _ _ h1 h2)
          · exact Or.inl h1
        · rcases h2 with h2 | ⟨rfl, h2⟩
          · exact Or.inl h2
          · exact Or.inr ⟨rfl, ih _ _ h1 h2⟩

theorem idLt_trans (a b c : Identifier) (h1 : Spec.IdLt a b) (h2 : Spec.IdLt b c) : Spec.IdLt a c := by
  cases a <;> cases b <;> cases c <;> simp_all [Spec.IdLt]
  · omega
  · exact dictLt_trans (R := fun a b : Char => a.toNat < b.toNat) (fun a b c h1 h2 => Nat.lt_trans h1 h2) _ _ _ h1 h2

theorem preLt_trans (a b c : List Identifier) (h1 : Spec.PreLt a b) (h2 : Spec.PreLt b c) :
    Spec.PreLt a c := by
  unfold Spec.PreLt at *
  rcases h1 with ⟨ha, rfl⟩ | ⟨ha, hb, h1⟩
  · rcases h2 with ⟨hb, _⟩ | ⟨hb, _⟩ <;> exact absurd rfl hb
  · rcases h2 with ⟨_, hc⟩ | ⟨_, hc, h2⟩
    · exact Or.inl ⟨ha, hc⟩
    · exact Or.inr ⟨ha, hc, dictLt_trans idLt_trans _ _ _ h1 h2⟩

theorem precedes_trans (a b c : Version) (h1 : Spec.Precedes a b) (h2 : Spec.Precedes b c) :
    Spec.Precedes a c := by
  unfold Spec.Precedes at *
  have := preLt_trans a.pre b.pre c.pre
  rcases h1 with h1 | ⟨e1, h1 | ⟨e1', h1 | ⟨e1'', h1⟩⟩⟩ <;>
    rcases h2 with h2 | ⟨e2, h2 | ⟨e2', h2 | ⟨e2'', h2⟩⟩⟩ <;> first
      | (exact Or.inl (by omega))
      | (exact Or.inr ⟨by omega, Or.inl (by omega)⟩)
      | (exact Or.inr ⟨by omega, Or.inr ⟨by omega, Or.inl (by omega)⟩⟩)
      | (exact Or.inr ⟨by omega, Or.inr ⟨by omega, Or.inr ⟨by omega, this h1 h2⟩⟩⟩)

theorem precedes_irrefl (a : Version) : ¬ Spec.Precedes a a := by
  intro h
  have := (cmp_lt' a a).2 h
  rw [(cmp_eq' a a).2 ⟨rfl, rfl, rfl, rfl⟩] at this
  simp at this

theorem trichotomy (a b : Version) : Spec.Precedes a b ∨ Spec.SameRelease a b ∨ Spec.Precedes b a := by
  rw [← cmp_lt', ← cmp_eq', ← cmp_gt']
  cases a.cmp b <;> simp

theorem lt_iff (a b : Version) : a.lt b = true ↔ Spec.Precedes a b := by
  simp [Version.lt, cmp_lt']

theorem le_iff (a b : Version) : a.le b = true ↔ ¬ Spec.Precedes b a := by
  simp [Version.le, ← cmp_gt']

theorem precedes_congr_left {a a' b : Version} (h : Spec.SameRelease a a') :
    Spec.Precedes a b ↔ Spec.Precedes a' b := by
  unfold Spec.Precedes
  rw [h.1, h.2.1, h.2.2.1, h.2.2.2]

theorem precedes_congr_right {a b b' : Version} (h : Spec.SameRelease b b') :
    Spec.Precedes a b ↔ Spec.Precedes a b' := by
  unfold Spec.Precedes
  rw [h.1, h.2.1, h.2.2.1, h.2.2.2]

end Verif.Version
