import Verif.JsCase.Spec

/-! # Strings as UTF-16 -/

namespace Verif.JsCase

open Verif.Case

theorem char_bound (c : Char) : c.toNat < 0xD800 ∨ (0xDFFF < c.toNat ∧ c.toNat < 0x110000) := by
  exact c.valid

theorem codeUnits_length (c : Char) : (codeUnits c).length = charLen c := by
  unfold codeUnits charLen
  split <;> simp

theorem charLen_pos (c : Char) : 0 < charLen c := by
  unfold charLen; split <;> omega

theorem codeUnits_prefix {c d : Char} {a b : List Nat}
    (h : codeUnits c ++ a <+: codeUnits d ++ b) : c = d ∧ a <+: b := by
  have hc := char_bound c
  have hd := char_bound d
  have key : c.toNat = d.toNat ∧ a <+: b := by
    unfold codeUnits at h
    split at h <;> split at h
    · simpa using h
    · simp only [List.cons_append, List.nil_append, List.cons_prefix_cons] at h
      omega
    · simp only [List.cons_append, List.nil_append, List.cons_prefix_cons] at h
      omega
    · simp only [List.cons_append, List.nil_append, List.cons_prefix_cons] at h
      exact ⟨by omega, h.2.2⟩
  exact ⟨Char.toNat_inj.1 key.1, key.2⟩

theorem codeUnits_ne_nil (c : Char) : codeUnits c ≠ [] := by
  unfold codeUnits; split <;> simp

theorem stringUnits_cons (c : Char) (s : List Char) :
    stringUnits (c :: s) = codeUnits c ++ stringUnits s := rfl

theorem stringUnits_append (s t : List Char) :
    stringUnits (s ++ t) = stringUnits s ++ stringUnits t := by
  simp [stringUnits]

theorem stringUnits_prefix : ∀ s t : List Char, stringUnits s <+: stringUnits t ↔ s <+: t
  | [], t => by simp [stringUnits]
  | c :: s, [] => by
    simp only [stringUnits_cons, List.prefix_nil, reduceCtorEq, iff_false]
    intro h
    have h2 : codeUnits c ++ stringUnits s = [] := List.prefix_nil.1 h
    exact codeUnits_ne_nil c (List.append_eq_nil_iff.1 h2).1
  | c :: s, d :: t => by
    rw [stringUnits_cons, stringUnits_cons, List.cons_prefix_cons]
    constructor
    · intro h
      obtain ⟨e, h'⟩ := codeUnits_prefix h
      exact ⟨e, (stringUnits_prefix s t).1 h'⟩
    · rintro ⟨rfl, h⟩
      exact (List.prefix_append_right_inj _).2 ((stringUnits_prefix s t).2 h)

theorem stringUnits_inj {s t : List Char} (h : stringUnits s = stringUnits t) : s = t := by
  have h1 := (stringUnits_prefix s t).1 (h ▸ List.prefix_rfl)
  have h2 := (stringUnits_prefix t s).1 (h ▸ List.prefix_rfl)
  exact h1.eq_of_length (Nat.le_antisymm h1.length_le h2.length_le)

theorem sliceUnits_append : ∀ p s : List Char,
    sliceUnits ((p.map charLen).sum) (p ++ s) = some s
  | [], s => by simp [sliceUnits]
  | c :: p, s => by
    have hp := charLen_pos c
    simp only [List.map_cons, List.sum_cons, List.cons_append]
    obtain ⟨n, hn⟩ : ∃ n, charLen c + (p.map charLen).sum = n + 1 := ⟨_, (Nat.succ_pred (by omega)).symm⟩
    rw [hn, sliceUnits, codeUnits_length, if_pos (by omega), ← hn,
      show charLen c + (p.map charLen).sum - charLen c = (p.map charLen).sum by omega]
    exact sliceUnits_append p s

theorem sliceUnits_prefix {p : Lit} {s : List Char} (h : p.decode <+: s) :
    sliceUnits (utf16Len p) s = some (s.drop p.decode.length) := by
  obtain ⟨t, rfl⟩ := h
  simpa [utf16Len] using sliceUnits_append p.decode t

/-- The literals of length one: one character of one unit. -/
theorem utf16Len_one {p : Lit} (h : utf16Len p = 1) :
    ∃ c, p.decode = [c] ∧ codeUnits c = [c.toNat] := by
  unfold utf16Len at h
  match hd : p.decode with
  | [] => simp [hd] at h
  | [c] =>
    refine ⟨c, rfl, ?_⟩
    simp only [hd, List.map_cons, List.map_nil, List.sum_cons, List.sum_nil, charLen] at h
    unfold codeUnits
    split <;> simp_all
  | c :: d :: t =>
    have h1 := charLen_pos c
    have h2 := charLen_pos d
    simp only [hd, List.map_cons, List.sum_cons] at h
    omega

/-- The first unit of a string tells whether it starts with a character of one unit. -/
theorem head_unit {c : Char} (hc : codeUnits c = [c.toNat]) (s : List Char) :
    (stringUnits s).head? = some c.toNat ↔ [c] <+: s := by
  rw [← stringUnits_prefix]
  have : stringUnits [c] = [c.toNat] := by simp [stringUnits, hc]
  rw [this]
  cases stringUnits s with
  | nil => simp
  | cons a l => simp [List.cons_prefix_cons, eq_comm]

end Verif.JsCase
