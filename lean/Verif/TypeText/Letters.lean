import Verif.TypeText.Model
import Verif.Lexer.Spec
import Mathlib.Data.List.Nodup
import Mathlib.Data.List.Range
import Mathlib.Data.List.Perm.Subperm

/-!
# The names that are made for variables
-/
namespace Verif.TypeText
open Lexer (Token)

theorem letter_val {n : Nat} (h : n < 26) : (Char.ofNat (n + 97)).toNat = n + 97 :=
  (by decide : ∀ n < 26, (Char.ofNat (n + 97)).toNat = n + 97) n h

theorem letter_lower {n : Nat} (h : n < 26) : 'a' ≤ Char.ofNat (n + 97) ∧ Char.ofNat (n + 97) ≤ 'z' := by
  have h1 := letter_val h
  constructor
  · show (97 : Nat) ≤ (Char.ofNat (n + 97)).toNat
    omega
  · show (Char.ofNat (n + 97)).toNat ≤ 122
    omega

theorem letter_inj {n m : Nat} (hn : n < 26) (hm : m < 26) (h : Char.ofNat (n + 97) = Char.ofNat (m + 97)) : n = m := by
  have h1 := letter_val hn
  rw [h, letter_val hm] at h1
  omega

theorem lettersRev_cons (n : Nat) : lettersRev n =
    Char.ofNat (n % 26 + 97) :: (if n / 26 = 0 then [] else lettersRev (n / 26 - 1)) := by
  rw [lettersRev]
  split <;> rfl

theorem lettersRev_ne (n : Nat) : lettersRev n ≠ [] := by
  rw [lettersRev_cons]
  simp

theorem lettersRev_inj (n : Nat) : ∀ m, lettersRev n = lettersRev m → n = m := by
  induction n using Nat.strongRecOn with
  | ind n ih =>
    intro m h
    rw [lettersRev_cons n, lettersRev_cons m, List.cons.injEq] at h
    obtain ⟨h1, h2⟩ := h
    have h3 := letter_inj (Nat.mod_lt _ (by decide)) (Nat.mod_lt _ (by decide)) h1
    have hn := Nat.div_add_mod n 26
    have hm := Nat.div_add_mod m 26
    split at h2 <;> split at h2
    · omega
    · exact absurd h2.symm (lettersRev_ne _)
    · exact absurd h2 (lettersRev_ne _)
    · have h4 := ih (n / 26 - 1) (by omega) _ h2
      omega

theorem letters_inj {n m : Nat} (h : letters n = letters m) : n = m := lettersRev_inj n m (List.reverse_injective h)

theorem lettersRev_lower (n : Nat) : ∀ c ∈ lettersRev n, 'a' ≤ c ∧ c ≤ 'z' := by
  induction n using Nat.strongRecOn with
  | ind n ih =>
    intro c hc
    rw [lettersRev_cons, List.mem_cons] at hc
    rcases hc with rfl | hc
    · exact letter_lower (Nat.mod_lt _ (by decide))
    · split at hc
      · cases hc
      · exact ih _ (by omega) c hc

theorem letters_lower (n : Nat) : ∀ c ∈ letters n, 'a' ≤ c ∧ c ≤ 'z' := fun c hc =>
  lettersRev_lower n c (by simpa [letters] using hc)

theorem letters_ne (n : Nat) : letters n ≠ [] := by
  simp [letters, lettersRev_ne]

/-- Distinct names that are all in use are not more than the names in use. -/
theorem letters_count {used : List Name} {l : List Nat} (hl : l.Nodup) (h : ∀ k ∈ l, letters k ∈ used) :
    l.length ≤ used.length := by
  have h1 : (l.map letters).Nodup := hl.map fun _ _ => letters_inj
  have h2 : (l.map letters).Subperm used := List.subperm_of_subset h1 fun x hx => by
    obtain ⟨k, hk, rfl⟩ := List.mem_map.1 hx
    exact h k hk
  simpa using h2.length_le

/-- The loop of `type_variable` finds a name. -/
theorem letters_free (used : List Name) (uid : Nat) :
    ∃ k, (List.range (used.length + 1)).find? (fun k => letters (uid + k) ∉ used) = some k ∧ letters (uid + k) ∉ used ∧
      ∀ j < k, letters (uid + j) ∈ used := by
  cases hf : (List.range (used.length + 1)).find? (fun k => letters (uid + k) ∉ used) with
  | none =>
    rw [List.find?_eq_none] at hf
    have h1 := letters_count (used := used) (l := (List.range (used.length + 1)).map (uid + ·))
      (List.nodup_range.map fun a b h => by simpa using h) (by
        intro k hk
        obtain ⟨j, hj, rfl⟩ := List.mem_map.1 hk
        have := hf j hj
        simpa using this)
    simp only [List.length_map, List.length_range] at h1
    omega
  | some k =>
    refine ⟨k, rfl, by simpa using List.find?_some hf, ?_⟩
    intro j hj
    rw [List.find?_eq_some_iff_append] at hf
    obtain ⟨h1, as, bs, h2, h3⟩ := hf
    have hlen : k = as.length := by
      have h4 : (List.range (used.length + 1))[as.length]? = some k := by rw [h2]; simp
      rw [List.getElem?_eq_some_iff] at h4
      obtain ⟨h5, h6⟩ := h4
      simp at h6
      exact h6.symm
    have h4 : j ∈ as := by
      have h5 : as[j]? = some j := by
        have h6 : (List.range (used.length + 1))[j]? = as[j]? := by rw [h2, List.getElem?_append_left (by omega)]
        rw [← h6, List.getElem?_range]
        have := congrArg List.length h2
        simp at this
        omega
      exact List.mem_of_getElem? h5
    simpa using h3 j h4

/-- The first names are names a variable can have. -/
theorem letters_name {n : Nat} (h : n < 44) : Lexer.Spec.Reads (.name (letters n)) (letters n) := by
  refine ⟨rfl, ?_, fun c hc => .inl (letters_lower n c hc), ?_⟩
  · cases hl : letters n with
    | nil => exact absurd hl (letters_ne n)
    | cons c r => exact ⟨c, r, rfl, letters_lower n c (by rw [hl]; simp)⟩
  · intro k
    revert h
    revert n
    cases k <;> decide +kernel

end Verif.TypeText
