import Mathlib.Data.List.Induction
import Mathlib.Tactic.Tauto
/-!
# Decimal numerals

Text is modelled as `List Char`. `showNat` is what Rust's `Display` for unsigned integers prints,
`readNat` the value of a digit string.
-/
namespace Verif.Decimal

/-- The decimal digit character for `d < 10`. -/
def dchar (d : Nat) : Char := Char.ofNat (48 + d)

/-- `'0'..='9'`. -/
def isDigit (c : Char) : Bool := 48 ≤ c.toNat && c.toNat ≤ 57

def digitVal (c : Char) : Nat := c.toNat - 48

def showNatF : Nat → Nat → List Char
  | 0, n => [dchar n]
  | f + 1, n => if n < 10 then [dchar n] else showNatF f (n / 10) ++ [dchar (n % 10)]

/-- Decimal text of a number. -/
def showNat (n : Nat) : List Char := showNatF n n

/-- Value of a digit string. -/
def readNat (s : List Char) : Nat := s.foldl (fun a c => a * 10 + digitVal c) 0

theorem toNat_dchar (d : Nat) (h : d < 10) : (dchar d).toNat = 48 + d := by
  have : d = 0 ∨ d = 1 ∨ d = 2 ∨ d = 3 ∨ d = 4 ∨ d = 5 ∨ d = 6 ∨ d = 7 ∨ d = 8 ∨ d = 9 := by omega
  rcases this with h | h | h | h | h | h | h | h | h | h <;> subst h <;> rfl

theorem isDigit_dchar (d : Nat) (h : d < 10) : isDigit (dchar d) = true := by
  simp [isDigit, toNat_dchar d h]; omega

theorem digitVal_dchar (d : Nat) (h : d < 10) : digitVal (dchar d) = d := by
  simp [digitVal, toNat_dchar d h]

theorem char_ext {a b : Char} (h : a.toNat = b.toNat) : a = b := by
  apply Char.ext
  exact UInt32.toNat_inj.1 h

theorem dchar_digitVal (c : Char) (h : isDigit c = true) : dchar (digitVal c) = c := by
  simp [isDigit] at h
  apply char_ext
  rw [toNat_dchar _ (by unfold digitVal; omega)]
  unfold digitVal; omega

theorem digitVal_lt (c : Char) (h : isDigit c = true) : digitVal c < 10 := by
  simp [isDigit] at h; unfold digitVal; omega

theorem showNatF_fuel (f g n : Nat) (hf : n ≤ f) (hg : n ≤ g) : showNatF f n = showNatF g n := by
  induction f generalizing g n with
  | zero => cases g with
    | zero => rfl
    | succ g => simp [showNatF]; omega
  | succ f ih =>
    cases g with
    | zero => simp [showNatF]; omega
    | succ g =>
      simp only [showNatF]
      split
      · rfl
      · rw [ih g (n / 10) (by omega) (by omega)]

theorem showNat_lt (n : Nat) (h : n < 10) : showNat n = [dchar n] := by
  cases n <;> simp [showNat, showNatF] ; omega

theorem showNat_ge (n : Nat) (h : 10 ≤ n) : showNat n = showNat (n / 10) ++ [dchar (n % 10)] := by
  obtain ⟨m, rfl⟩ : ∃ m, n = m + 1 := ⟨n - 1, by omega⟩
  rw [showNat, showNatF, if_neg (by omega), showNat, showNatF_fuel m ((m + 1) / 10) _ (by omega) (by omega)]

theorem readNat_append_singleton (s : List Char) (c : Char) : readNat (s ++ [c]) = readNat s * 10 + digitVal c := by
  simp [readNat]

theorem readNat_showNat (n : Nat) : readNat (showNat n) = n := by
  induction n using Nat.strongRecOn with
  | _ n ih =>
    by_cases h : n < 10
    · rw [showNat_lt n h]; simp [readNat, digitVal_dchar n h]
    · rw [showNat_ge n (by omega), readNat_append_singleton, ih _ (by omega), digitVal_dchar _ (by omega)]
      omega

theorem showNat_ne_nil (n : Nat) : showNat n ≠ [] := by
  by_cases h : n < 10
  · rw [showNat_lt n h]; simp
  · rw [showNat_ge n (by omega)]; simp

theorem showNat_digits (n : Nat) : ∀ c ∈ showNat n, isDigit c = true := by
  induction n using Nat.strongRecOn with
  | _ n ih =>
    by_cases h : n < 10
    · rw [showNat_lt n h]; simp; exact isDigit_dchar n h
    · rw [showNat_ge n (by omega)]
      intro c hc
      rcases List.mem_append.1 hc with h' | h'
      · exact ih _ (by omega) c h'
      · simp at h'; subst h'; exact isDigit_dchar _ (by omega)

theorem showNat_head (n : Nat) (h : 0 < n) : (showNat n).head? ≠ some '0' := by
  induction n using Nat.strongRecOn with
  | _ n ih =>
    by_cases h' : n < 10
    · rw [showNat_lt n h']
      simp
      intro hc
      have := congrArg Char.toNat hc
      rw [toNat_dchar n h'] at this
      have h0 : Char.toNat '0' = 48 := rfl
      omega
    · rw [showNat_ge n (by omega)]
      have := ih (n / 10) (by omega) (by omega)
      have hne := showNat_ne_nil (n / 10)
      revert this hne
      cases showNat (n / 10) <;> simp

theorem readNat_pos (s : List Char) (hd : ∀ c ∈ s, isDigit c = true) (hne : s ≠ [])
    (hh : s.head? ≠ some '0') : 0 < readNat s := by
  induction s using List.reverseRecOn with
  | nil => exact absurd rfl hne
  | append_singleton s c ih =>
    rw [readNat_append_singleton]
    cases s with
    | nil =>
      simp at hh
      have hc := hd c (by simp)
      have : digitVal c ≠ 0 := by
        intro h0
        apply hh
        rw [← dchar_digitVal c hc, h0]; rfl
      simp [readNat]; omega
    | cons d s =>
      have := ih (fun c hc => hd c (by simp at hc ⊢; tauto)) (by simp) (by simpa using hh)
      omega

/-- Digit strings without a leading zero are canonical. -/
theorem showNat_readNat (s : List Char) (hd : ∀ c ∈ s, isDigit c = true) (hne : s ≠ [])
    (hh : s.head? ≠ some '0' ∨ s = ['0']) : showNat (readNat s) = s := by
  rcases hh with hh | hh
  · induction s using List.reverseRecOn with
    | nil => exact absurd rfl hne
    | append_singleton s c ih =>
      have hc := hd c (by simp)
      rw [readNat_append_singleton]
      cases s with
      | nil =>
        simp only [readNat, List.foldl_nil, Nat.zero_mul, Nat.zero_add]
        rw [showNat_lt _ (digitVal_lt c hc), dchar_digitVal c hc]; rfl
      | cons d s =>
        have hd' : ∀ c ∈ d :: s, isDigit c = true := fun c hc => hd c (by simp at hc ⊢; tauto)
        have hp := readNat_pos (d :: s) hd' (by simp) (by simpa using hh)
        have hv := digitVal_lt c hc
        rw [showNat_ge _ (by omega)]
        have e1 : (readNat (d :: s) * 10 + digitVal c) / 10 = readNat (d :: s) := by omega
        have e2 : (readNat (d :: s) * 10 + digitVal c) % 10 = digitVal c := by omega
        rw [e1, e2, ih hd' (by simp) (by simpa using hh), dchar_digitVal c hc]
  · subst hh; rfl

theorem showNat_inj {m n : Nat} (h : showNat m = showNat n) : m = n := by
  rw [← readNat_showNat m, h, readNat_showNat]

end Verif.Decimal
