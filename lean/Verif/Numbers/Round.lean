import Verif.Numbers.Spec
import Mathlib.Tactic.Linarith
import Mathlib.Tactic.Ring
import Mathlib.Tactic.Positivity
import Mathlib.Tactic.FieldSimp
import Mathlib.Tactic.NormNum
import Mathlib.Data.Finset.Max
import Mathlib.Data.Int.Interval
import Mathlib.Data.Nat.Log
import Mathlib.Algebra.Order.Floor.Ring

/-
Lemmas about rounding. The property theorems are in `Props.lean`.
-/
namespace Verif.Numbers

theorem isDouble_neg {q : ℚ} (h : IsDouble q) : IsDouble (-q) := by
  obtain ⟨m, e, hm, h1, h2, rfl⟩ := h
  exact ⟨-m, e, by simpa using hm, h1, h2, by push_cast; ring⟩

theorem isDouble_int {n : ℤ} (h : |n| < 2 ^ 53) : IsDouble (n : ℚ) :=
  ⟨n, 0, h, by norm_num, by norm_num, by simp⟩

/-- There is a rounding function. -/
theorem exists_round : ∃ round, RoundsToNearest round := by
  obtain ⟨s, hs⟩ : ∃ s : Finset ℚ, ∀ d, IsDouble d ↔ d ∈ s := by
    refine ⟨(Finset.Ioo (-(2 : ℤ) ^ 53) (2 ^ 53) ×ˢ Finset.Icc (-1074 : ℤ) 971).image fun p => (p.1 : ℚ) * (2 : ℚ) ^ p.2, ?_⟩
    intro d
    simp only [Finset.mem_image, Finset.mem_product, Finset.mem_Ioo, Finset.mem_Icc, Prod.exists]
    constructor
    · rintro ⟨m, e, hm, h1, h2, rfl⟩
      exact ⟨m, e, ⟨abs_lt.mp hm, h1, h2⟩, rfl⟩
    · rintro ⟨m, e, ⟨hm, h1, h2⟩, rfl⟩
      exact ⟨m, e, abs_lt.mpr hm, h1, h2, rfl⟩
  have hne : s.Nonempty := ⟨0, (hs 0).mp (by simpa using isDouble_int (n := 0) (by norm_num))⟩
  have : ∀ q : ℚ, ∃ r ∈ s, ∀ d ∈ s, |r - q| ≤ |d - q| := fun q => Finset.exists_min_image s (fun d => |d - q|) hne
  choose f hf hmin using this
  exact ⟨f, fun q _ => ⟨(hs _).mpr (hf q), fun d hd => hmin q d ((hs d).mp hd)⟩⟩

variable {round : ℚ → ℚ}

theorem round_exact (hr : RoundsToNearest round) {q : ℚ} (hq : |q| ≤ 2 ^ 200) (hd : IsDouble q) : round q = q := by
  have := (hr q hq).2 q hd
  simp only [sub_self, abs_zero] at this
  have h := le_antisymm this (abs_nonneg _)
  linarith [abs_eq_zero.mp h]

theorem round_int (hr : RoundsToNearest round) {n : ℤ} (h : |n| < 2 ^ 53) : round (n : ℚ) = n := by
  apply round_exact hr _ (isDouble_int h)
  have h2 : |(n : ℚ)| < 2 ^ 53 := by exact_mod_cast h
  have : (2 : ℚ) ^ 53 ≤ 2 ^ 200 := pow_le_pow_right₀ (by norm_num) (by norm_num)
  linarith

theorem round_ge (hr : RoundsToNearest round) {q d : ℚ} (hq : |q| ≤ 2 ^ 200) (hd : IsDouble d) (h : d ≤ q) : d ≤ round q := by
  by_contra hlt
  push Not at hlt
  have := (hr q hq).2 d hd
  rw [abs_of_nonpos (by linarith), abs_of_nonpos (by linarith)] at this
  linarith

theorem round_le (hr : RoundsToNearest round) {q d : ℚ} (hq : |q| ≤ 2 ^ 200) (hd : IsDouble d) (h : q ≤ d) : round q ≤ d := by
  by_contra hlt
  push Not at hlt
  have := (hr q hq).2 d hd
  rw [abs_of_nonneg (by linarith), abs_of_nonneg (by linarith)] at this
  linarith

theorem round_ne (hr : RoundsToNearest round) {q N h : ℚ} (hq : |q| ≤ 2 ^ 200) (hpos : 0 < h) (hd : IsDouble (N - 2 * h))
    (hlt : q < N - h) : round q ≠ N := by
  intro he
  have := (hr q hq).2 _ hd
  rw [he, abs_of_pos (by linarith)] at this
  rcases le_total q (N - 2 * h) with hc | hc
  · rw [abs_of_nonneg (by linarith)] at this; linarith
  · rw [abs_of_nonpos (by linarith)] at this; linarith

/-- The key fact: rounding the quotient of two safe integers does not reach the next integer. -/
theorem floor_round_div (hr : RoundsToNearest round) (a b : ℕ) (ha : a < 2 ^ 53) (hb : b < 2 ^ 53) (hb0 : 0 < b) :
    ((a / b : ℕ) : ℚ) ≤ round ((a : ℚ) / b) ∧ round ((a : ℚ) / b) < (a / b : ℕ) + 1 := by
  have hbq : (0 : ℚ) < b := by exact_mod_cast hb0
  have hq0 : (0 : ℚ) ≤ (a : ℚ) / b := by positivity
  have haq : (a : ℚ) < 2 ^ 53 := by exact_mod_cast ha
  have hb1 : (1 : ℚ) ≤ b := by exact_mod_cast hb0
  have hqa : (a : ℚ) / b ≤ a := div_le_self (by positivity) hb1
  have hbig : |(a : ℚ) / b| ≤ 2 ^ 200 := by
    rw [abs_of_nonneg hq0]
    have : (2 : ℚ) ^ 53 ≤ 2 ^ 200 := pow_le_pow_right₀ (by norm_num) (by norm_num)
    linarith
  set n := a / b with hn
  have hdm : b * n + a % b = a := Nat.div_add_mod a b
  have hmod : a % b < b := Nat.mod_lt _ hb0
  have hna : n ≤ a := Nat.div_le_self _ _
  have hle : (n : ℚ) ≤ (a : ℚ) / b := by
    rw [le_div_iff₀ hbq]
    have : n * b ≤ a := Nat.div_mul_le_self a b
    exact_mod_cast this
  have hnd : IsDouble (n : ℚ) := by
    have : |(n : ℤ)| < 2 ^ 53 := by rw [abs_of_nonneg (by positivity)]; exact_mod_cast lt_of_le_of_lt hna ha
    simpa using isDouble_int this
  refine ⟨round_ge hr hbig hnd hle, ?_⟩
  have hlt : (a : ℚ) / b ≤ (n + 1 : ℚ) - 1 / b := by
    rw [div_le_iff₀ hbq, sub_mul, div_mul_cancel₀ _ hbq.ne']
    have : a + 1 ≤ (n + 1) * b := by
      have : (n + 1) * b = b * n + b := by ring
      omega
    have h2 : ((a + 1 : ℕ) : ℚ) ≤ ((n + 1) * b : ℕ) := by exact_mod_cast this
    push_cast at h2
    linarith
  -- the next integer is a double, so the rounded quotient is at most the next integer
  have hNd : IsDouble ((n : ℚ) + 1) := by
    rcases Nat.lt_or_ge (n + 1) (2 ^ 53) with h | h
    · have : |((n + 1 : ℕ) : ℤ)| < 2 ^ 53 := by rw [abs_of_nonneg (by positivity)]; exact_mod_cast h
      simpa using isDouble_int this
    · have he : n + 1 = 2 ^ 53 := by omega
      refine ⟨2 ^ 52, 1, by norm_num, by norm_num, by norm_num, ?_⟩
      have : ((n + 1 : ℕ) : ℚ) = ((2 ^ 53 : ℕ) : ℚ) := by rw [he]
      push_cast at this
      rw [this]; norm_num
  have hinv : (0 : ℚ) < 1 / b := by positivity
  have hleN : round ((a : ℚ) / b) ≤ (n : ℚ) + 1 := round_le hr hbig hNd (by linarith)
  refine lt_of_le_of_ne hleN ?_
  -- half the distance to the double below the next integer
  rcases Nat.eq_zero_or_pos n with h0 | hpos
  · refine round_ne hr (h := (2 : ℚ) ^ (-54 : ℤ)) hbig (by positivity) ?_ ?_
    · refine ⟨2 ^ 53 - 1, -53, by norm_num, by norm_num, by norm_num, ?_⟩
      rw [h0]; norm_num
    · have hbb : (b : ℚ) < 2 ^ 53 := by exact_mod_cast hb
      have : (2 : ℚ) ^ (-54 : ℤ) < 1 / b := by
        rw [lt_div_iff₀ hbq, zpow_neg, inv_mul_lt_iff₀ (by positivity)]
        norm_num
        linarith
      linarith
  · set k := Nat.log 2 n with hk
    have hk1 : 2 ^ k ≤ n := Nat.pow_log_le_self 2 hpos.ne'
    have hk2 : n < 2 ^ (k + 1) := Nat.lt_pow_succ_log_self (by norm_num) n
    have hk3 : k ≤ 52 := by
      by_contra hc
      have : 2 ^ 53 ≤ 2 ^ k := Nat.pow_le_pow_right (by norm_num) (by omega)
      omega
    obtain ⟨j, hj⟩ : ∃ j, 52 = k + j := ⟨52 - k, by omega⟩
    refine round_ne hr (h := (2 : ℚ) ^ ((k : ℤ) - 53)) hbig (zpow_pos (by norm_num) _) ?_ ?_
    · refine ⟨((n : ℤ) + 1) * 2 ^ j - 1, -(j : ℤ), ?_, by omega, by omega, ?_⟩
      · have h1 : (n + 1) * 2 ^ j ≤ 2 ^ (k + 1) * 2 ^ j := Nat.mul_le_mul_right _ hk2
        have h2 : 2 ^ (k + 1) * 2 ^ j = 2 ^ 53 := by rw [← pow_add]; congr 1; omega
        have h3 : (n + 1) * 2 ^ j ≤ 2 ^ 53 := by omega
        have h4 : 1 ≤ (n + 1) * 2 ^ j := Nat.mul_pos (by omega) (by positivity)
        have h5 : ((n : ℤ) + 1) * 2 ^ j ≤ 2 ^ 53 := by exact_mod_cast h3
        have h6 : 1 ≤ ((n : ℤ) + 1) * 2 ^ j := by exact_mod_cast h4
        rw [abs_of_nonneg (by linarith)]
        linarith
      · have hkj : ((k : ℤ) - 53) = -(j : ℤ) - 1 := by omega
        rw [hkj, zpow_sub₀ (by norm_num)]
        push_cast
        rw [sub_mul, mul_assoc, zpow_neg, zpow_natCast, mul_inv_cancel₀ (by positivity)]
        norm_num
        ring
    · have hlt2 : (2 : ℚ) ^ ((k : ℤ) - 53) < 1 / b := by
        have h1 : 2 ^ k * b ≤ a := by
          calc 2 ^ k * b ≤ n * b := Nat.mul_le_mul_right _ hk1
            _ ≤ a := Nat.div_mul_le_self a b
        have h2 : (2 : ℚ) ^ k * b < 2 ^ 53 := by
          have : 2 ^ k * b < 2 ^ 53 := by omega
          exact_mod_cast this
        rw [lt_div_iff₀ hbq, zpow_sub₀ (by norm_num), zpow_natCast]
        have : (2 : ℚ) ^ k / 2 ^ (53 : ℤ) * b = 2 ^ k * b / 2 ^ 53 := by norm_num; ring
        rw [this, div_lt_one (by positivity)]
        exact h2
      linarith

theorem roundsToNearest_neg (hr : RoundsToNearest round) : RoundsToNearest fun q => -round (-q) := by
  intro q hq
  have h := hr (-q) (by simpa using hq)
  refine ⟨isDouble_neg h.1, fun d hd => ?_⟩
  have := h.2 (-d) (isDouble_neg hd)
  have e1 : |(-round (-q)) - q| = |round (-q) - -q| := by rw [← abs_neg]; congr 1; ring
  have e2 : |d - q| = |-d - -q| := by rw [← abs_neg]; congr 1; ring
  rw [e1, e2]; exact this

theorem trunc_of_nonneg {q : ℚ} {n : ℕ} (h1 : (n : ℚ) ≤ q) (h2 : q < n + 1) : trunc q = n := by
  have h0 : (0 : ℚ) ≤ q := le_trans (by positivity) h1
  have : ⌊q⌋ = (n : ℤ) := Int.floor_eq_iff.mpr (by push_cast; exact ⟨h1, h2⟩)
  simp [trunc, h0, this]

theorem trunc_neg (q : ℚ) : trunc (-q) = -trunc q := by
  unfold trunc
  rcases lt_trichotomy q 0 with h | h | h
  · have h1 : ¬ (0 ≤ q) := by linarith
    have h2 : 0 ≤ -q := by linarith
    simp only [h1, h2, if_true, if_false, Int.floor_neg]; push_cast; rfl
  · subst h; simp
  · have h1 : (0 ≤ q) := by linarith
    have h2 : ¬ 0 ≤ -q := by linarith
    simp only [h1, h2, if_true, if_false, Int.ceil_neg]; push_cast; rfl

theorem trunc_int (n : ℤ) : trunc (n : ℚ) = n := by
  unfold trunc; split <;> simp

/-- Truncation after a function that stays between the integers around a quotient. -/
theorem trunc_signed {r : ℚ → ℚ} (a b : ℤ) (hb0 : b ≠ 0)
    (h1 : ((a.natAbs / b.natAbs : ℕ) : ℚ) ≤ r ((a.natAbs : ℚ) / b.natAbs) ∧ r ((a.natAbs : ℚ) / b.natAbs) < (a.natAbs / b.natAbs : ℕ) + 1)
    (h2 : ((a.natAbs / b.natAbs : ℕ) : ℚ) ≤ -r (-((a.natAbs : ℚ) / b.natAbs)) ∧
      -r (-((a.natAbs : ℚ) / b.natAbs)) < (a.natAbs / b.natAbs : ℕ) + 1) :
    trunc (r ((a : ℚ) / b)) = ((a.sign * b.sign * (a.natAbs / b.natAbs : ℕ) : ℤ) : ℚ) := by
  have ka : trunc (r ((a.natAbs : ℚ) / b.natAbs)) = ((a.natAbs / b.natAbs : ℕ) : ℚ) := trunc_of_nonneg h1.1 h1.2
  have kneg : trunc (r (-((a.natAbs : ℚ) / b.natAbs))) = -((a.natAbs / b.natAbs : ℕ) : ℚ) := by
    have := trunc_of_nonneg h2.1 h2.2
    rw [trunc_neg] at this
    linarith
  rcases lt_trichotomy a 0 with h | h | h
  · have ea : (a : ℚ) = -(a.natAbs : ℚ) := by
      rw [Nat.cast_natAbs, abs_of_neg h]; push_cast; ring
    rcases lt_or_gt_of_ne hb0 with h' | h'
    · have eb : (b : ℚ) = -(b.natAbs : ℚ) := by
        rw [Nat.cast_natAbs, abs_of_neg h']; push_cast; ring
      rw [ea, eb, neg_div_neg_eq, ka, Int.sign_eq_neg_one_of_neg h, Int.sign_eq_neg_one_of_neg h']
      generalize a.natAbs / b.natAbs = m; push_cast; ring
    · have eb : (b : ℚ) = (b.natAbs : ℚ) := by
        rw [Nat.cast_natAbs, abs_of_pos h']
      rw [ea, eb, neg_div, kneg, Int.sign_eq_neg_one_of_neg h, Int.sign_eq_one_of_pos h']
      generalize a.natAbs / b.natAbs = m; push_cast; ring
  · subst h
    simpa using ka
  · have ea : (a : ℚ) = (a.natAbs : ℚ) := by
      rw [Nat.cast_natAbs, abs_of_pos h]
    rcases lt_or_gt_of_ne hb0 with h' | h'
    · have eb : (b : ℚ) = -(b.natAbs : ℚ) := by
        rw [Nat.cast_natAbs, abs_of_neg h']; push_cast; ring
      rw [ea, eb, div_neg, kneg, Int.sign_eq_one_of_pos h, Int.sign_eq_neg_one_of_neg h']
      generalize a.natAbs / b.natAbs = m; push_cast; ring
    · have eb : (b : ℚ) = (b.natAbs : ℚ) := by
        rw [Nat.cast_natAbs, abs_of_pos h']
      rw [ea, eb, ka, Int.sign_eq_one_of_pos h, Int.sign_eq_one_of_pos h']
      generalize a.natAbs / b.natAbs = m; push_cast; ring


/-- The quotient of safe integers, rounded to a double and truncated, is the truncated quotient. -/
theorem trunc_round_div (hr : RoundsToNearest round) (a b : ℤ) (ha : a.natAbs < 2 ^ 53) (hb : b.natAbs < 2 ^ 53) (hb0 : b ≠ 0) :
    trunc (round ((a : ℚ) / b)) = ((a.sign * b.sign * (a.natAbs / b.natAbs : ℕ) : ℤ) : ℚ) :=
  trunc_signed a b hb0 (floor_round_div hr _ _ ha hb (Int.natAbs_pos.mpr hb0))
    (floor_round_div (roundsToNearest_neg hr) _ _ ha hb (Int.natAbs_pos.mpr hb0))

/-- The truncated quotient of integers. -/
theorem trunc_div (a b : ℤ) (hb0 : b ≠ 0) :
    trunc ((a : ℚ) / b) = ((a.sign * b.sign * (a.natAbs / b.natAbs : ℕ) : ℤ) : ℚ) := by
  have hbn := Int.natAbs_pos.mpr hb0
  have hbq : (0 : ℚ) < b.natAbs := by exact_mod_cast hbn
  have h : ((a.natAbs / b.natAbs : ℕ) : ℚ) ≤ (a.natAbs : ℚ) / b.natAbs ∧ (a.natAbs : ℚ) / b.natAbs < (a.natAbs / b.natAbs : ℕ) + 1 := by
    rw [le_div_iff₀ hbq, div_lt_iff₀ hbq]
    constructor
    · exact_mod_cast Nat.div_mul_le_self _ _
    · have : a.natAbs < (a.natAbs / b.natAbs + 1) * b.natAbs := by
        have h1 := Nat.div_add_mod a.natAbs b.natAbs
        have h2 := Nat.mod_lt a.natAbs hbn
        have : (a.natAbs / b.natAbs + 1) * b.natAbs = b.natAbs * (a.natAbs / b.natAbs) + b.natAbs := by ring
        omega
      exact_mod_cast this
  exact trunc_signed (r := fun q => q) a b hb0 h (by simpa only [neg_neg] using h)

theorem exactRem_int (a b : ℤ) (hb0 : b ≠ 0) : exactRem a b = ((a.sign * (a.natAbs % b.natAbs : ℕ) : ℤ) : ℚ) := by
  unfold exactRem
  rw [trunc_div a b hb0]
  have h : a - b * (a.sign * b.sign * (a.natAbs / b.natAbs : ℕ)) = a.sign * (a.natAbs % b.natAbs : ℕ) := by
    have h1 : ((b.natAbs * (a.natAbs / b.natAbs) + a.natAbs % b.natAbs : ℕ) : ℤ) = a.natAbs := by rw [Nat.div_add_mod]
    have h2 : a.sign * (a.natAbs : ℤ) = a := Int.sign_mul_natAbs a
    have h3 : b.sign * b = (b.natAbs : ℤ) := Int.sign_mul_self_eq_natAbs b
    generalize a.natAbs / b.natAbs = q at *
    generalize a.natAbs % b.natAbs = m at *
    have h1' : (b.natAbs : ℤ) * q + m = a.natAbs := by exact_mod_cast h1
    calc a - b * (a.sign * b.sign * q) = a.sign * (a.natAbs : ℤ) - a.sign * ((b.sign * b) * q) := by rw [h2]; ring
      _ = a.sign * ((b.natAbs : ℤ) * q + m) - a.sign * ((b.natAbs : ℤ) * q) := by rw [h3, h1']
      _ = a.sign * m := by ring
  have := congrArg (fun z : ℤ => (z : ℚ)) h
  simp only [Int.cast_sub, Int.cast_mul] at this ⊢
  exact this

end Verif.Numbers
