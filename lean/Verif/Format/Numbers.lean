import Verif.Format.Model
import Verif.Format.Spec
import Verif.Lexer.Complete

/-!
# Lemmas: numbers written by the formatter
-/
namespace Verif.Format
open Verif.Lexer Verif.Lexer.Spec Verif.Format.Spec

theorem decimal_char {c : Char} (h : isDigitOf .decimal c) : c ≠ '_' ∧ c ≠ '-' ∧ c ≠ '.' ∧ c ≠ 'e' := by
  unfold isDigitOf at h
  rw [Bool.and_eq_true] at h
  have h1 := isHex_mem h.1
  have h2 : digitValue c < 10 := of_decide_eq_true h.2
  clear h
  revert h2
  revert h1
  revert c
  decide

/-! ### Grouping digits -/

/-- Digits in reverse order, `j` of them already written. -/
def groupRev (insert : Bool) : Nat → List Char → List Char
  | _, [] => []
  | j, c :: cs => if insert && j != 0 && j % 3 == 0 then '_' :: c :: groupRev insert (j + 1) cs else c :: groupRev insert (j + 1) cs

theorem pushed_eq {ins : Bool} {len : Nat} (cs : List Char) :
    ∀ i j, i ≠ 0 → j ≠ 0 → '-' ∉ cs → i + cs.length ≤ len →
      pushed ins len i j cs = groupRev ins j (cs.filter (· ≠ '_')) := by
  induction cs with
  | nil => intros; simp [pushed, groupRev]
  | cons c cs ih =>
    intro i j hi hj hm hl
    simp only [List.mem_cons, not_or] at hm
    simp only [List.length_cons] at hl
    unfold pushed
    by_cases hc : c = '_'
    · rw [if_pos hc, ih (i + 1) j (by omega) hj hm.2 (by omega)]
      simp [hc]
    · rw [if_neg hc, ih (i + 1) (j + 1) (by omega) (by omega) hm.2 (by omega)]
      rw [List.filter_cons_of_pos (by simpa using hc)]
      have h1 : (i != 0) = true := by simpa using hi
      have h2 : (c != '-') = true := by simpa using fun h => hm.1 h.symm
      have h3 : decide (i < len) = true := by simp; omega
      have h4 : (j != 0) = true := by simpa using hj
      simp only [groupRev, h1, h2, h3, h4, Bool.and_true]

theorem pushed_minus {ins : Bool} {len : Nat} (cs : List Char) :
    ∀ i j, pushed ins len i j (cs ++ ['-']) = pushed ins len i j cs ++ ['-'] := by
  induction cs with
  | nil => intro i j; simp [pushed]
  | cons c cs ih =>
    intro i j
    simp only [List.cons_append]
    unfold pushed
    split
    · exact ih _ _
    · split <;> simp [ih]

/-- The digits of a decimal number, grouped if there are five or more of them. -/
def tidy (ds : List Char) : List Char := (groupRev (decide (5 ≤ ds.length)) 0 ds.reverse).reverse

theorem count_filter (t : List Char) : t.length - t.count '_' = (t.filter (· ≠ '_')).length := by
  induction t with
  | nil => rfl
  | cons c t ih =>
    have h := List.count_le_length (a := '_') (l := t)
    by_cases hc : c = '_'
    · subst hc
      simp only [List.length_cons, List.count_cons_self]
      rw [List.filter_cons_of_neg (by simp)]
      omega
    · rw [List.count_cons_of_ne hc, List.filter_cons_of_pos (by simpa using hc)]
      simp only [List.length_cons]
      omega

theorem run_last {radix : Radix} {t : List Char} (h : Run radix t) (hne : t ≠ []) :
    ∃ r c, t = r ++ [c] ∧ isDigitOf radix c := by
  induction h with
  | nil => exact absurd rfl hne
  | @digit c t hc ht ih =>
    by_cases h : t = []
    · subst h; exact ⟨[], c, rfl, hc⟩
    · obtain ⟨r, d, rfl, hd⟩ := ih h
      exact ⟨c :: r, d, rfl, hd⟩
  | @underscore c t hc ht ih =>
    obtain ⟨r, d, h1, hd⟩ := ih (by simp)
    exact ⟨'_' :: r, d, by rw [h1]; rfl, hd⟩

/-- The sign of a number. -/
def signOf (negative : Bool) : List Char := if negative then ['-'] else []

theorem run_no_minus {t : List Char} (h : Run .decimal t) : '-' ∉ t := by
  intro hm
  rcases run_chars h _ hm with h | h
  · cases h
  · exact (decimal_char h).2.1 rfl

theorem underscore_eq {t : List Char} {n : Nat} (h : Digits 10 t n) (negative : Bool) :
    underscoreIntegerString (signOf negative ++ t) = signOf negative ++ tidy (t.filter (· ≠ '_')) := by
  obtain ⟨h1, h2, c, r, h3, h4⟩ := digits_run_of (radix := .decimal) h
  obtain ⟨r', d, h5, h6⟩ := run_last h1 (by rw [h3]; simp)
  have hd := decimal_char h6
  have hm := run_no_minus h1
  have hm' : '-' ∉ r'.reverse := by
    intro hx
    exact hm (by rw [h5]; exact List.mem_append_left _ (List.mem_reverse.1 hx))
  have key : ∀ ins len, t.length ≤ len → pushed ins len 0 0 t.reverse = groupRev ins 0 (t.filter (· ≠ '_')).reverse := by
    intro ins len hl
    have e1 : t.reverse = d :: r'.reverse := by rw [h5]; simp
    have e2 : (t.filter (· ≠ '_')).reverse = d :: r'.reverse.filter (· ≠ '_') := by
      rw [← List.filter_reverse, e1, List.filter_cons_of_pos (by simpa using hd.1)]
    have hlen : 1 + r'.reverse.length ≤ len := by
      rw [h5] at hl
      simp only [List.length_append, List.length_cons, List.length_nil] at hl
      simp only [List.length_reverse]
      omega
    rw [e1, e2]
    unfold pushed groupRev
    rw [if_neg hd.1, pushed_eq r'.reverse 1 1 (by simp) (by simp) hm' hlen]
    simp
  cases negative with
  | false =>
    have hh : t.head? ≠ some '-' := by
      rw [h3]
      simpa using (decimal_char h4).2.1
    simp only [signOf, Bool.false_eq_true, if_false, List.nil_append, underscoreIntegerString, if_neg hh, tidy, count_filter]
    rw [key _ _ (Nat.le_refl _)]
  | true =>
    have e : (6 ≤ ('-' :: t).length - ('-' :: t).count '_') ↔ 5 ≤ (t.filter (· ≠ '_')).length := by
      rw [count_filter, List.filter_cons_of_pos (by simp)]
      simp
    simp only [signOf, if_true, List.singleton_append, underscoreIntegerString, List.head?_cons, tidy]
    have e' : decide (6 ≤ ('-' :: t).length - ('-' :: t).count '_') = decide (5 ≤ (t.filter (· ≠ '_')).length) :=
      decide_eq_decide.2 e
    rw [List.reverse_cons, pushed_minus, key _ _ (by simp), e']
    simp

theorem groupRev_filter {ins : Bool} (cs : List Char) : ∀ j, '_' ∉ cs → (groupRev ins j cs).filter (· ≠ '_') = cs := by
  induction cs with
  | nil => intros; rfl
  | cons c cs ih =>
    intro j h
    simp only [List.mem_cons, not_or] at h
    have hc : c ≠ '_' := fun hx => h.1 hx.symm
    unfold groupRev
    split
    · rw [List.filter_cons_of_neg (by simp), List.filter_cons_of_pos (by simpa using hc), ih _ h.2]
    · rw [List.filter_cons_of_pos (by simpa using hc), ih _ h.2]

theorem groupRev_false (cs : List Char) : ∀ j, groupRev false j cs = cs := by
  induction cs with
  | nil => intros; rfl
  | cons c cs ih =>
    intro j
    simp [groupRev, ih]

theorem groupRev_period (cs : List Char) : ∀ j, j ≠ 0 → groupRev true (j + 3) cs = groupRev true j cs := by
  induction cs with
  | nil => intros; rfl
  | cons c cs ih =>
    intro j hj
    unfold groupRev
    have h1 : (j + 3 != 0) = (j != 0) := by
      have : (j != 0) = true := by simpa using hj
      rw [this]; simp
    have h2 : (j + 3) % 3 = j % 3 := by omega
    have h3 := ih (j + 1) (by omega)
    rw [h1, h2, show j + 3 + 1 = j + 1 + 3 by omega, h3]

theorem grouped_groupRev (cs : List Char) (hne : cs ≠ []) (h : '_' ∉ cs) : Grouped (groupRev true 0 cs).reverse := by
  generalize hk : cs.length = k
  induction k using Nat.strongRecOn generalizing cs with
  | ind k ih =>
    match cs, hne, h with
    | [a], _, h => exact .first (by simp [groupRev]) (by simp [groupRev]) (by simpa [groupRev] using h)
    | [a, b], _, h =>
      refine .first (by simp [groupRev]) (by simp [groupRev]) ?_
      simp only [groupRev, List.reverse_cons]
      simpa [and_comm] using h
    | [a, b, c], _, h =>
      refine .first (by simp [groupRev]) (by simp [groupRev]) ?_
      simp only [groupRev, List.reverse_cons]
      simp only [List.mem_cons, not_or] at h
      simp [h.1, h.2.1, h.2.2.1]
    | a :: b :: c :: d :: rest, _, h =>
      have h1 := ih (d :: rest).length (by rw [← hk]; simp only [List.length_cons]; omega) (d :: rest) (by simp)
        (fun hx => h (by simp only [List.mem_cons] at hx ⊢; tauto)) rfl
      simp only [List.mem_cons, not_or] at h
      have h2 := Grouped.more h1 (fun hx => h.2.2.1 hx.symm) (fun hx => h.2.1 hx.symm) (fun hx => h.1 hx.symm)
      have h3 := groupRev_period rest 1 (by simp)
      have e : groupRev true 0 (a :: b :: c :: d :: rest) = a :: b :: c :: '_' :: groupRev true 0 (d :: rest) := by
        simp [groupRev, h3]
      rw [e]
      simpa using h2

theorem runValue_append {radix : Radix} (s u : List Char) (n : Nat) :
    runValue radix n (s ++ u) = runValue radix (runValue radix n s) u := by
  simp [runValue, List.filter_append, List.foldl_append]

theorem digits_of_plain {t : List Char} (hne : t ≠ []) (hd : ∀ c ∈ t, isDigitOf .decimal c) :
    Digits 10 t (runValue .decimal 0 t) := by
  have run : ∀ t : List Char, (∀ c ∈ t, isDigitOf .decimal c) → Run .decimal t := by
    intro t
    induction t with
    | nil => intro _; exact .nil
    | cons c t ih => intro h; exact .digit (h c (by simp)) (ih fun d hd => h d (by simp [hd]))
  cases t with
  | nil => exact absurd rfl hne
  | cons c t => exact digits_run (radix := .decimal) (hd c (by simp)) (run t fun d h => hd d (by simp [h]))

theorem digits_of_grouped {t : List Char} (h : Grouped t) (hd : ∀ c ∈ t, c ≠ '_' → isDigitOf .decimal c) :
    Digits 10 t (runValue .decimal 0 t) := by
  induction h with
  | @first t h1 h2 h3 => exact digits_of_plain h1 fun c hc => hd c hc fun h => h3 (h ▸ hc)
  | @more t a b c h1 h2 h3 h4 ih =>
    have h5 := ih fun c hc => hd c (by simp [hc])
    rw [runValue_append]
    refine digits_append (radix := .decimal) h5 (.underscore (hd _ (by simp) h2) ?_)
    exact .digit (hd _ (by simp) h2) (.digit (hd _ (by simp) h3) (.digit (hd _ (by simp) h4) .nil))

theorem runValue_filter {radix : Radix} {n : Nat} {t u : List Char} (h : t.filter (· ≠ '_') = u.filter (· ≠ '_')) :
    runValue radix n t = runValue radix n u := by
  unfold runValue
  rw [h]

theorem tidy_filter {ds : List Char} (h : '_' ∉ ds) : (tidy ds).filter (· ≠ '_') = ds := by
  unfold tidy
  rw [List.filter_reverse, groupRev_filter _ _ (by simpa using h), List.reverse_reverse]

theorem tidy_spec {t : List Char} {n : Nat} (h : Digits 10 t n) :
    Digits 10 (tidy (t.filter (· ≠ '_'))) n ∧ Tidy (tidy (t.filter (· ≠ '_'))) ∧
      (tidy (t.filter (· ≠ '_'))).filter (· ≠ '_') = t.filter (· ≠ '_') := by
  obtain ⟨h1, h2, c, r, h3, h4⟩ := digits_run_of (radix := .decimal) h
  have hu : '_' ∉ t.filter (· ≠ '_') := by simp
  have hf := tidy_filter hu
  have hne : t.filter (· ≠ '_') ≠ [] := by
    rw [h3, List.filter_cons_of_pos (by simpa using (decimal_char h4).1)]
    simp
  have hd : ∀ c ∈ t.filter (· ≠ '_'), isDigitOf .decimal c := by
    intro c hc
    obtain ⟨h5, h6⟩ := List.mem_filter.1 hc
    rcases run_chars h1 c h5 with h7 | h7
    · simp [h7] at h6
    · exact h7
  have hv : runValue .decimal 0 (tidy (t.filter (· ≠ '_'))) = n := by
    rw [← h2]
    exact runValue_filter hf
  refine ⟨?_, ?_, hf⟩
  · rw [← hv]
    generalize hds : t.filter (· ≠ '_') = ds at *
    by_cases hl : 5 ≤ ds.length
    · apply digits_of_grouped
      · unfold tidy
        rw [decide_eq_true hl]
        exact grouped_groupRev _ (by simpa using hne) (by simpa using hu)
      · intro c hc hx
        exact hd c (by rw [← hf]; exact List.mem_filter.2 ⟨hc, by simpa using hx⟩)
    · have e : tidy ds = ds := by
        unfold tidy
        rw [decide_eq_false hl, groupRev_false, List.reverse_reverse]
      rw [e]
      exact digits_of_plain hne hd
  · unfold Tidy digitCount
    rw [hf]
    generalize hds : t.filter (· ≠ '_') = ds at *
    unfold tidy
    split
    · rename_i hl
      rw [decide_eq_false (by omega), groupRev_false, List.reverse_reverse]
      exact hu
    · rename_i hl
      rw [decide_eq_true (by omega)]
      exact grouped_groupRev _ (by simpa using hne) (by simpa using hu)

/-! ### The digits after the dot -/

theorem trimEnd_spec (c : Char) (t : List Char) :
    ∃ zeros, t = trimEnd c t ++ zeros ∧ (∀ d ∈ zeros, d = c) ∧ (∀ r d, trimEnd c t = r ++ [d] → d ≠ c) := by
  refine ⟨(t.reverse.takeWhile (· == c)).reverse, ?_, ?_, ?_⟩
  · unfold trimEnd
    rw [← List.reverse_append, List.takeWhile_append_dropWhile, List.reverse_reverse]
  · intro d hd
    have h := List.all_eq_true.1 (List.all_takeWhile (p := (· == c)) (l := t.reverse)) d (List.mem_reverse.1 hd)
    simpa using h
  · intro r d h hd
    unfold trimEnd at h
    have h1 : t.reverse.dropWhile (· == c) = d :: r.reverse := by
      have := congrArg List.reverse h
      simpa using this
    have h2 := List.head_dropWhile_not (· == c) (l := t.reverse) (by rw [h1]; simp)
    simp [h1, hd] at h2

theorem trimEnd_fixed {c : Char} {t : List Char} (h : ∀ r d, t = r ++ [d] → d ≠ c) : trimEnd c t = t := by
  unfold trimEnd
  cases ht : t.reverse with
  | nil =>
    have := List.reverse_eq_nil_iff.1 ht
    subst this
    rfl
  | cons d r =>
    have h1 : t = r.reverse ++ [d] := by
      have := congrArg List.reverse ht
      simpa using this
    rw [List.dropWhile_cons_of_neg (by simpa using h _ _ h1), h1]
    simp

theorem run_prefix {radix : Radix} {t : List Char} (h : Run radix t) :
    ∀ a b, t = a ++ b → (∀ r, a ≠ r ++ ['_']) → Run radix a := by
  induction h with
  | nil =>
    intro a b h _
    obtain ⟨rfl, _⟩ := List.append_eq_nil_iff.1 h.symm
    exact .nil
  | @digit c t hc ht ih =>
    intro a b h ha
    cases a with
    | nil => exact .nil
    | cons x a =>
      simp only [List.cons_append, List.cons.injEq] at h
      obtain ⟨rfl, h⟩ := h
      exact .digit hc (ih a b h fun r hr => ha (c :: r) (by rw [hr]; rfl))
  | @underscore c t hc ht ih =>
    intro a b h ha
    cases a with
    | nil => exact .nil
    | cons x a =>
      simp only [List.cons_append, List.cons.injEq] at h
      obtain ⟨rfl, h⟩ := h
      have h1 := ih a b h fun r hr => ha ('_' :: r) (by rw [hr]; rfl)
      cases a with
      | nil => exact absurd rfl (ha [])
      | cons y a =>
        simp only [List.cons_append, List.cons.injEq] at h
        obtain ⟨rfl, h⟩ := h
        exact .underscore hc h1

theorem dropWhile_filter (t : List Char) : (t.dropWhile (· == '_')).filter (· ≠ '_') = t.filter (· ≠ '_') := by
  induction t with
  | nil => rfl
  | cons c t ih =>
    by_cases hc : c = '_'
    · subst hc
      rw [List.dropWhile_cons_of_pos (by simp), ih, List.filter_cons_of_neg (by simp)]
    · rw [List.dropWhile_cons_of_neg (by simpa using hc)]

theorem loose_iff {t : List Char} {n : Nat} :
    LooseDigits 10 t n ↔ Run .decimal t ∧ t ≠ [] ∧ runValue .decimal 0 t = n := by
  constructor
  · intro h
    obtain ⟨h1, h2, c, t', h3, _, _, h6⟩ := loose_run (radix := .decimal) h
    refine ⟨h1, h2, ?_⟩
    rw [← h6, ← h3]
    exact runValue_filter (dropWhile_filter t).symm
  · rintro ⟨h1, h2, h3⟩
    obtain ⟨c, t', h4, _, _, h7⟩ := run_loose h1 h2
    rw [← h3, runValue_filter (dropWhile_filter t).symm, h4]
    exact h7

theorem zeros_value (zeros : List Char) (hz : ∀ d ∈ zeros, d = '0') :
    ∀ n, runValue .decimal n zeros = n * 10 ^ zeros.length := by
  induction zeros with
  | nil => intro n; simp [runValue]
  | cons d zeros ih =>
    intro n
    have : d = '0' := hz d (by simp)
    subst this
    rw [runValue_digit (by decide), ih fun d hd => hz d (by simp [hd])]
    have : digitValue '0' = 0 := by decide
    rw [this, Nat.add_zero, List.length_cons, Nat.pow_succ, Nat.mul_assoc, Nat.mul_comm (10 ^ _)]
    rfl

theorem zeros_count (zeros : List Char) (hz : ∀ d ∈ zeros, d = '0') : digitCount zeros = zeros.length := by
  unfold digitCount
  rw [List.filter_eq_self.2]
  intro d hd
  rw [hz d hd]
  decide

/-- The digits after the dot as they are written by the formatter. -/
def trimmed (fraction : List Char) : List Char := if trimEnd '0' fraction = [] then ['0'] else trimEnd '0' fraction

theorem trimmed_spec {fraction : List Char} {f places : Nat} (h : Fraction fraction f places)
    (hp : ∀ a zeros, fraction = a ++ '_' :: zeros → zeros ≠ [] → (∀ c ∈ zeros, c = '0') → False) :
    ∃ f' places', Fraction (trimmed fraction) f' places' ∧ f * 10 ^ places' = f' * 10 ^ places := by
  obtain ⟨zeros, h1, h2, h3⟩ := trimEnd_spec '0' fraction
  by_cases hn : trimEnd '0' fraction = []
  · refine ⟨0, 1, ?_, ?_⟩
    · unfold trimmed
      rw [if_pos hn]
      exact Fraction.some (t := ['0']) (.inl (.one (by decide) (by decide)))
    · cases h with
      | none => rfl
      | some h =>
        obtain ⟨_, _, rfl⟩ := loose_iff.1 h
        rw [hn, List.nil_append] at h1
        subst h1
        rw [zeros_value _ h2]
        simp
  · unfold trimmed
    rw [if_neg hn]
    cases h with
    | none => exact absurd rfl hn
    | some h =>
      obtain ⟨hr, hne, rfl⟩ := loose_iff.1 h
      have hlast : ∀ r, trimEnd '0' fraction ≠ r ++ ['_'] := by
        intro r hr'
        by_cases hz : zeros = []
        · subst hz
          obtain ⟨r2, c, h4, h5⟩ := run_last hr hne
          rw [List.append_nil, hr'] at h1
          rw [h1] at h4
          have := List.append_inj' h4 rfl
          simp only [List.cons.injEq, and_true] at this
          exact (decimal_char h5).1 this.2.symm
        · exact hp r zeros (by rw [hr'] at h1; rw [h1]; simp) hz h2
      have hr2 := run_prefix hr _ _ h1 hlast
      refine ⟨_, _, .some (loose_iff.2 ⟨hr2, hn, rfl⟩), ?_⟩
      have e1 : runValue .decimal 0 fraction = runValue .decimal 0 (trimEnd '0' fraction) * 10 ^ zeros.length := by
        rw [← zeros_value zeros h2, ← runValue_append, ← h1]
      have e2 : digitCount fraction = digitCount (trimEnd '0' fraction) + zeros.length := by
        rw [← zeros_count zeros h2]
        unfold digitCount
        rw [← List.length_append, ← List.filter_append, ← h1]
      rw [e1, e2, Nat.pow_add, Nat.mul_assoc, Nat.mul_comm (10 ^ zeros.length)]

theorem trimmed_trimmed (fraction : List Char) : trimmed (trimmed fraction) = trimmed fraction := by
  by_cases hn : trimEnd '0' fraction = []
  · have e : trimmed fraction = ['0'] := by unfold trimmed; rw [if_pos hn]
    rw [e]
    decide
  · have e : trimmed fraction = trimEnd '0' fraction := by unfold trimmed; rw [if_neg hn]
    obtain ⟨_, _, _, h3⟩ := trimEnd_spec '0' fraction
    rw [e]
    unfold trimmed
    rw [trimEnd_fixed h3, if_neg hn]

theorem takeWhile_all {p : Char → Bool} {a b : List Char} (ha : ∀ c ∈ a, p c = true) (hb : ∀ c r, b = c :: r → p c = false) :
    (a ++ b).takeWhile p = a ∧ (a ++ b).dropWhile p = b := by
  induction a with
  | nil =>
    cases b with
    | nil => exact ⟨rfl, rfl⟩
    | cons c b => simp [hb c b rfl]
  | cons c a ih =>
    have h1 := ha c (by simp)
    have h2 := ih fun d hd => ha d (by simp [hd])
    simp [h1, h2]

theorem fraction_run {fraction : List Char} {f places : Nat} (h : Fraction fraction f places) : Run .decimal fraction := by
  cases h with
  | none => exact .nil
  | some h => exact (loose_iff.1 h).1

theorem exponent_chars {t : List Char} {e : Int} (h : Exponent t e) :
    (∀ c ∈ t, c ≠ '.') ∧ (∀ c r, t = c :: r → c = 'e') := by
  have loose : ∀ {t : List Char} {n : Nat}, LooseDigits 10 t n → ∀ c ∈ t, c ≠ '.' := by
    intro t n h c hc
    rcases run_chars (loose_iff.1 h).1 c hc with h | h
    · rw [h]; decide
    · exact (decimal_char h).2.2.1
  cases h with
  | none => simp
  | pos h =>
    refine ⟨?_, by rintro c r h; cases h; rfl⟩
    intro c hc
    rcases List.mem_cons.1 hc with rfl | hc
    · decide
    · exact loose h c hc
  | neg h =>
    refine ⟨?_, by rintro c r h; cases h; rfl⟩
    intro c hc
    rcases List.mem_cons.1 hc with rfl | hc
    · decide
    · rcases List.mem_cons.1 hc with rfl | hc
      · decide
      · exact loose h c hc

theorem float_eq {negative : Bool} {whole fraction scientific : List Char} {w f places : Nat} {e : Int}
    (hw : Digits 10 whole w) (hf : Fraction fraction f places) (he : Exponent scientific e) :
    float (signOf negative ++ whole ++ '.' :: fraction ++ scientific) =
      signOf negative ++ tidy (whole.filter (· ≠ '_')) ++ '.' :: trimmed fraction ++ scientific := by
  obtain ⟨h1, _, _, _, _, _⟩ := digits_run_of (radix := .decimal) hw
  have hr := fraction_run hf
  have hx := exponent_chars he
  have d1 : ∀ c ∈ signOf negative ++ whole, (c != '.') = true := by
    intro c hc
    rcases List.mem_append.1 hc with h | h
    · cases negative with
      | false => cases h
      | true =>
        rw [List.mem_singleton.1 h]
        decide
    · rcases run_chars h1 c h with h | h
      · rw [h]; decide
      · simpa using (decimal_char h).2.2.1
  have d2 : ∀ c ∈ fraction, (c != 'e') = true := by
    intro c hc
    rcases run_chars hr c hc with h | h
    · rw [h]; decide
    · simpa using (decimal_char h).2.2.2
  have d3 : ∀ c ∈ fraction ++ scientific, (c != '.') = true := by
    intro c hc
    rcases List.mem_append.1 hc with h | h
    · rcases run_chars hr c h with h | h
      · rw [h]; decide
      · simpa using (decimal_char h).2.2.1
    · simpa using hx.1 c h
  have s1 := takeWhile_all (b := '.' :: (fraction ++ scientific)) d1 (by rintro c r h; cases h; decide)
  have s2 := takeWhile_all (b := scientific) d2 (by rintro c r h; rw [hx.2 c r h]; decide)
  have s3 := (takeWhile_all (b := []) d3 (by rintro c r h; cases h)).1
  rw [List.append_nil] at s3
  have e0 : signOf negative ++ whole ++ '.' :: fraction ++ scientific =
      (signOf negative ++ whole) ++ '.' :: (fraction ++ scientific) := by simp
  unfold float
  rw [e0, s1.1, s1.2]
  simp only [List.drop_succ_cons, List.drop_zero, s3, s2.1, s2.2]
  rw [underscore_eq hw]
  rfl

end Verif.Format
