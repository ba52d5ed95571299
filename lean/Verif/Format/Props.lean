import Verif.Format.Numbers
import Verif.Lexer.Props

/-!
# Properties: formatting keeps numbers
-/
namespace Verif.Format
open Verif.Lexer Verif.Lexer.Spec Verif.Format.Spec

/-! ### C74 -/

/-- Digits that follow a base are not written with a sign, and are left alone. -/
theorem int_based {base : Nat} {x y : Char} {t : List Char} (h : (x, y, base) ∈ basePrefix) (negative : Bool) :
    int (signOf negative ++ '0' :: y :: t) = signOf negative ++ '0' :: y :: t := by
  have hy : y = 'x' ∨ y = 'b' ∨ y = 'o' := by
    simp only [basePrefix, List.mem_cons, Prod.mk.injEq, List.not_mem_nil, or_false] at h
    tauto
  have e : (signOf negative ++ '0' :: y :: t).dropWhile (· == '-') = '0' :: y :: t := by
    cases negative <;> simp [signOf]
  unfold int
  rw [e]
  rcases hy with rfl | rfl | rfl <;> simp [List.isPrefixOf]

theorem base_letters : ∀ x ∈ ['x', 'b', 'o'], x ≠ '_' ∧ isDigitOf .decimal x = false := by decide

theorem base_prefix {x y : Char} {base : Nat} (h : (x, y, base) ∈ basePrefix) : (y, y, base) ∈ basePrefix := by
  simp only [basePrefix, List.mem_cons, Prod.mk.injEq, List.not_mem_nil, or_false] at h
  rcases h with ⟨rfl, rfl, rfl⟩ | ⟨rfl, rfl, rfl⟩ | ⟨rfl, rfl, rfl⟩ | ⟨rfl, rfl, rfl⟩ | ⟨rfl, rfl, rfl⟩ | ⟨rfl, rfl, rfl⟩ <;>
    decide

theorem digits_no_return {base n : Nat} {t : List Char} (h : Digits base t n) : '\r' ∉ t := by
  have hd : ∀ {c : Char} {v : Nat}, digit? c = some v → '\r' ≠ c := by
    rintro c v h rfl
    revert h
    simp [show digit? '\r' = none by decide]
  induction h with
  | one h1 _ => simpa using hd h1
  | more _ h1 _ ih => simpa [ih] using hd h1
  | underscore _ h1 _ ih => simpa [ih] using hd h1

theorem int_decimal {t : List Char} {n : Nat} (h : Digits 10 t n) (negative : Bool) :
    int (signOf negative ++ t) = signOf negative ++ tidy (t.filter (· ≠ '_')) := by
  obtain ⟨h1, _, c, r, h3, h4⟩ := digits_run_of (radix := .decimal) h
  have e : (signOf negative ++ t).dropWhile (· == '-') = t := by
    have h5 : (c == '-') = false := by simpa using (decimal_char h4).2.1
    rw [h3]
    cases negative <;> simp [signOf, h5]
  have h6 : ∀ x, x ∈ ['x', 'b', 'o'] → ['0', x].isPrefixOf t = false := by
    intro x hx
    by_contra hp
    rw [Bool.not_eq_false, List.isPrefixOf_iff_prefix] at hp
    obtain ⟨u, hu⟩ := hp
    have hm : x ∈ t := by rw [← hu]; simp
    have h7 := base_letters x hx
    rcases run_chars h1 x hm with h8 | h8
    · exact h7.1 h8
    · rw [h7.2] at h8; cases h8
  unfold int
  simp only [e, h6 'x' (by simp), h6 'b' (by simp), h6 'o' (by simp), Bool.or_self, Bool.false_eq_true, if_false]
  exact underscore_eq h negative

/-- **C74, integers.** The formatted text of an integer is read as an integer with the same value, and formatting it again
does not change it. -/
theorem formatted_int_is_same {v text : List Char} {n : Int} (h : Reads (.int v n) text) :
    Reads (.int (int v) n) (int v) ∧ int (int v) = int v := by
  obtain ⟨base, h⟩ := h
  have key : ∀ (negative : Bool) (t w : List Char) (n : Nat), Natural base t w n →
      ∃ w', int (signOf negative ++ w) = signOf negative ++ w' ∧ Natural base w' w' n ∧
        int (signOf negative ++ w') = signOf negative ++ w' := by
    intro negative t w n h
    cases h with
    | decimal h =>
      obtain ⟨h1, _, h3⟩ := tidy_spec h
      exact ⟨_, int_decimal h negative, .decimal h1, by rw [int_decimal h1, h3]⟩
    | @based x y _ t _ hb ht =>
      refine ⟨'0' :: y :: t, int_based hb negative, .based (x := y) (base_prefix hb) ht, int_based hb negative⟩
  cases h with
  | pos h =>
    obtain ⟨w, h1, h2, h3⟩ := key false _ _ _ h
    simp only [signOf, Bool.false_eq_true, if_false, List.nil_append] at h1 h3
    rw [h1, h3]
    exact ⟨⟨base, .pos h2⟩, rfl⟩
  | neg h =>
    obtain ⟨w, h1, h2, h3⟩ := key true _ _ _ h
    simp only [signOf, if_true, List.singleton_append] at h1 h3
    rw [h1, h3]
    exact ⟨⟨base, .neg h2⟩, rfl⟩

/-- A number with five digits gets an underscore; one with four digits loses those it has. -/
example : int "-1_2345".toList = "-12_345".toList ∧ int "1_234".toList = "1234".toList ∧
    int "-0x_1F".toList = "-0x_1F".toList ∧ int "1234567".toList = "1_234_567".toList := by decide +kernel

/-- **C74, integers in the source.** The lexer reads the formatted text as one token, the integer it was. -/
theorem formatted_int_is_lexed {v text : List Char} {n : Int} (h : Reads (.int v n) text) :
    tokens (int v ++ [' ']) = ([⟨0, .int (int v) n, bytes (int v)⟩], none) := by
  obtain ⟨h1, _⟩ := formatted_int_is_same h
  have h2 : '\r' ∉ int v := by
    clear h
    obtain ⟨base, h⟩ := h1
    have nat : ∀ {t w : List Char} {n : Nat}, Natural base t w n → '\r' ∉ t := by
      intro t w n h
      cases h with
      | decimal h => exact digits_no_return h
      | based hb h =>
        simp only [List.mem_cons, not_or]
        refine ⟨by decide, ?_, ?_⟩
        · rintro rfl
          revert hb
          simp [basePrefix]
        · rcases h with h | ⟨t', rfl, h⟩
          · exact digits_no_return h
          · simpa using digits_no_return h
    generalize int v = w at h
    generalize hu : w = u at h
    cases h with
    | pos h => exact nat h
    | neg h => simpa using nat h
  have h3 := written_tokens_are_read [(.int (int v) n, int v)] (by
    intro i hi
    rw [List.mem_singleton.1 hi]
    exact ⟨h1, trivial, h2⟩)
  simpa [spaced, spacedTokens] using h3

/-- **C74, the layout of an integer.** The sign and the digits of a decimal integer are kept, up to four digits are
written without underscores, and more digits in groups of three. Other integers are not changed at all. -/
theorem formatted_int_layout {base : Nat} {t v : List Char} {n : Nat} (h : Natural base t v n) (sign : List Char)
    (hs : sign = [] ∨ sign = ['-']) :
    (base = 10 → ∃ v', int (sign ++ v) = sign ++ v' ∧ Tidy v' ∧ v'.filter (· ≠ '_') = v.filter (· ≠ '_')) ∧
    (base ≠ 10 → int (sign ++ v) = sign ++ v) := by
  obtain ⟨negative, rfl⟩ : ∃ negative, sign = signOf negative := by
    rcases hs with rfl | rfl
    · exact ⟨false, rfl⟩
    · exact ⟨true, rfl⟩
  cases h with
  | decimal h =>
    obtain ⟨_, h2, h3⟩ := tidy_spec h
    exact ⟨fun _ => ⟨_, int_decimal h negative, h2, h3⟩, fun h => absurd rfl h⟩
  | @based x y _ t _ hb ht =>
    refine ⟨fun h => ?_, fun _ => int_based hb negative⟩
    subst h
    revert hb
    simp [basePrefix]

/-- Not every text is tidy. -/
example : Tidy "12_345".toList ∧ ¬Tidy "1_2345".toList ∧ ¬Tidy "1_234".toList := by
  refine ⟨?_, ?_, ?_⟩
  · show Grouped (['1', '2'] ++ ['_', '3', '4', '5'])
    exact .more (.first (by decide) (by decide) (by decide)) (by decide) (by decide) (by decide)
  · show ¬Grouped "1_2345".toList
    generalize ht : "1_2345".toList = t
    intro h
    cases h with
    | first h1 h2 h3 => rw [← ht] at h3; exact h3 (by decide)
    | @more u a b c h1 h2 h3 h4 =>
      have h5 := List.append_inj' (s₁ := ['1', '_']) (t₁ := ['2', '3', '4', '5']) ht rfl
      simp at h5
  · show ¬('_' ∉ "1_234".toList)
    decide

/-- Every float the lexer reads denotes a number. -/
theorem float_denotes {v text : List Char} (h : Reads (.float v) text) :
    ∃ negative mantissa places exponent, FloatDenotes v negative mantissa places exponent := by
  obtain ⟨_, sign, whole, fraction, scientific, hv, hs, ⟨w, hw⟩, hf, he⟩ := h
  obtain ⟨negative, rfl⟩ : ∃ negative : Bool, sign = if negative then ['-'] else [] := by
    rcases hs with rfl | rfl
    · exact ⟨false, rfl⟩
    · exact ⟨true, rfl⟩
  obtain ⟨f, places, hf⟩ : ∃ f places, Fraction fraction f places := by
    rcases hf with rfl | ⟨n, hf⟩
    · exact ⟨_, _, .none⟩
    · exact ⟨_, _, .some hf⟩
  obtain ⟨e, he⟩ : ∃ e, Exponent scientific e := by
    rcases he with rfl | ⟨s, ds, n, rfl, rfl | rfl, hd⟩
    · exact ⟨_, .none⟩
    · exact ⟨_, .pos hd⟩
    · exact ⟨_, .neg hd⟩
  exact ⟨negative, _, places, e, whole, fraction, scientific, w, f, hv, hw, hf, he, rfl⟩

/-- A text that denotes a number is a float of the language. -/
theorem denotes_float {v : List Char} {negative : Bool} {mantissa places : Nat} {exponent : Int}
    (h : FloatDenotes v negative mantissa places exponent) : Reads (.float v) v := by
  obtain ⟨whole, fraction, scientific, w, f, hv, hw, hf, he, _⟩ := h
  refine ⟨rfl, if negative then ['-'] else [], whole, fraction, scientific, hv, ?_, ⟨w, hw⟩, ?_, ?_⟩
  · cases negative
    · exact .inl rfl
    · exact .inr rfl
  · cases hf with
    | none => exact .inl rfl
    | some h => exact .inr ⟨_, h⟩
  · cases he with
    | none => exact .inl rfl
    | pos h => exact .inr ⟨[], _, _, rfl, .inl rfl, h⟩
    | neg h => exact .inr ⟨['-'], _, _, rfl, .inr rfl, h⟩

/-- **C74, floats, partial.** If no underscore stands before the zeros that end its digits, then the formatted text of a
float is read as a float, denotes the same number with the same sign and the same exponent, and is not changed by
formatting it again. (Without the condition the formatted text may not be readable: `formatted_float_is_rejected`.) -/
theorem formatted_float_is_same_partial {v : List Char} {negative : Bool} {mantissa places : Nat} {exponent : Int}
    (h : FloatDenotes v negative mantissa places exponent) (hp : PlainZeros v) :
    (∃ mantissa' places', FloatDenotes (float v) negative mantissa' places' exponent ∧
      mantissa * 10 ^ places' = mantissa' * 10 ^ places) ∧
    Reads (.float (float v)) (float v) ∧ float (float v) = float v := by
  obtain ⟨whole, fraction, scientific, w, f, hv, hw, hf, he, rfl⟩ := h
  have hv' : v = signOf negative ++ whole ++ '.' :: fraction ++ scientific := hv
  have hx := exponent_chars he
  have plain : ∀ t : List Char, Run .decimal t → 'e' ∉ t := by
    intro t h hm
    rcases run_chars h _ hm with h | h
    · cases h
    · exact (decimal_char h).2.2.2 rfl
  obtain ⟨f', places', h1, h2⟩ := trimmed_spec hf (by
    intro a zeros h3 h4 h5
    refine hp ⟨signOf negative ++ whole ++ '.' :: a, zeros, scientific, ?_, by simp, h4, h5, ?_, ?_⟩
    · rw [hv', h3]
      simp
    · have e1 := plain _ (digits_run_of (radix := .decimal) hw).1
      have e2 := plain _ (fraction_run hf)
      rw [h3] at e2
      simp only [List.mem_append, List.mem_cons, not_or] at e2 ⊢
      refine ⟨⟨?_, e1⟩, by decide, e2.1⟩
      cases negative <;> simp [signOf]
    · cases scientific with
      | nil => exact .inl rfl
      | cons c r => exact .inr (by rw [hx.2 c r rfl]; rfl))
  obtain ⟨t1, _, t3⟩ := tidy_spec hw
  have e1 := float_eq (negative := negative) hw hf he
  have e2 := float_eq (negative := negative) t1 h1 he
  rw [t3, trimmed_trimmed] at e2
  have hd : FloatDenotes (float v) negative (w * 10 ^ places' + f') places' exponent := by
    refine ⟨_, _, scientific, w, f', ?_, t1, h1, he, rfl⟩
    rw [hv', e1]
    rfl
  refine ⟨⟨_, _, hd, ?_⟩, denotes_float hd, ?_⟩
  · rw [Nat.add_mul, Nat.add_mul, h2, Nat.mul_assoc, Nat.mul_assoc, Nat.mul_comm (10 ^ places)]
  · rw [hv', e1, e2]

/-- `-12345.1_200e-07` is written `-12_345.1_2e-07`. -/
example : float "-12345.1_200e-07".toList = "-12_345.1_2e-07".toList ∧ float "1.".toList = "1.0".toList ∧
    float "0.000".toList = "0.0".toList ∧ float "1.e3".toList = "1.0e3".toList := by decide +kernel

/-- The hypotheses hold for `1.50`, the number `150 / 10 ^ 2`. -/
example : FloatDenotes "1.50".toList false 150 2 0 ∧ PlainZeros "1.50".toList := by
  constructor
  · refine ⟨['1'], ['5', '0'], [], 1, 50, rfl, .one (by decide) (by decide), ?_, .none, rfl⟩
    have h1 : Digits 10 ['5'] 5 := .one (by decide) (by decide)
    exact Fraction.some (t := ['5', '0']) (.inl (.more (n := 5) h1 (v := 0) (by decide) (by decide)))
  · rintro ⟨before, zeros, after, h, _⟩
    have h1 : '_' ∈ "1.50".toList := by rw [h]; simp
    exact absurd h1 (by decide)

/-- **C74, negation.** The lexer reads `1.5_0` as a float, but the formatter writes it `1.5_`, and the lexer rejects
that: a number may not end with an underscore. -/
theorem formatted_float_is_rejected :
    (tokens "1.5_0 ".toList) = ([⟨0, .float "1.5_0".toList, 5⟩], none) ∧
    float "1.5_0".toList = "1.5_".toList ∧ (tokens (float "1.5_0".toList ++ [' '])).2.isSome = true ∧
    ¬Reads (.float (float "1.5_0".toList)) (float "1.5_0".toList) := by
  refine ⟨by decide +kernel, by decide +kernel, by decide +kernel, ?_⟩
  intro h
  have e : float "1.5_0".toList = "1.5_".toList := by decide +kernel
  rw [e] at h
  have h2 := written_tokens_are_read [(.float "1.5_".toList, "1.5_".toList)] (by
    intro i hi
    rw [List.mem_singleton.1 hi]
    exact ⟨h, trivial, by decide⟩)
  have h3 : (tokens (spaced [(.float "1.5_".toList, "1.5_".toList)])).2.isSome = true := by decide +kernel
  rw [h2] at h3
  cases h3

end Verif.Format
