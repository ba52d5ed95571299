import Verif.Strings.Lemmas
/-! Lemmas on name case conversion. -/
namespace Verif.Strings

open Spec


/-- What the loop of `to_snake_case` appends. -/
def snakeOut (up : Char → Bool) (ne boundary : Bool) : List Char → List Char
  | [] => []
  | c :: cs =>
    if c = '_' ∨ c = ' ' then snakeOut up ne true cs
    else (if (boundary || up c) && ne then ['_'] else []) ++ toLower c :: snakeOut up true false cs

theorem snakeLoop_eq (up : Char → Bool) (acc : List Char) (b : Bool) (s : List Char) :
    snakeLoop up acc b s = acc ++ snakeOut up (!acc.isEmpty) b s := by
  induction s generalizing acc b with
  | nil => simp [snakeLoop, snakeOut]
  | cons c cs ih =>
    simp only [snakeLoop, snakeOut]
    split
    · rw [ih]
    · rw [ih]
      have : ∀ l : List Char, (l ++ [toLower c]).isEmpty = false := by intro l; cases l <;> rfl
      rw [this]
      split <;> simp

theorem toSnake_eq (up : Char → Bool) (s : List Char) : toSnakeCase up s = snakeOut up false true s := by
  rw [toSnakeCase, snakeLoop_eq]; simp

theorem toLower_ascii (c : Char) (h : Upper c) : (toLower c).toNat = c.toNat + 32 := by
  have h' : 65 ≤ c.toNat ∧ c.toNat ≤ 90 := h
  unfold toLower
  rw [if_pos h']
  have : (c.toNat + 32).isValidChar := by left; omega
  rw [Char.ofNat, dif_pos this]
  rfl

theorem toLower_other (c : Char) (h : ¬ Upper c) : toLower c = c := by
  unfold toLower
  rw [if_neg]
  exact h

theorem toUpper_ascii (c : Char) (h : Lower c) : (toUpper c).toNat = c.toNat - 32 := by
  have h' : 97 ≤ c.toNat ∧ c.toNat ≤ 122 := h
  unfold toUpper
  rw [if_pos h']
  have : (c.toNat - 32).isValidChar := by left; omega
  rw [Char.ofNat, dif_pos this]
  rfl

theorem toUpper_other (c : Char) (h : ¬ Lower c) : toUpper c = c := by
  unfold toUpper
  rw [if_neg]
  exact h

theorem char_ext {a b : Char} (h : a.toNat = b.toNat) : a = b := by
  apply Char.ext
  exact UInt32.toNat_inj.1 h

theorem toLower_ne_sep (c : Char) (h1 : c ≠ '_') (h2 : c ≠ ' ') : toLower c ≠ '_' ∧ toLower c ≠ ' ' := by
  by_cases h : Upper c
  · have ht := toLower_ascii c h
    have h' : 65 ≤ c.toNat ∧ c.toNat ≤ 90 := h
    constructor <;> (intro e; rw [e] at ht; simp at ht; omega)
  · rw [toLower_other c h]; exact ⟨h1, h2⟩

theorem toLower_idem (c : Char) : toLower (toLower c) = toLower c := by
  by_cases h : Upper c
  · apply toLower_other
    have ht := toLower_ascii c h
    have h' : 65 ≤ c.toNat ∧ c.toNat ≤ 90 := h
    intro h2
    have h2' : 65 ≤ (toLower c).toNat ∧ (toLower c).toNat ≤ 90 := h2
    omega
  · rw [toLower_other c h, toLower_other c h]

theorem up_toLower (up : Char → Bool) (hu : AsciiUpper up) (c : Char) (h : up (toLower c) = true) : up c = true := by
  by_cases h1 : Upper c
  · have h' : 65 ≤ c.toNat ∧ c.toNat ≤ 90 := h1
    exact (hu c (by omega)).2 h1
  · rwa [toLower_other c h1] at h

theorem snakeOut_idem (up : Char → Bool) (hu : AsciiUpper up) (s : List Char) (ne b : Bool) (h : ne = true ∨ b = true) :
    snakeOut up ne b (snakeOut up ne b s) = snakeOut up ne b s := by
  induction s generalizing ne b with
  | nil => rfl
  | cons c cs ih =>
    simp only [snakeOut]
    split
    · have ih := ih ne true (Or.inr rfl)
      -- output computed with `boundary = true`, run again with `boundary = b`
      cases ne with
      | false =>
        have : b = true := by simpa using h
        subst this; exact ih
      | true =>
        cases b with
        | true => exact ih
        | false =>
          -- the output is empty or starts with an underscore, which sets the boundary again
          have hs : ∀ t, snakeOut up true true t = [] ∨ ∃ r, snakeOut up true true t = '_' :: r := by
            intro t
            induction t with
            | nil => left; rfl
            | cons d ds ih2 =>
              simp only [snakeOut]
              split
              · exact ih2
              · right; exact ⟨_, rfl⟩
          rcases hs cs with h0 | ⟨r, h0⟩
          · rw [h0]; rfl
          · rw [h0] at ih ⊢
            simpa [snakeOut] using ih
    · rename_i hc
      simp only [not_or] at hc
      obtain ⟨l1, l2⟩ := toLower_ne_sep c hc.1 hc.2
      have ih := ih true false (Or.inl rfl)
      by_cases hb : ((b || up c) && ne) = true
      · rw [if_pos hb]
        simp only [Bool.and_eq_true] at hb
        rw [List.singleton_append, snakeOut, if_pos (Or.inl rfl), snakeOut, if_neg (by simp [l1, l2])]
        simp [hb.2, toLower_idem, ih]
      · rw [if_neg hb, List.nil_append, snakeOut, if_neg (by simp [l1, l2]), if_neg, toLower_idem, ih]
        · rfl
        · intro h2
          apply hb
          simp only [Bool.and_eq_true, Bool.or_eq_true] at h2 ⊢
          exact ⟨h2.1.imp_right (up_toLower up hu c), h2.2⟩

theorem lower_word {c : Char} (h : Lower c ∨ Upper c ∨ Digit c ∨ c = '_') :
    Lower (toLower c) ∨ Digit (toLower c) ∨ toLower c = '_' := by
  by_cases hu : Upper c
  · left
    have ht := toLower_ascii c hu
    have h' : 65 ≤ c.toNat ∧ c.toNat ≤ 90 := hu
    show 97 ≤ (toLower c).toNat ∧ (toLower c).toNat ≤ 122
    omega
  · rw [toLower_other c hu]; tauto

theorem snakeOut_snake (up : Char → Bool) (s : List Char) (hs : Word s) (ne b : Bool) : Snake (snakeOut up ne b s) := by
  induction s generalizing ne b with
  | nil => intro c hc; simp [snakeOut] at hc
  | cons c cs ih =>
    have hcs : Word cs := fun d hd => hs d (by simp [hd])
    simp only [snakeOut]
    split
    · exact ih hcs _ _
    · intro d hd
      rcases List.mem_append.1 hd with hd | hd
      · split at hd
        · simp at hd; subst hd; simp
        · simp at hd
      · rcases List.mem_cons.1 hd with rfl | hd
        · exact lower_word (hs c (by simp))
        · exact ih hcs _ _ d hd

theorem isNameTail_iff (c : Char) : isNameTail c = true ↔ Lower c ∨ Digit c ∨ c = '_' := by
  simp [isNameTail, isLowerChar, isDigitChar, Lower, Digit, or_assoc]

theorem isLowerChar_iff (c : Char) : isLowerChar c = true ↔ Lower c := by simp [isLowerChar, Lower]
theorem isUpperChar_iff (c : Char) : isUpperChar c = true ↔ Upper c := by simp [isUpperChar, Upper]
theorem isDigitChar_iff (c : Char) : isDigitChar c = true ↔ Digit c := by simp [isDigitChar, Digit]

theorem snake_all (s : List Char) : s.all isNameTail = true ↔ Snake s := by
  simp [List.all_eq_true, isNameTail_iff, Snake]

theorem not_upper_lower {c : Char} (h : Lower c) : ¬ Upper c := by
  have h' : 97 ≤ c.toNat ∧ c.toNat ≤ 122 := h
  intro h2
  have h2' : 65 ≤ c.toNat ∧ c.toNat ≤ 90 := h2
  omega

theorem sep_not_lower {c : Char} (h : Lower c) : c ≠ '_' ∧ c ≠ ' ' := by
  constructor <;> (rintro rfl; exact absurd h (by unfold Lower; decide))

theorem sep_not_upper {c : Char} (h : Upper c) : c ≠ '_' ∧ c ≠ ' ' := by
  constructor <;> (rintro rfl; exact absurd h (by unfold Upper; decide))

theorem sep_not_digit {c : Char} (h : Digit c) : c ≠ '_' ∧ c ≠ ' ' := by
  constructor <;> (rintro rfl; exact absurd h (by unfold Digit; decide))

theorem validUpname_iff (s : List Char) : validUpname s = true ↔ UpperCamel s := by
  cases s with
  | nil => simp [validUpname, UpperCamel]
  | cons c t =>
    simp only [validUpname, UpperCamel, Bool.and_eq_true, isUpperChar_iff, List.all_eq_true, Bool.or_eq_true, isLowerChar_iff,
      isDigitChar_iff, List.cons.injEq]
    constructor
    · rintro ⟨h1, h2⟩
      exact ⟨c, t, ⟨rfl, rfl⟩, h1, fun d hd => by have := h2 d hd; tauto⟩
    · rintro ⟨c', t', ⟨rfl, rfl⟩, h1, h2⟩
      exact ⟨h1, fun d hd => by have := h2 d hd; tauto⟩

/-- Tails of upper camel case produced by the conversion. -/
theorem camel_tail (t : List Char) (h : Word t) :
    (∀ d ∈ toUpperCamelCase t, Lower d ∨ Upper d ∨ Digit d) ↔ ¬ ['_', '_'] <:+: t := by
  induction t using toUpperCamelCase.induct with
  | case1 => simp [toUpperCamelCase]
  | case2 => simp [toUpperCamelCase]; intro h; have := h.length_le; simp at this
  | case3 d ds ih =>
    have hd := h d (by simp)
    have ih := ih (fun c hc => h c (by simp [hc]))
    rw [show toUpperCamelCase ('_' :: d :: ds) = toUpper d :: toUpperCamelCase ds by simp [toUpperCamelCase]]
    simp only [List.mem_cons, forall_eq_or_imp]
    rw [ih]
    by_cases hu : d = '_'
    · subst hu
      constructor
      · intro h1; exact absurd h1.1 (by rw [toUpper_other _ (by unfold Lower; decide)]; unfold Lower Upper Digit; decide)
      · intro h1; exact absurd ⟨[], ds, by simp⟩ h1
    · have hup : Lower (toUpper d) ∨ Upper (toUpper d) ∨ Digit (toUpper d) := by
        by_cases hl : Lower d
        · right; left
          have ht := toUpper_ascii d hl
          have h' : 97 ≤ d.toNat ∧ d.toNat ≤ 122 := hl
          show 65 ≤ (toUpper d).toNat ∧ (toUpper d).toNat ≤ 90
          omega
        · rw [toUpper_other d hl]; tauto
      simp only [hup, true_and]
      rw [not_iff_not, List.infix_cons_iff, List.infix_cons_iff]
      constructor
      · intro h1; right; right; exact h1
      · rintro (h1 | h1 | h1)
        · rw [List.cons_prefix_cons, List.cons_prefix_cons] at h1; exact absurd h1.2.1.symm hu
        · rw [List.cons_prefix_cons] at h1; exact absurd h1.1.symm hu
        · exact h1
  | case4 c cs hc ih =>
    have hd := h c (by simp)
    have ih := ih (fun c hc => h c (by simp [hc]))
    rw [show toUpperCamelCase (c :: cs) = c :: toUpperCamelCase cs by conv => lhs; unfold toUpperCamelCase; rw [if_neg hc]]
    simp only [List.mem_cons, forall_eq_or_imp]
    rw [ih]
    have : Lower c ∨ Upper c ∨ Digit c := by tauto
    simp only [this, true_and]
    rw [not_iff_not, List.infix_cons_iff]
    constructor
    · intro h1; right; exact h1
    · rintro (h1 | h1)
      · rw [List.cons_prefix_cons] at h1; exact absurd h1.1.symm hc
      · exact h1

/-- An upper case letter past the start puts an underscore in the result. -/
theorem snakeOut_underscore (up : Char → Bool) (hu : AsciiUpper up) (s : List Char) (h : ∃ c ∈ s, Upper c) (b : Bool) :
    '_' ∈ snakeOut up true b s := by
  induction s generalizing b with
  | nil => simp at h
  | cons c cs ih =>
    simp only [snakeOut]
    split
    · obtain ⟨d, hd, hdu⟩ := h
      rcases List.mem_cons.1 hd with rfl | hd
      · exact absurd hdu (by rename_i hc; rcases hc with rfl | rfl <;> (unfold Upper; decide))
      · exact ih ⟨d, hd, hdu⟩ true
    · obtain ⟨d, hd, hdu⟩ := h
      rcases List.mem_cons.1 hd with rfl | hd
      · have h' : 65 ≤ d.toNat ∧ d.toNat ≤ 90 := hdu
        rw [(hu d (by omega)).2 hdu]
        simp
      · simp [ih ⟨d, hd, hdu⟩ false]

/-- On text without separators, the conversion works character by character. -/
theorem snakeOut_inj (up : Char → Bool) (hu : AsciiUpper up) (s t : List Char)
    (hs : ∀ d ∈ s, Lower d ∨ Upper d ∨ Digit d) (ht : ∀ d ∈ t, Lower d ∨ Upper d ∨ Digit d)
    (h : snakeOut up true false s = snakeOut up true false t) : s = t := by
  have key : ∀ c : Char, (Lower c ∨ Upper c ∨ Digit c) → ∀ cs, snakeOut up true false (c :: cs) =
      if up c = true then '_' :: toLower c :: snakeOut up true false cs else c :: snakeOut up true false cs := by
    intro c hc cs
    have hsep : c ≠ '_' ∧ c ≠ ' ' := by
      rcases hc with h | h | h
      · exact sep_not_lower h
      · exact sep_not_upper h
      · exact sep_not_digit h
    have hlt : c.toNat < 128 := by
      rcases hc with h | h | h
      · have h : 97 ≤ c.toNat ∧ c.toNat ≤ 122 := h; omega
      · have h : 65 ≤ c.toNat ∧ c.toNat ≤ 90 := h; omega
      · have h : 48 ≤ c.toNat ∧ c.toNat ≤ 57 := h; omega
    simp only [snakeOut]
    rw [if_neg (by simp [hsep])]
    by_cases hup : up c = true
    · simp [hup]
    · have : ¬ Upper c := fun h => hup ((hu c hlt).2 h)
      simp [hup, toLower_other c this]
  induction s generalizing t with
  | nil =>
    cases t with
    | nil => rfl
    | cons d ds =>
      rw [key d (ht d (by simp))] at h
      split at h <;> simp [snakeOut] at h
  | cons c cs ih =>
    cases t with
    | nil =>
      rw [key c (hs c (by simp))] at h
      split at h <;> simp [snakeOut] at h
    | cons d ds =>
      have hc := hs c (by simp)
      have hd := ht d (by simp)
      have hcl : c.toNat < 128 := by
        rcases hc with h | h | h
        · have h : 97 ≤ c.toNat ∧ c.toNat ≤ 122 := h; omega
        · have h : 65 ≤ c.toNat ∧ c.toNat ≤ 90 := h; omega
        · have h : 48 ≤ c.toNat ∧ c.toNat ≤ 57 := h; omega
      have hdl : d.toNat < 128 := by
        rcases hd with h | h | h
        · have h : 97 ≤ d.toNat ∧ d.toNat ≤ 122 := h; omega
        · have h : 65 ≤ d.toNat ∧ d.toNat ≤ 90 := h; omega
        · have h : 48 ≤ d.toNat ∧ d.toNat ≤ 57 := h; omega
      rw [key c hc, key d hd] at h
      have ih := ih ds (fun e he => hs e (by simp [he])) (fun e he => ht e (by simp [he]))
      split at h
      · rename_i huc
        have huc' := (hu c hcl).1 huc
        split at h
        · rename_i hud
          have hud' := (hu d hdl).1 hud
          simp only [List.cons.injEq, true_and] at h
          have e1 := toLower_ascii c huc'
          have e2 := toLower_ascii d hud'
          rw [h.1] at e1
          rw [ih h.2, char_ext (show c.toNat = d.toNat by omega)]
        · simp only [List.cons.injEq] at h
          have : d ≠ '_' := by
            rcases hd with h | h | h
            · exact (sep_not_lower h).1
            · exact (sep_not_upper h).1
            · exact (sep_not_digit h).1
          exact absurd h.1.symm this
      · split at h
        · simp only [List.cons.injEq] at h
          have : c ≠ '_' := by
            rcases hc with h | h | h
            · exact (sep_not_lower h).1
            · exact (sep_not_upper h).1
            · exact (sep_not_digit h).1
          exact absurd h.1 this
        · simp only [List.cons.injEq] at h
          rw [h.1, ih h.2]

/-- The conversion never ends in an underscore. -/
theorem snakeOut_last (up : Char → Bool) (s : List Char) (ne b : Bool) :
    (snakeOut up ne b s).getLast? ≠ some '_' := by
  induction s generalizing ne b with
  | nil => simp [snakeOut]
  | cons c cs ih =>
    simp only [snakeOut]
    split
    · exact ih _ _
    · rename_i hc
      simp only [not_or] at hc
      have ih := ih true false
      have hl := toLower_ne_sep c hc.1 hc.2
      generalize hr : snakeOut up true false cs = r at ih ⊢
      have : (toLower c :: r).getLast? ≠ some '_' := by
        cases r with
        | nil => simp [hl.1]
        | cons d ds => simpa [List.getLast?_cons_cons] using ih
      split
      · rw [List.singleton_append, List.getLast?_cons_cons]; exact this
      · simpa using this

end Verif.Strings
