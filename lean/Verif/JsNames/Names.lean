import Verif.JsNames.Spec

/-! Names are distinct and legal. -/
namespace Verif.JsNames

open Verif.Decimal

/-- The part of a name before the first `$`. -/
def base (name : Name) : Text := if name = .synth .assignment then [] else name.text

def suffix (name : Name) (n : Nat) : Text :=
  match n with
  | 0 => if name.text ∈ unusable ∨ name = .synth .assignment then ['$'] else []
  | n + 1 => '$' :: showNat (n + 1)

theorem ident_chars (x : Ident) : ∀ c ∈ x.1, (isLower c || isDigit c || c == '_') = true := by
  obtain ⟨cs, h⟩ := x
  cases cs with
  | nil => simp [isIdent] at h
  | cons c cs =>
    simp only [isIdent, Bool.and_eq_true, List.all_eq_true] at h
    exact h.1.2

theorem no_dollar {c : Char} (h : (isLower c || isDigit c || c == '_') = true) : c ≠ '$' := by
  rintro rfl
  revert h
  decide

theorem base_no_dollar (name : Name) : ∀ c ∈ base name, c ≠ '$' := by
  intro c hc
  cases name with
  | user x => exact no_dollar (ident_chars x c (by simpa [base, Name.text] using hc))
  | synth k => cases k <;> revert c <;> decide

theorem dollar_not_unusable : ['$'] ∉ unusable := by decide

theorem ident_ne_synth (x : Ident) (k : Synth) : x.1 ≠ k.text := by
  obtain ⟨cs, h⟩ := x
  cases cs with
  | nil => simp [isIdent] at h
  | cons c cs =>
    simp only [isIdent, Bool.and_eq_true, Bool.not_eq_true'] at h
    intro he
    have : (c :: cs) ∈ synthTexts := by
      simp only at he
      rw [he]
      cases k <;> simp [synthTexts]
    rw [← List.contains_iff_mem] at this
    rw [h.2] at this
    cases this

theorem text_eq_dollar {name : Name} : name.text = ['$'] ↔ name = .synth .assignment := by
  cases name with
  | user x =>
    simp only [Name.text, reduceCtorEq, iff_false]
    exact ident_ne_synth x .assignment
  | synth k =>
    have : ∀ k : Synth, k.text = ['$'] ↔ k = .assignment := by
      intro k
      cases k <;> decide
    simp only [Name.text, Name.synth.injEq]
    exact this k

theorem suffix_zero (name : Name) : suffix name 0 = if name.text ∈ unusable ∨ name = .synth .assignment then ['$'] else [] := rfl

theorem suffix_succ (name : Name) (n : Nat) : suffix name (n + 1) = '$' :: showNat (n + 1) := rfl

theorem localName_zero (name : Name) : localName name 0 = if name.text ∈ unusable then name.text ++ ['$'] else name.text := rfl

theorem localName_succ (name : Name) (n : Nat) :
    localName name (n + 1) = if name.text = ['$'] then '$' :: showNat (n + 1) else name.text ++ '$' :: showNat (n + 1) := rfl

theorem localName_eq (name : Name) (n : Nat) : localName name n = base name ++ suffix name n := by
  by_cases h : name = .synth .assignment
  · have ht : name.text = ['$'] := text_eq_dollar.2 h
    have hb : base name = [] := by rw [base, if_pos h]
    cases n with
    | zero =>
      have hn : name.text ∉ unusable := by
        rw [ht]
        exact dollar_not_unusable
      rw [localName_zero, suffix_zero, if_neg hn, if_pos (.inr h), hb, ht]
      rfl
    | succ n => rw [localName_succ, suffix_succ, if_pos ht, hb, List.nil_append]
  · have ht : name.text ≠ ['$'] := fun he => h (text_eq_dollar.1 he)
    have hb : base name = name.text := by rw [base, if_neg h]
    cases n with
    | zero =>
      rw [localName_zero, suffix_zero, hb]
      by_cases hu : name.text ∈ unusable
      · rw [if_pos hu, if_pos (.inl hu)]
      · rw [if_neg hu, if_neg (not_or.2 ⟨hu, h⟩), List.append_nil]
    | succ n => rw [localName_succ, suffix_succ, if_neg ht, hb]

theorem suffix_head (name : Name) (n : Nat) : suffix name n = [] ∨ ∃ t, suffix name n = '$' :: t := by
  cases n with
  | zero =>
    rw [suffix_zero]
    split
    · exact .inr ⟨_, rfl⟩
    · exact .inl rfl
  | succ n => exact .inr ⟨_, rfl⟩

theorem split_unique : ∀ {a b s t : Text}, (∀ c ∈ a, c ≠ '$') → (∀ c ∈ b, c ≠ '$') → (s = [] ∨ ∃ u, s = '$' :: u) →
    (t = [] ∨ ∃ u, t = '$' :: u) → a ++ s = b ++ t → a = b ∧ s = t
  | [], [], _, _, _, _, _, _, h => ⟨rfl, by simpa using h⟩
  | [], c :: b, s, t, _, hb, hs, _, h => by
    exfalso
    rcases hs with rfl | ⟨u, rfl⟩
    · simp at h
    · simp only [List.nil_append, List.cons_append, List.cons.injEq] at h
      exact hb c (by simp) h.1.symm
  | c :: a, [], s, t, ha, _, _, ht, h => by
    exfalso
    rcases ht with rfl | ⟨u, rfl⟩
    · simp at h
    · simp only [List.nil_append, List.cons_append, List.cons.injEq] at h
      exact ha c (by simp) h.1
  | c :: a, d :: b, s, t, ha, hb, hs, ht, h => by
    simp only [List.cons_append, List.cons.injEq] at h
    obtain ⟨h1, h2⟩ := split_unique (fun c hc => ha c (List.mem_cons_of_mem _ hc)) (fun c hc => hb c (List.mem_cons_of_mem _ hc)) hs ht h.2
    exact ⟨by rw [h.1, h1], h2⟩

theorem ident_ne_nil (x : Ident) : x.1 ≠ [] := by
  obtain ⟨cs, h⟩ := x
  cases cs with
  | nil => simp [isIdent] at h
  | cons c cs => simp

theorem base_inj {a b : Name} (h : base a = base b) : a = b := by
  cases a with
  | user x =>
    cases b with
    | user y =>
      simp only [base, reduceCtorEq, if_false, Name.text] at h
      rw [Subtype.ext h]
    | synth k =>
      exfalso
      cases k with
      | assignment => exact ident_ne_nil x (by simpa [base, Name.text] using h)
      | _ => exact ident_ne_synth x _ (by simpa [base, Name.text] using h)
  | synth k =>
    cases b with
    | user y =>
      exfalso
      cases k with
      | assignment => exact ident_ne_nil y (by simpa [base, Name.text] using h.symm)
      | _ => exact ident_ne_synth y _ (by simpa [base, Name.text] using h.symm)
    | synth k' => cases k <;> cases k' <;> first | rfl | (revert h; decide)

theorem suffix_inj {name : Name} {m n : Nat} (h : suffix name m = suffix name n) : m = n := by
  have hz : ∀ n, suffix name 0 ≠ suffix name (n + 1) := by
    intro n he
    rw [suffix_zero, suffix_succ] at he
    split at he
    · simp only [List.cons.injEq, true_and] at he
      exact showNat_ne_nil _ he.symm
    · simp at he
  cases m with
  | zero =>
    cases n with
    | zero => rfl
    | succ n => exact absurd h (hz n)
  | succ m =>
    cases n with
    | zero => exact absurd h.symm (hz m)
    | succ n =>
      simp only [suffix_succ, List.cons.injEq, true_and] at h
      exact showNat_inj h

/-- Different variables, and different counters of one variable, have different names. -/
theorem localName_inj {a b : Name} {m n : Nat} (h : localName a m = localName b n) : a = b ∧ m = n := by
  rw [localName_eq, localName_eq] at h
  obtain ⟨h1, h2⟩ := split_unique (base_no_dollar a) (base_no_dollar b) (suffix_head a m) (suffix_head b n) h
  have := base_inj h1
  subst this
  exact ⟨rfl, suffix_inj h2⟩

theorem reserved_no_dollar : ∀ w ∈ reserved, '$' ∉ w ∧ w ∈ unusable := by decide +kernel

/-- No name is a reserved word. -/
theorem localName_not_reserved (name : Name) (n : Nat) : localName name n ∉ reserved := by
  intro h
  obtain ⟨hd, hu⟩ := reserved_no_dollar _ h
  rw [localName_eq] at hd hu
  have hs : suffix name n = [] := by
    rcases suffix_head name n with h | ⟨t, h⟩
    · exact h
    · rw [h] at hd
      simp at hd
  rw [hs, List.append_nil] at hu
  cases n with
  | succ n => simp [suffix] at hs
  | zero =>
    rw [suffix_zero] at hs
    split at hs
    · cases hs
    · rename_i hx
      rw [not_or] at hx
      simp only [base, hx.2, if_false] at hu
      exact hx.1 hu

theorem lower_isAlpha {c : Char} (h : isLower c = true) : c.isAlpha = true := by
  simp only [isLower, Bool.and_eq_true, decide_eq_true_eq] at h
  simp only [Char.isAlpha, Char.isLower, Bool.or_eq_true, Bool.and_eq_true, decide_eq_true_eq]
  right
  constructor
  · exact h.1
  · exact h.2

theorem digit_isDigit {c : Char} (h : isDigit c = true) : c.isDigit = true := by
  simp only [isDigit, Bool.and_eq_true, decide_eq_true_eq] at h
  simp only [Char.isDigit, Bool.and_eq_true, decide_eq_true_eq]
  exact h

/-- All names are names to JavaScript. -/
theorem localName_legal (name : Name) (n : Nat) : isIdentifierName (localName name n) = true := by
  have hsuf : ∀ c ∈ suffix name n, (c.isAlpha || c.isDigit || c == '_' || c == '$') = true := by
    intro c hc
    cases n with
    | zero =>
      rw [suffix_zero] at hc
      split at hc
      · simp only [List.mem_singleton] at hc
        subst hc
        decide
      · simp at hc
    | succ n =>
      simp only [suffix, List.mem_cons] at hc
      rcases hc with rfl | hc
      · decide
      · simp [digit_isDigit (showNat_digits _ c hc)]
  rw [localName_eq]
  cases name with
  | user x =>
    have hc := ident_chars x
    obtain ⟨cs, h⟩ := x
    cases cs with
    | nil => simp [isIdent] at h
    | cons c cs =>
      simp only [base, reduceCtorEq, if_false, Name.text, List.cons_append, isIdentifierName, Bool.and_eq_true, List.all_eq_true,
        List.mem_append]
      constructor
      · simp only [isIdent, Bool.and_eq_true] at h
        rcases Bool.or_eq_true _ _ ▸ h.1.1 with h' | h'
        · simp [lower_isAlpha h']
        · simp [h']
      · rintro d (hd | hd)
        · have := hc d (by simp [hd])
          simp only [Bool.or_eq_true] at this
          rcases this with (h' | h') | h'
          · simp [lower_isAlpha h']
          · simp [digit_isDigit h']
          · simp [h']
        · exact hsuf d hd
  | synth k =>
    have key : ∀ cs : Text, cs ≠ [] → isIdentifierName cs = true → isIdentifierName (cs ++ suffix (.synth k) n) = true := by
      intro cs hne h
      cases cs with
      | nil => exact absurd rfl hne
      | cons c cs =>
        simp only [isIdentifierName, Bool.and_eq_true, List.all_eq_true] at h
        simp only [List.cons_append, isIdentifierName, Bool.and_eq_true, List.all_eq_true, List.mem_append]
        exact ⟨h.1, fun d hd => hd.elim (h.2 d) (hsuf d)⟩
    by_cases hk : k = .assignment
    · subst hk
      simp only [base, if_true, List.nil_append]
      rcases suffix_head (.synth .assignment) n with h | ⟨t, h⟩
      · cases n with
        | zero => simp [suffix] at h
        | succ n => simp [suffix] at h
      · rw [h] at hsuf ⊢
        simp only [isIdentifierName, Bool.and_eq_true, List.all_eq_true]
        exact ⟨by decide, fun d hd => hsuf d (List.mem_cons_of_mem _ hd)⟩
    · have hne : (Name.synth k) ≠ .synth .assignment := by simpa using hk
      have hb : base (.synth k) = k.text := by simp [base, hne, Name.text]
      rw [hb]
      exact key _ (by cases k <;> decide) (by cases k <;> decide)

end Verif.JsNames
