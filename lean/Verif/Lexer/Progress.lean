import Verif.Lexer.Model

/-!
# Every step of the lexer reads at least one character

Lean accepts the loop in `Verif.Lexer.Iter` because of these.
-/
namespace Verif.Lexer

/-! ### Unfolding the loops -/

theorem nameRun_more {l : Lexer} {c : Char} (h0 : l.char0 = some c) (h : isNameContinuation c) :
    nameRun l = (c :: (nameRun l.nextChar).1, (nameRun l.nextChar).2) := by
  rw [nameRun]
  split
  · rename_i c' h0'
    rw [h0] at h0'
    cases h0'
    rw [if_pos h]
  · simp_all

theorem nameRun_done {l : Lexer} {c : Char} (h0 : l.char0 = some c) (h : ¬isNameContinuation c) :
    nameRun l = ([], l) := by
  rw [nameRun]
  split
  · rename_i c' h0'
    rw [h0] at h0'
    cases h0'
    rw [if_neg h]
  · rfl

theorem nameRun_end {l : Lexer} (h0 : l.char0 = none) : nameRun l = ([], l) := by
  rw [nameRun]
  split
  · simp_all
  · rfl

theorem commentRun_more {l : Lexer} {c : Char} (h0 : l.char0 = some c) (h : c ≠ '\n') :
    commentRun l = (c :: (commentRun l.nextChar).1, (commentRun l.nextChar).2) := by
  rw [commentRun]
  split
  · rename_i c' h0'
    rw [h0] at h0'
    cases h0'
    rw [if_neg h]
  · simp_all

theorem commentRun_done {l : Lexer} (h0 : l.char0 = some '\n') : commentRun l = ([], l) := by
  rw [commentRun]
  split
  · rename_i c' h0'
    rw [h0] at h0'
    cases h0'
    rw [if_pos rfl]
  · rfl

theorem commentRun_end {l : Lexer} (h0 : l.char0 = none) : commentRun l = ([], l) := by
  rw [commentRun]
  split
  · simp_all
  · rfl

theorem runLoop_stop {c : Char} {start seen : Nat} {l : Lexer} (h : seen ≥ 7) :
    runLoop c start l seen = .error ⟨.mergeConflictIndicator, start, l.location0⟩ := by
  rw [runLoop, if_pos h]

theorem runLoop_more {c : Char} {start seen : Nat} {l : Lexer} (h : ¬seen ≥ 7) (h0 : l.char0 = some c) :
    runLoop c start l seen = runLoop c start l.nextChar (seen + 1) := by
  rw [runLoop, if_neg h, dif_pos h0]

theorem runLoop_done {c : Char} {start seen : Nat} {l : Lexer} (h : ¬seen ≥ 7) (h0 : l.char0 ≠ some c) :
    runLoop c start l seen = .ok (seen, l) := by
  rw [runLoop, if_neg h, dif_neg h0]

/-! ### How many characters are left -/

theorem nameRun_le (l : Lexer) : (nameRun l).2.remaining ≤ l.remaining := by
  induction l using nameRun.induct with
  | case1 l c h0 h ih =>
    have := Lexer.nextChar_lt h0
    rw [nameRun_more h0 h]
    simp only
    omega
  | case2 l c h0 h => rw [nameRun_done h0 h]; exact Nat.le_refl _
  | case3 l h0 => rw [nameRun_end h0]; exact Nat.le_refl _

theorem nameRun_lt {l : Lexer} {c : Char} (h0 : l.char0 = some c) (h : isNameContinuation c) :
    (nameRun l).2.remaining < l.remaining := by
  have h1 := nameRun_le l.nextChar
  have h2 := Lexer.nextChar_lt h0
  rw [nameRun_more h0 h]
  simp only
  omega

theorem commentRun_le (l : Lexer) : (commentRun l).2.remaining ≤ l.remaining := by
  induction l using commentRun.induct with
  | case1 l h0 => rw [commentRun_done h0]; exact Nat.le_refl _
  | case2 l c h0 h ih =>
    have := Lexer.nextChar_lt h0
    rw [commentRun_more h0 h]
    simp only
    omega
  | case3 l h0 => rw [commentRun_end h0]; exact Nat.le_refl _

theorem nextChar_le (l : Lexer) : l.nextChar.remaining ≤ l.remaining := by
  have := l.nextChar_remaining
  omega

/-- A step which, if it succeeds, emits tokens and leaves characters, together at most `n`, and leaves fewer than `n`
characters. -/
def Uses (n : Nat) (s : Step) : Prop :=
  ∀ r, s = .ok r → r.1.length + r.2.remaining ≤ n ∧ r.2.remaining < n

theorem Uses.mono {m n : Nat} {s : Step} (h : Uses m s) (hmn : m ≤ n) : Uses n s := by
  intro r hr
  have := h r hr
  omega

theorem uses_error (n : Nat) (e : LexicalError) : Uses n (.error e) := by
  intro r hr
  cases hr

theorem uses_emit (start : Nat) (s : Symbol) (l : Lexer) : Uses (l.remaining + 1) (emit start s l) := by
  intro r hr
  cases hr
  simp only [List.length_singleton]
  omega

theorem uses_fail (n start : Nat) (e : ErrorKind) (l : Lexer) : Uses n (fail start e l) := uses_error n _

/-- After the first character of an operator: one token, at the end or after another character. -/
theorem uses_emit_next (start : Nat) (s : Symbol) (l : Lexer) : Uses (l.remaining + 1) (emit start s l.nextChar) :=
  (uses_emit start s l.nextChar).mono (by have := nextChar_le l; omega)

theorem uses_emit_next2 (start : Nat) (s : Symbol) (l : Lexer) :
    Uses (l.remaining + 1) (emit start s l.nextChar.nextChar) :=
  (uses_emit_next start s l.nextChar).mono (by have := nextChar_le l; omega)

theorem uses_after {n : Nat} {ts : List Spanned} {s : Step}
    (h : ∀ r, s = .ok r → r.1.length + r.2.remaining ≤ n ∧ r.2.remaining < ts.length + n) :
    Uses (ts.length + n) (s.after ts) := by
  intro r hr
  cases hs : s with
  | error e => rw [hs] at hr; cases hr
  | ok r' =>
    rw [hs] at hr
    cases hr
    have := h r' hs
    simp only [List.length_append]
    omega

theorem runLoop_count {c : Char} {start seen : Nat} {l : Lexer} {r : Nat × Lexer} (h : runLoop c start l seen = .ok r) :
    r.1 + r.2.remaining = seen + l.remaining := by
  induction l, seen using runLoop.induct c with
  | case1 l seen h7 => rw [runLoop_stop h7] at h; cases h
  | case2 l seen h7 h0 ih =>
    rw [runLoop_more h7 h0] at h
    have h1 := ih h
    have h2 := l.nextChar_remaining
    rw [h0] at h2
    simp at h2
    omega
  | case3 l seen h7 h0 =>
    rw [runLoop_done h7 h0] at h
    cases h
    rfl

theorem runLoop_ge {c : Char} {start seen : Nat} {l : Lexer} {r : Nat × Lexer} (h : runLoop c start l seen = .ok r) :
    seen ≤ r.1 := by
  induction l, seen using runLoop.induct c with
  | case1 l seen h7 => rw [runLoop_stop h7] at h; cases h
  | case2 l seen h7 h0 ih =>
    rw [runLoop_more h7 h0] at h
    have h1 := ih h
    omega
  | case3 l seen h7 h0 =>
    rw [runLoop_done h7 h0] at h
    cases h
    exact Nat.le_refl _

theorem pairs_count (s : Symbol) (start seen : Nat) :
    2 * (pairs s start seen).1.length + (pairs s start seen).2.2 = seen := by
  induction start, seen using pairs.induct with
  | case1 start n ih =>
    simp only [pairs, List.length_cons]
    omega
  | case2 start n h =>
    rw [pairs]
    · simp
    · exact h

theorem uses_lexEqual (start : Nat) (l : Lexer) : Uses (l.remaining + 1) (lexEqual start l) := by
  unfold lexEqual
  split
  · apply uses_emit
  split
  · apply uses_emit_next
  split
  · apply uses_fail
  · rename_i h1 h2 h3
    intro r hr
    cases hl : runLoop '=' start l.nextChar.nextChar 3 with
    | error e => rw [hl] at hr; cases hr
    | ok q =>
      rw [hl] at hr
      cases hr
      have h4 := runLoop_count hl
      have h4' := runLoop_ge hl
      have h5 := pairs_count .equalEqual start q.1
      have h6 := Lexer.nextChar_lt (Decidable.not_not.1 h1)
      have h7 := Lexer.nextChar_lt (Decidable.not_not.1 h2)
      simp only
      split
      · simp only [List.length_append, List.length_singleton]
        omega
      · simp only
        omega

theorem uses_lexLtTail (start : Nat) (l : Lexer) : Uses (l.remaining + 1) (lexLtTail start l) := by
  unfold lexLtTail
  repeat' split
  all_goals first | apply uses_emit | apply uses_emit_next | apply uses_emit_next2

theorem uses_lexGtTail (start : Nat) (l : Lexer) : Uses (l.remaining + 1) (lexGtTail start l) := by
  unfold lexGtTail
  repeat' split
  all_goals first | apply uses_emit | apply uses_emit_next | apply uses_emit_next2

theorem uses_run {c : Char} {s : Symbol} {start : Nat} {l : Lexer} {tail : Nat → Lexer → Step}
    (h1 : l.char0 = some c) (h2 : l.nextChar.char0 = some c) (ht : ∀ start l, Uses (l.remaining + 1) (tail start l)) :
    Uses (l.remaining + 1) ((runLoop c start l.nextChar.nextChar 3).bind fun r =>
        let p := pairs s start r.1
        if p.2.2 > 0 then (tail p.2.1 r.2).after p.1 else .ok (p.1, r.2)) := by
  intro r hr
  cases hl : runLoop c start l.nextChar.nextChar 3 with
  | error e => rw [hl] at hr; cases hr
  | ok q =>
    rw [hl] at hr
    have h4 := runLoop_count hl
    have h4' := runLoop_ge hl
    have h5 := pairs_count s start q.1
    have h6 := Lexer.nextChar_lt h1
    have h7 := Lexer.nextChar_lt h2
    simp only [Except.bind] at hr
    split at hr
    · have h8 := uses_after (ts := (pairs s start q.1).1) (n := q.2.remaining + 1)
        (fun r hr => by have := ht (pairs s start q.1).2.1 q.2 r hr; omega) r hr
      cases hx : tail (pairs s start q.1).2.1 q.2 with
      | error e => rw [hx] at hr; cases hr
      | ok y =>
        rw [hx] at hr
        cases hr
        have h9 := ht _ _ y hx
        simp only at h8 ⊢
        omega
    · cases hr
      simp only
      omega

theorem uses_lexLt (start : Nat) (l : Lexer) : Uses (l.remaining + 1) (lexLt start l) := by
  unfold lexLt
  split
  · rename_i h1
    split
    · apply uses_emit_next
    · rename_i h2
      exact uses_run h1 (Decidable.not_not.1 h2) uses_lexLtTail
  · apply uses_lexLtTail

theorem uses_lexGt (start : Nat) (l : Lexer) : Uses (l.remaining + 1) (lexGt start l) := by
  unfold lexGt
  split
  · rename_i h1
    split
    · apply uses_emit_next
    · rename_i h2
      exact uses_run h1 (Decidable.not_not.1 h2) uses_lexGtTail
  · apply uses_lexGtTail

theorem lexComment_le (l : Lexer) : (lexComment l).2.remaining ≤ l.remaining := by
  unfold lexComment
  have h1 := nextChar_le l
  have h2 := nextChar_le l.nextChar
  split
  · have := commentRun_le l.nextChar.nextChar
    simp only
    omega
  split
  · have := commentRun_le l.nextChar
    simp only
    omega
  · exact commentRun_le l

theorem uses_lexSlash (start : Nat) (l : Lexer) : Uses (l.remaining + 1) (lexSlash start l) := by
  unfold lexSlash
  split
  · apply uses_emit_next
  split
  · intro r hr
    cases hr
    have h1 := lexComment_le l.nextChar
    have h2 := nextChar_le l
    simp only [List.length_singleton]
    omega
  split
  · apply uses_fail
  · apply uses_emit

theorem lexDecimal_int_le {l : Lexer} {start : Nat} {r : Spanned × Lexer} (h : lexDecimalOrIntNumber l start false false = .ok r) :
    r.2 = (radixRun l .decimal).2 := by
  simp only [lexDecimalOrIntNumber, Bool.false_eq_true, false_and, if_false] at h
  split at h
  · cases h
  · cases h; rfl

theorem maybeLexDotAccess_more {l : Lexer} {c : Char} (h0 : l.char0 = some c) (h : isDigit c) :
    maybeLexDotAccess l = (lexDecimalOrIntNumber l l.location0 false false).bind fun r =>
      (maybeLexDotAccess r.2).map fun ts => (r.1 :: ts.1, ts.2) := by
  rw [maybeLexDotAccess]
  split
  · rename_i c' h0'
    rw [h0] at h0'
    cases h0'
    rw [dif_pos h]
    split
    · rename_i hn
      rw [hn]
      rfl
    · rename_i hn
      rw [hn]
      rfl
  · simp_all

theorem maybeLexDotAccess_done {l : Lexer} {c : Char} (h0 : l.char0 = some c) (h : ¬isDigit c) :
    maybeLexDotAccess l = .ok ([], l) := by
  rw [maybeLexDotAccess]
  split
  · rename_i c' h0'
    rw [h0] at h0'
    cases h0'
    rw [dif_neg h]
  · rfl

theorem maybeLexDotAccess_end {l : Lexer} (h0 : l.char0 = none) : maybeLexDotAccess l = .ok ([], l) := by
  rw [maybeLexDotAccess]
  split
  · simp_all
  · rfl

theorem maybeLexDotAccess_uses (l : Lexer) (r : List Spanned × Lexer) (hr : maybeLexDotAccess l = .ok r) :
    r.1.length + r.2.remaining ≤ l.remaining := by
  generalize hn : l.remaining = n
  induction n using Nat.strongRecOn generalizing l r with
  | ind n ih =>
    cases h0 : l.char0 with
    | none =>
      rw [maybeLexDotAccess_end h0] at hr
      cases hr
      simp only [List.length_nil]
      omega
    | some c =>
      by_cases hd : isDigit c
      · rw [maybeLexDotAccess_more h0 hd] at hr
        cases hx : lexDecimalOrIntNumber l l.location0 false false with
        | error e => rw [hx] at hr; cases hr
        | ok q =>
          rw [hx] at hr
          simp only [Except.bind] at hr
          have h1 := radixRun_lt h0 (isDigit_isDigitOf hd)
          rw [← lexDecimal_int_le hx] at h1
          cases hy : maybeLexDotAccess q.2 with
          | error e => rw [hy] at hr; cases hr
          | ok z =>
            rw [hy] at hr
            cases hr
            have h2 := ih q.2.remaining (by omega) q.2 z hy rfl
            simp only [List.length_cons]
            omega
      · rw [maybeLexDotAccess_done h0 hd] at hr
        cases hr
        simp only [List.length_nil]
        omega

theorem uses_lexDot (start : Nat) (l : Lexer) : Uses (l.remaining + 1) (lexDot start l) := by
  unfold lexDot
  split
  · apply uses_emit_next
  · exact (uses_after (n := l.remaining) fun r hr => by
      have := maybeLexDotAccess_uses l r hr
      simp only [List.length_singleton]
      omega).mono (by simp only [List.length_singleton]; omega)

theorem stringRun_le {start : Nat} {l : Lexer} {r : List Char × Lexer} (h : stringRun start l = .ok r) :
    r.2.remaining ≤ l.remaining := by
  generalize hn : l.remaining = n
  induction n using Nat.strongRecOn generalizing l r with
  | ind n ih =>
    have map_ok : ∀ (s : Except LexicalError (List Char × Lexer)) (f : List Char → List Char),
        (s.map fun q => (f q.1, q.2)) = .ok r → ∃ q, s = .ok q ∧ r.2 = q.2 := by
      intro s f hs
      cases s with
      | error e => cases hs
      | ok q => cases hs; exact ⟨q, rfl, rfl⟩
    rw [stringRun] at h
    split at h
    · cases h
    · rename_i c h0
      have h1 := Lexer.nextChar_lt h0
      split at h
      · split at h
        · cases h
        · rename_i e he
          have h2 := Lexer.nextChar_lt he
          split at h
          · obtain ⟨q, hq, hr⟩ := map_ok _ (fun x => '\\' :: e :: x) h
            have := ih _ (by omega) hq rfl
            rw [hr]
            omega
          split at h
          · split at h
            · cases h
            · rename_i u hu
              have h3 := lexUnicode_le hu
              obtain ⟨q, hq, hr⟩ := map_ok _ (fun x => '\\' :: 'u' :: '{' :: (u.1 ++ '}' :: x)) h
              have := ih _ (by omega) hq rfl
              rw [hr]
              omega
          · cases h
      split at h
      · cases h
        simp only
        omega
      · obtain ⟨q, hq, hr⟩ := map_ok _ (fun x => c :: x) h
        have := ih _ (by omega) hq rfl
        rw [hr]
        omega

theorem lexExponent_le {start : Nat} {l : Lexer} {r : List Char × Lexer} (h : lexExponent l start = .ok r) :
    r.2.remaining ≤ l.remaining := by
  unfold lexExponent at h
  have h1 := nextChar_le l
  have h2 := nextChar_le l.nextChar
  split at h
  · simp only at h
    have h3 := radixRun_le l.nextChar.nextChar .decimal
    have h4 := radixRun_le l.nextChar .decimal
    split at h
    · split at h
      · cases h
      · cases h
        simp only
        omega
    · split at h
      · cases h
      · cases h
        simp only
        omega
  · cases h
    simp only
    omega

theorem lexDecimal_le {l : Lexer} {start : Nat} {negative can : Bool} {r : Spanned × Lexer}
    (h : lexDecimalOrIntNumber l start negative can = .ok r) : r.2.remaining ≤ (radixRun l .decimal).2.remaining := by
  simp only [lexDecimalOrIntNumber] at h
  split at h
  · cases he : lexExponent (radixRun (radixRun l .decimal).2.nextChar .decimal).2 start with
    | error e => rw [he] at h; cases h
    | ok e =>
      rw [he] at h
      cases h
      have h1 := lexExponent_le he
      have h2 := radixRun_le (radixRun l .decimal).2.nextChar .decimal
      have h3 := nextChar_le (radixRun l .decimal).2
      simp only
      omega
  · split at h
    · cases h
    · cases h
      exact Nat.le_refl _

theorem lexNumberRadix_le {l : Lexer} {start : Nat} {radix : Radix} {negative : Bool} {pref : List Char}
    {r : Spanned × Lexer} (h : lexNumberRadix l start radix negative pref = .ok r) : r.2.remaining ≤ l.remaining := by
  simp only [lexNumberRadix] at h
  split at h
  · cases h
  split at h
  · cases h
  · cases ht : radixToken start negative (pref ++ (radixRun l radix).1) (radixRun l radix).2.location0 with
    | error e => rw [ht] at h; cases h
    | ok t =>
      rw [ht] at h
      cases h
      exact radixRun_le l radix

theorem lexUnsigned_lt {l : Lexer} {start : Nat} {negative : Bool} {r : Spanned × Lexer} {c : Char}
    (h0 : l.char0 = some c) (hd : isDigit c) (h : lexUnsigned l start negative = .ok r) : r.2.remaining < l.remaining := by
  have h1 := Lexer.nextChar_lt h0
  have h2 := nextChar_le l.nextChar
  have h3 := radixRun_lt h0 (isDigit_isDigitOf hd)
  unfold lexUnsigned at h
  split at h
  · have := lexNumberRadix_le h
    omega
  split at h
  · have := lexNumberRadix_le h
    omega
  split at h
  · have := lexNumberRadix_le h
    omega
  · have := lexDecimal_le h
    omega

theorem noTrailingUnderscore_eq {s : Except LexicalError (Spanned × Lexer)} {r : Spanned × Lexer}
    (h : s.bind noTrailingUnderscore = .ok r) : s = .ok r ∧ r.2.char0 ≠ some '_' := by
  cases s with
  | error e => cases h
  | ok q =>
    simp only [Except.bind, noTrailingUnderscore] at h
    split at h
    · cases h
    · cases h
      rename_i hc
      exact ⟨rfl, hc⟩

theorem isNumberStart_minus {o : Option Char} (h : isNumberStart '-' o) : ∃ c, o = some c ∧ isDigit c := by
  cases o with
  | none => simp [isNumberStart, startsDigit, isDigit] at h
  | some c =>
    refine ⟨c, rfl, ?_⟩
    simpa [isNumberStart, startsDigit, show isDigit '-' = false by decide] using h

theorem nextChar_char0 (l : Lexer) : l.nextChar.char0 = l.char1 := by
  unfold Lexer.nextChar
  split <;> rfl

theorem lexNumber_lt {l : Lexer} {r : Spanned × Lexer} {c : Char} (h0 : l.char0 = some c)
    (hn : isNumberStart c l.char1) (h : lexNumber l = .ok r) : r.2.remaining < l.remaining := by
  have h1 := Lexer.nextChar_lt h0
  simp only [lexNumber] at h
  split at h
  · rename_i hm
    rw [h0] at hm
    cases hm
    obtain ⟨d, hd, hdd⟩ := isNumberStart_minus hn
    have := lexUnsigned_lt (by rw [nextChar_char0]; exact hd) hdd (noTrailingUnderscore_eq h).1
    omega
  · rename_i hm
    have hd : isDigit c := by
      rcases Bool.or_eq_true_iff.1 hn with h2 | h2
      · exact h2
      · rw [Bool.and_eq_true, beq_iff_eq] at h2
        rw [h0, h2.1] at hm
        exact absurd rfl hm
    exact lexUnsigned_lt h0 hd (noTrailingUnderscore_eq h).1

theorem uses_checkForMinus (t : Spanned) (l : Lexer) : Uses (l.remaining + 1) (checkForMinus t l) := by
  unfold checkForMinus
  split
  · rename_i h
    have h1 := Lexer.nextChar_lt h.1
    refine (uses_after (n := l.remaining) fun r hr => ?_).mono (by simp only [List.length_singleton]; omega)
    have := uses_emit _ _ l.nextChar r hr
    simp only [List.length_singleton]
    omega
  · intro r hr
    cases hr
    simp only [List.length_singleton]
    omega

theorem ite_elim {α : Type} {P : α → Prop} {p : Prop} [Decidable p] {a b : α} (h1 : p → P a) (h2 : ¬p → P b) :
    P (if p then a else b) := by
  by_cases h : p
  · rw [if_pos h]; exact h1 h
  · rw [if_neg h]; exact h2 h

/-- Case analysis on the character at the start of a token. -/
theorem consumeCharacter_elim {P : Step → Prop} {c : Char} {l : Lexer}
    (single : ∀ s, singleSymbol c = some s → P (eatSingleChar s l))
    (string : c = '"' → P ((lexString l).map fun r => ([r.1], r.2)))
    (equal : c = '=' → P (lexEqual l.location0 l.nextChar))
    (plus : c = '+' → P (lexPlus l.location0 l.nextChar))
    (star : c = '*' → P (lexStar l.location0 l.nextChar))
    (slash : c = '/' → P (lexSlash l.location0 l.nextChar))
    (percent : c = '%' → P (lexPercent l.location0 l.nextChar))
    (vbar : c = '|' → P (lexVbar l.location0 l.nextChar))
    (amper : c = '&' → P (lexAmper l.location0 l.nextChar))
    (minus : c = '-' → P (lexMinus l.location0 l.nextChar))
    (bang : c = '!' → P (lexBang l.location0 l.nextChar))
    (lt : c = '<' → P (lexLt l.location0 l.nextChar))
    (gt : c = '>' → P (lexGt l.location0 l.nextChar))
    (dot : c = '.' → P (lexDot l.location0 l.nextChar))
    (blank : c = '\n' ∨ c = ' ' ∨ c = '\t' ∨ c = '\x0c' → P (lexBlank c l))
    (invalid : P (invalidCharacter c l)) : P (consumeCharacter c l) := by
  unfold consumeCharacter
  cases hs : singleSymbol c with
  | some s => exact single s hs
  | none =>
    refine ite_elim string fun _ => ?_
    refine ite_elim equal fun _ => ?_
    refine ite_elim plus fun _ => ?_
    refine ite_elim star fun _ => ?_
    refine ite_elim slash fun _ => ?_
    refine ite_elim percent fun _ => ?_
    refine ite_elim vbar fun _ => ?_
    refine ite_elim amper fun _ => ?_
    refine ite_elim minus fun _ => ?_
    refine ite_elim bang fun _ => ?_
    refine ite_elim lt fun _ => ?_
    refine ite_elim gt fun _ => ?_
    refine ite_elim dot fun _ => ?_
    exact ite_elim blank fun _ => invalid

theorem uses_consumeCharacter {l : Lexer} {c : Char} (h0 : l.char0 = some c) :
    Uses l.remaining (consumeCharacter c l) := by
  have h1 := Lexer.nextChar_lt h0
  have op : ∀ {f : Nat → Lexer → Step}, (∀ start l, Uses (l.remaining + 1) (f start l)) →
      Uses l.remaining (f l.location0 l.nextChar) := fun h => (h _ _).mono (by omega)
  have simple : ∀ {s : Step}, Uses (l.nextChar.remaining + 1) s → Uses l.remaining s := fun h => h.mono (by omega)
  apply consumeCharacter_elim
  · intro s _
    exact (uses_emit _ _ l.nextChar).mono (by omega)
  · intro _ r hr
    unfold lexString at hr
    cases hs : stringRun l.location0 l.nextChar with
    | error e => rw [hs] at hr; cases hr
    | ok q =>
      rw [hs] at hr
      cases hr
      have := stringRun_le hs
      simp only [List.length_singleton]
      omega
  · exact fun _ => op uses_lexEqual
  · intro _
    apply simple
    unfold lexPlus
    repeat' split
    all_goals first | apply uses_fail | apply uses_emit | apply uses_emit_next
  · intro _
    apply simple
    unfold lexStar
    repeat' split
    all_goals first | apply uses_fail | apply uses_emit | apply uses_emit_next
  · exact fun _ => op uses_lexSlash
  · intro _
    apply simple
    unfold lexPercent
    repeat' split
    all_goals first | apply uses_fail | apply uses_emit | apply uses_emit_next
  · intro _
    apply simple
    unfold lexVbar
    repeat' split
    all_goals first | apply uses_fail | apply uses_emit | apply uses_emit_next
  · intro _
    apply simple
    unfold lexAmper
    repeat' split
    all_goals first | apply uses_error | apply uses_emit_next
  · intro _
    apply simple
    unfold lexMinus
    repeat' split
    all_goals first | apply uses_fail | apply uses_emit | apply uses_emit_next
  · intro _
    apply simple
    unfold lexBang
    repeat' split
    all_goals first | apply uses_fail | apply uses_emit | apply uses_emit_next
  · exact fun _ => op uses_lexLt
  · exact fun _ => op uses_lexGt
  · exact fun _ => op uses_lexDot
  · intro _
    unfold lexBlank
    split
    · intro r hr
      cases hr
      simp only [List.length_singleton]
      omega
    · intro r hr
      cases hr
      simp only [List.length_nil]
      omega
  · unfold invalidCharacter
    split <;> apply uses_error

theorem isUpper_continuation {c : Char} (h : isUpper c) : isNameContinuation c := by
  simp only [isNameContinuation, h, Bool.or_true]

theorem isNameStart_continuation {c : Char} (h : isNameStart c) : isNameContinuation c := by
  simp only [isNameStart, Bool.or_eq_true, beq_iff_eq] at h
  rcases h with h | h
  · subst h; decide
  · simp only [isNameContinuation, h, Bool.or_true, Bool.true_or]

theorem uses_consumeNormal {l : Lexer} {c : Char} (h0 : l.char0 = some c) : Uses l.remaining (consumeNormal l) := by
  unfold consumeNormal
  rw [h0]
  simp only
  split
  · rename_i h
    intro r hr
    cases hr
    have := nameRun_lt h0 (isUpper_continuation h)
    simp only [List.length_singleton, lexUpname]
    omega
  split
  · rename_i h
    have := nameRun_lt h0 (isNameStart_continuation h)
    exact (uses_checkForMinus _ _).mono (by simp only [lexName]; omega)
  split
  · rename_i h
    intro r hr
    cases hx : lexNumber l with
    | error e => rw [hx] at hr; cases hr
    | ok q =>
      rw [hx] at hr
      have h1 := lexNumber_lt h0 h hx
      have h2 := uses_checkForMinus q.1 q.2 r hr
      omega
  · exact uses_consumeCharacter h0

/-- A step of the lexer reads at least one character. -/
theorem consumeNormal_lt {l : Lexer} {c : Char} {r : List Spanned × Lexer} (h0 : l.char0 = some c)
    (h : consumeNormal l = .ok r) : r.2.remaining < l.remaining := (uses_consumeNormal h0 r h).2

end Verif.Lexer
