import Verif.Version.Lemmas

namespace Verif.Version

open Verif.Decimal

/-! ### Lexing -/

theorem dropWhile_length_le (p : Char → Bool) (s : List Char) : (s.dropWhile p).length ≤ s.length := by
  induction s with
  | nil => simp
  | cons c s ih => rw [List.dropWhile_cons]; split <;> simp <;> omega

theorem next_length (s : List Char) (t : Token) (r : List Char) (h : next s = some (some (t, r))) :
    r.length < s.length := by
  unfold next at h
  split at h
  all_goals try (simp only [Option.some.injEq, Prod.mk.injEq] at h; obtain ⟨-, rfl⟩ := h; simp only [List.length_cons]; omega)
  · simp [component] at h
    obtain ⟨-, rfl⟩ := h
    have := dropWhile_length_le isAlnum ‹_›
    simp; omega
  · unfold nextOne at h
    split at h
    · simp at h
    · rename_i c rest _ _ _ _ _ _ _ _
      have h1 := dropWhile_length_le isAlnum rest
      have h2 := dropWhile_length_le isWs rest
      split_ifs at h <;> simp [component] at h <;> obtain ⟨-, rfl⟩ := h <;> simp <;> omega

theorem lexLoop_fuel (f g : Nat) (s : List Char) (hf : s.length ≤ f) (hg : s.length ≤ g) :
    lexLoop f s = lexLoop g s := by
  induction f generalizing g s with
  | zero =>
    have : s = [] := List.length_eq_zero_iff.1 (by omega)
    subst this
    cases g <;> simp [lexLoop, next, nextOne]
  | succ f ih =>
    cases g with
    | zero =>
      have : s = [] := List.length_eq_zero_iff.1 (by omega)
      subst this
      simp [lexLoop, next, nextOne]
    | succ g =>
      simp only [lexLoop]
      split
      · rfl
      · rfl
      · rename_i t rest hn
        have := next_length _ _ _ hn
        rw [ih g rest (by omega) (by omega)]

theorem lex_nil : lex [] = some [] := rfl

theorem lex_cons {s : List Char} {t : Token} {r : List Char} (h : next s = some (some (t, r))) :
    lex s = (lex r).map (t :: ·) := by
  have hl := next_length _ _ _ h
  unfold lex
  obtain ⟨n, hn⟩ : ∃ n, s.length = n + 1 := ⟨s.length - 1, by omega⟩
  rw [hn, lexLoop, h]
  simp only
  rw [lexLoop_fuel n r.length r (by omega) (by omega)]

theorem lex_inv {s : List Char} {ts : List Token} (h : lex s = some ts) :
    (s = [] ∧ ts = []) ∨ ∃ t r ts', next s = some (some (t, r)) ∧ ts = t :: ts' ∧ lex r = some ts' := by
  cases s with
  | nil => left; simp [lex_nil] at h; exact ⟨rfl, h⟩
  | cons c s =>
    right
    cases hn : next (c :: s) with
    | none =>
      exfalso
      unfold next at hn
      split at hn
      all_goals try (simp at hn; done)
      simp only [nextOne] at hn
      split_ifs at hn
    | some o =>
      cases o with
      | none =>
        simp [lex, lexLoop, hn] at h
      | some tr =>
        obtain ⟨t, r⟩ := tr
        rw [lex_cons hn] at h
        cases hr : lex r with
        | none => simp [hr] at h
        | some ts' =>
          simp [hr] at h
          exact ⟨t, r, ts', rfl, h.symm, hr⟩

/-- The text does not go on with a letter or digit. -/
def NoAlnum (s : List Char) : Prop := ∀ c, s.head? = some c → isAlnum c = false

/-- A word the lexer reads in one piece. -/
structure SegOK (s : List Char) : Prop where
  ne : s ≠ []
  alnum : ∀ c ∈ s, isAlnum c = true
  noOr : ¬ ['o', 'r'] <+: s
  noAnd : ¬ ['a', 'n', 'd'] <+: s

theorem takeWhile_append_noAlnum (s rest : List Char) (hs : ∀ c ∈ s, isAlnum c = true) (hr : NoAlnum rest) :
    (s ++ rest).takeWhile isAlnum = s ∧ (s ++ rest).dropWhile isAlnum = rest := by
  induction s with
  | nil =>
    cases rest with
    | nil => simp
    | cons c r =>
      have := hr c rfl
      simp [this]
  | cons c s ih =>
    have hc := hs c (by simp)
    have := ih (fun c hc => hs c (by simp [hc]))
    simp [hc, this.1, this.2]

theorem alnum_facts (c : Char) (h : isAlnum c = true) :
    isWs c = false ∧ c ≠ '>' ∧ c ≠ '<' ∧ c ≠ '.' ∧ c ≠ '-' ∧ c ≠ '+' ∧ c ≠ '~' ∧ c ≠ '!' ∧ c ≠ '=' := by
  refine ⟨?_, ?_, ?_, ?_, ?_, ?_, ?_, ?_, ?_⟩
  · cases hw : isWs c with
    | false => rfl
    | true =>
      simp [isWs] at hw
      rcases hw with ((rfl | rfl) | rfl) | rfl <;> revert h <;> decide
  all_goals (intro hc; subst hc; revert h; decide)

theorem nextOne_word (c : Char) (r : List Char) (h : isAlnum c = true) :
    nextOne (c :: r) = some (some (component [c] r)) := by
  obtain ⟨h1, h2, h3, h4, h5, h6, _⟩ := alnum_facts c h
  simp [nextOne, h1, h2, h3, h4, h5, h6, h]

theorem next_seg (s rest : List Char) (hs : SegOK s) (hr : NoAlnum rest) :
    next (s ++ rest) = some (some (classify s, rest)) := by
  obtain ⟨hne, hal, hor, hand⟩ := hs
  cases s with
  | nil => exact absurd rfl hne
  | cons c cs =>
    have hc := hal c (by simp)
    obtain ⟨hw, h2, h3, h4, h5, h6, h7, h8, h9⟩ := alnum_facts c hc
    have htw := takeWhile_append_noAlnum cs rest (fun c hc => hal c (by simp [hc])) hr
    rw [List.cons_append]
    generalize hw' : c :: (cs ++ rest) = w
    unfold next
    split
    all_goals try (simp only [List.cons.injEq] at hw'; exfalso; obtain ⟨hcc, -⟩ := hw'; simp_all; done)
    · -- `or`
      exfalso
      simp only [List.cons.injEq] at hw'
      obtain ⟨rfl, hw'⟩ := hw'
      cases cs with
      | nil =>
        simp at hw'; subst hw'
        have := hr 'r' rfl
        exact absurd this (by decide)
      | cons d ds =>
        simp at hw'
        obtain ⟨rfl, -⟩ := hw'
        exact hor ⟨ds, rfl⟩
    · -- `and`
      exfalso
      simp only [List.cons.injEq] at hw'
      obtain ⟨rfl, hw'⟩ := hw'
      cases cs with
      | nil =>
        simp at hw'; subst hw'
        have := hr 'n' rfl
        exact absurd this (by decide)
      | cons d ds =>
        simp at hw'
        obtain ⟨rfl, hw'⟩ := hw'
        cases ds with
        | nil =>
          simp at hw'; subst hw'
          have := hr 'd' rfl
          exact absurd this (by decide)
        | cons e es =>
          simp at hw'
          obtain ⟨rfl, -⟩ := hw'
          exact hand ⟨es, rfl⟩
    · -- `an…`
      simp only [List.cons.injEq] at hw'
      obtain ⟨rfl, hw'⟩ := hw'
      cases cs with
      | nil =>
        simp at hw'; subst hw'
        have := hr 'n' rfl
        exact absurd this (by decide)
      | cons d ds =>
        simp at hw'
        obtain ⟨rfl, rfl⟩ := hw'
        have := takeWhile_append_noAlnum ds rest (fun c hc => hal c (by simp [hc])) hr
        simp [component, this.1, this.2]
    · subst hw'
      rw [nextOne_word _ _ hc]
      simp [component, htw.1, htw.2]

theorem lex_seg (s rest : List Char) (hs : SegOK s) (hr : NoAlnum rest) :
    lex (s ++ rest) = (lex rest).map (classify s :: ·) := lex_cons (next_seg s rest hs hr)

theorem lex_dot (r : List Char) : lex ('.' :: r) = (lex r).map (Token.dot :: ·) :=
  lex_cons (by simp [next, nextOne, isWs])

theorem lex_hyphen (r : List Char) : lex ('-' :: r) = (lex r).map (Token.hyphen :: ·) :=
  lex_cons (by simp [next, nextOne, isWs])

theorem lex_plus (r : List Char) : lex ('+' :: r) = (lex r).map (Token.plus :: ·) :=
  lex_cons (by simp [next, nextOne, isWs])

theorem digit_alnum (c : Char) (h : isDigit c = true) : isAlnum c = true := by
  simp [isAlnum, h]

theorem segOK_showNat (n : Nat) : SegOK (showNat n) := by
  refine ⟨showNat_ne_nil n, fun c hc => digit_alnum c (showNat_digits n c hc), ?_, ?_⟩
  · rintro ⟨t, ht⟩
    have := showNat_digits n 'o' (by rw [← ht]; simp)
    exact absurd this (by decide)
  · rintro ⟨t, ht⟩
    have := showNat_digits n 'a' (by rw [← ht]; simp)
    exact absurd this (by decide)

theorem showNat_zero_iff (n : Nat) : showNat n = ['0'] ↔ n = 0 := by
  constructor
  · intro h; exact showNat_inj (n := 0) (h.trans rfl)
  · rintro rfl; rfl

theorem classify_showNat (n : Nat) (h : n ≤ u32Max) : classify (showNat n) = .numeric n := by
  unfold classify
  split
  · rw [(showNat_zero_iff n).1 ‹_›]
  · rename_i hz
    have hp : parseU32 (showNat n) = some n := by
      unfold parseU32
      have h1 : (showNat n).isEmpty = false := by simpa using showNat_ne_nil n
      have h2 : (showNat n).all isDigit = true := by
        rw [List.all_eq_true]; exact showNat_digits n
      simp [h1, h2, readNat_showNat, h]
    rw [hp]
    have hpos : 0 < n := by
      rcases Nat.eq_zero_or_pos n with h0 | h0
      · exact absurd ((showNat_zero_iff n).2 h0) hz
      · exact h0
    simp [showNat_head n hpos]

theorem lex_showNat (n : Nat) (h : n ≤ u32Max) (rest : List Char) (hr : NoAlnum rest) :
    lex (showNat n ++ rest) = (lex rest).map (Token.numeric n :: ·) := by
  rw [lex_seg _ _ (segOK_showNat n) hr, classify_showNat n h]

/-! ### What the lexer can produce -/

def Token.isWord : Token → Bool
  | .numeric _ | .alphaNumeric _ | .leadingZero _ => true
  | _ => false

def Token.text : Token → List Char
  | .numeric n => showNat n
  | .alphaNumeric s | .leadingZero s => s
  | _ => []

/-- A word token is the classification of its own text. -/
structure WordOK (t : Token) : Prop where
  seg : SegOK t.text
  cls : classify t.text = t

theorem parseU32_some {s : List Char} {n : Nat} (h : parseU32 s = some n) :
    s ≠ [] ∧ (∀ c ∈ s, isDigit c = true) ∧ readNat s = n ∧ n ≤ u32Max := by
  unfold parseU32 at h
  split_ifs at h with h1 h2 h3
  simp at h
  subst h
  refine ⟨by simpa using h1, by simpa using h2, rfl, h3⟩

theorem classify_cases (s : List Char) :
    (∃ n, classify s = .numeric n ∧ showNat n = s ∧ n ≤ u32Max) ∨
    (classify s = .leadingZero s ∧ (∃ n, parseU32 s = some n) ∧ s.head? = some '0' ∧ s ≠ ['0']) ∨
    (classify s = .alphaNumeric s ∧ parseU32 s = none) := by
  unfold classify
  split
  · rename_i h; subst h; left; exact ⟨0, rfl, rfl, by simp⟩
  · rename_i hz
    cases hp : parseU32 s with
    | none => right; right; simp
    | some n =>
      obtain ⟨hne, hd, hn, hle⟩ := parseU32_some hp
      by_cases hh : s.head? = some '0'
      · right; left
        exact ⟨by simp [hh], ⟨n, rfl⟩, hh, hz⟩
      · left
        refine ⟨n, by simp [hh], ?_, hle⟩
        rw [← hn, showNat_readNat s hd hne (Or.inl hh)]

theorem wordOK_classify (s : List Char) (h : SegOK s) : WordOK (classify s) ∧ (classify s).isWord = true := by
  rcases classify_cases s with ⟨n, h1, h2, h3⟩ | ⟨h1, -⟩ | ⟨h1, -⟩
  · rw [h1]
    refine ⟨⟨segOK_showNat n, ?_⟩, rfl⟩
    exact classify_showNat n h3
  · rw [h1]; exact ⟨⟨h, h1⟩, rfl⟩
  · rw [h1]; exact ⟨⟨h, h1⟩, rfl⟩

theorem takeWhile_alnum (s : List Char) : ∀ c ∈ s.takeWhile isAlnum, isAlnum c = true := by
  induction s with
  | nil => simp
  | cons c s ih =>
    rw [List.takeWhile_cons]
    split
    · intro d hd
      rcases List.mem_cons.1 hd with rfl | hd
      · assumption
      · exact ih d hd
    · simp

theorem noAlnum_dropWhile (s : List Char) : NoAlnum (s.dropWhile isAlnum) := by
  induction s with
  | nil => intro c h; simp at h
  | cons c s ih =>
    rw [List.dropWhile_cons]
    split
    · exact ih
    · intro d hd
      simp at hd; subst hd
      rename_i hh; simpa using hh

theorem prefix_takeWhile {p s : List Char} (h : p <+: s.takeWhile isAlnum) : p <+: s :=
  h.trans (List.takeWhile_prefix _)

/-- Each token is either not a word, or a word token that is followed by a non-alphanumeric. -/
theorem next_word (s : List Char) (t : Token) (r : List Char) (h : next s = some (some (t, r))) :
    t.isWord = false ∨ (WordOK t ∧ NoAlnum r) := by
  unfold next at h
  split at h
  all_goals try (simp at h; obtain ⟨rfl, -⟩ := h; left; rfl)
  · rename_i rest hnd
    right
    simp only [component, Option.some.injEq, Prod.mk.injEq] at h
    obtain ⟨rfl, rfl⟩ := h
    refine ⟨(wordOK_classify _ ⟨by simp, ?_, ?_, ?_⟩).1, noAlnum_dropWhile _⟩
    · intro c hc
      simp at hc
      rcases hc with rfl | rfl | hc
      · decide
      · decide
      · exact takeWhile_alnum _ c hc
    · rintro ⟨t, ht⟩; simp at ht
    · rintro ⟨t, ht⟩
      simp at ht
      cases rest with
      | nil => simp at ht
      | cons d rest =>
        rw [List.takeWhile_cons] at ht
        split at ht
        · simp at ht; exact hnd rest (by rw [ht.1])
        · simp at ht
  · rename_i n1 n2 n3 n4 n5 n6 n7 n8
    unfold nextOne at h
    split at h
    · simp at h
    · rename_i c rest
      split_ifs at h with c1 c2 c3 c4 c5 c6 c7
      all_goals try (simp at h; done)
      all_goals try (simp at h; obtain ⟨rfl, -⟩ := h; left; rfl)
      right
      simp only [component, Option.some.injEq, Prod.mk.injEq] at h
      obtain ⟨rfl, rfl⟩ := h
      refine ⟨(wordOK_classify _ ⟨by simp, ?_, ?_, ?_⟩).1, noAlnum_dropWhile _⟩
      · intro d hd
        simp at hd
        rcases hd with rfl | hd
        · exact c7
        · exact takeWhile_alnum _ d hd
      · rintro ⟨t, ht⟩
        simp at ht
        obtain ⟨rfl, ht⟩ := ht
        obtain ⟨u, hu⟩ := prefix_takeWhile (p := ['r']) ⟨t, by simpa using ht⟩
        exact n6 u (by rw [← hu]; rfl)
      · rintro ⟨t, ht⟩
        simp at ht
        obtain ⟨rfl, ht⟩ := ht
        obtain ⟨u, hu⟩ := prefix_takeWhile (p := ['n', 'd']) ⟨t, by simpa using ht⟩
        exact n7 u (by rw [← hu]; rfl)

/-- No two word tokens in a row. -/
def NoAdj : List Token → Prop
  | a :: b :: ts => ¬ (a.isWord = true ∧ b.isWord = true) ∧ NoAdj (b :: ts)
  | _ => True

theorem next_not_word (s : List Char) (t : Token) (r : List Char) (h : next s = some (some (t, r)))
    (hs : NoAlnum s) : t.isWord = false := by
  unfold next at h
  split at h
  all_goals try (simp at h; obtain ⟨rfl, -⟩ := h; rfl)
  · have := hs _ rfl; exact absurd this (by decide)
  · unfold nextOne at h
    split at h
    · simp at h
    · rename_i c rest
      split_ifs at h with c1 c2 c3 c4 c5 c6 c7
      all_goals try (simp at h; done)
      all_goals try (simp at h; obtain ⟨rfl, -⟩ := h; rfl)
      have := hs _ rfl
      rw [this] at c7; simp at c7

theorem lex_ok (n : Nat) (s : List Char) (hn : s.length ≤ n) (ts : List Token) (h : lex s = some ts) :
    (∀ t ∈ ts, t.isWord = true → WordOK t) ∧ NoAdj ts := by
  induction n generalizing s ts with
  | zero =>
    have : s = [] := List.length_eq_zero_iff.1 (by omega)
    subst this
    simp [lex_nil] at h; subst h; simp [NoAdj]
  | succ n ih =>
    rcases lex_inv h with ⟨-, rfl⟩ | ⟨t, r, ts', hn', rfl, hr⟩
    · simp [NoAdj]
    · have hl := next_length _ _ _ hn'
      obtain ⟨i1, i2⟩ := ih r (by omega) ts' hr
      have hw := next_word _ _ _ hn'
      refine ⟨?_, ?_⟩
      · intro t' ht' htw
        rcases List.mem_cons.1 ht' with rfl | ht'
        · rcases hw with hw | hw
          · rw [hw] at htw; simp at htw
          · exact hw.1
        · exact i1 t' ht' htw
      · cases ts' with
        | nil => simp [NoAdj]
        | cons b ts' =>
          refine ⟨?_, i2⟩
          rintro ⟨h1, h2⟩
          rcases hw with hw | hw
          · rw [hw] at h1; simp at h1
          · rcases lex_inv hr with ⟨-, hx⟩ | ⟨t2, r2, ts2, hn2, he, -⟩
            · simp at hx
            · simp at he
              have := next_not_word _ _ _ hn2 hw.2
              rw [he.1, this] at h2; simp at h2

end Verif.Version
