import Verif.ErlText.Ok
import Verif.Common.Decimal
import Verif.Strings.Lemmas

/-! # Scanning the pieces of the printed text -/

namespace Verif.ErlText

open Read

/-- The tokens of a text, one token or one character of white space at a time. -/
inductive Lex : List Char → List Tok → Prop
  | nil : Lex [] []
  | space {c cs ts} : isSpace c = true → Lex cs ts → Lex (c :: cs) ts
  | tok {c cs t r ts} : isSpace c = false → next (c :: cs) = some (t, r) → Lex r ts → Lex (c :: cs) (t :: ts)

theorem quoted_length (q : Char) : ∀ (cs s r : List Char), quoted q cs = some (s, r) → r.length ≤ cs.length
  | [], s, r, h => by simp [quoted] at h
  | [c], s, r, h => by
    simp only [quoted] at h
    split at h
    · cases h; simp
    · split at h <;> simp at h
  | c :: d :: ds, s, r, h => by
    rw [quoted] at h
    split at h
    · cases h; simp
    · split at h
      · simp only at h
        cases hq : quoted q ds with
        | none => simp [hq] at h
        | some x =>
          obtain ⟨a, b⟩ := x
          simp [hq] at h
          have := quoted_length q ds a b hq
          obtain ⟨_, rfl⟩ := h
          simp; omega
      · cases hq : quoted q (d :: ds) with
        | none => simp [hq] at h
        | some x =>
          obtain ⟨a, b⟩ := x
          simp [hq] at h
          have := quoted_length q (d :: ds) a b hq
          obtain ⟨_, rfl⟩ := h
          simp at this ⊢; omega

theorem dropWhile_length (p : Char → Bool) (cs : List Char) : (cs.dropWhile p).length ≤ cs.length :=
  (List.dropWhile_suffix p).length_le

theorem punctuation_length (cs : List Char) (t : Tok) (r : List Char) (h : punctuation cs = some (t, r)) :
    r.length < cs.length := by
  unfold punctuation at h
  split at h <;> simp at h <;> (obtain ⟨_, rfl⟩ := h; simp <;> omega)

theorem number_length (cs : List Char) (t : Tok) (r : List Char) (h : number cs = some (t, r)) :
    r.length ≤ (cs.dropWhile isDigit).length := by
  unfold number at h
  simp only at h
  split at h
  · rename_i d r' he
    rw [he]
    split at h
    · have hl := dropWhile_length isDigit (d :: r')
      simp only [List.length_cons] at hl ⊢
      split at h
      · split at h
        · simp at h
        · simp only [Option.some.injEq, Prod.mk.injEq] at h
          rw [← h.2]
          omega
      · simp only [Option.some.injEq, Prod.mk.injEq] at h
        rw [← h.2]
        omega
    · simp only [Option.some.injEq, Prod.mk.injEq] at h
      rw [← h.2]
      exact Nat.le_refl _
  · split at h
    · split at h
      · simp at h
      · simp only [Option.some.injEq, Prod.mk.injEq] at h
        rw [← h.2]
        exact Nat.le_refl _
    · simp only [Option.some.injEq, Prod.mk.injEq] at h
      rw [← h.2]
      exact Nat.le_refl _

theorem next_length (c : Char) (cs : List Char) (t : Tok) (r : List Char) (h : next (c :: cs) = some (t, r)) :
    r.length ≤ cs.length := by
  simp only [next] at h
  split at h
  · simp at h; obtain ⟨_, rfl⟩ := h; exact dropWhile_length _ _
  · split at h
    · simp at h; obtain ⟨_, rfl⟩ := h; exact dropWhile_length _ _
    · split at h
      · rename_i hd
        have := number_length _ _ _ h
        rw [List.dropWhile_cons_of_pos hd] at this
        exact Nat.le_trans this (dropWhile_length _ _)
      · split at h
        · cases hq : quoted '"' cs with
          | none => simp [hq] at h
          | some x =>
            obtain ⟨a, b⟩ := x
            simp [hq] at h
            obtain ⟨_, rfl⟩ := h
            exact quoted_length _ _ _ _ hq
        · split at h
          · unfold quotedAtom at h
            cases hq : quoted '\'' cs with
            | none => simp [hq] at h
            | some x =>
              obtain ⟨a, b⟩ := x
              simp [hq] at h
              obtain ⟨_, _, rfl⟩ := h
              exact quoted_length _ _ _ _ hq
          · split at h
            · split at h
              · rename_i r'
                unfold Read.sigil at h
                cases hq : quoted '"' r' with
                | none => simp [hq] at h
                | some x =>
                  obtain ⟨a, b⟩ := x
                  have hl := quoted_length _ _ _ _ hq
                  rw [hq] at h
                  cases b with
                  | nil => simp at h; obtain ⟨_, rfl⟩ := h; simp
                  | cons d ds =>
                    simp at h
                    obtain ⟨_, _, rfl⟩ := h
                    simp at hl ⊢; omega
              · simp at h
            · split at h
              · unfold fullStop at h
                split at h
                · simp at h; obtain ⟨_, rfl⟩ := h; simp
                · split at h
                  · simp at h; obtain ⟨_, rfl⟩ := h; simp
                  · simp at h
              · have := punctuation_length _ _ _ h
                simp at this; omega

theorem Lex.scanLoop {cs : List Char} {ts : List Tok} (h : Lex cs ts) :
    ∀ n, cs.length ≤ n → scanLoop n cs = some ts := by
  induction h with
  | nil => intro n _; cases n <;> rfl
  | space hc _ ih =>
    intro n hn
    cases n with
    | zero => simp at hn
    | succ n => simp at hn; simp [Read.scanLoop, hc, ih n hn]
  | tok hc ht _ ih =>
    intro n hn
    cases n with
    | zero => simp at hn
    | succ n =>
      simp at hn
      have := next_length _ _ _ _ ht
      simp [Read.scanLoop, hc, ht, ih n (by omega)]

theorem Lex.scan {cs : List Char} {ts : List Tok} (h : Lex cs ts) : scan cs = some ts := h.scanLoop _ (Nat.le_refl _)

/-! ### What may follow a term -/

/-- The characters that follow a term in the printed text. -/
def goodChar (c : Char) : Bool :=
  c = ',' || c = ')' || c = ']' || c = '}' || c = ' ' || c = '\n' || c = ':' || c = '/' || c = '(' || c = '>' ||
    c = '-' || c = ';'

def good : List Char → Bool
  | '.' :: '\n' :: _ => true
  | c :: _ => goodChar c
  | [] => false

/-- The text does not go on with the character of a name. -/
def bound : List Char → Bool
  | c :: _ => !isNameChar c
  | [] => true

theorem good_cases {r : List Char} (h : good r = true) :
    (∃ r', r = '.' :: '\n' :: r') ∨ ∃ c r', r = c :: r' ∧ goodChar c = true := by
  unfold good at h
  split at h
  · exact Or.inl ⟨_, rfl⟩
  · exact Or.inr ⟨_, _, rfl, h⟩
  · cases h

theorem goodChar_cases {c : Char} (h : goodChar c = true) :
    c = ',' ∨ c = ')' ∨ c = ']' ∨ c = '}' ∨ c = ' ' ∨ c = '\n' ∨ c = ':' ∨ c = '/' ∨ c = '(' ∨ c = '>' ∨ c = '-' ∨ c = ';' := by
  simpa [goodChar, or_assoc] using h

theorem good_bound {r : List Char} (h : good r = true) : bound r = true := by
  rcases good_cases h with ⟨r', rfl⟩ | ⟨c, r', rfl, hc⟩
  · rfl
  · rcases goodChar_cases hc with rfl | rfl | rfl | rfl | rfl | rfl | rfl | rfl | rfl | rfl | rfl | rfl <;> rfl

theorem takeWhile_bound {n r : List Char} (hn : n.all isNameChar = true) (hr : bound r = true) :
    (n ++ r).takeWhile isNameChar = n ∧ (n ++ r).dropWhile isNameChar = r := by
  induction n with
  | nil =>
    cases r with
    | nil => simp
    | cons c r => simp [bound] at hr; simp [hr]
  | cons c n ih =>
    simp at hn
    have := ih (by simpa using hn.2)
    simp [hn.1, this]

theorem small_not_space {c : Char} (h : isSmall c = true) : isSpace c = false := by
  simp only [isSmall, isSpace, Bool.and_eq_true, decide_eq_true_eq] at *
  have : ∀ d : Char, d.toNat < 97 → c ≠ d := by rintro d hd rfl; omega
  simp [this ' ' (by decide), this '\n' (by decide), this '\t' (by decide), this '\r' (by decide)]

theorem lex_word {c : Char} {n r : List Char} {ts : List Tok} (hc : isSmall c = true) (hn : n.all isNameChar = true)
    (hr : bound r = true) (h : Lex r ts) : Lex (c :: n ++ r) (wordOrAtom (c :: n) :: ts) := by
  have ht := takeWhile_bound hn hr
  refine Lex.tok (small_not_space hc) ?_ h
  rw [next.eq_def]
  simp only [hc, if_true]
  have ht' : List.takeWhile isNameChar (n.append r) = n ∧ List.dropWhile isNameChar (n.append r) = r := ht
  rw [ht'.1, ht'.2]

theorem capital_facts {c : Char} (h : (isCapital c || c = '_') = true) : isSpace c = false ∧ isSmall c = false := by
  simp only [Bool.or_eq_true, isCapital, Bool.and_eq_true, decide_eq_true_eq, isSpace, isSmall] at *
  rcases h with h | rfl
  · have : ∀ d : Char, d.toNat < 65 → c ≠ d := by rintro d hd rfl; omega
    simp [this ' ' (by decide), this '\n' (by decide), this '\t' (by decide), this '\r' (by decide)]
    omega
  · decide

theorem lex_var {n r : List Char} {ts : List Tok} (hn : VarName n) (hr : bound r = true) (h : Lex r ts) :
    Lex (n ++ r) (.var n :: ts) := by
  obtain ⟨c, cs, rfl, hc, hcs⟩ := hn
  have ht := takeWhile_bound hcs hr
  have hf := capital_facts hc
  refine Lex.tok hf.1 ?_ h
  rw [next.eq_def]
  simp [hf.2, hc, ht]

theorem lex_space {r : List Char} {ts : List Tok} (h : Lex r ts) : Lex (' ' :: r) ts := .space rfl h

theorem lex_newline {r : List Char} {ts : List Tok} (h : Lex r ts) : Lex ('\n' :: r) ts := .space rfl h

theorem lex_spaces (n : Nat) {r : List Char} {ts : List Tok} (h : Lex r ts) : Lex (spaces n ++ r) ts := by
  induction n with
  | zero => exact h
  | succ n ih => exact lex_space ih

/-- One token of punctuation. -/
theorem lex_punct {c : Char} {cs r : List Char} {t : Tok} {ts : List Tok} (hs : isSpace c = false)
    (hn : next (c :: cs) = some (t, r)) (h : Lex r ts) : Lex (c :: cs) (t :: ts) := .tok hs hn h

theorem lex_lparen {r : List Char} {ts : List Tok} (h : Lex r ts) : Lex ('(' :: r) (.lparen :: ts) :=
  .tok rfl rfl h
theorem lex_rparen {r : List Char} {ts : List Tok} (h : Lex r ts) : Lex (')' :: r) (.rparen :: ts) :=
  .tok rfl rfl h
theorem lex_lbrack {r : List Char} {ts : List Tok} (h : Lex r ts) : Lex ('[' :: r) (.lbrack :: ts) :=
  .tok rfl rfl h
theorem lex_rbrack {r : List Char} {ts : List Tok} (h : Lex r ts) : Lex (']' :: r) (.rbrack :: ts) :=
  .tok rfl rfl h
theorem lex_lbrace {r : List Char} {ts : List Tok} (h : Lex r ts) : Lex ('{' :: r) (.lbrace :: ts) :=
  .tok rfl rfl h
theorem lex_rbrace {r : List Char} {ts : List Tok} (h : Lex r ts) : Lex ('}' :: r) (.rbrace :: ts) :=
  .tok rfl rfl h
theorem lex_comma {r : List Char} {ts : List Tok} (h : Lex r ts) : Lex (',' :: r) (.comma :: ts) :=
  .tok rfl rfl h
theorem lex_semi {r : List Char} {ts : List Tok} (h : Lex r ts) : Lex (';' :: r) (.semi :: ts) :=
  .tok rfl rfl h
theorem lex_hash {r : List Char} {ts : List Tok} (h : Lex r ts) : Lex ('#' :: r) (.hash :: ts) :=
  .tok rfl rfl h
theorem lex_ltlt {r : List Char} {ts : List Tok} (h : Lex r ts) : Lex ('<' :: '<' :: r) (.ltlt :: ts) :=
  .tok rfl rfl h
theorem lex_gtgt {r : List Char} {ts : List Tok} (h : Lex r ts) : Lex ('>' :: '>' :: r) (.gtgt :: ts) :=
  .tok rfl rfl h
theorem lex_arrow {r : List Char} {ts : List Tok} (h : Lex r ts) : Lex ('-' :: '>' :: r) (.arrow :: ts) :=
  .tok rfl rfl h
theorem lex_assoc {r : List Char} {ts : List Tok} (h : Lex r ts) : Lex ('=' :: '>' :: r) (.assoc :: ts) :=
  .tok rfl rfl h
theorem lex_bar {r : List Char} {ts : List Tok} (h : Lex r ts) : Lex ('|' :: ' ' :: r) (.bar :: ts) :=
  .tok rfl rfl (lex_space h)
theorem lex_bind {r : List Char} {ts : List Tok} (h : Lex r ts) : Lex ('=' :: ' ' :: r) (.op .bind :: ts) :=
  .tok rfl rfl (lex_space h)
theorem lex_dot {r : List Char} {ts : List Tok} (h : Lex r ts) : Lex ('.' :: '\n' :: r) (.dot :: ts) :=
  .tok rfl rfl (lex_newline h)

theorem lex_colon {c : Char} {r : List Char} {ts : List Tok} (h1 : c ≠ ':') (h2 : c ≠ '=') (h : Lex (c :: r) ts) :
    Lex (':' :: c :: r) (.colon :: ts) := by
  refine .tok rfl ?_ h
  have : punctuation (':' :: c :: r) = some (.colon, c :: r) := by
    rw [punctuation] <;> simp_all
  simpa [next, isSmall, isCapital, Read.isDigit] using this

theorem lex_minus {c : Char} {r : List Char} {ts : List Tok} (h1 : c ≠ '-') (h2 : c ≠ '>') (h : Lex (c :: r) ts) :
    Lex ('-' :: c :: r) (.op .minus :: ts) := by
  refine .tok rfl ?_ h
  have : punctuation ('-' :: c :: r) = some (.op .minus, c :: r) := by
    rw [punctuation] <;> simp_all
  simpa [next, isSmall, isCapital, Read.isDigit] using this

theorem lex_plus {c : Char} {r : List Char} {ts : List Tok} (h1 : c ≠ '+') (h : Lex (c :: r) ts) :
    Lex ('+' :: c :: r) (.op .plus :: ts) := by
  refine .tok rfl ?_ h
  have : punctuation ('+' :: c :: r) = some (.op .plus, c :: r) := by
    rw [punctuation] <;> simp_all
  simpa [next, isSmall, isCapital, Read.isDigit] using this

theorem lex_slash {c : Char} {r : List Char} {ts : List Tok} (h1 : c ≠ '=') (h : Lex (c :: r) ts) :
    Lex ('/' :: c :: r) (.op .slash :: ts) := by
  refine .tok rfl ?_ h
  have : punctuation ('/' :: c :: r) = some (.op .slash, c :: r) := by
    rw [punctuation] <;> simp_all
  simpa [next, isSmall, isCapital, Read.isDigit] using this

/-! ### Names, numbers and strings -/

theorem words_reserved : ∀ w ∈ words, w.1.toList ∈ reserved.map String.toList := by decide

theorem wordOrAtom_atom {n : Text} (h : n ∉ reserved.map String.toList) : wordOrAtom n = .atom n := by
  have : words.find? (fun w => w.1.toList = n) = none := by
    rw [List.find?_eq_none]
    intro w hw he
    simp only [decide_eq_true_eq] at he
    exact h (he ▸ words_reserved w hw)
  simp [wordOrAtom, this]

theorem atomTail_nameChar {c : Char} (h : isAtomTail c = true) : isNameChar c = true := by
  simp only [isAtomTail, isLower, isNameChar, isSmall, Read.isDigit] at *
  revert h
  cases (decide (97 ≤ c.toNat) && decide (c.toNat ≤ 122)) <;> cases (decide (48 ≤ c.toNat) && decide (c.toNat ≤ 57)) <;>
    simp +contextual
  rintro (rfl | rfl) <;> simp

theorem quoted_end (q : Char) (r : List Char) : quoted q (q :: r) = some ([], r) := by
  rw [quoted.eq_def]; simp

theorem quoted_step {q c : Char} {cs s r : List Char} (h1 : c ≠ q) (h2 : c ≠ '\\') (h : quoted q cs = some (s, r)) :
    quoted q (c :: cs) = some (c :: s, r) := by
  rw [quoted.eq_def]; simp [h1, h2, h]

theorem quoted_escape {q d : Char} {cs s r : List Char} (h1 : q ≠ '\\') (h : quoted q cs = some (s, r)) :
    quoted q ('\\' :: d :: cs) = some ('\\' :: d :: s, r) := by
  rw [quoted.eq_def]; simp [Ne.symm h1, h]

theorem quoted_plain (q : Char) (n r : List Char) (h1 : q ∉ n) (h2 : '\\' ∉ n) :
    quoted q (n ++ q :: r) = some (n, r) := by
  induction n with
  | nil => exact quoted_end q r
  | cons c n ih =>
    simp only [List.mem_cons, not_or] at h1 h2
    exact quoted_step (Ne.symm h1.1) (Ne.symm h2.1) (ih h1.2 h2.2)

theorem lex_quotedAtom {n r : List Char} {ts : List Tok} (hn : AtomText n) (h : Lex r ts) :
    Lex ('\'' :: n ++ ['\''] ++ r) (.atom n :: ts) := by
  refine .tok rfl ?_ h
  have : quotedAtom (n ++ ['\''] ++ r) = some (.atom n, r) := by
    simp [quotedAtom, quoted_plain '\'' n r hn.1 hn.2, hn.2]
  simpa [next, isSmall, isCapital, Read.isDigit] using this

theorem lex_plainAtom {n r : List Char} {ts : List Tok} (hr : n ∉ reserved.map String.toList) (hn : atomName n = true)
    (hb : bound r = true) (h : Lex r ts) : Lex (n ++ r) (.atom n :: ts) := by
  cases n with
  | nil => simp [atomName] at hn
  | cons c cs =>
    simp only [atomName, Bool.and_eq_true] at hn
    rw [← wordOrAtom_atom hr]
    refine lex_word hn.1 ?_ hb h
    simp only [List.all_eq_true] at hn ⊢
    exact fun x hx => atomTail_nameChar (hn.2 x hx)

theorem lex_atom {n r : List Char} {ts : List Tok} (hn : AtomText n) (hb : bound r = true) (h : Lex r ts) :
    Lex (quoteAtomName n ++ r) (.atom n :: ts) := by
  unfold quoteAtomName
  split
  · exact lex_quotedAtom hn h
  · split
    · rename_i hr ha
      exact lex_plainAtom hr ha hb h
    · exact lex_quotedAtom hn h

/-- The first character of an atom. -/
theorem atom_head (n r : List Char) : ∃ c x, quoteAtomName n ++ r = c :: x ∧ (c = '\'' ∨ isSmall c = true) := by
  unfold quoteAtomName
  split
  · exact ⟨_, _, rfl, Or.inl rfl⟩
  · split
    · rename_i ha
      cases n with
      | nil => simp [atomName] at ha
      | cons c cs =>
        simp only [atomName, Bool.and_eq_true] at ha
        exact ⟨c, cs ++ r, rfl, Or.inr ha.1⟩
    · exact ⟨_, _, rfl, Or.inl rfl⟩

theorem isDigit_eq (c : Char) : Read.isDigit c = Decimal.isDigit c := rfl

theorem digits_span {ds r : List Char} (hd : ds.all Read.isDigit = true) (hr : ∀ c x, r = c :: x → Read.isDigit c = false) :
    (ds ++ r).takeWhile Read.isDigit = ds ∧ (ds ++ r).dropWhile Read.isDigit = r := by
  induction ds with
  | nil =>
    cases r with
    | nil => simp
    | cons c r => simp [hr c r rfl]
  | cons c n ih =>
    simp only [List.all_cons, Bool.and_eq_true] at hd
    have := ih hd.2
    simp [hd.1, this]

theorem digit_facts {c : Char} (h : Read.isDigit c = true) :
    isSpace c = false ∧ isSmall c = false ∧ (isCapital c || c = '_') = false := by
  simp only [Read.isDigit, Bool.and_eq_true, decide_eq_true_eq, isSpace, isSmall, isCapital] at *
  have hlt : ∀ d : Char, d.toNat < 48 → c ≠ d := by rintro d hd rfl; omega
  have hgt : ∀ d : Char, 57 < d.toNat → c ≠ d := by rintro d hd rfl; omega
  simp [hlt ' ' (by decide), hlt '\n' (by decide), hlt '\t' (by decide), hlt '\r' (by decide), hgt '_' (by decide)]
  omega

/-- What may follow a number: not a digit, the character of a name or `#`, nor a point and a digit. -/
def numberEnd : List Char → Bool
  | '.' :: d :: _ => !Read.isDigit d
  | c :: _ => !(isNameChar c || c = '#')
  | [] => true

theorem good_numberEnd {r : List Char} (h : good r = true) : numberEnd r = true := by
  rcases good_cases h with ⟨r', rfl⟩ | ⟨c, r', rfl, hc⟩
  · rfl
  · rcases goodChar_cases hc with rfl | rfl | rfl | rfl | rfl | rfl | rfl | rfl | rfl | rfl | rfl | rfl <;>
      (rw [numberEnd.eq_def]; rfl)

theorem good_not_digit {r : List Char} (h : good r = true) : ∀ c x, r = c :: x → Read.isDigit c = false := by
  intro d x hx
  rcases good_cases h with ⟨r', rfl⟩ | ⟨c, r', rfl, hc⟩
  · cases hx; rfl
  · cases hx
    rcases goodChar_cases hc with rfl | rfl | rfl | rfl | rfl | rfl | rfl | rfl | rfl | rfl | rfl | rfl <;> rfl

theorem number_int {ds r : List Char} (hd : ds.all Read.isDigit = true) (hr : good r = true) :
    number (ds ++ r) = some (.int (Decimal.readNat ds), r) := by
  have hs := digits_span hd (good_not_digit hr)
  unfold number
  simp only [hs.1, hs.2]
  rcases good_cases hr with ⟨r', rfl⟩ | ⟨c, r', rfl, hc⟩
  · rfl
  · rcases goodChar_cases hc with rfl | rfl | rfl | rfl | rfl | rfl | rfl | rfl | rfl | rfl | rfl | rfl <;> rfl

theorem number_float {ds es r : List Char} (hd : ds.all Read.isDigit = true) (he : es ≠ []) (hes : es.all Read.isDigit = true)
    (hr : good r = true) : number (ds ++ '.' :: es ++ r) = some (.float ds es, r) := by
  have hs := digits_span (r := '.' :: es ++ r) hd (by intro c x hx; cases hx; rfl)
  have hs' := digits_span hes (good_not_digit hr)
  unfold number
  rw [List.append_assoc]
  simp only [hs.1, hs.2]
  cases es with
  | nil => exact absurd rfl he
  | cons e es =>
    simp only [List.all_cons, Bool.and_eq_true] at hes
    simp only [List.cons_append] at hs' ⊢
    simp only [hes.1, if_true, hs'.1, hs'.2]
    rcases good_cases hr with ⟨r', rfl⟩ | ⟨c, r', rfl, hc⟩
    · rfl
    · rcases goodChar_cases hc with rfl | rfl | rfl | rfl | rfl | rfl | rfl | rfl | rfl | rfl | rfl | rfl <;> rfl

theorem lex_number {c : Char} {cs r : List Char} {t : Tok} {ts : List Tok} (hc : Read.isDigit c = true)
    (hn : number (c :: cs) = some (t, r)) (h : Lex r ts) : Lex (c :: cs) (t :: ts) := by
  have hf := digit_facts hc
  refine .tok hf.1 ?_ h
  simp only [next, hf.2.1, hf.2.2, hc, hn, Bool.false_eq_true, if_false, if_true]

theorem lex_digits {ds r : List Char} {ts : List Tok} (hd : Digits ds) (hr : good r = true) (h : Lex r ts) :
    Lex (ds ++ r) (.int (Decimal.readNat ds) :: ts) := by
  obtain ⟨hne, hd⟩ := hd
  have hn := number_int hd hr
  cases ds with
  | nil => exact absurd rfl hne
  | cons c cs =>
    simp only [List.all_cons, Bool.and_eq_true] at hd
    exact lex_number hd.1 hn h

theorem showNat_Digits (n : Nat) : Digits (Decimal.showNat n) :=
  ⟨Decimal.showNat_ne_nil n, List.all_eq_true.mpr (Decimal.showNat_digits n)⟩

theorem lex_nat (n : Nat) {r : List Char} {ts : List Tok} (hr : good r = true) (h : Lex r ts) :
    Lex (Decimal.showNat n ++ r) (.int n :: ts) := by
  have := lex_digits (showNat_Digits n) hr h
  rwa [Decimal.readNat_showNat] at this

theorem lex_float {ds es r : List Char} {ts : List Tok} (hd : Digits ds) (he : Digits es) (hr : good r = true)
    (h : Lex r ts) : Lex (ds ++ '.' :: es ++ r) (.float ds es :: ts) := by
  have hn := number_float hd.2 he.1 he.2 hr
  obtain ⟨hne, hd⟩ := hd
  cases ds with
  | nil => exact absurd rfl hne
  | cons c cs =>
    simp only [List.all_cons, Bool.and_eq_true] at hd
    exact lex_number hd.1 hn h

/-- The first character of a number is a digit. -/
theorem digits_head {ds : List Char} (r : List Char) (hd : Digits ds) :
    ∃ c x, ds ++ r = c :: x ∧ Read.isDigit c = true := by
  obtain ⟨hne, hd⟩ := hd
  cases ds with
  | nil => exact absurd rfl hne
  | cons c cs =>
    simp only [List.all_cons, Bool.and_eq_true] at hd
    exact ⟨c, cs ++ r, rfl, hd.1⟩

theorem quoted_wellQuoted (s r : List Char) (h : wellQuoted s = true) : quoted '"' (s ++ '"' :: r) = some (s, r) := by
  fun_induction wellQuoted s with
  | case1 => exact quoted_end _ r
  | case2 => cases h
  | case3 d s ih => exact quoted_escape (by decide) (ih h)
  | case4 c s h1 h2 ih =>
    simp only [ne_eq, Bool.and_eq_true, decide_eq_true_eq] at h
    have hc : c ≠ '\\' := by
      rintro rfl
      cases s with
      | nil => exact h1 rfl rfl
      | cons d s => exact h2 d s rfl rfl
    exact quoted_step h.1 hc (ih h.2)

/-- Replacing `\u` by `\x` keeps the quotes of a string apart. -/
theorem wellQuoted_escape (s : List Char) (h : wellQuoted s = true) : wellQuoted (Strings.escapeErlang 0 s) = true := by
  fun_induction wellQuoted s with
  | case1 => rfl
  | case2 => cases h
  | case3 d s ih =>
    have hd : ∀ e, Strings.escapeErlang 0 ('\\' :: d :: s) = '\\' :: e → ∃ d', e = d' :: Strings.escapeErlang 0 s := by
      intro e he
      simp only [Strings.escapeErlang, if_true] at he
      split at he
      · refine ⟨d, (List.cons.inj he).2.symm.trans ?_⟩
        rw [Strings.escapeErlang_parity s 2 0 rfl]
      · split at he
        · exact ⟨_, (List.cons.inj he).2.symm⟩
        · exact ⟨_, (List.cons.inj he).2.symm⟩
    have he : ∃ e, Strings.escapeErlang 0 ('\\' :: d :: s) = '\\' :: e := by
      rw [Strings.escapeErlang, if_pos rfl]; exact ⟨_, rfl⟩
    obtain ⟨e, he⟩ := he
    obtain ⟨d', rfl⟩ := hd e he
    rw [he]
    simpa [wellQuoted] using ih h
  | case4 c s h1 h2 ih =>
    simp only [ne_eq, Bool.and_eq_true, decide_eq_true_eq] at h
    have hc : c ≠ '\\' := by
      rintro rfl
      cases s with
      | nil => exact h1 rfl rfl
      | cons d s => exact h2 d s rfl rfl
    have : Strings.escapeErlang 0 (c :: s) = c :: Strings.escapeErlang 0 s := by
      simp [Strings.escapeErlang, hc]
    rw [this, wellQuoted]
    · simp [h.1, ih h.2]
    · rintro rfl; exact absurd rfl hc
    · rintro _ _ rfl; exact absurd rfl hc

theorem wellQuoted_docEscape (s : List Char) : wellQuoted (docEscape s) = true := by
  induction s with
  | nil => rfl
  | cons c s ih =>
    have : docEscape (c :: s) = (if c = '\\' then ['\\', '\\'] else if c = '"' then ['\\', '"'] else [c]) ++ docEscape s := by
      simp [docEscape]
    rw [this]
    split
    · simpa [wellQuoted] using ih
    · split
      · simpa [wellQuoted] using ih
      · rename_i h1 h2
        rw [List.singleton_append, wellQuoted]
        · simp [h2, ih]
        · rintro rfl; exact absurd rfl h1
        · rintro _ _ rfl; exact absurd rfl h1

theorem lex_string {s r : List Char} {ts : List Tok} (hs : wellQuoted s = true) (h : Lex r ts) :
    Lex ('"' :: s ++ '"' :: r) (.string s :: ts) := by
  refine .tok rfl ?_ h
  have := quoted_wellQuoted s r hs
  simp [next, isSmall, isCapital, Read.isDigit, this]

theorem lex_sigil {s r : List Char} {ts : List Tok} (hs : wellQuoted s = true) (hr : bound r = true) (h : Lex r ts) :
    Lex ('~' :: '"' :: s ++ '"' :: r) (.sigil s :: ts) := by
  refine .tok rfl ?_ h
  have : Read.sigil (s ++ '"' :: r) = some (.sigil s, r) := by
    rw [Read.sigil, quoted_wellQuoted s r hs]
    cases r with
    | nil => rfl
    | cons c r =>
      simp only [bound, Bool.not_eq_true'] at hr
      simp [hr]
  simpa [next, isSmall, isCapital, Read.isDigit] using this

end Verif.ErlText
