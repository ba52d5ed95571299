import Verif.Lexer.Cover

/-!
# Names and comments cover the text they read
-/
namespace Verif.Lexer
open Spec

section
variable {eof p : Nat} {c : Char} {text rest : List Char}

/-! ### Names -/

theorem isNameContinuation_iff {c : Char} : isNameContinuation c ↔ NameChar c := by
  simp only [isNameContinuation, isDigit, isLower, isUpper, NameChar, Bool.or_eq_true, Bool.and_eq_true, decide_eq_true_eq,
    beq_iff_eq]
  constructor
  · rintro (((h | h) | h) | h)
    · exact .inr (.inr (.inr h))
    · exact .inr (.inr (.inl h))
    · exact .inl h
    · exact .inr (.inl h)
  · rintro (h | h | h | h)
    · exact .inl (.inr h)
    · exact .inr h
    · exact .inl (.inl (.inr h))
    · exact .inl (.inl (.inl h))

theorem nameChar_plain {c : Char} (h : NameChar c) : c ≠ '\r' ∧ c ≠ '\n' := by
  constructor
  · rintro rfl
    revert h
    unfold NameChar
    decide
  · rintro rfl
    revert h
    unfold NameChar
    decide

/-- Reading a name. -/
theorem nameRun_view (p : Nat) (text : List Char) (he : Ends eof p text) :
    ∃ t rest, text = t ++ rest ∧ nameRun (View eof p text) = (t, View eof (p + bytes t) rest) ∧
      Ends eof (p + bytes t) rest ∧ (∀ c ∈ t, NameChar c) ∧ (∀ c r, rest = c :: r → ¬NameChar c) ∧
      (∀ c r, text = c :: r → NameChar c → t.head? = some c) := by
  induction text generalizing p with
  | nil => exact ⟨[], [], rfl, nameRun_end rfl, he, by simp, by simp, by simp⟩
  | cons c text ih =>
    by_cases hd : NameChar c
    · have h1 := nameChar_plain hd
      obtain ⟨t, rest, h2, h3, h4, h5, h6, _⟩ := ih _ (ends_next h1.1 he)
      refine ⟨c :: t, rest, by rw [h2]; rfl, ?_, ?_, ?_, h6, ?_⟩
      · rw [nameRun_more (view_cons_char0 h1.1) (isNameContinuation_iff.2 hd), view_next h1.1 he, h3, bytes_cons,
          Nat.add_assoc]
      · rw [bytes_cons, ← Nat.add_assoc]; exact h4
      · intro d hd'
        rcases List.mem_cons.1 hd' with h | h
        · rw [h]; exact hd
        · exact h5 d h
      · rintro _ _ ⟨rfl, rfl⟩ _
        rfl
    · refine ⟨[], c :: text, rfl, ?_, he, by simp, ?_, ?_⟩
      · cases h0 : (View eof p (c :: text)).char0 with
        | none => exact nameRun_end h0
        | some d =>
          refine nameRun_done h0 fun hc => ?_
          rw [isNameContinuation_iff] at hc
          obtain ⟨rest, h1, _⟩ := view_char0_some h0 (nameChar_plain hc).2
          cases h1
          exact hd hc
      · rintro _ _ ⟨rfl, rfl⟩
        exact hd
      · rintro _ _ ⟨rfl, rfl⟩ h
        exact absurd h hd

theorem keywordTable_text : ∀ q ∈ keywordTable, q.1 = keywordText q.2 := by decide

theorem stringToKeyword_some {word : List Char} {k : Keyword} (h : stringToKeyword word = some k) :
    word = keywordText k := by
  unfold stringToKeyword at h
  cases hf : keywordTable.find? (fun p => p.1 == word) with
  | none => rw [hf] at h; cases h
  | some q =>
    rw [hf] at h
    cases h
    have h1 := List.find?_some hf
    rw [beq_iff_eq] at h1
    rw [← h1]
    exact keywordTable_text q (List.mem_of_find?_eq_some hf)

theorem stringToKeyword_none {word : List Char} (h : stringToKeyword word = none) (k : Keyword) : word ≠ keywordText k := by
  rintro rfl
  revert h
  cases k <;> decide

/-- The token of a name that starts with a lowercase letter or an underscore. -/
theorem reads_nameToken {t : List Char} (hs : isNameStart c) (hh : t.head? = some c) (hn : ∀ d ∈ t, NameChar d) :
    Reads (nameToken t) t ∧ lead (nameToken t) = [] ∧
      ((∀ d r, rest = d :: r → ¬NameChar d) → Longest (nameToken t) t rest) := by
  cases t with
  | nil => cases hh
  | cons d t =>
    cases hh
    unfold nameToken
    split
    · rename_i k hk
      exact ⟨stringToKeyword_some hk, rfl, id⟩
    · rename_i hk
      split
      · rename_i h
        cases h
        exact ⟨⟨rfl, ⟨t, rfl⟩, hn⟩, rfl, id⟩
      · rename_i h
        refine ⟨⟨rfl, ⟨c, t, rfl, ?_⟩, hn, stringToKeyword_none hk⟩, rfl, id⟩
        simp only [isNameStart, isLower, Bool.or_eq_true, beq_iff_eq, Bool.and_eq_true, decide_eq_true_eq] at hs
        rcases hs with hs | hs
        · exact absurd (by rw [hs]; rfl) h
        · exact hs

theorem keyword_lower (k : Keyword) : ∃ d r, keywordText k = d :: r ∧ ¬isUpper d := by
  cases k <;> exact ⟨_, _, rfl, by decide⟩

theorem reads_upNameToken {t : List Char} (hs : isUpper c) (hh : t.head? = some c) (hn : ∀ d ∈ t, NameChar d) :
    Reads (upNameToken t) t ∧ lead (upNameToken t) = [] ∧ ¬Word (upNameToken t) ∧
      ((∀ d r, rest = d :: r → ¬NameChar d) → Longest (upNameToken t) t rest) := by
  cases t with
  | nil => cases hh
  | cons d t =>
    cases hh
    unfold upNameToken
    split
    · rename_i k hk
      obtain ⟨d, r, h1, h2⟩ := keyword_lower k
      rw [← stringToKeyword_some hk] at h1
      cases h1
      exact absurd hs h2
    · refine ⟨⟨rfl, ⟨c, t, rfl, ?_⟩, hn⟩, rfl, id, id⟩
      simpa only [isUpper, Bool.and_eq_true, decide_eq_true_eq] using hs

/-- A token with no slashes before it. -/
theorem good_plain {tok : Token} {t : List Char} {q : Nat} (htext : text = t ++ rest) (hlead : lead tok = [])
    (he : Ends eof q rest) (hq : q = p + bytes t) (hr : Reads tok t) (hl : Longest tok t rest)
    (hw : ¬Word tok) : Good eof p text (.ok ([⟨p, tok, (View eof q rest).location0⟩], View eof q rest)) := by
  have h := good_token (eof := eof) (p := p) (text := text) (rest := rest) (tok := tok) (t := t)
  rw [hlead] at h
  subst hq
  exact h (by simpa using htext) (by simpa [bytes] using he) hr hl hw

theorem good_lexUpname (hs : isUpper c) (he : Ends eof p (c :: rest)) :
    Good eof p (c :: rest) (.ok ([(lexUpname (View eof p (c :: rest))).1], (lexUpname (View eof p (c :: rest))).2)) := by
  obtain ⟨t, rest', h1, h2, h3, h4, h5, h6⟩ := nameRun_view p (c :: rest) he
  have hh := h6 c rest rfl (isNameContinuation_iff.1 (isUpper_continuation hs))
  obtain ⟨h7, h8, hw, h9⟩ := reads_upNameToken (rest := rest') hs hh h4
  unfold lexUpname
  rw [h2, view_location0]
  exact good_plain h1 h8 h3 rfl h7 (h9 h5) hw

theorem digits_head {base : Nat} {t : List Char} {n : Nat} (h : Digits base t n) :
    ∃ c r v, t = c :: r ∧ digit? c = some v ∧ v < base := by
  induction h with
  | one h1 h2 => exact ⟨_, _, _, rfl, h1, h2⟩
  | more _ _ _ ih =>
    obtain ⟨c, r, v, h1, h2, h3⟩ := ih
    exact ⟨c, _, v, by rw [h1]; rfl, h2, h3⟩
  | underscore _ _ _ ih =>
    obtain ⟨c, r, v, h1, h2, h3⟩ := ih
    exact ⟨c, _, v, by rw [h1]; rfl, h2, h3⟩

theorem digit10 {v : Nat} (h : digit? c = some v) (hv : v < 10) : isDigit c := by
  have h1 := digit?_some h
  have h2 := isHex_mem h1.1
  have h3 : digitValue c < 10 := by omega
  clear h h1 hv
  revert c
  decide

theorem natural_head {base : Nat} {t v : List Char} {n : Nat} (h : Natural base t v n) :
    (∃ c r, t = c :: r ∧ isDigit c) ∧ ∃ c r, v = c :: r ∧ isDigit c := by
  cases h with
  | decimal h =>
    obtain ⟨c, r, d, h1, h2, h3⟩ := digits_head h
    exact ⟨⟨c, r, h1, digit10 h2 h3⟩, ⟨c, r, h1, digit10 h2 h3⟩⟩
  | based _ _ => exact ⟨⟨'0', _, rfl, by decide⟩, ⟨'0', _, rfl, by decide⟩⟩

/-- A negative number starts with a minus sign and a digit. -/
theorem negative_text {tok : Token} {t : List Char} (hr : Reads tok t) (hn : Negative tok) :
    lead tok = [] ∧ ∃ d r, t = '-' :: d :: r ∧ isDigit d := by
  cases tok with
  | int v n =>
    refine ⟨rfl, ?_⟩
    obtain ⟨base, h⟩ := hr
    cases h with
    | pos h =>
      obtain ⟨_, c, r, h1, h2⟩ := natural_head h
      subst h1
      cases hn
      exact absurd h2 (by decide)
    | neg h =>
      obtain ⟨⟨c, r, h1, h2⟩, _⟩ := natural_head h
      exact ⟨c, r, by rw [h1], h2⟩
  | float v =>
    refine ⟨rfl, ?_⟩
    obtain ⟨h1, sign, whole, fraction, exponent, h2, h3, ⟨n, h4⟩, h5⟩ := hr
    obtain ⟨c, r, d, h6, h7, h8⟩ := digits_head h4
    have h9 := digit10 h7 h8
    subst h6
    rcases h3 with h3 | h3
    · subst h3 h2
      cases hn
      exact absurd h9 (by decide)
    · subst h3 h2 h1
      exact ⟨c, _, rfl, h9⟩
  | _ => exact hn.elim

theorem covers_ge {ts : List Spanned} {p' : Nat} {text' : List Char} (h : Covers eof p text ts p' text') :
    ∀ t ∈ ts, p ≤ t.start := by
  induction h with
  | done => simp
  | blank _ _ ih =>
    intro t ht
    have := ih t ht
    omega
  | token h1 _ _ _ _ _ ih =>
    intro t ht
    rcases List.mem_cons.1 ht with ht | ht
    · subst ht; omega
    · have := ih t ht
      omega
  | index _ _ _ ih =>
    intro t ht
    rcases List.mem_cons.1 ht with ht | ht
    · subst ht; simp
    rcases List.mem_cons.1 ht with ht | ht
    · subst ht; simp
    · have := ih t ht
      omega

/-- If a text starts with a negative number, its first characters are a minus sign and a digit. -/
theorem covers_negative {ts : List Spanned} {u : Spanned} {p' : Nat} {text' : List Char}
    (h : Covers eof p text ts p' text') (hu : ts.head? = some u) (hs : u.start = p) (hn : Negative u.token) :
    ∃ d r, text = '-' :: d :: r ∧ isDigit d := by
  cases h with
  | done => cases hu
  | blank _ h =>
    have := covers_ge h u (List.mem_of_mem_head? hu)
    omega
  | token _ _ hr _ _ _ =>
    cases hu
    obtain ⟨h1, d, r, h2, h3⟩ := negative_text hr hn
    rw [h1, h2]
    exact ⟨d, _, rfl, h3⟩
  | index _ _ _ =>
    cases hu
    exact hn.elim

/-- After a name or a number a minus is an operator. -/
theorem good_checkForMinus {tok : Token} {t : List Char} {q : Nat} (htext : text = t ++ rest) (hlead : lead tok = [])
    (he : Ends eof q rest) (hq : q = p + bytes t) (hr : Reads tok t) (hl : Longest tok t rest) :
    Good eof p text (checkForMinus ⟨p, tok, (View eof q rest).location0⟩ (View eof q rest)) := by
  have key : ∀ ts p'' rest', Separate tok q ts → Covers eof q rest ts p'' rest' →
      Covers eof p text (⟨p, tok, (View eof q rest).location0⟩ :: ts) p'' rest' := by
    intro ts p'' rest' hsep hc
    subst hq
    have h := Covers.token (eof := eof) (p := p) (text := t) (source := rest) (rest := rest')
      (t := ⟨p, tok, (View eof (p + bytes t) rest).location0⟩) (ts := ts) (p' := p'')
    simp only [hlead, List.nil_append] at h
    rw [htext]
    exact h rfl view_location0 hr hl hsep hc
  unfold checkForMinus
  split
  · rename_i h
    obtain ⟨d, h1, h2⟩ := isNumberStart_minus h.2
    obtain ⟨r, rfl, hn, he2⟩ := view_is h.1 he
    have hd : d ≠ '\n' ∧ d ≠ '.' ∧ d ≠ '>' := by
      refine ⟨?_, ?_, ?_⟩ <;> rintro rfl <;> revert h2 <;> decide
    rw [view_cons_char1 (by decide)] at h1
    obtain ⟨r', hr', _⟩ := view_char0_some h1 hd.1
    have k1 : r.head? ≠ some '.' := by simpa [hr'] using hd.2.1
    have k2 : r.head? ≠ some '>' := by simpa [hr'] using hd.2.2
    have hg : Good eof q ('-' :: r) (eatSingleChar .minus (View eof q ('-' :: r))) := by
      unfold eatSingleChar
      rw [hn, view_location0]
      exact good_symbol .minus rfl rfl he2 (by longest)
    intro x hx
    cases hx
    obtain ⟨p', rest', h3, h4, h5⟩ := hg _ rfl
    refine ⟨p', rest', h3, h4, ?_⟩
    intro ts p'' rest'' hc
    refine key _ _ _ ?_ (h5 ts p'' rest'' hc)
    intro _ u hu _
    cases hu
    exact id
  · rename_i h
    intro x hx
    cases hx
    refine ⟨q, rest, rfl, he, ?_⟩
    intro ts p'' rest' hc
    refine key _ _ _ ?_ hc
    intro _ u hu hs hn
    obtain ⟨d, r, h1, h2⟩ := covers_negative hc hu hs hn
    apply h
    rw [h1, view_cons_char0 (by decide), view_cons_char1 (by decide)]
    refine ⟨rfl, ?_⟩
    have hd := isDigitOf_plain (isDigit_isDigitOf h2)
    rw [view_cons_char0 hd.2.2.1]
    simp [isNumberStart, startsDigit, h2]

theorem good_lexName (hs : isNameStart c) (he : Ends eof p (c :: rest)) :
    Good eof p (c :: rest) (checkForMinus (lexName (View eof p (c :: rest))).1 (lexName (View eof p (c :: rest))).2) := by
  obtain ⟨t, rest', h1, h2, h3, h4, h5, h6⟩ := nameRun_view p (c :: rest) he
  have hh := h6 c rest rfl (isNameContinuation_iff.1 (isNameStart_continuation hs))
  obtain ⟨h7, h8, h9⟩ := reads_nameToken (rest := rest') hs hh h4
  unfold lexName
  rw [h2, view_location0]
  exact good_checkForMinus h1 h8 h3 rfl h7 (h9 h5)

/-! ### Comments -/

/-- Reading a comment. -/
theorem commentRun_view (p : Nat) (text : List Char) (he : Ends eof p text) :
    ∃ t rest, text = t ++ rest ∧ commentRun (View eof p text) = (t, View eof (p + bytes t) rest) ∧
      Ends eof (p + bytes t) rest ∧ OneLine t ∧ (∀ c r, rest = c :: r → c = '\n' ∨ c = '\r') := by
  induction text generalizing p with
  | nil => exact ⟨[], [], rfl, commentRun_end rfl, he, by simp [OneLine], by simp⟩
  | cons c text ih =>
    by_cases hr : c = '\r' ∨ c = '\n'
    · refine ⟨[], c :: text, rfl, ?_, he, by simp [OneLine], ?_⟩
      · apply commentRun_done
        rcases text_cases (c :: text) with h1 | ⟨d, rest, h1, h2, h3⟩ | ⟨nl, rest, h1, h2, h3⟩
        · cases h1
        · cases h1; rcases hr with h | h <;> contradiction
        · rw [h1]; exact view_lineEnd_char0 h2 h3
      · rintro _ _ ⟨rfl, rfl⟩
        exact hr.symm
    · push Not at hr
      obtain ⟨t, rest, h2, h3, h4, h5, h6⟩ := ih _ (ends_next hr.1 he)
      refine ⟨c :: t, rest, by rw [h2]; rfl, ?_, ?_, ?_, h6⟩
      · rw [commentRun_more (view_cons_char0 hr.1) hr.2, view_next hr.1 he, h3, bytes_cons, Nat.add_assoc]
      · rw [bytes_cons, ← Nat.add_assoc]; exact h4
      · constructor
        · intro h
          rcases List.mem_cons.1 h with h | h
          · exact hr.2 h.symm
          · exact h5.1 h
        · intro h
          rcases List.mem_cons.1 h with h | h
          · exact hr.1 h.symm
          · exact h5.2 h

theorem append_head_ne {t : List Char} {x : Char} (h : (t ++ rest).head? ≠ some x) : t.head? ≠ some x := by
  cases t with
  | nil => simp
  | cons d t => simpa using h

/-- A comment, after its slashes. -/
theorem good_comment {tok : Token} {t : List Char} {q : Nat} {r : List Char} (htext : text = lead tok ++ r)
    (hr : r = t ++ rest) (hq : q = p + bytes (lead tok)) (hl : endsAt eof q r = q)
    (he : Ends eof (q + bytes t) rest) (hreads : Reads tok t) (hlong : Longest tok t rest)
    (hw : ¬Word tok) :
    Good eof p text (.ok ([⟨(View eof q r).location0, tok, (View eof (q + bytes t) rest).location0⟩],
      View eof (q + bytes t) rest)) := by
  rw [view_location0 (p := q), hl]
  subst hq hr
  exact good_token (by rw [htext, List.append_assoc]) he hreads hlong hw

theorem good_lexComment (he0 : Ends eof p ('/' :: '/' :: text)) :
    Good eof p ('/' :: '/' :: text)
      (.ok ([(lexComment (View eof (p + 1 + 1) text)).1], (lexComment (View eof (p + 1 + 1) text)).2)) := by
  have he1 : Ends eof (p + 1) ('/' :: text) := ends_next (by decide) he0
  have he : Ends eof (p + 1 + 1) text := ends_next (by decide) he1
  unfold lexComment
  split
  · rename_i h
    obtain ⟨r, rfl, hn, he2⟩ := view_is h.1 he
    have h1 := h.2
    rw [view_cons_char1 (by decide)] at h1
    obtain ⟨r', rfl, hn2, he3⟩ := view_is (eof := eof) (q := p + 1 + 1 + 1) h1 he2
    rw [hn, hn2]
    obtain ⟨t, rest, h2, h3, h4, h5, h6⟩ := commentRun_view _ r' he3
    simp only [h3]
    exact good_comment (tok := .commentModule) rfl h2 rfl (endsAt_ascii (by decide) (by decide) he2) h4 h5 h6 id
  · rename_i h
    split
    · rename_i h1
      obtain ⟨r, rfl, hn, he2⟩ := view_is h1 he
      have h2 : (View eof (p + 1 + 1 + 1) r).char0 ≠ some '/' := by
        intro h2
        apply h
        refine ⟨h1, ?_⟩
        rw [view_cons_char1 (by decide)]
        exact h2
      have h3 := view_not h2
      rw [hn]
      obtain ⟨t, rest, h4, h5, h6, h7, h8⟩ := commentRun_view _ r he2
      simp only [h5]
      exact good_comment (tok := .commentDoc t) rfl h4 rfl (endsAt_ascii (by decide) (by decide) he) h6 ⟨rfl, h7⟩
        ⟨append_head_ne (h4 ▸ h3), h8⟩ id
    · rename_i h1
      have h3 := view_not h1
      obtain ⟨t, rest, h4, h5, h6, h7, h8⟩ := commentRun_view _ text he
      simp only [h5]
      exact good_comment (tok := .commentNormal) rfl h4 rfl (endsAt_ascii (by decide) (by decide) he1) h6 h7
        ⟨append_head_ne (h4 ▸ h3), h8⟩ id

theorem good_lexSlash (he : Ends eof p ('/' :: rest)) : Good eof p ('/' :: rest) (lexSlash p (View eof (p + 1) rest)) := by
  have he1 : Ends eof (p + 1) rest := ends_next (by decide) he
  unfold lexSlash
  split
  · rename_i h1
    obtain ⟨r, rfl, hn, he2⟩ := view_is h1 he1
    rw [hn]
    exact good_symbol .slashDot rfl rfl he2 (by longest)
  split
  · rename_i h1 h2
    obtain ⟨r, rfl, hn, he2⟩ := view_is h2 he1
    rw [hn]
    exact good_lexComment he
  split
  · apply good_fail
  · rename_i h1 h2 h3
    have k0 := view_not h1
    have k1 := view_not h2
    exact good_symbol .slash rfl rfl he1 (by longest)

end

end Verif.Lexer
