import Verif.Lexer.StringTokens

/-!
# The tokens of a whole text
-/
namespace Verif.Lexer
open Spec

section
variable {eof p start : Nat} {c : Char} {text rest : List Char}

/-! ### One step -/

theorem good_single {s : Symbol} (h : singleSymbol c = some s) (he : Ends eof p (c :: rest)) :
    Good eof p (c :: rest) (eatSingleChar s (View eof p (c :: rest))) := by
  have hl : (View eof p (c :: rest)).location0 = p := by rw [view_location0, endsAt, if_neg (by simp)]
  have key : symbolText s = [c] ∧ c ≠ '\r' ∧ c.utf8Size = 1 ∧ ∀ rest, Longest (.symbol s) [c] rest := by
    unfold singleSymbol at h
    repeat' split at h
    all_goals first | cases h | skip
    all_goals
      rename_i hc
      subst hc
      exact ⟨rfl, by decide, by decide, fun rest => by longest⟩
  unfold eatSingleChar
  rw [hl, view_next key.2.1 he, key.2.2.1]
  have he2 := ends_next key.2.1 he
  rw [key.2.2.1] at he2
  refine good_symbol s (by rw [key.1]; rfl) (by rw [key.1]; rfl) he2 ?_
  rw [key.1]
  exact key.2.2.2 rest

theorem good_newLine {nl : List Char} (h : LineEnd nl) (h2 : nl = ['\r'] → rest.head? ≠ some '\n')
    (he : Ends eof p (nl ++ rest)) : Good eof p (nl ++ rest) (lexBlank '\n' (View eof p (nl ++ rest))) := by
  have hl : (View eof p (nl ++ rest)).location0 = p := by
    rw [view_location0, endsAt, if_neg]
    rcases h with h | h | h <;> subst h <;> simp
  unfold lexBlank
  rw [if_pos rfl, hl, view_next_lineEnd h h2 he]
  exact good_plain (tok := .newLine) rfl rfl (ends_next_lineEnd h h2 he) rfl h h2 id

theorem good_blank (h : Blank c) (he : Ends eof p (c :: rest)) :
    Good eof p (c :: rest) (lexBlank c (View eof p (c :: rest))) := by
  have key : c ≠ '\n' ∧ c ≠ '\r' ∧ c.utf8Size = 1 := by
    rcases h with h | h | h <;> subst h <;> decide
  have he2 := ends_next key.2.1 he
  unfold lexBlank
  rw [if_neg key.1, view_next key.2.1 he]
  rw [key.2.2] at he2 ⊢
  intro r hr
  cases hr
  exact ⟨p + 1, rest, rfl, he2, fun ts p'' rest' hc => .blank h hc⟩

theorem good_invalid (l : Lexer) : Good eof p text (invalidCharacter c l) := by
  unfold invalidCharacter
  split <;> apply good_error

theorem good_consumeCharacter (h2 : c ≠ '\r') (he : Ends eof p (c :: rest)) :
    Good eof p (c :: rest) (consumeCharacter c (View eof p (c :: rest))) := by
  have hl : (View eof p (c :: rest)).location0 = p := by rw [view_location0, endsAt, if_neg (by simp)]
  have op : ∀ {d : Char} {f : Nat → Lexer → Step}, c = d → d.utf8Size = 1 →
      Good eof p (d :: rest) (f p (View eof (p + 1) rest)) →
      Good eof p (c :: rest) (f (View eof p (c :: rest)).location0 (View eof p (c :: rest)).nextChar) := by
    intro d f hd h1 h
    subst hd
    rw [hl, view_next h2 he, h1]
    exact h
  have he1 : ∀ {d : Char}, c = d → d.utf8Size = 1 → Ends eof (p + 1) rest := by
    intro d hd h1
    subst hd
    have := ends_next h2 he
    rwa [h1] at this
  apply consumeCharacter_elim
  · intro s h
    exact good_single h he
  · rintro rfl
    exact good_lexString he
  · intro h
    exact op h (by decide) (by rw [h] at he; exact good_lexEqual he)
  · intro h
    exact op h (by decide) (good_lexPlus (he1 h (by decide)))
  · intro h
    exact op h (by decide) (good_lexStar (he1 h (by decide)))
  · intro h
    exact op h (by decide) (by rw [h] at he; exact good_lexSlash he)
  · intro h
    exact op h (by decide) (good_lexPercent (he1 h (by decide)))
  · intro h
    exact op h (by decide) (good_lexVbar (he1 h (by decide)))
  · intro h
    exact op h (by decide) (good_lexAmper (he1 h (by decide)))
  · intro h
    exact op h (by decide) (good_lexMinus (he1 h (by decide)))
  · intro h
    exact op h (by decide) (good_lexBang (he1 h (by decide)))
  · intro h
    exact op h (by decide) (by rw [h] at he; exact good_lexLt he)
  · intro h
    exact op h (by decide) (by rw [h] at he; exact good_lexGt he)
  · intro h
    exact op h (by decide) (by rw [h] at he; exact good_lexDot he)
  · intro h
    rcases h with h | h
    · subst h
      exact good_newLine (nl := ['\n']) (.inl rfl) (by simp) he
    · exact good_blank h he
  · apply good_invalid

/-- Each step covers the text it reads. -/
theorem good_consumeNormal (hne : text ≠ []) (he : Ends eof p text) : Good eof p text (consumeNormal (View eof p text)) := by
  rcases text_cases text with h1 | ⟨c, rest, h1, h2, h3⟩ | ⟨nl, rest, h1, h2, h3⟩
  · exact absurd h1 hne
  · subst h1
    unfold consumeNormal
    rw [view_cons_char0 h2]
    simp only
    split
    · exact good_lexUpname (by assumption) he
    split
    · exact good_lexName (by assumption) he
    split
    · exact good_lexNumber (by assumption) he
    · exact good_consumeCharacter h2 he
  · subst h1
    have h4 : consumeNormal (View eof p (nl ++ rest)) = lexBlank '\n' (View eof p (nl ++ rest)) := by
      unfold consumeNormal
      rw [view_lineEnd_char0 h2 h3]
      rfl
    rw [h4]
    exact good_newLine h2 h3 he

/-! ### No step panics -/

/-- If the step fails, the error is not a panic. -/
def Calm (s : Step) : Prop := ∀ e, s = .error e → e.error ≠ .panic

theorem calm_ok (r : List Spanned × Lexer) : Calm (.ok r) := by
  intro e he
  cases he

theorem calm_error {e : LexicalError} (h : e.error ≠ .panic) : Calm (.error e) := by
  intro e' he
  cases he
  exact h

theorem calm_emit (start : Nat) (s : Symbol) (l : Lexer) : Calm (emit start s l) := calm_ok _

theorem calm_fail (start : Nat) {e : ErrorKind} (l : Lexer) (h : e ≠ .panic) : Calm (fail start e l) := calm_error h

theorem calm_after {ts : List Spanned} {s : Step} (h : Calm s) : Calm (s.after ts) := by
  intro e he
  cases s with
  | error e' => cases he; exact h e rfl
  | ok r => cases he

theorem runLoop_calm {c : Char} {start seen : Nat} {l : Lexer} {e : LexicalError} (h : runLoop c start l seen = .error e) :
    e.error ≠ .panic := by
  induction l, seen using runLoop.induct c with
  | case1 l seen h7 => rw [runLoop_stop h7] at h; cases h; simp
  | case2 l seen h7 h0 ih => rw [runLoop_more h7 h0] at h; exact ih h
  | case3 l seen h7 h0 => rw [runLoop_done h7 h0] at h; cases h

/-- The branches of an operator. -/
macro "calm" : tactic => `(tactic| (
  repeat' split
  all_goals first
    | apply calm_emit
    | (apply calm_fail; simp)
    | (apply calm_error; simp)
    | apply calm_ok))

theorem calm_lexLtTail (l : Lexer) : Calm (lexLtTail start l) := by unfold lexLtTail; calm

theorem calm_lexGtTail (l : Lexer) : Calm (lexGtTail start l) := by unfold lexGtTail; calm

theorem calm_run {c : Char} {s : Symbol} {l : Lexer} {tail : Nat → Lexer → Step} (ht : ∀ p l, Calm (tail p l)) :
    Calm ((runLoop c start l 3).bind fun r =>
        let q := pairs s start r.1
        if q.2.2 > 0 then (tail q.2.1 r.2).after q.1 else .ok (q.1, r.2)) := by
  cases h : runLoop c start l 3 with
  | error e => exact calm_error (runLoop_calm h)
  | ok r =>
    simp only [Except.bind]
    split
    · exact calm_after (ht _ _)
    · apply calm_ok

theorem calm_lexEqual (l : Lexer) : Calm (lexEqual start l) := by
  unfold lexEqual
  split
  · apply calm_emit
  split
  · apply calm_emit
  split
  · apply calm_fail; simp
  · cases h : runLoop '=' start l.nextChar.nextChar 3 with
    | error e => exact calm_error (runLoop_calm h)
    | ok r => apply calm_ok

theorem calm_lexLt (l : Lexer) : Calm (lexLt start l) := by
  unfold lexLt
  split
  · split
    · apply calm_emit
    · exact calm_run fun p l => calm_lexLtTail l
  · apply calm_lexLtTail

theorem calm_lexGt (l : Lexer) : Calm (lexGt start l) := by
  unfold lexGt
  split
  · split
    · apply calm_emit
    · exact calm_run fun p l => calm_lexGtTail l
  · apply calm_lexGtTail

theorem calm_maybeLexDotAccess (he : Ends eof p text) : Calm (maybeLexDotAccess (View eof p text)) := by
  by_cases hd : ∃ c r, text = c :: r ∧ isDigit c
  · obtain ⟨c, r, rfl, hd⟩ := hd
    obtain ⟨t, rest', n, h2, h3, h4, h5, h6⟩ := maybeLexDotAccess_index hd he
    rw [h6]
    apply calm_ok
  · rw [maybeLexDotAccess_stop]
    · apply calm_ok
    · intro c r hr hc
      have := isDigitOf_value hc
      exact hd ⟨c, r, hr, digit10 this.1 this.2⟩

theorem calm_checkForMinus (t : Spanned) (l : Lexer) : Calm (checkForMinus t l) := by
  unfold checkForMinus
  split
  · apply calm_after
    apply calm_emit
  · apply calm_ok

theorem calm_consumeCharacter (h2 : c ≠ '\r') (he : Ends eof p (c :: rest)) :
    Calm (consumeCharacter c (View eof p (c :: rest))) := by
  apply consumeCharacter_elim
  · intro s h
    apply calm_emit
  · rintro rfl
    have h := stringRun_view (start := (View eof p ('"' :: rest)).location0) rest (ends_next h2 he)
    unfold lexString
    rw [view_next h2 he]
    cases hs : stringRun (View eof p ('"' :: rest)).location0 (View eof (p + '"'.utf8Size) rest) with
    | error e => exact calm_error (h.1 e hs)
    | ok r => apply calm_ok
  · intro h; apply calm_lexEqual
  · intro h; unfold lexPlus; calm
  · intro h; unfold lexStar; calm
  · intro h; unfold lexSlash; calm
  · intro h; unfold lexPercent; calm
  · intro h; unfold lexVbar; calm
  · intro h; unfold lexAmper; calm
  · intro h; unfold lexMinus; calm
  · intro h; unfold lexBang; calm
  · intro h; apply calm_lexLt
  · intro h; apply calm_lexGt
  · intro h
    unfold lexDot
    split
    · apply calm_emit
    · apply calm_after
      rw [view_next h2 he]
      exact calm_maybeLexDotAccess (ends_next h2 he)
  · intro h; unfold lexBlank; calm
  · unfold invalidCharacter; calm

theorem calm_consumeNormal (he : Ends eof p text) : Calm (consumeNormal (View eof p text)) := by
  rcases text_cases text with h1 | ⟨c, rest, h1, h2, h3⟩ | ⟨nl, rest, h1, h2, h3⟩
  · subst h1
    apply calm_ok
  · subst h1
    unfold consumeNormal
    rw [view_cons_char0 h2]
    simp only
    split
    · apply calm_ok
    split
    · apply calm_checkForMinus
    split
    · rename_i hs
      have h := readsNumber_number hs he
      cases hn : lexNumber (View eof p (c :: rest)) with
      | error e => exact calm_error (h.1 e hn)
      | ok r => apply calm_checkForMinus
    · exact calm_consumeCharacter h2 he
  · subst h1
    have h4 : consumeNormal (View eof p (nl ++ rest)) = lexBlank '\n' (View eof p (nl ++ rest)) := by
      unfold consumeNormal
      rw [view_lineEnd_char0 h2 h3]
      rfl
    rw [h4]
    unfold lexBlank
    calm

/-! ### The whole text -/

/-- The tokens that cover a text do not include the end of the file. -/
theorem covers_tokens {ts : List Spanned} {p' : Nat} (h : Covers eof p text ts p' rest) :
    ∀ t ∈ ts, t.token ≠ .endOfFile := by
  induction h with
  | done => simp
  | blank _ _ ih => exact ih
  | token _ _ hr _ _ _ ih =>
    intro t ht
    rcases List.mem_cons.1 ht with ht | ht
    · subst ht
      intro h
      rw [h] at hr
      exact hr
    · exact ih t ht
  | index _ _ _ ih =>
    intro t ht
    rcases List.mem_cons.1 ht with ht | ht
    · subst ht; simp
    rcases List.mem_cons.1 ht with ht | ht
    · subst ht; simp
    · exact ih t ht

theorem good_tokens {s : Step} {r : List Spanned × Lexer} (h : Good eof p text s) (hr : s = .ok r) :
    ∀ t ∈ r.1, t.token ≠ .endOfFile := by
  obtain ⟨p', rest, _, _, h3⟩ := h r hr
  have := covers_tokens (h3 [] p' rest .done)
  rwa [List.append_nil] at this

/-- What `fill` gives: an error, the end of the text after blanks, or tokens that cover the text. -/
theorem fill_view (p : Nat) (text : List Char) (he : Ends eof p text) :
    (∃ e, fill (View eof p text) = .error e ∧ e.error ≠ .panic) ∨
    (∃ p' q, fill (View eof p text) = .ok ([⟨q, .endOfFile, q⟩], View eof p' []) ∧ Covers eof p text [] p' []) ∨
    ∃ r p' rest, fill (View eof p text) = .ok r ∧ r.1 ≠ [] ∧ r.2 = View eof p' rest ∧ Ends eof p' rest ∧
      (∀ t ∈ r.1, t.token ≠ .endOfFile) ∧
      ∀ ts p'' rest', Covers eof p' rest ts p'' rest' → Covers eof p text (r.1 ++ ts) p'' rest' := by
  generalize hk : (View eof p text).remaining = k
  induction k using Nat.strongRecOn generalizing text p with
  | ind k ih =>
    cases hc : consumeNormal (View eof p text) with
    | error e =>
      refine .inl ⟨e, ?_, calm_consumeNormal he e hc⟩
      rw [fill]
      split
      · rename_i e' he'
        rw [hc] at he'
        exact he'.symm ▸ rfl
      · rename_i r' hr'
        rw [hc] at hr'
        cases hr'
    | ok r =>
      have hf : fill (View eof p text) = if r.1 = [] then fill r.2 else .ok r := by
        rw [fill]
        split
        · rename_i e' he'
          rw [hc] at he'
          cases he'
        · rename_i r' hr'
          rw [hc] at hr'
          cases hr'
          split <;> rfl
      by_cases hne : text = []
      · subst hne
        cases hc
        refine .inr (.inl ⟨p, (View eof p []).location0, ?_, .done⟩)
        rw [hf]
        rfl
      · have hg := good_consumeNormal hne he
        obtain ⟨p', rest, h1, h2, h3⟩ := hg r hc
        by_cases hr : r.1 = []
        · rw [hf, if_pos hr, h1]
          have hlt : (View eof p' rest).remaining < k := by
            rw [← h1, ← hk]
            cases h0 : (View eof p text).char0 with
            | none => exact absurd (view_char0_none h0) hne
            | some c => exact consumeNormal_lt h0 hc
          rw [hr] at h3
          rcases ih _ hlt p' rest h2 rfl with h4 | ⟨p'', q, h4, h5⟩ | ⟨r', p'', rest', h4, h5, h6, h7, h8, h9⟩
          · exact .inl h4
          · exact .inr (.inl ⟨p'', q, h4, h3 _ _ _ h5⟩)
          · exact .inr (.inr ⟨r', p'', rest', h4, h5, h6, h7, h8, fun ts a b hcov => h3 _ _ _ (h9 _ _ _ hcov)⟩)
        · refine .inr (.inr ⟨r, p', rest, ?_, hr, h1, h2, good_tokens hg hc, h3⟩)
          rw [hf, if_neg hr]

theorem collect_none {it it' : Iter} (h : it.next = (none, it')) : it.collect = ([], none) := by
  rw [Iter.collect]
  split <;> simp_all

theorem collect_error {it it' : Iter} {e : LexicalError} (h : it.next = (some (.error e), it')) :
    it.collect = ([], some e) := by
  rw [Iter.collect]
  split <;> simp_all

theorem collect_ok {it it' : Iter} {t : Spanned} (h : it.next = (some (.ok t), it')) :
    it.collect = (t :: it'.collect.1, it'.collect.2) := by
  rw [Iter.collect]
  split
  · simp_all
  · simp_all
  · rename_i t' it'' h'
    rw [h] at h'
    cases h'
    rfl

theorem collect_pending (l : Lexer) (pending : List Spanned) (h : ∀ t ∈ pending, t.token ≠ .endOfFile) :
    (Iter.mk l pending).collect = (pending ++ (Iter.mk l []).collect.1, (Iter.mk l []).collect.2) := by
  induction pending with
  | nil => rfl
  | cons t pending ih =>
    have hn : (Iter.mk l (t :: pending)).next = (some (.ok t), ⟨l, pending⟩) := by
      simp [Iter.next, answer, h t (by simp)]
    rw [collect_ok hn, ih fun t ht => h t (by simp [ht])]
    rfl

/-- The tokens from a point in the text cover the text up to the point of the error, or all of it. -/
theorem collect_view (p : Nat) (text : List Char) (he : Ends eof p text) :
    ∃ p' rest, Covers eof p text (Iter.mk (View eof p text) []).collect.1 p' rest ∧
      ((Iter.mk (View eof p text) []).collect.2 = none → rest = []) ∧
      ∀ e, (Iter.mk (View eof p text) []).collect.2 = some e → e.error ≠ .panic := by
  generalize hk : (View eof p text).remaining = k
  induction k using Nat.strongRecOn generalizing text p with
  | ind k ih =>
    rcases fill_view p text he with ⟨e, h1, h2⟩ | ⟨p', q, h1, h2⟩ | ⟨r, p', rest, h1, h2, h3, h4, h5, h6⟩
    · have hn : (Iter.mk (View eof p text) []).next = (some (.error e), ⟨View eof p text, []⟩) := by
        simp [Iter.next, h1]
      rw [collect_error hn]
      refine ⟨p, text, .done, by simp, ?_⟩
      intro e' he'
      cases he'
      exact h2
    · have hn : (Iter.mk (View eof p text) []).next = (none, ⟨View eof p' [], []⟩) := by
        simp [Iter.next, h1, answer]
      rw [collect_none hn]
      exact ⟨p', [], h2, fun _ => rfl, by simp⟩
    · obtain ⟨ts, l⟩ := r
      simp only at h2 h3 h5 h6
      cases ts with
      | nil => exact absurd rfl h2
      | cons t ts =>
        have hlt : l.remaining < k := by
          rcases fill_uses h1 with h7 | ⟨q, h7⟩
          · simp only [List.length_cons] at h7
            omega
          · cases h7
            exact absurd rfl (h5 _ List.mem_cons_self)
        have hn : (Iter.mk (View eof p text) []).next = (some (.ok t), ⟨l, ts⟩) := by
          simp [Iter.next, h1, answer, h5 t (by simp)]
        subst h3
        obtain ⟨p'', rest', h8, h9, h10⟩ := ih _ hlt p' rest h4 rfl
        rw [collect_ok hn, collect_pending _ _ fun t ht => h5 t (by simp [ht])]
        exact ⟨p'', rest', h6 _ _ _ h8, h9, h10⟩

/-- The tokens of a source cover it, up to the point of the error if there is one. -/
theorem tokens_cover (source : List Char) :
    ∃ p rest, Covers (endOffset source) (body source).1 (body source).2 (tokens source).1 p rest ∧
      ((tokens source).2 = none → rest = []) ∧ ∀ e, (tokens source).2 = some e → e.error ≠ .panic := by
  have h := new_eq source
  unfold tokens makeTokenizer
  rw [h.1]
  exact collect_view _ _ h.2

end

end Verif.Lexer
