import Verif.Lexer.Digits

/-!
# Every step of the lexer covers the text it reads
-/
namespace Verif.Lexer
open Spec

/-- A step from the start of `text` which, if it succeeds, emits tokens that cover the text it reads. -/
def Good (eof p : Nat) (text : List Char) (s : Step) : Prop :=
  ∀ r, s = .ok r → ∃ p' rest, r.2 = View eof p' rest ∧ Ends eof p' rest ∧
    ∀ ts p'' rest', Covers eof p' rest ts p'' rest' → Covers eof p text (r.1 ++ ts) p'' rest'

section
variable {eof p : Nat} {text rest : List Char}

theorem good_error (e : LexicalError) : Good eof p text (.error e) := by
  intro r hr
  cases hr

theorem good_fail (start : Nat) (e : ErrorKind) (l : Lexer) : Good eof p text (fail start e l) := good_error _

theorem good_token {tok : Token} {t : List Char} (htext : text = lead tok ++ t ++ rest)
    (he : Ends eof (p + bytes (lead tok) + bytes t) rest) (hr : Reads tok t) (hl : Longest tok t rest) (hw : ¬Word tok) :
    Good eof p text (.ok ([⟨p + bytes (lead tok), tok,
      (View eof (p + bytes (lead tok) + bytes t) rest).location0⟩], View eof (p + bytes (lead tok) + bytes t) rest)) := by
  intro r hr'
  cases hr'
  refine ⟨_, rest, rfl, he, ?_⟩
  intro ts p'' rest' hc
  rw [htext]
  exact .token (t := ⟨p + bytes (lead tok), tok, (View eof (p + bytes (lead tok) + bytes t) rest).location0⟩)
    rfl view_location0 hr hl (fun h => absurd h hw) hc

/-! ### Symbols -/

theorem prefix_head {c : Char} {t : List Char} (h : c :: t <+: text) : text.head? = some c := by
  obtain ⟨u, rfl⟩ := h
  rfl

theorem bytes_symbol (s : Symbol) : bytes (symbolText s) = (symbolText s).length := by cases s <;> rfl

/-- A symbol that is the longest at its place. -/
theorem good_symbol (s : Symbol) (htext : text = symbolText s ++ rest) {q : Nat} (hq : q = p + (symbolText s).length)
    (he : Ends eof q rest) (hl : Longest (.symbol s) (symbolText s) rest) :
    Good eof p text (emit p s (View eof q rest)) := by
  subst hq
  rw [← bytes_symbol] at he ⊢
  exact good_token (tok := .symbol s) htext he rfl hl id

/-- The longest symbol, from what the next character is not. -/
macro "longest" : tactic => `(tactic| (
  refine ⟨fun s hs => ?_, fun hs => ?_⟩
  · cases s <;> simp only [symbolText, List.cons_append, List.nil_append, List.cons_prefix_cons, List.length_cons,
      List.length_nil, Char.reduceEq, false_and, true_and, List.nil_prefix, Nat.le_refl, Nat.reduceLeDiff, Nat.reduceAdd] at hs ⊢
    all_goals first
      | omega
      | exact absurd (prefix_head hs) (by assumption)
      | simp_all
  · simp only [symbolText, List.cons_append, List.nil_append, List.cons_prefix_cons, Char.reduceEq, false_and,
      true_and] at hs
    try exact absurd (prefix_head hs) (by assumption)))

theorem view_not {c : Char} {q : Nat} (h : ¬(View eof q text).char0 = some c) (h1 : c ≠ '\r' := by decide)
    (h2 : c ≠ '\n' := by decide) : ¬text.head? = some c := fun hc => h ((view_char0_iff h1 h2).2 hc)

theorem view_is {c : Char} {q : Nat} (h : (View eof q text).char0 = some c) (he : Ends eof q text)
    (h2 : c ≠ '\n' := by decide) (h3 : c.utf8Size = 1 := by decide) :
    ∃ rest, text = c :: rest ∧ (View eof q text).nextChar = View eof (q + 1) rest ∧ Ends eof (q + 1) rest := by
  obtain ⟨rest, rfl, hr⟩ := view_char0_some h h2
  have hn := view_next hr he
  have hn2 := ends_next hr he
  rw [h3] at hn hn2
  exact ⟨rest, rfl, hn, hn2⟩

theorem good_lexPlus (he : Ends eof (p + 1) rest) : Good eof p ('+' :: rest) (lexPlus p (View eof (p + 1) rest)) := by
  unfold lexPlus
  split
  · rename_i h1
    obtain ⟨r, rfl, hn, he2⟩ := view_is h1 he
    rw [hn]
    exact good_symbol .plusDot rfl rfl he2 (by longest)
  split
  · apply good_fail
  · rename_i h1 h2
    have h3 := view_not h1
    exact good_symbol .plus rfl rfl he (by longest)

theorem good_lexStar (he : Ends eof (p + 1) rest) : Good eof p ('*' :: rest) (lexStar p (View eof (p + 1) rest)) := by
  unfold lexStar
  split
  · rename_i h1
    obtain ⟨r, rfl, hn, he2⟩ := view_is h1 he
    rw [hn]
    exact good_symbol .starDot rfl rfl he2 (by longest)
  split
  · apply good_fail
  · rename_i h1 h2
    have k0 := view_not h1
    exact good_symbol .star rfl rfl he (by longest)

theorem good_lexPercent (he : Ends eof (p + 1) rest) : Good eof p ('%' :: rest) (lexPercent p (View eof (p + 1) rest)) := by
  unfold lexPercent
  split
  · apply good_fail
  · exact good_symbol .percent rfl rfl he (by longest)

theorem good_lexVbar (he : Ends eof (p + 1) rest) : Good eof p ('|' :: rest) (lexVbar p (View eof (p + 1) rest)) := by
  unfold lexVbar
  split
  · rename_i h1
    obtain ⟨r, rfl, hn, he2⟩ := view_is h1 he
    rw [hn]
    exact good_symbol .vbarVbar rfl rfl he2 (by longest)
  split
  · rename_i h2
    obtain ⟨r, rfl, hn, he2⟩ := view_is h2 he
    rw [hn]
    exact good_symbol .pipe rfl rfl he2 (by longest)
  · rename_i h1 h2
    have k0 := view_not h1
    have k1 := view_not h2
    exact good_symbol .vbar rfl rfl he (by longest)

theorem good_lexAmper (he : Ends eof (p + 1) rest) : Good eof p ('&' :: rest) (lexAmper p (View eof (p + 1) rest)) := by
  unfold lexAmper
  split
  · rename_i h1
    obtain ⟨r, rfl, hn, he2⟩ := view_is h1 he
    rw [hn]
    exact good_symbol .amperAmper rfl rfl he2 (by longest)
  · apply good_error

theorem good_lexMinus (he : Ends eof (p + 1) rest) : Good eof p ('-' :: rest) (lexMinus p (View eof (p + 1) rest)) := by
  unfold lexMinus
  split
  · rename_i h1
    obtain ⟨r, rfl, hn, he2⟩ := view_is h1 he
    rw [hn]
    exact good_symbol .minusDot rfl rfl he2 (by longest)
  split
  · rename_i h2
    obtain ⟨r, rfl, hn, he2⟩ := view_is h2 he
    rw [hn]
    exact good_symbol .rArrow rfl rfl he2 (by longest)
  split
  · apply good_fail
  · rename_i h1 h2 h3
    have k0 := view_not h1
    have k1 := view_not h2
    exact good_symbol .minus rfl rfl he (by longest)

theorem good_lexBang (he : Ends eof (p + 1) rest) : Good eof p ('!' :: rest) (lexBang p (View eof (p + 1) rest)) := by
  unfold lexBang
  split
  · rename_i h1
    obtain ⟨r, rfl, hn, he2⟩ := view_is h1 he
    rw [hn]
    exact good_symbol .notEqual rfl rfl he2 (by longest)
  · rename_i h1
    have k0 := view_not h1
    exact good_symbol .bang rfl rfl he (by longest)

theorem good_lexLtTail (he : Ends eof (p + 1) rest) (hc : rest.head? ≠ some '<') :
    Good eof p ('<' :: rest) (lexLtTail p (View eof (p + 1) rest)) := by
  unfold lexLtTail
  split
  · rename_i h1
    obtain ⟨r, rfl, hn, he2⟩ := view_is h1 he
    rw [hn]
    exact good_symbol .concatenate rfl rfl he2 (by longest)
  split
  · rename_i h1
    obtain ⟨r, rfl, hn, he2⟩ := view_is h1 he
    rw [hn]
    exact good_symbol .lessDot rfl rfl he2 (by longest)
  split
  · rename_i h1
    obtain ⟨r, rfl, hn, he2⟩ := view_is h1 he
    rw [hn]
    exact good_symbol .lArrow rfl rfl he2 (by longest)
  split
  · rename_i h1
    obtain ⟨r, rfl, hn, he2⟩ := view_is h1 he
    rw [hn]
    split
    · rename_i h2
      obtain ⟨r', rfl, hn2, he3⟩ := view_is h2 he2
      rw [hn2]
      exact good_symbol .lessEqualDot rfl rfl he3 (by longest)
    · rename_i h2
      have k := view_not h2
      exact good_symbol .lessEqual rfl rfl he2 (by longest)
  · rename_i h1 h2 h3 h4
    have k0 := view_not h1
    have k1 := view_not h2
    have k2 := view_not h3
    have k3 := view_not h4
    exact good_symbol .less rfl rfl he (by longest)

theorem good_lexGtTail (he : Ends eof (p + 1) rest) (hc : rest.head? ≠ some '>') :
    Good eof p ('>' :: rest) (lexGtTail p (View eof (p + 1) rest)) := by
  unfold lexGtTail
  split
  · rename_i h1
    obtain ⟨r, rfl, hn, he2⟩ := view_is h1 he
    rw [hn]
    exact good_symbol .greaterDot rfl rfl he2 (by longest)
  split
  · rename_i h1
    obtain ⟨r, rfl, hn, he2⟩ := view_is h1 he
    rw [hn]
    split
    · rename_i h2
      obtain ⟨r', rfl, hn2, he3⟩ := view_is h2 he2
      rw [hn2]
      exact good_symbol .greaterEqualDot rfl rfl he3 (by longest)
    · rename_i h2
      have k := view_not h2
      exact good_symbol .greaterEqual rfl rfl he2 (by longest)
  · rename_i h1 h2
    have k0 := view_not h1
    have k1 := view_not h2
    exact good_symbol .greater rfl rfl he (by longest)

/-! ### Runs of equal characters -/

/-- The end of a character of one byte, even at the end of the text. -/
theorem endsAt_ascii {c : Char} (hr : c ≠ '\r') (h1 : c.utf8Size = 1) (he : Ends eof p (c :: rest)) :
    endsAt eof (p + 1) rest = p + 1 := by
  unfold endsAt
  split
  · rename_i h
    subst h
    unfold Ends at he
    rw [stream_cons hr] at he
    exact he (p, c) rfl
  · rfl

theorem runLoop_view {c : Char} (hr : c ≠ '\r') (hn : c ≠ '\n') (h1 : c.utf8Size = 1) {start q seen : Nat}
    {r : Nat × Lexer} (he : Ends eof q text) (h : runLoop c start (View eof q text) seen = .ok r) :
    ∃ k rest, text = List.replicate k c ++ rest ∧ r.1 = seen + k ∧ r.2 = View eof (q + k) rest ∧
      Ends eof (q + k) rest ∧ rest.head? ≠ some c := by
  induction text generalizing q seen with
  | nil =>
    by_cases h7 : seen ≥ 7
    · rw [runLoop_stop h7] at h; cases h
    · rw [runLoop_done h7 (by rw [view_nil_char0]; simp)] at h
      cases h
      exact ⟨0, [], rfl, rfl, rfl, he, by simp⟩
  | cons d text ih =>
    by_cases h7 : seen ≥ 7
    · rw [runLoop_stop h7] at h; cases h
    · by_cases hd : d = c
      · subst hd
        rw [runLoop_more h7 (view_cons_char0 hr), view_next hr he, h1] at h
        have he2 := ends_next hr he
        rw [h1] at he2
        obtain ⟨k, rest, h2, h3, h4, h5, h6⟩ := ih he2 h
        have hq : q + 1 + k = q + (k + 1) := by omega
        rw [hq] at h4 h5
        exact ⟨k + 1, rest, by rw [h2]; rfl, by omega, h4, h5, h6⟩
      · have hh : (d :: text).head? ≠ some c := by simpa using hd
        rw [runLoop_done h7 (fun hc => hh ((view_char0_iff hr hn).1 hc))] at h
        cases h
        exact ⟨0, d :: text, rfl, rfl, rfl, he, hh⟩

/-- The pairs in a run cover it, except for the last character of an odd run. -/
theorem pairs_covers {c : Char} {s : Symbol} (hs : symbolText s = [c, c]) (hr : c ≠ '\r') (h1 : c.utf8Size = 1)
    (hl : ∀ rest, Longest (.symbol s) [c, c] rest) (n start : Nat)
    (he : Ends eof start (List.replicate n c ++ rest)) :
    (pairs s start n).2.1 + (pairs s start n).2.2 = start + n ∧ (pairs s start n).2.2 < 2 ∧
    ∀ ts p'' rest',
      Covers eof (pairs s start n).2.1 (List.replicate (pairs s start n).2.2 c ++ rest) ts p'' rest' →
      Covers eof start (List.replicate n c ++ rest) ((pairs s start n).1 ++ ts) p'' rest' := by
  induction start, n using pairs.induct with
  | case1 start n ih =>
    have he1 := ends_next hr he
    rw [h1] at he1
    have he2 := ends_next hr he1
    rw [h1] at he2
    obtain ⟨h3, h4, h5⟩ := ih he2
    simp only [pairs]
    refine ⟨by omega, h4, ?_⟩
    intro ts p'' rest' hc
    have h6 := h5 ts p'' rest' hc
    have h7 : start + 1 + 1 = endsAt eof (start + 1 + 1) (List.replicate n c ++ rest) := (endsAt_ascii hr h1 he1).symm
    have hb : bytes [c, c] = 2 := by simp [bytes, h1]
    refine Covers.token (t := ⟨start, .symbol s, start + 2⟩) (text := [c, c]) rfl ?_ hs.symm (hl _) (fun h => h.elim) ?_
    · simp only [hb]
      exact h7
    · simp only [hb]
      exact h6
  | case2 start n h =>
    have hp : pairs s start n = ([], start, n) := by
      rw [pairs]
      exact h
    rw [hp]
    refine ⟨rfl, ?_, fun ts p'' rest' hc => hc⟩
    match n, h with
    | 0, _ => exact Nat.zero_lt_two
    | 1, _ => exact Nat.one_lt_two
    | n + 2, h => exact absurd rfl (h n)

theorem good_lexEqual (he : Ends eof p ('=' :: rest)) : Good eof p ('=' :: rest) (lexEqual p (View eof (p + 1) rest)) := by
  have he1 : Ends eof (p + 1) rest := ends_next (by decide) he
  unfold lexEqual
  split
  · rename_i h1
    have k := view_not h1
    exact good_symbol .equal rfl rfl he1 (by longest)
  rename_i h1
  obtain ⟨r, rfl, hn, he2⟩ := view_is (Decidable.not_not.1 h1) he1
  rw [hn]
  split
  · rename_i h2
    have k := view_not h2
    exact good_symbol .equalEqual rfl rfl he2 (by longest)
  rename_i h2
  obtain ⟨r', rfl, hn2, he3⟩ := view_is (Decidable.not_not.1 h2) he2
  rw [hn2]
  split
  · apply good_fail
  · intro q hq
    cases hx : runLoop '=' p (View eof (p + 1 + 1 + 1) r') 3 with
    | error e => rw [hx] at hq; cases hq
    | ok y =>
      rw [hx] at hq
      obtain ⟨k, rest, h4, h5, h6, h7, h8⟩ := runLoop_view (by decide) (by decide) (by decide) he3 hx
      have hrep : '=' :: '=' :: '=' :: r' = List.replicate y.1 '=' ++ rest := by
        rw [h4, h5, Nat.add_comm 3 k]
        rfl
      rw [hrep] at he ⊢
      obtain ⟨h9, h10, h11⟩ := pairs_covers (s := .equalEqual) rfl (by decide) (by decide) (fun rest => by longest) y.1 p he
      have hpos : (pairs .equalEqual p y.1).2.1 + (pairs .equalEqual p y.1).2.2 = p + 1 + 1 + 1 + k := by omega
      cases hq
      refine ⟨p + 1 + 1 + 1 + k, rest, ?_, h7, ?_⟩
      · simp only
        split <;> exact h6
      · intro ts p'' rest' hc
        simp only
        split
        · rename_i hp
          have hb : (pairs .equalEqual p y.1).2.2 = 1 := by omega
          simp only [List.append_assoc]
          apply h11
          rw [hb]
          rw [hb] at hpos
          rw [← hpos] at hc h6
          refine Covers.token (t := ⟨(pairs .equalEqual p y.1).2.1, .symbol .equal, y.2.location0⟩) (text := ['='])
            rfl ?_ rfl (by longest) (fun h => h.elim) hc
          rw [h6]
          exact view_location0
        · rename_i hp
          have hb : (pairs .equalEqual p y.1).2.2 = 0 := by omega
          apply h11
          rw [hb] at hpos ⊢
          rw [Nat.add_zero] at hpos
          rw [hpos]
          exact hc

/-- A run of three or more `<` or `>`. -/
theorem good_run {c : Char} {s : Symbol} {tail : Nat → Lexer → Step} (hs : symbolText s = [c, c]) (hr : c ≠ '\r')
    (hn : c ≠ '\n') (h1 : c.utf8Size = 1) (hl : ∀ rest, Longest (.symbol s) [c, c] rest)
    (ht : ∀ {p : Nat} {rest : List Char}, Ends eof (p + 1) rest → rest.head? ≠ some c →
      Good eof p (c :: rest) (tail p (View eof (p + 1) rest)))
    (he : Ends eof p (c :: c :: c :: rest)) :
    Good eof p (c :: c :: c :: rest) ((runLoop c p (View eof (p + 1 + 1 + 1) rest) 3).bind fun r =>
        let q := pairs s p r.1
        if q.2.2 > 0 then (tail q.2.1 r.2).after q.1 else .ok (q.1, r.2)) := by
  have he1 := ends_next hr he
  rw [h1] at he1
  have he2 := ends_next hr he1
  rw [h1] at he2
  have he3 := ends_next hr he2
  rw [h1] at he3
  intro q hq
  cases hx : runLoop c p (View eof (p + 1 + 1 + 1) rest) 3 with
  | error e => rw [hx] at hq; cases hq
  | ok y =>
    rw [hx] at hq
    obtain ⟨k, rest', h4, h5, h6, h7, h8⟩ := runLoop_view hr hn h1 he3 hx
    have hrep : c :: c :: c :: rest = List.replicate y.1 c ++ rest' := by
      rw [h4, h5, Nat.add_comm 3 k]
      rfl
    rw [hrep] at he ⊢
    obtain ⟨h9, h10, h11⟩ := pairs_covers hs hr h1 hl y.1 p he
    have hpos : (pairs s p y.1).2.1 + (pairs s p y.1).2.2 = p + 1 + 1 + 1 + k := by omega
    simp only [Except.bind] at hq
    split at hq
    · rename_i hp
      have hb : (pairs s p y.1).2.2 = 1 := by omega
      rw [hb] at hpos h11
      rw [← hpos] at h6 h7
      rw [h6] at hq
      cases hz : tail (pairs s p y.1).2.1 (View eof ((pairs s p y.1).2.1 + 1) rest') with
      | error e => rw [hz] at hq; cases hq
      | ok z =>
        rw [hz] at hq
        cases hq
        obtain ⟨p', rest'', h12, h13, h14⟩ := ht h7 h8 z hz
        refine ⟨p', rest'', h12, h13, ?_⟩
        intro ts p'' rest3 hc
        rw [List.append_assoc]
        exact h11 _ _ _ (h14 _ _ _ hc)
    · rename_i hp
      have hb : (pairs s p y.1).2.2 = 0 := by omega
      rw [hb] at hpos h11
      rw [Nat.add_zero] at hpos
      cases hq
      refine ⟨_, rest', h6, h7, ?_⟩
      intro ts p'' rest3 hc
      apply h11
      rw [hpos]
      exact hc

theorem good_lexLt (he : Ends eof p ('<' :: rest)) : Good eof p ('<' :: rest) (lexLt p (View eof (p + 1) rest)) := by
  have he1 : Ends eof (p + 1) rest := ends_next (by decide) he
  unfold lexLt
  split
  · rename_i h1
    obtain ⟨r, rfl, hn, he2⟩ := view_is h1 he1
    rw [hn]
    split
    · rename_i h2
      have k := view_not h2
      exact good_symbol .ltLt rfl rfl he2 (by longest)
    · rename_i h2
      obtain ⟨r', rfl, hn2, he3⟩ := view_is (Decidable.not_not.1 h2) he2
      rw [hn2]
      exact good_run rfl (by decide) (by decide) (by decide) (fun rest => by longest) good_lexLtTail he
  · rename_i h1
    exact good_lexLtTail he1 (view_not h1)

theorem good_lexGt (he : Ends eof p ('>' :: rest)) : Good eof p ('>' :: rest) (lexGt p (View eof (p + 1) rest)) := by
  have he1 : Ends eof (p + 1) rest := ends_next (by decide) he
  unfold lexGt
  split
  · rename_i h1
    obtain ⟨r, rfl, hn, he2⟩ := view_is h1 he1
    rw [hn]
    split
    · rename_i h2
      have k := view_not h2
      exact good_symbol .gtGt rfl rfl he2 (by longest)
    · rename_i h2
      obtain ⟨r', rfl, hn2, he3⟩ := view_is (Decidable.not_not.1 h2) he2
      rw [hn2]
      exact good_run rfl (by decide) (by decide) (by decide) (fun rest => by longest) good_lexGtTail he
  · rename_i h1
    exact good_lexGtTail he1 (view_not h1)

end

end Verif.Lexer
