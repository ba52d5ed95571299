import Verif.Lexer.Whole

/-!
# Where the tokens of a text are
-/
namespace Verif.Lexer
open Spec

section
variable {eof p p' : Nat} {text rest source : List Char} {ts : List Spanned}

/-- Where a token is in the source, and what it stands for. -/
def Placed (eof : Nat) (source : List Char) (t : Spanned) : Prop :=
  ∃ before tx after, source = before ++ lead t.token ++ tx ++ after ∧ bytes (before ++ lead t.token) = t.start ∧
    Reads t.token tx ∧ t.stop = endsAt eof (t.start + bytes tx) after

theorem covers_placed (h : Covers eof p text ts p' rest) {before : List Char} (hs : source = before ++ text)
    (hb : bytes before = p) : ∀ t ∈ ts, Placed eof source t := by
  induction h generalizing before with
  | done => simp
  | @blank p p' c source' rest ts hc _ ih =>
    have h1 : c.utf8Size = 1 := by rcases hc with hc | hc | hc <;> subst hc <;> decide
    exact ih (before := before ++ [c]) (by rw [hs]; simp) (by rw [bytes_append, hb]; simp [bytes, h1])
  | @token p p' tx source' rest t ts h1 h2 h3 _ _ _ ih =>
    intro u hu
    rcases List.mem_cons.1 hu with hu | hu
    · subst hu
      exact ⟨before, tx, source', by rw [hs]; simp, by rw [bytes_append, hb, h1], h3, h2⟩
    · refine ih (before := before ++ lead t.token ++ tx) (by rw [hs]; simp) ?_ u hu
      rw [bytes_append, bytes_append, hb, h1]
  | @index p p' digits source' rest n ts h1 h2 _ ih =>
    have hdot : bytes ['.'] = 1 := by decide
    have hne : digits ≠ [] := by
      obtain ⟨c, r, _, h, _⟩ := digits_head h1
      rw [h]
      simp
    intro u hu
    rcases List.mem_cons.1 hu with hu | hu
    · subst hu
      refine ⟨before, ['.'], digits ++ source', by rw [hs]; simp [lead], by simpa [lead] using hb, rfl, ?_⟩
      simp only [endsAt, List.append_eq_nil_iff, hne, false_and, if_false, hdot]
    rcases List.mem_cons.1 hu with hu | hu
    · subst hu
      refine ⟨before ++ ['.'], digits, source', by rw [hs]; simp [lead], ?_, ⟨10, .pos (.decimal h1)⟩, rfl⟩
      simp only [lead, List.append_nil]
      rw [bytes_append, hb, hdot]
    · refine ih (before := before ++ ['.'] ++ digits) (by rw [hs]; simp) ?_ u hu
      rw [bytes_append, bytes_append, hb, hdot]

/-- The text before the tokens of a source. -/
theorem body_before (source : List Char) : ∃ before, source = before ++ (body source).2 ∧ bytes before = (body source).1 := by
  unfold body
  cases source with
  | nil => exact ⟨[], rfl, rfl⟩
  | cons c r =>
    simp only
    split
    · rename_i h
      subst h
      exact ⟨[byteOrderMark], rfl, show bytes [byteOrderMark] = 3 by decide⟩
    · exact ⟨[], rfl, rfl⟩

theorem tokens_placed (source : List Char) : ∀ t ∈ (tokens source).1, Placed (endOffset source) source t := by
  obtain ⟨p, rest, h, _⟩ := tokens_cover source
  obtain ⟨before, h1, h2⟩ := body_before source
  exact covers_placed h h1 h2

/-! ### The end of the source -/

theorem endOffset_append {s : List Char} {c : Char} (h : ¬(c = '\n' ∧ s.getLast? = some '\r')) :
    endOffset (s ++ [c]) = bytes s + 1 := by
  unfold endOffset
  rw [List.reverse_append, List.reverse_singleton]
  simp only [List.singleton_append]
  split
  · rename_i before hb
    injection hb with h1 h2
    exact absurd ⟨h1, by rw [← List.head?_reverse, h2]; rfl⟩ h
  · rename_i before _ hb
    injection hb with _ h2
    rw [← h2, List.reverse_reverse]
  · rename_i hb; cases hb

theorem endOffset_le (source : List Char) (hne : source ≠ []) : endOffset source ≤ bytes source := by
  have hrev : source = source.reverse.reverse := (List.reverse_reverse source).symm
  unfold endOffset
  split
  · rename_i before h
    rw [h] at hrev
    rw [hrev]
    simp only [List.reverse_cons, bytes_append, bytes_cons, bytes_nil]
    have h1 : '\r'.utf8Size = 1 := by decide
    omega
  · rename_i c before _ h
    rw [h] at hrev
    rw [hrev]
    simp only [List.reverse_cons, bytes_append, bytes_cons, bytes_nil]
    have h1 : 0 < c.utf8Size := Char.utf8Size_pos c
    omega
  · rename_i h
    exact absurd (List.reverse_eq_nil_iff.1 h) hne

/-- The end of a source, when it is made of two parts of which the second is not empty. -/
theorem endOffset_ge {a b : List Char} (hb : b ≠ []) : bytes a ≤ endOffset (a ++ b) := by
  obtain ⟨b', c, rfl⟩ : ∃ b' c, b = b' ++ [c] := ⟨_, _, (List.dropLast_concat_getLast hb).symm⟩
  rw [← List.append_assoc]
  by_cases h : c = '\n' ∧ (a ++ b').getLast? = some '\r'
  · obtain ⟨rfl, h2⟩ := h
    obtain ⟨s, hs⟩ : ∃ s, a ++ b' = s ++ ['\r'] := by
      rw [List.getLast?_eq_some_iff] at h2
      exact h2
    have h3 : endOffset (a ++ b' ++ ['\n']) = bytes s + 1 := by
      rw [hs]
      unfold endOffset
      simp
    rw [h3]
    have h4 := congrArg bytes hs
    simp only [bytes_append, bytes_cons, bytes_nil] at h4
    have h1 : '\r'.utf8Size = 1 := by decide
    omega
  · rw [endOffset_append h, bytes_append]
    omega

/-- Texts that end with a character of one byte which is not a newline. -/
def Plain (t : List Char) : Prop := ∃ s c, t = s ++ [c] ∧ c.utf8Size = 1 ∧ c ≠ '\n'

theorem Plain.append {t : List Char} (h : Plain t) (s : List Char) : Plain (s ++ t) := by
  obtain ⟨s', c, rfl, h1, h2⟩ := h
  exact ⟨s ++ s', c, by simp, h1, h2⟩

theorem Plain.cons {t : List Char} (h : Plain t) (c : Char) : Plain (c :: t) := h.append [c]

theorem Plain.endOffset {t : List Char} (h : Plain t) : endOffset t = bytes t := by
  obtain ⟨s, c, rfl, h1, h2⟩ := h
  rw [endOffset_append (by rintro ⟨h, _⟩; exact h2 h), bytes_append]
  simp [bytes, h1]

theorem plain_of_last {t : List Char} (hne : t ≠ []) (h : ∀ c ∈ t, c.utf8Size = 1 ∧ c ≠ '\n') : Plain t :=
  ⟨_, _, (List.dropLast_concat_getLast hne).symm, h _ (List.getLast_mem hne)⟩

theorem nameChar_ascii {c : Char} (h : NameChar c) : c.utf8Size = 1 ∧ c ≠ '\n' := by
  refine ⟨utf8Size_ascii ?_, (nameChar_plain h).2⟩
  have le : ∀ {a b : Char}, a ≤ b → a.toNat ≤ b.toNat := fun h => h
  rcases h with h | h | h | h
  · exact Nat.le_trans (le h.2) (by decide)
  · exact Nat.le_trans (le h.2) (by decide)
  · exact Nat.le_trans (le h.2) (by decide)
  · subst h; decide

theorem digit_ascii {c : Char} {v : Nat} (h : digit? c = some v) : c.utf8Size = 1 ∧ c ≠ '\n' := by
  have h1 := isHex_plain (digit?_some h).1
  exact ⟨h1.2.2.2, h1.1⟩

theorem digits_plain {base n : Nat} {t : List Char} (h : Digits base t n) : Plain t := by
  cases h with
  | one h1 _ => exact ⟨[], _, rfl, digit_ascii h1⟩
  | more _ h1 _ => exact ⟨_, _, rfl, digit_ascii h1⟩
  | @underscore t _ c _ _ h1 _ => exact ⟨t ++ ['_'], c, by simp, digit_ascii h1⟩

theorem loose_plain {base n : Nat} {t : List Char} (h : LooseDigits base t n) : Plain t := by
  rcases h with h | ⟨t', rfl, h⟩
  · exact digits_plain h
  · exact (digits_plain h).cons _

theorem natural_plain {base n : Nat} {t v : List Char} (h : Natural base t v n) : Plain t := by
  cases h with
  | decimal h => exact digits_plain h
  | based _ h => exact ((loose_plain h).cons _).cons _

/-- The tokens whose text may end with any character: comments, and newlines. -/
def Open : Token → Prop
  | .commentDoc _ | .commentNormal | .commentModule | .newLine => True
  | _ => False

theorem reads_plain {tok : Token} {t : List Char} (h : Reads tok t) (ho : ¬Open tok) : Plain t := by
  cases tok with
  | name n =>
    obtain ⟨rfl, ⟨c, r, rfl, _⟩, h, _⟩ := h
    exact plain_of_last (by simp) fun c hc => nameChar_ascii (h c hc)
  | upName n =>
    obtain ⟨rfl, ⟨c, r, rfl, _⟩, h⟩ := h
    exact plain_of_last (by simp) fun c hc => nameChar_ascii (h c hc)
  | discardName n =>
    obtain ⟨rfl, ⟨r, rfl⟩, h⟩ := h
    exact plain_of_last (by simp) fun c hc => nameChar_ascii (h c hc)
  | int v n =>
    obtain ⟨base, h⟩ := h
    cases h with
    | pos h => exact natural_plain h
    | neg h => exact (natural_plain h).cons _
  | float v =>
    obtain ⟨rfl, sign, whole, fraction, exponent, rfl, _, _, h3, h4⟩ := h
    rcases h4 with rfl | ⟨s, ds, n, rfl, _, h4⟩
    · rw [List.append_nil]
      apply Plain.append
      rcases h3 with rfl | ⟨n, h3⟩
      · exact ⟨[], '.', rfl, by decide, by decide⟩
      · exact (loose_plain h3).cons _
    · exact (((loose_plain h4).append _).cons _).append _
  | string v =>
    obtain ⟨content, _, _, rfl, _⟩ := h
    exact ⟨'"' :: content, '"', rfl, by decide, by decide⟩
  | symbol s =>
    cases h
    cases s <;> exact plain_of_last (by decide) (by decide)
  | keyword k =>
    cases h
    cases k <;> exact plain_of_last (by decide) (by decide)
  | endOfFile => exact h.elim
  | _ => exact absurd trivial ho

/-- A token ends where its text ends, except perhaps at the end of the source. -/
theorem placed_exact {t : Spanned} (h : Placed (endOffset source) source t) (he : endOffset source = bytes source ∨ ¬Open t.token) :
    ∃ tx, Reads t.token tx ∧ TextAt source t.start t.stop tx := by
  obtain ⟨before, tx, after, h1, h2, h3, h4⟩ := h
  refine ⟨tx, h3, before ++ lead t.token, after, h1, h2, ?_⟩
  rw [h4, h2]
  unfold endsAt
  split
  · rename_i ha
    subst ha
    rw [List.append_nil] at h1
    have he2 : endOffset source = bytes source := by
      rcases he with he | he
      · exact he
      · rw [h1]
        exact ((reads_plain h3 he).append _).endOffset
    rw [he2, h1, bytes_append (before ++ lead t.token), h2]
  · rfl

theorem placed_start {t : Spanned} (h : Placed (endOffset source) source t) :
    Boundary source t.start ∧ t.start ≤ t.stop ∧ t.stop ≤ bytes source := by
  obtain ⟨before, tx, after, h1, h2, h3, h4⟩ := h
  refine ⟨⟨before ++ lead t.token, tx ++ after, by rw [h1]; simp, h2⟩, ?_, ?_⟩
  · rw [h4]
    unfold endsAt
    split
    · rename_i ha
      subst ha
      rw [List.append_nil] at h1
      rw [h1, ← h2]
      by_cases htx : tx = []
      · subst htx
        rw [List.append_nil]
        have hp : Plain (lead t.token) := by
          cases hto : t.token <;> rw [hto] at h3
          case commentDoc => exact ⟨['/', '/'], '/', rfl, by decide, by decide⟩
          case commentNormal => exact ⟨['/'], '/', rfl, by decide, by decide⟩
          case commentModule => exact ⟨['/', '/', '/'], '/', rfl, by decide, by decide⟩
          case newLine => rcases h3 with h | h | h <;> cases h
          all_goals
            obtain ⟨s, c, hs, _⟩ := reads_plain h3 id
            simp at hs
        rw [(hp.append before).endOffset]
      · exact endOffset_ge htx
    · omega
  · rw [h4]
    unfold endsAt
    split
    · apply endOffset_le
      rintro rfl
      have h5 := h1.symm
      simp only [List.append_eq_nil_iff] at h5
      obtain ⟨⟨⟨_, h6⟩, h7⟩, _⟩ := h5
      subst h7
      cases hto : t.token <;> rw [hto] at h3 h6
      case commentDoc => cases h6
      case commentNormal => cases h6
      case commentModule => cases h6
      case newLine => rcases h3 with h | h | h <;> cases h
      all_goals
        obtain ⟨s, c, hs, _⟩ := reads_plain h3 id
        simp at hs
    · rw [h1, bytes_append, bytes_append _ tx, h2]
      omega

/-! ### Order -/

theorem covers_nil (h : Covers eof p text ts p' rest) (ht : text = []) : ts = [] := by
  induction h with
  | done => rfl
  | blank _ _ _ => cases ht
  | @token p p' tx source rest t ts h1 h2 h3 _ _ _ _ =>
    simp only [List.append_eq_nil_iff] at ht
    obtain ⟨⟨h6, h7⟩, _⟩ := ht
    subst h7
    cases hto : t.token <;> rw [hto] at h3 h6
    case commentDoc => cases h6
    case commentNormal => cases h6
    case commentModule => cases h6
    case newLine => rcases h3 with h | h | h <;> cases h
    all_goals
      obtain ⟨s, c, hs, _⟩ := reads_plain h3 id
      simp at hs
  | index _ _ _ _ => cases ht

theorem covers_ordered (h : Covers eof p text ts p' rest) : ts.Pairwise fun t u => t.stop ≤ u.start := by
  induction h with
  | done => exact .nil
  | blank _ _ ih => exact ih
  | @token p p' tx source rest t ts h1 h2 h3 _ _ hc ih =>
    refine .cons ?_ ih
    intro u hu
    have h4 := covers_ge hc u hu
    rw [h2]
    unfold endsAt
    split
    · rename_i hs
      rw [covers_nil hc hs] at hu
      cases hu
    · exact h4
  | @index p p' digits source rest n ts h1 h2 hc ih =>
    have key : ∀ u ∈ ts, endsAt eof (p + 1 + bytes digits) source ≤ u.start := by
      intro u hu
      have h4 := covers_ge hc u hu
      unfold endsAt
      split
      · rename_i hs
        rw [covers_nil hc hs] at hu
        cases hu
      · exact h4
    refine .cons ?_ (.cons key ih)
    intro u hu
    rcases List.mem_cons.1 hu with hu | hu
    · subst hu; exact Nat.le_refl _
    · have := covers_ge hc u hu
      simp only
      omega

theorem covers_minus (h : Covers eof p text ts p' rest) {a b : List Spanned} {t u : Spanned} (hts : ts = a ++ t :: u :: b)
    (hadj : u.start = t.stop) (hw : Word t.token) (hn : Negative u.token) :
    ∃ a' d, a = a' ++ [d] ∧ d.token = .symbol .dot ∧ d.stop = t.start := by
  induction h generalizing a with
  | done => simp at hts
  | blank _ _ ih => exact ih hts
  | @token p p' tx source rest t' ts h1 h2 h3 _ hsep hc ih =>
    cases a with
    | nil =>
      simp only [List.nil_append, List.cons.injEq] at hts
      obtain ⟨rfl, rfl⟩ := hts
      refine absurd hn (hsep hw u rfl ?_)
      rw [hadj, h2]
      unfold endsAt
      split
      · rename_i hs
        cases covers_nil hc hs
      · rfl
    | cons x a =>
      simp only [List.cons_append, List.cons.injEq] at hts
      obtain ⟨rfl, rfl⟩ := hts
      obtain ⟨a', d, rfl, h5, h6⟩ := ih rfl
      exact ⟨t' :: a', d, rfl, h5, h6⟩
  | @index p p' digits source rest n ts h1 h2 hc ih =>
    match a with
    | [] =>
      simp only [List.nil_append, List.cons.injEq] at hts
      obtain ⟨rfl, _⟩ := hts
      exact hw.elim
    | [x] =>
      simp only [List.cons_append, List.nil_append, List.cons.injEq] at hts
      obtain ⟨rfl, rfl, rfl⟩ := hts
      exact ⟨[], _, rfl, rfl, rfl⟩
    | x :: y :: a =>
      simp only [List.cons_append, List.cons.injEq] at hts
      obtain ⟨rfl, rfl, rfl⟩ := hts
      obtain ⟨a', d, rfl, h5, h6⟩ := ih rfl
      exact ⟨_ :: _ :: a', d, rfl, h5, h6⟩

/-! ### How many -/

theorem collect_length (it : Iter) : it.collect.1.length ≤ it.fuel := by
  generalize hk : it.fuel = k
  induction k using Nat.strongRecOn generalizing it with
  | ind k ih =>
    match hn : it.next with
    | (none, it') => rw [collect_none hn]; simp
    | (some (.error e), it') => rw [collect_error hn]; simp
    | (some (.ok t), it') =>
      have h1 := Iter.next_fuel hn
      have h2 := ih _ (by omega) it' rfl
      rw [collect_ok hn]
      simp only [List.length_cons]
      omega

theorem stream_length (p : Nat) (text : List Char) : (stream p text).length ≤ text.length := by
  generalize hn : text.length = n
  induction n using Nat.strongRecOn generalizing text p with
  | ind n ih =>
    rcases text_cases text with h1 | ⟨c, rest, h1, h2, h3⟩ | ⟨nl, rest, h1, h2, h3⟩
    · subst h1; simp [stream]
    · subst h1
      simp only [List.length_cons] at hn
      have h4 := ih _ (by omega) (p + c.utf8Size) rest rfl
      rw [stream_cons h2]
      simp only [List.length_cons]
      omega
    · subst h1
      have hlen : 1 + rest.length ≤ n := by
        rw [← hn, List.length_append]
        rcases h2 with h2 | h2 | h2 <;> subst h2 <;> simp <;> omega
      have h4 := ih _ (by omega) (p + bytes nl) rest rfl
      rw [stream_lineEnd h2 h3]
      simp only [List.length_cons]
      omega

theorem window_remaining (eof : Nat) (s : List (Nat × Char)) : (window eof s).remaining ≤ s.length := by
  match s with
  | [] => simp [window, Lexer.remaining]
  | [x] => simp [window, Lexer.remaining]
  | x :: y :: s => simp [window, Lexer.remaining]; omega

theorem body_length (source : List Char) : (body source).2.length ≤ source.length := by
  obtain ⟨before, h, _⟩ := body_before source
  have := congrArg List.length h
  rw [List.length_append] at this
  omega

theorem tokens_length (source : List Char) : (tokens source).1.length ≤ source.length := by
  have h1 := collect_length (makeTokenizer source)
  have h2 : (makeTokenizer source).fuel ≤ source.length := by
    unfold makeTokenizer Iter.fuel
    rw [(new_eq source).1]
    have h3 := window_remaining (endOffset source) (stream (body source).1 (body source).2)
    have h4 := stream_length (body source).1 (body source).2
    have h5 := body_length source
    simp only [List.length_nil]
    unfold View
    omega
  exact Nat.le_trans h1 h2

/-! ### After the end -/

theorem char0_none_next {l : Lexer} (h : l.char0 = none) : (Iter.mk l []).next = (none, ⟨l, []⟩) := by
  have h1 : consumeNormal l = .ok ([⟨l.location0, .endOfFile, l.location0⟩], l) := by
    unfold consumeNormal
    rw [h]
  have h2 : fill l = .ok ([⟨l.location0, .endOfFile, l.location0⟩], l) := by
    rw [fill]
    split
    · rename_i e he; rw [h1] at he; cases he
    · rename_i r hr
      rw [h1] at hr
      cases hr
      rfl
  simp [Iter.next, h2, answer]

end

end Verif.Lexer
