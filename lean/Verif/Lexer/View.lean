import Verif.Lexer.Spec

/-!
# The lexer's two-character window

`View eof p text` is the state of a lexer which has yet to read `text`, which starts at byte `p`. These lemmas say how
`next_char` moves the window, and where the lexer is when it starts.
-/
namespace Verif.Lexer
open Spec

/-- What the newline handler gives for a text that starts at byte `p`. -/
def stream : Nat → List Char → List (Nat × Char)
  | _, [] => []
  | p, c :: rest =>
    if c = '\r' then
      match rest with
      | d :: rest' => if d = '\n' then (p, '\n') :: stream (p + 2) rest' else (p, '\n') :: stream (p + 1) (d :: rest')
      | [] => [(p, '\n')]
    else (p, c) :: stream (p + c.utf8Size) rest

/-- The lexer's window on a stream, at the end of which the position is `eof`. -/
def window (eof : Nat) : List (Nat × Char) → Lexer
  | [] => ⟨[], none, none, eof, eof + 1⟩
  | [(p, c)] => ⟨[], some c, none, p, eof⟩
  | (p, c) :: (q, d) :: rest => ⟨rest, some c, some d, p, q⟩

/-- The lexer before `text`, which starts at byte `p`. -/
def View (eof p : Nat) (text : List Char) : Lexer := window eof (stream p text)

/-- `eof` is one byte after the start of the last character of a stream. -/
def EndsS (eof : Nat) (s : List (Nat × Char)) : Prop := ∀ x, s.getLast? = some x → eof = x.1 + 1

/-- `eof` is the position the lexer has at the end of this text. -/
def Ends (eof p : Nat) (text : List Char) : Prop := EndsS eof (stream p text)

theorem EndsS.tail {eof : Nat} {x : Nat × Char} {s : List (Nat × Char)} (h : EndsS eof (x :: s)) : EndsS eof s := by
  cases s with
  | nil => intro y hy; cases hy
  | cons y s =>
    intro z hz
    apply h
    rw [List.getLast?_cons_cons]
    exact hz

theorem window_next {eof : Nat} {x : Nat × Char} {s : List (Nat × Char)} (h : EndsS eof (x :: s)) :
    (window eof (x :: s)).nextChar = window eof s := by
  match s with
  | [] => rfl
  | [(q, d)] =>
    have : eof = q + 1 := h (q, d) rfl
    subst this
    rfl
  | (q, d) :: (r, e) :: s => rfl

/-! ### `bytes` -/

theorem bytes_nil : bytes [] = 0 := rfl

theorem bytes_cons (c : Char) (t : List Char) : bytes (c :: t) = c.utf8Size + bytes t := by simp [bytes]

theorem bytes_append (s t : List Char) : bytes (s ++ t) = bytes s + bytes t := by simp [bytes]

/-- A character of one byte. -/
theorem utf8Size_ascii {c : Char} (h : c.toNat ≤ 127) : c.utf8Size = 1 := by
  have : c.val ≤ 127 := by rw [UInt32.le_iff_toNat_le]; exact h
  simp [Char.utf8Size, this]

/-! ### Moving the window -/

theorem stream_cons {p : Nat} {c : Char} {rest : List Char} (h : c ≠ '\r') :
    stream p (c :: rest) = (p, c) :: stream (p + c.utf8Size) rest := by
  rw [stream.eq_def]
  simp [h]

theorem stream_crlf (p : Nat) (rest : List Char) : stream p ('\r' :: '\n' :: rest) = (p, '\n') :: stream (p + 2) rest := by
  simp [stream]

theorem stream_cr {p : Nat} {rest : List Char} (h : rest.head? ≠ some '\n') :
    stream p ('\r' :: rest) = (p, '\n') :: stream (p + 1) rest := by
  cases rest with
  | nil => simp [stream]
  | cons d rest =>
    have hd : d ≠ '\n' := fun hd => h (by rw [hd]; rfl)
    rw [stream.eq_def]
    simp [hd]

/-- The three ways a text can start. -/
theorem text_cases (text : List Char) :
    text = [] ∨ (∃ c rest, text = c :: rest ∧ c ≠ '\r' ∧ c ≠ '\n') ∨
      ∃ nl rest, text = nl ++ rest ∧ LineEnd nl ∧ (nl = ['\r'] → rest.head? ≠ some '\n') := by
  cases text with
  | nil => exact .inl rfl
  | cons c rest =>
    by_cases h : c = '\r'
    · subst h
      by_cases h2 : rest.head? = some '\n'
      · cases rest with
        | nil => cases h2
        | cons d rest =>
          cases h2
          exact .inr (.inr ⟨['\r', '\n'], rest, rfl, .inr (.inr rfl), by simp⟩)
      · exact .inr (.inr ⟨['\r'], rest, rfl, .inr (.inl rfl), fun _ => h2⟩)
    · by_cases h2 : c = '\n'
      · subst h2
        exact .inr (.inr ⟨['\n'], rest, rfl, .inl rfl, by simp⟩)
      · exact .inr (.inl ⟨c, rest, rfl, h, h2⟩)

theorem stream_lineEnd {p : Nat} {nl rest : List Char} (h : LineEnd nl) (h2 : nl = ['\r'] → rest.head? ≠ some '\n') :
    stream p (nl ++ rest) = (p, '\n') :: stream (p + bytes nl) rest := by
  rcases h with h | h | h
  · subst h
    exact stream_cons (by decide)
  · subst h
    exact stream_cr (h2 rfl)
  · subst h
    exact stream_crlf p rest

section
variable {eof p : Nat} {c : Char} {rest text : List Char}

theorem view_nil_char0 : (View eof p []).char0 = none := rfl

theorem window_char0 (x : Nat × Char) (s : List (Nat × Char)) : (window eof (x :: s)).char0 = some x.2 := by
  cases s with
  | nil => rfl
  | cons y s => rfl

theorem window_location0 (x : Nat × Char) (s : List (Nat × Char)) : (window eof (x :: s)).location0 = x.1 := by
  cases s with
  | nil => rfl
  | cons y s => rfl

theorem window_char1 (x : Nat × Char) (s : List (Nat × Char)) : (window eof (x :: s)).char1 = (window eof s).char0 := by
  match s with
  | [] => rfl
  | [y] => rfl
  | y :: z :: s => rfl

theorem view_cons_char0 (h : c ≠ '\r') : (View eof p (c :: rest)).char0 = some c := by
  rw [View, stream_cons h, window_char0]

theorem view_cons_char1 (h : c ≠ '\r') : (View eof p (c :: rest)).char1 = (View eof (p + c.utf8Size) rest).char0 := by
  rw [View, stream_cons h, window_char1, View]

theorem view_lineEnd_char0 {nl : List Char} (h : LineEnd nl) (h2 : nl = ['\r'] → rest.head? ≠ some '\n') :
    (View eof p (nl ++ rest)).char0 = some '\n' := by
  rw [View, stream_lineEnd h h2, window_char0]

theorem view_location0 : (View eof p text).location0 = endsAt eof p text := by
  rcases text_cases text with h | ⟨c, rest, h, h1, h2⟩ | ⟨nl, rest, h, h1, h2⟩
  · subst h; rfl
  · subst h
    rw [View, stream_cons h1, window_location0, endsAt, if_neg (by simp)]
  · subst h
    rw [View, stream_lineEnd h1 h2, window_location0, endsAt, if_neg]
    rcases h1 with h1 | h1 | h1 <;> subst h1 <;> simp

theorem view_next (h : c ≠ '\r') (he : Ends eof p (c :: rest)) :
    (View eof p (c :: rest)).nextChar = View eof (p + c.utf8Size) rest := by
  unfold Ends at he
  rw [stream_cons h] at he
  rw [View, stream_cons h, window_next he, View]

theorem ends_next (h : c ≠ '\r') (he : Ends eof p (c :: rest)) : Ends eof (p + c.utf8Size) rest := by
  unfold Ends at he
  rw [stream_cons h] at he
  exact he.tail

theorem view_next_lineEnd {nl : List Char} (h : LineEnd nl) (h2 : nl = ['\r'] → rest.head? ≠ some '\n')
    (he : Ends eof p (nl ++ rest)) : (View eof p (nl ++ rest)).nextChar = View eof (p + bytes nl) rest := by
  unfold Ends at he
  rw [stream_lineEnd h h2] at he
  rw [View, stream_lineEnd h h2, window_next he, View]

theorem ends_next_lineEnd {nl : List Char} (h : LineEnd nl) (h2 : nl = ['\r'] → rest.head? ≠ some '\n')
    (he : Ends eof p (nl ++ rest)) : Ends eof (p + bytes nl) rest := by
  unfold Ends at he
  rw [stream_lineEnd h h2] at he
  exact he.tail

/-- The lexer is at the end only if there is no text. -/
theorem view_char0_none (h : (View eof p text).char0 = none) : text = [] := by
  rcases text_cases text with h1 | ⟨c, rest, h1, h2, h3⟩ | ⟨nl, rest, h1, h2, h3⟩
  · exact h1
  · subst h1
    rw [view_cons_char0 h2] at h
    cases h
  · subst h1
    rw [view_lineEnd_char0 h2 h3] at h
    cases h

/-- The lexer sees a character other than a newline only if the text starts with it. -/
theorem view_char0_some (h : (View eof p text).char0 = some c) (hc : c ≠ '\n') :
    ∃ rest, text = c :: rest ∧ c ≠ '\r' := by
  rcases text_cases text with h1 | ⟨d, rest, h1, h2, h3⟩ | ⟨nl, rest, h1, h2, h3⟩
  · subst h1
    cases h
  · subst h1
    rw [view_cons_char0 h2] at h
    cases h
    exact ⟨rest, rfl, h2⟩
  · subst h1
    rw [view_lineEnd_char0 h2 h3] at h
    cases h
    exact absurd rfl hc

theorem view_char0_newline (h : (View eof p text).char0 = some '\n') :
    ∃ nl rest, text = nl ++ rest ∧ LineEnd nl ∧ (nl = ['\r'] → rest.head? ≠ some '\n') := by
  rcases text_cases text with h1 | ⟨d, rest, h1, h2, h3⟩ | h1
  · subst h1
    cases h
  · subst h1
    rw [view_cons_char0 h2] at h
    cases h
    exact absurd rfl h3
  · exact h1

/-- What the lexer sees next, for a character that is not part of a line ending. -/
theorem view_char0_iff (h : c ≠ '\r') (h2 : c ≠ '\n') : (View eof p text).char0 = some c ↔ text.head? = some c := by
  constructor
  · intro hc
    obtain ⟨rest, rfl, _⟩ := view_char0_some hc h2
    rfl
  · intro hc
    cases text with
    | nil => cases hc
    | cons d rest =>
      cases hc
      exact view_cons_char0 h

end

/-! ### The start -/

theorem newlineHandler_cons (x : Nat × Char) (xs : List (Nat × Char)) :
    NewlineHandler.new (x :: xs) = ⟨xs.tail, some x, xs.head?⟩ := by
  cases xs <;> rfl

theorem newlineHandler_shift (x : Nat × Char) (xs : List (Nat × Char)) :
    (⟨xs.tail, some x, xs.head?⟩ : NewlineHandler).shift = NewlineHandler.new xs := by
  match xs with
  | [] => rfl
  | [y] => rfl
  | y :: z :: xs => rfl

theorem newlineHandler_chars_some {h k : NewlineHandler} {x : Nat × Char} (hk : h.collapse = k) (h0 : k.char0 = some x) :
    h.chars = x :: k.shift.chars := by
  subst hk
  rw [NewlineHandler.chars]
  split
  · rename_i c' h0'
    rw [h0] at h0'
    cases h0'
    rfl
  · rename_i h0'
    rw [h0] at h0'
    cases h0'

/-- The handler gives the `\n` of a line ending the position of its first character. -/
theorem newlineHandler_chars (p : Nat) (text : List Char) :
    (NewlineHandler.new (charIndices p text)).chars = stream p text := by
  generalize hn : text.length = n
  induction n using Nat.strongRecOn generalizing text p with
  | ind n ih =>
    have step : ∀ (h : NewlineHandler) (x : Nat × Char) (q : Nat) (t : List Char),
        h.collapse = ⟨(charIndices q t).tail, some x, (charIndices q t).head?⟩ → t.length < n →
        h.chars = x :: stream q t := by
      intro h x q t h0 h2
      rw [newlineHandler_chars_some h0 rfl, newlineHandler_shift, ih t.length h2 q t rfl]
    cases text with
    | nil =>
      rw [charIndices, NewlineHandler.chars]
      rfl
    | cons c rest =>
      rw [charIndices, newlineHandler_cons]
      have cr : '\r'.utf8Size = 1 := by decide
      by_cases hc : c = '\r'
      · subst hc
        cases rest with
        | nil =>
          rw [stream_cr (by simp)]
          exact step _ _ (p + 1) [] rfl (by rw [← hn]; simp)
        | cons d rest =>
          by_cases hd : d = '\n'
          · subst hd
            rw [stream_crlf]
            refine step _ _ _ _ ?_ (by rw [← hn]; simp only [List.length_cons]; omega)
            have nl : '\n'.utf8Size = 1 := by decide
            cases rest <;> simp [NewlineHandler.collapse, NewlineHandler.shift, charIndices, cr, nl]
          · rw [stream_cr (by simpa using hd)]
            refine step _ _ _ _ ?_ (by rw [← hn]; simp)
            simp [NewlineHandler.collapse, charIndices, hd, cr]
      · rw [stream_cons hc]
        refine step _ _ _ _ ?_ (by rw [← hn]; simp)
        simp [NewlineHandler.collapse, hc]

/-! ### The end -/

theorem stream_append {p : Nat} {s t : List Char} (h : s.getLast? = some '\r' → t.head? ≠ some '\n') :
    stream p (s ++ t) = stream p s ++ stream (p + bytes s) t := by
  generalize hn : s.length = n
  induction n using Nat.strongRecOn generalizing s p with
  | ind n ih =>
    rcases text_cases s with h1 | ⟨c, rest, h1, h2, h3⟩ | ⟨nl, rest, h1, h2, h3⟩
    · subst h1
      simp [stream, bytes]
    · subst h1
      rw [List.cons_append, stream_cons h2, stream_cons h2, bytes_cons, ← Nat.add_assoc,
        ih rest.length (by rw [← hn]; simp) _ rfl]
      · rfl
      · intro hr
        apply h
        rw [List.getLast?_cons, hr]
        rfl
    · subst h1
      have hlen : rest.length < n := by
        rw [← hn, List.length_append]
        rcases h2 with h2 | h2 | h2 <;> subst h2 <;> simp
      have h4 : nl = ['\r'] → (rest ++ t).head? ≠ some '\n' := by
        intro hnl
        cases rest with
        | nil =>
          subst hnl
          exact h rfl
        | cons d rest => exact h3 hnl
      rw [List.append_assoc, stream_lineEnd h2 h4, stream_lineEnd h2 h3, bytes_append, ← Nat.add_assoc,
        ih rest.length hlen _ rfl]
      · rfl
      · intro hr
        apply h
        rw [List.getLast?_append, hr]
        rfl

/-- The lexer's position at the end of a text is one byte after the start of the last character. -/
theorem ends_endOffset (text : List Char) : Ends (endOffset text) 0 text := by
  intro x hx
  have hrev : text = text.reverse.reverse := (List.reverse_reverse text).symm
  unfold endOffset
  split
  · rename_i before h
    rw [h] at hrev
    have h1 : text = before.reverse ++ ['\r', '\n'] := by simpa using hrev
    rw [h1, stream_append (by simp), stream_crlf, List.getLast?_append] at hx
    cases hx
    simp [stream]
  · rename_i c before hne h
    rw [h] at hrev
    have h1 : text = before.reverse ++ [c] := by simpa using hrev
    have h2 : before.reverse.getLast? = some '\r' → [c].head? ≠ some '\n' := by
      intro hr hc
      cases hc
      cases before with
      | nil => cases hr
      | cons d before =>
        simp at hr
        subst hr
        exact hne before rfl rfl
    rw [h1, stream_append h2] at hx
    by_cases hc : c = '\r'
    · subst hc
      rw [stream_cr (by simp), List.getLast?_append] at hx
      cases hx
      simp [stream]
    · rw [stream_cons hc, List.getLast?_append] at hx
      cases hx
      simp [stream]
  · rename_i h
    have : text = [] := by simpa using h
    subst this
    cases hx

theorem endOffset_pos (text : List Char) : 1 ≤ endOffset text := by
  unfold endOffset
  split <;> omega

/-- The lexer starts at the start of the text, after a byte order mark. -/
theorem new_eq (source : List Char) :
    Lexer.new (NewlineHandler.new (charIndices 0 source)).chars =
      View (endOffset source) (body source).1 (body source).2 ∧
    Ends (endOffset source) (body source).1 (body source).2 := by
  have he := ends_endOffset source
  rw [newlineHandler_chars]
  have h1 : ({ chars := stream 0 source, char0 := none, char1 := none, location0 := 0, location1 := 0 } :
      Lexer).nextChar.nextChar = View (endOffset source) 0 source := by
    unfold View
    cases hs : stream 0 source with
    | nil =>
      have : source = [] := by
        rcases text_cases source with h1 | ⟨c, rest, h1, h2, h3⟩ | ⟨nl, rest, h1, h2, h3⟩
        · exact h1
        · subst h1; rw [stream_cons h2] at hs; cases hs
        · subst h1; rw [stream_lineEnd h2 h3] at hs; cases hs
      subst this
      rfl
    | cons x s =>
      have hx : x.1 = 0 := by
        rcases text_cases source with h1 | ⟨c, rest, h1, h2, h3⟩ | ⟨nl, rest, h1, h2, h3⟩
        · subst h1; cases hs
        · subst h1; rw [stream_cons h2] at hs; cases hs; rfl
        · subst h1; rw [stream_lineEnd h2 h3] at hs; cases hs; rfl
      obtain ⟨q, d⟩ := x
      cases hx
      unfold Ends at he
      rw [hs] at he
      cases s with
      | nil =>
        have : endOffset source = 1 := he (0, d) rfl
        rw [this]
        rfl
      | cons y s => rfl
  unfold Lexer.new
  simp only [h1]
  unfold body
  cases source with
  | nil => exact ⟨rfl, he⟩
  | cons c rest =>
    by_cases hc : c = byteOrderMark
    · have hr : c ≠ '\r' := by rw [hc]; decide
      simp only [if_pos hc]
      rw [if_pos (by rw [view_cons_char0 hr, hc]; rfl), view_next hr he]
      have : c.utf8Size = 3 := by rw [hc]; decide
      have h3 := ends_next hr he
      rw [this, Nat.zero_add] at h3
      rw [this, Nat.zero_add]
      exact ⟨rfl, h3⟩
    · simp only [if_neg hc]
      rw [if_neg]
      · exact ⟨rfl, he⟩
      · intro h2
        obtain ⟨rest', h3, _⟩ := view_char0_some h2 (by decide)
        cases h3
        exact hc rfl

end Verif.Lexer
