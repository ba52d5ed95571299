import Verif.Lexer.Progress

/-
Model of `/repo/compiler-core/src/parse/lexer.rs`: the iterator over the tokens of a text.
-/
namespace Verif.Lexer

/-- `lexer.rs:16-23` `Lexer`, with the queue of pending tokens. -/
structure Iter where
  lexer : Lexer
  pending : List Spanned
  deriving DecidableEq, Repr

/-- `lexer.rs:149-152`: the loop of `inner_next`, which runs until a step emits a token. -/
def fill (l : Lexer) : Step :=
  match _h : consumeNormal l with
  | .error e => .error e
  | .ok r =>
    if _hr : r.1 = [] then fill r.2 else .ok r
termination_by l.remaining
decreasing_by
  cases h0 : l.char0 with
  | none =>
    unfold consumeNormal at _h
    rw [h0] at _h
    cases _h
    simp at _hr
  | some c => exact consumeNormal_lt h0 _h

/-- `lexer.rs:154`, `lexer.rs:1554-1563`: the answer of `next`, given the token at the head of the queue. -/
def answer (t : Spanned) : Option (Except LexicalError Spanned) :=
  if t.token = .endOfFile then none else some (.ok t)

/-- `lexer.rs:147-155` `inner_next` and `lexer.rs:1548-1564` `next`.
Simplified: after an error the iterator is left as it was. In the code an error may have read some characters. What the
iterator gives after its first error is not modelled: `tokens` and the theorems stop there. -/
def Iter.next (it : Iter) : Option (Except LexicalError Spanned) × Iter :=
  match it.pending with
  | t :: rest => (answer t, { it with pending := rest })
  | [] =>
    match fill it.lexer with
    | .error e => (some (.error e), it)
    | .ok ([], l) => (none, ⟨l, []⟩)
    | .ok (t :: rest, l) => (answer t, ⟨l, rest⟩)

/-- What the iterator may still do: the tokens it holds and the characters it has not read. -/
def Iter.fuel (it : Iter) : Nat := it.pending.length + it.lexer.remaining

theorem fill_uses {l : Lexer} {r : List Spanned × Lexer} (h : fill l = .ok r) :
    r.1.length + r.2.remaining ≤ l.remaining ∨ (∃ p, r.1 = [⟨p, .endOfFile, p⟩]) := by
  induction l using fill.induct with
  | case1 l e he =>
    rw [fill] at h
    split at h
    · cases h
    · simp_all
  | case2 l q hq hr ih =>
    rw [fill] at h
    split at h
    · cases h
    · rename_i q' hq'
      rw [hq] at hq'
      cases hq'
      rw [dif_pos hr] at h
      rcases ih h with h1 | h1
      · cases h0 : l.char0 with
        | none =>
          unfold consumeNormal at hq
          rw [h0] at hq
          cases hq
          simp at hr
        | some c =>
          have := consumeNormal_lt h0 hq
          exact .inl (by omega)
      · exact .inr h1
  | case3 l q hq hr =>
    rw [fill] at h
    split at h
    · cases h
    · rename_i q' hq'
      rw [hq] at hq'
      cases hq'
      rw [dif_neg hr] at h
      cases h
      cases h0 : l.char0 with
      | none =>
        unfold consumeNormal at hq
        rw [h0] at hq
        cases hq
        exact .inr ⟨_, rfl⟩
      | some c => exact .inl (uses_consumeNormal h0 _ hq).1

/-- Every token that `next` gives leaves the iterator with less to do. -/
theorem Iter.next_fuel {it it' : Iter} {t : Spanned} (h : it.next = (some (.ok t), it')) : it'.fuel < it.fuel := by
  unfold Iter.next at h
  unfold Iter.fuel
  split at h
  · rename_i t' rest hp
    rw [hp]
    have h2 := congrArg Prod.snd h
    simp only at h2
    subst h2
    simp only [List.length_cons]
    omega
  · rename_i hp
    split at h
    · cases h
    · cases h
    · rename_i t' rest l hf
      have h1 := fill_uses hf
      have h2 := congrArg Prod.snd h
      have h3 := congrArg Prod.fst h
      simp only at h2 h3
      subst h2
      rcases h1 with h1 | ⟨p, h1⟩
      · simp only [List.length_cons] at h1
        simp only [hp, List.length_nil]
        omega
      · cases h1
        simp [answer] at h3

/-- Everything the iterator gives, up to the end of the text or the first error. -/
def Iter.collect (it : Iter) : List Spanned × Option LexicalError :=
  match _h : it.next with
  | (none, _) => ([], none)
  | (some (.error e), _) => ([], some e)
  | (some (.ok t), it') => (t :: (Iter.collect it').1, (Iter.collect it').2)
termination_by it.fuel
decreasing_by all_goals exact Iter.next_fuel _h

/-- `lexer.rs:56-62` `make_tokenizer`. -/
def makeTokenizer (source : List Char) : Iter :=
  ⟨Lexer.new (NewlineHandler.new (charIndices 0 source)).chars, []⟩

/-- The tokens of a text, up to the first error. -/
def tokens (source : List Char) : List Spanned × Option LexicalError := (makeTokenizer source).collect

example : tokens "pub fn x(y) { y-1 <> \"a\\n\" }".toList =
    ([⟨0, .keyword .pub_, 3⟩, ⟨4, .keyword .fn_, 6⟩, ⟨7, .name ['x'], 8⟩, ⟨8, .symbol .leftParen, 9⟩,
      ⟨9, .name ['y'], 10⟩, ⟨10, .symbol .rightParen, 11⟩, ⟨12, .symbol .leftBrace, 13⟩, ⟨14, .name ['y'], 15⟩,
      ⟨15, .symbol .minus, 16⟩, ⟨16, .int ['1'] 1, 17⟩, ⟨18, .symbol .concatenate, 20⟩,
      ⟨21, .string ['a', '\\', 'n'], 26⟩, ⟨27, .symbol .rightBrace, 28⟩], none) := by decide +kernel

end Verif.Lexer
