import Verif.Format.PatternTokens

/-!
# The tokens of a formatted pattern are parsed
-/
namespace Verif.Format
open Verif.Lexer Verif.Lexer.Spec Verif.Format.Spec

/-- What may follow a pattern, which may be given a name. -/
def Base (rest : List Token) : Prop :=
  rest.head? ≠ some (.symbol .dot) ∧ rest.head? ≠ some (.symbol .concatenate) ∧ rest.head? ≠ some (.symbol .leftParen) ∧
    ∀ n r, rest ≠ .keyword .as_ :: .name n :: .symbol .concatenate :: r

/-- The pattern is not given a name. -/
def NotAs (rest : List Token) : Prop := rest.head? ≠ some (.keyword .as_)

/-- The tokens after patterns. -/
def Close (t : Token) : Prop := t = .symbol .rightParen ∨ t = .symbol .rightSquare ∨ t = .symbol .dotDot

section
variable {fuel : Nat} {rest : List Token}

theorem finish_plain {p : Pat} (h : NotAs rest) : finishAs p rest = some (some p, rest) := by
  unfold finishAs
  split
  · simp [NotAs] at h
  · rfl

theorem base_as {n : Name} (h : Base rest) : Base (.keyword .as_ :: .name n :: rest) := by
  refine ⟨by simp, by simp, by simp, fun m r e => ?_⟩
  simp only [List.cons.injEq, true_and] at e
  rw [e.2] at h
  simp [Base] at h

theorem base_symbol {s : Symbol} (h : s ≠ .dot ∧ s ≠ .concatenate ∧ s ≠ .leftParen) : Base (.symbol s :: rest) := by
  refine ⟨by simpa using h.1, by simpa using h.2.1, by simpa using h.2.2, fun n r e => by cases e⟩

theorem notAs_symbol {s : Symbol} : NotAs (.symbol s :: rest) := by simp [NotAs]

theorem parse_int {v : List Char} {n : Int} : parsePattern (fuel + 1) (.int v n :: rest) = finishAs (.int v n) rest := by
  rw [parsePattern.eq_def]

theorem parse_float {v : List Char} : parsePattern (fuel + 1) (.float v :: rest) = finishAs (.float v) rest := by
  rw [parsePattern.eq_def]

theorem parse_name {n : Name} (h : Base rest) : parsePattern (fuel + 1) (.name n :: rest) = finishAs (.var n) rest := by
  rw [parsePattern.eq_def]
  simp only
  split
  · simp [Base] at h
  · simp [Base] at h
  · rfl

theorem parse_discard {n : Name} (h : Base rest) :
    parsePattern (fuel + 1) (.discardName n :: rest) = finishAs (.discard n) rest := by
  rw [parsePattern.eq_def]
  simp only
  split
  · simp [Base] at h
  · rfl

theorem parse_string {v : List Char} (h : Base rest) :
    parsePattern (fuel + 1) (.string v :: rest) = finishAs (.string v) rest := by
  rw [parsePattern.eq_def]
  simp only
  split
  · split
    · split
      · simp [Base] at h
      · rfl
    · next hn =>
      rw [finishAs]
      exact hn
  · simp [Base] at h
  · rfl

theorem parse_right {left : List Char} {leftName : Option Name} {right : AssignName} (h : Base rest) :
    prefixRight left leftName (assignNameToks right ++ rest) = finishAs (.stringPrefix left leftName right) rest := by
  cases right <;>
  · simp only [assignNameToks, List.cons_append, List.nil_append, prefixRight]
    split
    · simp [Base] at h
    · rfl

theorem parse_assignName {t : AssignName} (h : Base rest) :
    parsePattern (fuel + 1) (assignNameToks t ++ rest) =
      finishAs (match t with | .variable_ n => .var n | .discard n => .discard n) rest := by
  cases t with
  | variable_ n => exact parse_name h
  | discard n => exact parse_discard h

theorem parse_close {t : Token} (h : Close t) : parsePattern (fuel + 1) (t :: rest) = some (none, t :: rest) := by
  rw [parsePattern.eq_def]
  rcases h with rfl | rfl | rfl <;> rfl

theorem parse_comma : parsePattern (fuel + 1) (.symbol .comma :: rest) = some (none, .symbol .comma :: rest) := by
  rw [parsePattern.eq_def]

theorem parses_close {t : Token} (h : Close t) : parsePatterns (fuel + 2) (t :: rest) = some (.nil, t :: rest) := by
  rw [parsePatterns.eq_def]
  simp only [parse_close h]

theorem close_notComma {t : Token} (h : Close t) : t ≠ .symbol .comma := by
  rcases h with rfl | rfl | rfl <;> simp

theorem args_close {t : Token} (h : Close t) : parseArguments (fuel + 2) (t :: rest) = some (.nil, t :: rest) := by
  have e := parse_close (fuel := fuel) (rest := rest) h
  rw [parseArguments.eq_def]
  rcases h with rfl | rfl | rfl <;> simp [e]

theorem parses_more {ks r : List Token} {p : Pat} (h : parsePattern fuel ks = some (some p, .symbol .comma :: r))
    (hr : r.head? ≠ some (.symbol .comma)) :
    parsePatterns (fuel + 1) ks = (parsePatterns fuel r).map fun x => (.cons p x.1, x.2) := by
  rw [parsePatterns.eq_def]
  simp only [h]
  split
  · simp at hr
  · rfl

theorem parses_last {ks r : List Token} {p : Pat} (h : parsePattern fuel ks = some (some p, r))
    (hr : r.head? ≠ some (.symbol .comma)) : parsePatterns (fuel + 1) ks = some (.cons p .nil, r) := by
  rw [parsePatterns.eq_def]
  simp only [h]
  split
  · simp at hr
  · rfl

/-- What an argument is, with the ones that follow it. -/
inductive Argument (fuel : Nat) : List Token → (Args → Args) → List Token → Prop
  | labelled {label : Name} {ks r : List Token} {p : Pat} (h : parsePattern fuel ks = some (some p, r)) :
    Argument fuel (.name label :: .symbol .colon :: ks) (.labelled label p) r
  | shorthand {label : Name} {ks r : List Token} (h : parsePattern fuel ks = some (none, r)) :
    Argument fuel (.name label :: .symbol .colon :: ks) (.shorthand label) r
  | plain {ks r : List Token} {p : Pat} (h : parsePattern fuel ks = some (some p, r))
    (hn : ∀ label r, ks ≠ .name label :: .symbol .colon :: r) : Argument fuel ks (.plain p) r

theorem args_more' {ks r : List Token} {f : Args → Args} (h : Argument fuel ks f (.symbol .comma :: r))
    (hr : r.head? ≠ some (.symbol .comma)) :
    parseArguments (fuel + 1) ks = (parseArguments fuel r).map fun x => (f x.1, x.2) := by
  rw [parseArguments.eq_def]
  generalize hc : (Token.symbol Symbol.comma :: r) = s at h
  cases h with
  | labelled h =>
    subst hc
    simp only [h]
    split
    · simp at hr
    · rfl
  | shorthand h =>
    subst hc
    simp only [h]
    split
    · simp at hr
    · rfl
  | plain h hn =>
    subst hc
    simp only [h]
    split
    · simp at hr
    · rfl

theorem args_last {ks r : List Token} {f : Args → Args} (h : Argument fuel ks f r)
    (hr : r.head? ≠ some (.symbol .comma)) : parseArguments (fuel + 1) ks = some (f .nil, r) := by
  rw [parseArguments.eq_def]
  cases h with
  | labelled h =>
    simp only [h]
    split
    · simp at hr
    · rfl
  | shorthand h =>
    simp only [h]
    split
    · simp at hr
    · rfl
  | plain h hn =>
    simp only [h]
    split
    · simp at hr
    · rfl

end

/-! ### How tokens start -/

theorem toks_start : (p : Pat) → ∀ ks, Toks p ks → ∃ t r, ks = t :: r ∧ t ≠ .symbol .comma ∧ t ≠ .symbol .colon
  | .int _ _, ks, h => by rw [Toks] at h; exact ⟨_, _, h, by simp, by simp⟩
  | .float _, ks, h => by rw [Toks] at h; exact ⟨_, _, h, by simp, by simp⟩
  | .string _, ks, h => by rw [Toks] at h; exact ⟨_, _, h, by simp, by simp⟩
  | .var _, ks, h => by rw [Toks] at h; exact ⟨_, _, h, by simp, by simp⟩
  | .discard _, ks, h => by rw [Toks] at h; exact ⟨_, _, h, by simp, by simp⟩
  | .assign name p, ks, h => by
    rw [Toks] at h
    split at h
    · exact ⟨_, _, h, by simp, by simp⟩
    · obtain ⟨a, rfl, ha⟩ := h
      obtain ⟨t, r, rfl, ht⟩ := toks_start p a ha
      exact ⟨t, _, rfl, ht⟩
  | .stringPrefix left leftName right, ks, h => by
    cases leftName <;> (rw [Toks] at h; exact ⟨_, _, h, by simp, by simp⟩)
  | .tuple elements, ks, h => by
    rw [Toks] at h
    obtain ⟨a, c, rfl, _⟩ := h
    exact ⟨_, _, rfl, by simp, by simp⟩
  | .list .nil none, ks, h => by rw [Toks] at h; exact ⟨_, _, h, by simp, by simp⟩
  | .list .nil (some t), ks, h => by
    rw [Toks] at h
    cases t <;> exact ⟨_, _, h, by simp, by simp⟩
  | .list (.cons p ps) tail, ks, h => by
    unfold Toks at h
    obtain ⟨a, b, c, rfl, _⟩ := h
    exact ⟨_, _, rfl, by simp, by simp⟩
  | .ctor module name arguments spread, ks, h => by
    have hc : ∀ r, ∃ t r', constructorToks module name ++ r = t :: r' ∧ t ≠ .symbol .comma ∧ t ≠ .symbol .colon := by
      intro r
      cases module <;> exact ⟨_, _, rfl, by simp, by simp⟩
    rw [Toks] at h
    split at h
    · rw [h]
      exact hc _
    · obtain ⟨a, c, rfl, _⟩ := h
      exact hc _

theorem toks_not_label : (p : Pat) → ∀ ks, Toks p ks → ∀ rest : List Token, rest.head? ≠ some (.symbol .colon) →
    ∀ label r, ks ++ rest ≠ .name label :: .symbol .colon :: r
  | .int _ _, ks, h, rest, hr, label, r => by rw [Toks] at h; subst h; simp
  | .float _, ks, h, rest, hr, label, r => by rw [Toks] at h; subst h; simp
  | .string _, ks, h, rest, hr, label, r => by rw [Toks] at h; subst h; simp
  | .var _, ks, h, rest, hr, label, r => by
    rw [Toks] at h
    subst h
    intro e
    simp only [List.cons_append, List.nil_append, List.cons.injEq] at e
    rw [e.2] at hr
    simp at hr
  | .discard _, ks, h, rest, hr, label, r => by rw [Toks] at h; subst h; simp
  | .assign name p, ks, h, rest, hr, label, r => by
    rw [Toks] at h
    split at h
    · subst h
      intro e
      simp only [List.cons_append, List.nil_append, List.cons.injEq] at e
      rw [e.2] at hr
      simp at hr
    · obtain ⟨a, rfl, ha⟩ := h
      rw [List.append_assoc]
      exact toks_not_label p a ha _ (by simp) label r
  | .stringPrefix left leftName right, ks, h, rest, hr, label, r => by
    cases leftName <;> (rw [Toks] at h; subst h; simp)
  | .tuple elements, ks, h, rest, hr, label, r => by
    rw [Toks] at h
    obtain ⟨a, c, rfl, _⟩ := h
    simp
  | .list .nil none, ks, h, rest, hr, label, r => by rw [Toks] at h; subst h; simp
  | .list .nil (some t), ks, h, rest, hr, label, r => by
    rw [Toks] at h
    subst h
    cases t with
    | variable_ n =>
      intro e
      simp only [assignNameToks, List.cons_append, List.nil_append, List.cons.injEq] at e
      rw [e.2] at hr
      simp at hr
    | discard n => simp [assignNameToks]
  | .list (.cons p ps) tail, ks, h, rest, hr, label, r => by
    unfold Toks at h
    obtain ⟨a, b, c, rfl, _⟩ := h
    simp
  | .ctor module name arguments spread, ks, h, rest, hr, label, r => by
    have hc : ∀ s, constructorToks module name ++ s ≠ .name label :: .symbol .colon :: r := by
      intro s
      cases module <;> simp [constructorToks]
    rw [Toks] at h
    split at h
    · rw [h, List.append_assoc]
      exact hc _
    · obtain ⟨a, c, rfl, _⟩ := h
      rw [List.append_assoc]
      exact hc _

theorem pats_lead {p : Pat} {ps : Pats} {lead ks : List Token} (h : PatsToks lead (.cons p ps) ks) :
    ∃ ks', ks = lead ++ ks' ∧ PatsToks [] (.cons p ps) ks' ∧ ∃ t r, ks' = t :: r ∧ t ≠ .symbol .comma := by
  rw [PatsToks] at h
  obtain ⟨a, b, rfl, ha, hb⟩ := h
  obtain ⟨t, r, e, ht, _⟩ := toks_start p a ha
  refine ⟨a ++ b, rfl, by rw [PatsToks]; exact ⟨a, b, rfl, ha, hb⟩, t, r ++ b, by rw [e]; rfl, ht⟩

theorem args_lead {as : Args} {lead ks : List Token} (hn : as ≠ .nil) (h : ArgsToks lead as ks) :
    ∃ ks', ks = lead ++ ks' ∧ ArgsToks [] as ks' ∧ ∃ t r, ks' = t :: r ∧ t ≠ .symbol .comma := by
  cases as with
  | nil => exact absurd rfl hn
  | plain p as =>
    rw [ArgsToks] at h
    obtain ⟨a, b, rfl, ha, hb⟩ := h
    obtain ⟨t, r, e, ht, _⟩ := toks_start p a ha
    refine ⟨a ++ b, rfl, by rw [ArgsToks]; exact ⟨a, b, rfl, ha, hb⟩, t, r ++ b, by rw [e]; rfl, ht⟩
  | labelled label p as =>
    rw [ArgsToks] at h
    obtain ⟨a, b, rfl, ha, hb⟩ := h
    exact ⟨_, rfl, by rw [ArgsToks]; exact ⟨a, b, rfl, ha, hb⟩, _, _, rfl, by simp⟩
  | shorthand label as =>
    rw [ArgsToks] at h
    obtain ⟨b, rfl, hb⟩ := h
    exact ⟨_, rfl, by rw [ArgsToks]; exact ⟨b, rfl, hb⟩, _, _, rfl, by simp⟩

end Verif.Format
