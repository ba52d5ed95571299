import Verif.TypeText.Lex

/-!
# The syntax tree of the text of a type
-/
namespace Verif.TypeText
open Lexer Lexer.Spec

mutual
/-- The syntax tree of a type. -/
def astOf (nt : Name → Name → Option Name × Name) (nv : Nat → Name) : Ty → TypeAst
  | .named m t arguments => .constructor (nt m t).1 (some (nt m t).2) (astsOf nt nv arguments) (!arguments.isEmpty)
  | .fn arguments ret => .fn (astsOf nt nv arguments) (astOf nt nv ret)
  | .tuple elements => .tuple (astsOf nt nv elements)
  | .var id => .var (nv id)
  | .link t => astOf nt nv t

/-- The syntax trees of several types. -/
def astsOf (nt : Name → Name → Option Name × Name) (nv : Nat → Name) : List Ty → List TypeAst
  | [] => []
  | t :: ts => astOf nt nv t :: astsOf nt nv ts
end

/-- What may follow a type. -/
def Follows (rest : List Token) : Prop :=
  rest.head? ≠ some (.symbol .dot) ∧ rest.head? ≠ some (.symbol .leftParen) ∧ rest.head? ≠ some (.symbol .less)

section
variable {nt : Name → Name → Option Name × Name} {nv : Nat → Name}

theorem follows_cons {s : Symbol} {rest : List Token} (h : s = .comma ∨ s = .rightParen) : Follows (.symbol s :: rest) := by
  rcases h with rfl | rfl <;> simp [Follows]

theorem finish_plain {fuel : Nat} {m n : Option Name} {rest : List Token} (h : Follows rest) :
    parseTypeNameFinish (fuel + 1) m n rest = some (some (.constructor m n [] false), rest) := by
  rw [parseTypeNameFinish.eq_def]
  simp only
  split
  · simp [Follows] at h
  · simp [Follows] at h
  · rfl

theorem parse_var {fuel : Nat} {n : Name} {rest : List Token} (h : Follows rest) :
    parseType (fuel + 1) (.name n :: rest) = some (some (.var n), rest) := by
  rw [parseType.eq_def]
  simp only
  split
  · simp [Follows] at h
  · rfl

theorem parse_name {fuel : Nat} {parts : Option Name × Name} {rest : List Token} :
    parseType (fuel + 1) (nameTokens parts ++ rest) = parseTypeNameFinish fuel parts.1 (some parts.2) rest := by
  obtain ⟨q, t⟩ := parts
  cases q <;> (rw [parseType.eq_def]; rfl)

theorem nameTokens_length (parts : Option Name × Name) : 1 ≤ (nameTokens parts).length := by
  obtain ⟨q, t⟩ := parts
  cases q <;> simp [nameTokens]

theorem finish_paren {fuel : Nat} {m : Option Name} {n : Name} {rest rest' : List Token} {args : List TypeAst}
    (h : parseTypes fuel rest = some (args, .symbol .rightParen :: rest')) :
    parseTypeNameFinish (fuel + 1) m (some n) (.symbol .leftParen :: rest) =
      some (some (.constructor m (some n) args true), rest') := by
  rw [parseTypeNameFinish.eq_def]
  simp only
  rw [h]

theorem parse_fn {fuel : Nat} {rest rest' rest'' : List Token} {args : List TypeAst} {ret : TypeAst}
    (h : parseTypes fuel rest = some (args, .symbol .rightParen :: .symbol .rArrow :: rest'))
    (h2 : parseType fuel rest' = some (some ret, rest'')) :
    parseType (fuel + 1) (.keyword .fn_ :: .symbol .leftParen :: rest) = some (some (.fn args ret), rest'') := by
  rw [parseType.eq_def]
  simp only
  rw [h]
  simp only
  rw [h2]

theorem parse_tuple {fuel : Nat} {rest rest' : List Token} {args : List TypeAst}
    (h : parseTypes fuel rest = some (args, .symbol .rightParen :: rest')) :
    parseType (fuel + 1) (.symbol .hash :: .symbol .leftParen :: rest) = some (some (.tuple args), rest') := by
  rw [parseType.eq_def]
  simp only
  rw [h]

/-- The first token of a type is not a comma. -/
theorem tokensOf_head (t : Ty) (rest : List Token) : ∃ k r, tokensOf nt nv t ++ rest = k :: r ∧ k ≠ .symbol .comma := by
  match t with
  | .named m n arguments =>
    unfold tokensOf
    obtain ⟨q, s⟩ := nt m n
    cases q <;> exact ⟨_, _, rfl, by simp⟩
  | .fn arguments ret => unfold tokensOf; exact ⟨_, _, rfl, by simp⟩
  | .tuple elements => unfold tokensOf; exact ⟨_, _, rfl, by simp⟩
  | .var id => unfold tokensOf; exact ⟨_, _, rfl, by simp⟩
  | .link t => unfold tokensOf; exact tokensOf_head t rest

theorem tokensOf_length (t : Ty) : 1 ≤ (tokensOf nt nv t).length := by
  obtain ⟨k, r, h, _⟩ := tokensOf_head (nt := nt) (nv := nv) t []
  rw [List.append_nil] at h
  rw [h]
  simp

mutual
theorem parses_type {rest : List Token} (hf : Follows rest) : (t : Ty) → ∀ fuel, 2 * (tokensOf nt nv t).length ≤ fuel →
    parseType fuel (tokensOf nt nv t ++ rest) = some (some (astOf nt nv t), rest)
  | .named m n arguments, fuel, hl => by
    unfold tokensOf at hl ⊢
    have hn := nameTokens_length (nt m n)
    cases arguments with
    | nil =>
      simp only [List.isEmpty_nil, if_true, List.append_nil] at hl ⊢
      obtain ⟨k, rfl⟩ : ∃ k, fuel = k + 2 := ⟨fuel - 2, by omega⟩
      rw [parse_name, finish_plain hf]
      rfl
    | cons a as =>
      simp only [List.isEmpty_cons, Bool.false_eq_true, if_false, List.length_append, List.length_cons,
        List.length_nil] at hl ⊢
      obtain ⟨k, rfl⟩ : ∃ k, fuel = k + 2 := ⟨fuel - 2, by omega⟩
      rw [List.append_assoc, parse_name, List.cons_append, List.cons_append, List.append_assoc]
      simp only [List.singleton_append]
      rw [finish_paren (parses_types (rest := rest) (a :: as) k (by omega))]
      rfl
  | .fn arguments ret, fuel, hl => by
    unfold tokensOf at hl ⊢
    simp only [List.length_append, List.length_cons, List.length_nil] at hl
    obtain ⟨k, rfl⟩ : ∃ k, fuel = k + 1 := ⟨fuel - 1, by omega⟩
    simp only [List.cons_append, List.nil_append, List.append_assoc]
    have h1 := parses_types (rest := .symbol .rArrow :: (tokensOf nt nv ret ++ rest)) arguments k (by omega)
    rw [parse_fn h1 (parses_type hf ret k (by omega))]
    rfl
  | .tuple elements, fuel, hl => by
    unfold tokensOf at hl ⊢
    simp only [List.length_append, List.length_cons, List.length_nil] at hl
    obtain ⟨k, rfl⟩ : ∃ k, fuel = k + 1 := ⟨fuel - 1, by omega⟩
    simp only [List.cons_append, List.nil_append, List.append_assoc]
    rw [parse_tuple (parses_types (rest := rest) elements k (by omega))]
    rfl
  | .var id, fuel, hl => by
    unfold tokensOf at hl ⊢
    simp only [List.length_cons, List.length_nil] at hl
    obtain ⟨k, rfl⟩ : ∃ k, fuel = k + 1 := ⟨fuel - 1, by omega⟩
    exact parse_var hf
  | .link t, fuel, hl => by
    unfold tokensOf at hl ⊢
    exact parses_type hf t fuel hl

theorem parses_types {rest : List Token} : (ts : List Ty) → ∀ fuel, 2 * (tokenssOf nt nv ts).length + 2 ≤ fuel →
    parseTypes fuel (tokenssOf nt nv ts ++ .symbol .rightParen :: rest) =
      some (astsOf nt nv ts, .symbol .rightParen :: rest)
  | [], fuel, hl => by
    obtain ⟨k, rfl⟩ : ∃ k, fuel = k + 2 := ⟨fuel - 2, by omega⟩
    rw [parseTypes.eq_def]
    simp only
    rw [tokenssOf, List.nil_append, parseType.eq_def]
    rfl
  | [t], fuel, hl => by
    unfold tokenssOf at hl ⊢
    obtain ⟨k, rfl⟩ : ∃ k, fuel = k + 1 := ⟨fuel - 1, by omega⟩
    rw [parseTypes.eq_def]
    simp only
    rw [parses_type (follows_cons (by simp)) t k (by omega)]
    rfl
  | t :: u :: ts, fuel, hl => by
    unfold tokenssOf at hl ⊢
    have h1 := tokensOf_length (nt := nt) (nv := nv) t
    simp only [List.length_append, List.length_cons, List.length_nil] at hl
    obtain ⟨k, rfl⟩ : ∃ k, fuel = k + 1 := ⟨fuel - 1, by omega⟩
    rw [parseTypes.eq_def]
    simp only [List.append_assoc, List.cons_append, List.nil_append]
    rw [parses_type (follows_cons (by simp)) t k (by omega)]
    simp only
    have h2 := parses_types (rest := rest) (u :: ts) k (by omega)
    rw [h2]
    split
    · rename_i h3
      exfalso
      have h4 : ∃ x r, tokenssOf nt nv (u :: ts) ++ .symbol .rightParen :: rest = x :: r ∧ x ≠ .symbol .comma := by
        cases ts with
        | nil => unfold tokenssOf; exact tokensOf_head u _
        | cons v ts => unfold tokenssOf; rw [List.append_assoc, List.append_assoc]; exact tokensOf_head u _
      obtain ⟨x, r, h5, h6⟩ := h4
      rw [h5] at h3
      cases h3
      exact h6 rfl
    · rfl
end

end
end Verif.TypeText
