import Verif.Format.PatternParse

/-!
# The tokens of a formatted pattern are parsed as its normal form
-/
namespace Verif.Format
open Verif.Lexer Verif.Lexer.Spec Verif.Format.Spec

section

/-- What stands after patterns: a comma or nothing, and a token that closes them. -/
theorem after_head {c : List Token} {t : Token} {rest : List Token} (hc : MaybeComma c) (ht : Close t) :
    ∃ s r, c ++ t :: rest = .symbol s :: r ∧ (s = .comma ∨ s = .rightParen ∨ s = .rightSquare ∨ s = .dotDot) := by
  rcases hc with rfl | rfl
  · rcases ht with rfl | rfl | rfl
    · exact ⟨_, _, rfl, by simp⟩
    · exact ⟨_, _, rfl, by simp⟩
    · exact ⟨_, _, rfl, by simp⟩
  · exact ⟨_, _, rfl, by simp⟩

theorem separator_base {s : Symbol} {r : List Token} (h : s = .comma ∨ s = .rightParen ∨ s = .rightSquare ∨ s = .dotDot) :
    Base (.symbol s :: r) ∧ NotAs (.symbol s :: r) ∧ (Token.symbol s :: r).head? ≠ some (.symbol .colon) := by
  refine ⟨base_symbol ?_, notAs_symbol, ?_⟩ <;> rcases h with rfl | rfl | rfl | rfl <;> simp

theorem normal_discard {p : Pat} (h : p.isDiscard = IsIgnored p) (name : Name) (int float : List Char → List Char) :
    normal int float (.assign name p) = if p.isDiscard then .var name else .assign name (normal int float p) := by
  rw [normal, h]

theorem isDiscard_eq (p : Pat) : p.isDiscard = IsIgnored p := by cases p <;> rfl

theorem parse_constructorName {fuel : Nat} {module : Option Name} {name : Name} {rest : List Token} :
    parsePattern (fuel + 1) (constructorToks module name ++ rest) = parseConstructor fuel module name rest := by
  cases module <;> (rw [parsePattern.eq_def]; rfl)

theorem constructorToks_length (module : Option Name) (name : Name) : 1 ≤ (constructorToks module name).length := by
  cases module <;> simp [constructorToks]

theorem next_argument {as : Args} {b c rest : List Token} {t : Token} {f : Nat} (hb : ArgsToks [.symbol .comma] as b)
    (hc : MaybeComma c) (ht : Close t) (hf : 2 * b.length ≤ f) (hf2 : 2 ≤ f)
    (ih : ∀ ks, ArgsToks [] as ks → as ≠ .nil → 2 * ks.length + 2 ≤ f →
      parseArguments f (ks ++ (c ++ t :: rest)) = some (normalArgs int float as, t :: rest))
    (g : Args → Args) (a : List Token)
    (h : ∀ s r, (s = .comma ∨ s = .rightParen ∨ s = .rightSquare ∨ s = .dotDot) →
      Argument f (a ++ .symbol s :: r) g (.symbol s :: r)) :
    parseArguments (f + 1) (a ++ (b ++ (c ++ t :: rest))) = some (g (normalArgs int float as), t :: rest) := by
  by_cases hn : as = .nil
  · subst hn
    rw [ArgsToks] at hb
    subst hb
    rw [normalArgs]
    rcases hc with rfl | rfl
    · obtain ⟨s, r, e1, hs⟩ := after_head (c := []) (rest := rest) (.inl rfl) ht
      have e2 := h s r hs
      simp only [List.nil_append] at e1 ⊢
      rw [← e1] at e2
      exact args_last e2 (by simpa using close_notComma ht)
    · obtain ⟨f, rfl⟩ : ∃ f', f = f' + 2 := ⟨f - 2, by omega⟩
      have e2 := args_more' (h .comma (t :: rest) (.inl rfl)) (by simpa using close_notComma ht)
      rw [args_close ht] at e2
      exact e2
  · obtain ⟨b', rfl, hb', x, r, e3, hx⟩ := args_lead hn hb
    simp only [List.length_append, List.length_cons, List.length_nil] at hf
    have e2 := args_more' (h .comma (b' ++ (c ++ t :: rest)) (.inl rfl)) (by rw [e3]; simpa using hx)
    rw [ih b' hb' hn (by omega)] at e2
    exact e2

mutual
theorem reads_pattern : (p : Pat) → Ok p → ∀ ks rest fuel, Toks p ks → Base rest → (IsAssign p → NotAs rest) →
    2 * ks.length ≤ fuel → parsePattern fuel (ks ++ rest) = finishAs (normal int float p) rest
  | .int v n, ok, ks, rest, fuel, h, hb, ha, hf => by
    rw [Toks] at h
    subst h
    obtain ⟨f, rfl⟩ : ∃ f, fuel = f + 1 := ⟨fuel - 1, by simp at hf; omega⟩
    rw [normal]
    exact parse_int
  | .float v, ok, ks, rest, fuel, h, hb, ha, hf => by
    rw [Toks] at h
    subst h
    obtain ⟨f, rfl⟩ : ∃ f, fuel = f + 1 := ⟨fuel - 1, by simp at hf; omega⟩
    rw [normal]
    exact parse_float
  | .string v, ok, ks, rest, fuel, h, hb, ha, hf => by
    rw [Toks] at h
    subst h
    obtain ⟨f, rfl⟩ : ∃ f, fuel = f + 1 := ⟨fuel - 1, by simp at hf; omega⟩
    rw [normal]
    exact parse_string hb
  | .var v, ok, ks, rest, fuel, h, hb, ha, hf => by
    rw [Toks] at h
    subst h
    obtain ⟨f, rfl⟩ : ∃ f, fuel = f + 1 := ⟨fuel - 1, by simp at hf; omega⟩
    rw [normal]
    exact parse_name hb
  | .discard v, ok, ks, rest, fuel, h, hb, ha, hf => by
    rw [Toks] at h
    subst h
    obtain ⟨f, rfl⟩ : ∃ f, fuel = f + 1 := ⟨fuel - 1, by simp at hf; omega⟩
    rw [normal]
    exact parse_discard hb
  | .assign name p, ok, ks, rest, fuel, h, hb, ha, hf => by
    rw [Toks] at h
    rw [Ok] at ok
    rw [normal_discard (isDiscard_eq p)]
    split at h
    next hd =>
      subst h
      obtain ⟨f, rfl⟩ : ∃ f, fuel = f + 1 := ⟨fuel - 1, by simp at hf; omega⟩
      rw [if_pos hd]
      exact parse_name hb
    next hd =>
      rw [if_neg hd]
      obtain ⟨a, rfl, ht⟩ := h
      rw [List.append_assoc, show [Token.keyword .as_, .name name] ++ rest = .keyword .as_ :: .name name :: rest from rfl]
      rw [reads_pattern p ok.2.2 a _ fuel ht (base_as hb) (fun h => absurd h ok.2.1) (by simp at hf; omega)]
      rw [finish_plain (ha trivial)]
      rfl
  | .stringPrefix left leftName right, ok, ks, rest, fuel, h, hb, ha, hf => by
    obtain ⟨f, rfl⟩ : ∃ f, fuel = f + 1 := by
      obtain ⟨t, r, rfl, _⟩ := toks_start _ _ h
      exact ⟨fuel - 1, by simp at hf; omega⟩
    rw [normal, ← parse_right hb]
    cases leftName with
    | none =>
      rw [Toks] at h
      subst h
      rw [parsePattern.eq_def]
      simp
    | some n =>
      rw [Toks] at h
      subst h
      rw [parsePattern.eq_def]
      simp
  | .tuple elements, ok, ks, rest, fuel, h, hb, ha, hf => by
    rw [Toks] at h
    rw [Ok] at ok
    obtain ⟨a, c, rfl, h1, h2, h3⟩ := h
    obtain ⟨f, rfl⟩ : ∃ f, fuel = f + 1 := ⟨fuel - 1, by simp at hf; omega⟩
    have e := reads_patterns elements ok a c (.symbol .rightParen) rest f h1 h2 h3 (.inl rfl) (by simp at hf; omega)
    rw [normal, parsePattern.eq_def]
    simp only [List.cons_append, List.nil_append, List.append_assoc]
    rw [e]
  | .list .nil none, ok, ks, rest, fuel, h, hb, ha, hf => by
    rw [Toks] at h
    subst h
    obtain ⟨f, rfl⟩ : ∃ f, fuel = f + 3 := ⟨fuel - 3, by simp at hf; omega⟩
    rw [normal, parsePattern.eq_def]
    simp only [List.cons_append, List.nil_append]
    rw [parses_close (.inr (.inl rfl))]
    rw [normals]
  | .list .nil (some t), ok, ks, rest, fuel, h, hb, ha, hf => by
    rw [Toks] at h
    subst h
    obtain ⟨f, rfl⟩ : ∃ f, fuel = f + 1 := by
      cases t <;> exact ⟨fuel - 1, by simp [assignNameToks] at hf; omega⟩
    rw [parse_assignName hb]
    cases t <;> rw [normal]
  | .list (.cons p ps) tail, ok, ks, rest, fuel, h, hb, ha, hf => by
    unfold Toks at h
    rw [Ok] at ok
    obtain ⟨a, b, c, rfl, h1, h2, h3⟩ := h
    have hp : PatsToks [] (.cons p ps) (a ++ b) := by rw [PatsToks]; exact ⟨a, b, rfl, h1, h2⟩
    obtain ⟨f, rfl⟩ : ∃ f, fuel = f + 2 := ⟨fuel - 2, by simp at hf; omega⟩
    cases tail with
    | none =>
      have e := reads_patterns (.cons p ps) ok.1 (a ++ b) c (.symbol .rightSquare) rest (f + 1) hp h3 (fun h => by cases h)
        (.inr (.inl rfl)) (by simp at hf ⊢; omega)
      rw [normal, parsePattern.eq_def]
      · simp only [List.cons_append, List.nil_append, List.append_assoc] at e ⊢
        rw [e]
    | some t =>
      simp only at h3
      subst h3
      have e := fun r => reads_patterns (.cons p ps) ok.1 (a ++ b) [.symbol .comma] (.symbol .dotDot) r (f + 1) hp (.inr rfl)
        (fun h => by cases h) (.inr (.inr rfl)) (by simp at hf ⊢; omega)
      rw [parsePattern.eq_def]
      cases t with
      | variable_ n =>
        simp only [tailToks, List.cons_append, List.nil_append, List.append_assoc] at e ⊢
        rw [e]
        simp only
        rw [parse_name (base_symbol (by simp)), finish_plain notAs_symbol, normal]
        intro h
        cases h
      | discard n =>
        simp only [tailToks, List.cons_append, List.nil_append, List.append_assoc] at e ⊢
        rw [e]
        simp only
        rw [parse_close (.inr (.inl rfl)), normal]
        intro h
        cases h
  | .ctor module name arguments spread, ok, ks, rest, fuel, h, hb, ha, hf => by
    rw [Toks] at h
    rw [Ok] at ok
    have hl := constructorToks_length module name
    rw [normal]
    split at h
    next hn =>
      have hn' : arguments = .nil := by
        cases arguments with
        | nil => rfl
        | _ => cases hn
      subst hn'
      subst h
      cases spread with
      | true =>
        simp only [if_true, List.length_append, List.length_cons, List.length_nil] at hf
        obtain ⟨f, rfl⟩ : ∃ f, fuel = f + 4 := ⟨fuel - 4, by omega⟩
        rw [List.append_assoc, parse_constructorName, parseConstructor.eq_def]
        simp only [if_true, List.cons_append, List.nil_append]
        rw [args_close (.inr (.inr rfl)), normalArgs]
      | false =>
        simp only [Bool.false_eq_true, if_false, List.append_nil] at hf ⊢
        obtain ⟨f, rfl⟩ : ∃ f, fuel = f + 2 := ⟨fuel - 2, by omega⟩
        rw [parse_constructorName, parseConstructor.eq_def]
        simp only
        rw [normalArgs]
        split
        · simp [Base] at hb
        · rfl
    next hn =>
      have hn' : arguments ≠ .nil := by
        rintro rfl
        exact hn rfl
      obtain ⟨a, c, rfl, h1, h2⟩ := h
      simp only [List.length_append, List.length_cons] at hf
      obtain ⟨f, rfl⟩ : ∃ f, fuel = f + 2 := ⟨fuel - 2, by omega⟩
      rw [List.append_assoc, parse_constructorName, parseConstructor.eq_def]
      cases spread with
      | true =>
        have e := fun r => reads_arguments arguments ok.2.2 a [.symbol .comma] (.symbol .dotDot) r f h1 (.inr rfl)
          (fun h => absurd h hn') (.inr (.inr rfl)) (by simp at hf; omega)
        simp only [if_true, List.cons_append, List.nil_append, List.append_assoc] at e ⊢
        rw [e]
        rcases h2 with rfl | rfl <;> rfl
      | false =>
        have e := fun r => reads_arguments arguments ok.2.2 a c (.symbol .rightParen) r f h1 h2
          (fun h => absurd h hn') (.inl rfl) (by simp at hf; omega)
        simp only [Bool.false_eq_true, if_false, List.cons_append, List.nil_append, List.append_assoc] at e ⊢
        rw [e]

theorem reads_patterns : (ps : Pats) → AllOk ps → ∀ ks c t rest fuel, PatsToks [] ps ks → MaybeComma c →
    (ps = .nil → c = []) → Close t → 2 * ks.length + 2 ≤ fuel →
    parsePatterns fuel (ks ++ (c ++ t :: rest)) = some (normals int float ps, t :: rest)
  | .nil, ok, ks, c, t, rest, fuel, h, hc, hn, ht, hf => by
    rw [PatsToks] at h
    subst h
    rw [hn rfl]
    obtain ⟨f, rfl⟩ : ∃ f, fuel = f + 2 := ⟨fuel - 2, by omega⟩
    rw [normals]
    exact parses_close ht
  | .cons p .nil, ok, ks, c, t, rest, fuel, h, hc, hn, ht, hf => by
    rw [PatsToks] at h
    obtain ⟨a, b, rfl, ha, hb⟩ := h
    rw [PatsToks] at hb
    subst hb
    rw [AllOk] at ok
    simp only [List.nil_append, List.append_nil] at hf ⊢
    obtain ⟨_, _, e, _⟩ := toks_start p a ha
    have hl : 1 ≤ a.length := by rw [e]; simp
    obtain ⟨f, rfl⟩ : ∃ f, fuel = f + 2 + 1 := ⟨fuel - 3, by omega⟩
    obtain ⟨s, r, e1, hs⟩ := after_head (rest := rest) hc ht
    have e2 := reads_pattern p ok.1 a (c ++ t :: rest) (f + 2) ha (e1 ▸ (separator_base hs).1)
      (fun _ => e1 ▸ (separator_base hs).2.1) (by omega)
    rw [finish_plain (e1 ▸ (separator_base hs).2.1)] at e2
    rw [normals, normals]
    rcases hc with rfl | rfl
    · exact parses_last e2 (by simpa using close_notComma ht)
    · rw [parses_more e2 (by simpa using close_notComma ht)]
      simp [parses_close ht]
  | .cons p (.cons q ps), ok, ks, c, t, rest, fuel, h, hc, hn, ht, hf => by
    rw [PatsToks] at h
    obtain ⟨a, b, rfl, ha, hb⟩ := h
    rw [AllOk] at ok
    obtain ⟨b', rfl, hb', x, r, e3, hx⟩ := pats_lead hb
    simp only [List.nil_append, List.length_append, List.length_cons, List.length_nil] at hf
    obtain ⟨f, rfl⟩ : ∃ f, fuel = f + 1 := ⟨fuel - 1, by omega⟩
    have e2 := reads_pattern p ok.1 a (.symbol .comma :: (b' ++ (c ++ t :: rest))) f ha (separator_base (.inl rfl)).1
      (fun _ => notAs_symbol) (by omega)
    rw [finish_plain notAs_symbol] at e2
    have e4 := reads_patterns (.cons q ps) ok.2 b' c t rest f hb' hc (fun h => by cases h) ht (by omega)
    have e5 := parses_more e2 (by rw [e3]; simpa using hx)
    rw [e4] at e5
    rw [normals]
    simpa using e5

theorem reads_arguments : (as : Args) → ArgsOk as → ∀ ks c t rest fuel, ArgsToks [] as ks → MaybeComma c →
    (as = .nil → c = []) → Close t → 2 * ks.length + 2 ≤ fuel →
    parseArguments fuel (ks ++ (c ++ t :: rest)) = some (normalArgs int float as, t :: rest)
  | .nil, ok, ks, c, t, rest, fuel, h, hc, hn, ht, hf => by
    rw [ArgsToks] at h
    subst h
    rw [hn rfl]
    obtain ⟨f, rfl⟩ : ∃ f, fuel = f + 2 := ⟨fuel - 2, by omega⟩
    rw [normalArgs]
    exact args_close ht
  | .plain p as, ok, ks, c, t, rest, fuel, h, hc, hn, ht, hf => by
    rw [ArgsToks] at h
    obtain ⟨a, b, rfl, ha, hb⟩ := h
    rw [ArgsOk] at ok
    simp only [List.nil_append, List.length_append] at hf
    obtain ⟨_, _, e, _⟩ := toks_start p a ha
    have hl : 1 ≤ a.length := by rw [e]; simp
    obtain ⟨f, rfl⟩ : ∃ f, fuel = f + 2 + 1 := ⟨fuel - 3, by omega⟩
    have e0 : [] ++ (a ++ b) ++ (c ++ t :: rest) = a ++ (b ++ (c ++ t :: rest)) := by simp
    rw [e0, normalArgs]
    refine next_argument hb hc ht (by omega) (by omega)
      (fun ks h1 h2 h3 => reads_arguments as ok.2 ks c t rest _ h1 hc (fun h => absurd h h2) ht h3)
      (.plain (normal int float p)) a fun s r hs => ?_
    have e2 := reads_pattern p ok.1 a (.symbol s :: r) (f + 2) ha (separator_base hs).1 (fun _ => notAs_symbol) (by omega)
    rw [finish_plain notAs_symbol] at e2
    exact .plain e2 (toks_not_label p a ha _ (separator_base hs).2.2)
  | .labelled label p as, ok, ks, c, t, rest, fuel, h, hc, hn, ht, hf => by
    rw [ArgsToks] at h
    obtain ⟨a, b, rfl, ha, hb⟩ := h
    rw [ArgsOk] at ok
    simp only [List.nil_append, List.length_append, List.length_cons, List.length_nil] at hf
    obtain ⟨f, rfl⟩ : ∃ f, fuel = f + 2 + 1 := ⟨fuel - 3, by omega⟩
    have e0 : [] ++ ([.name label, .symbol .colon] ++ a ++ b) ++ (c ++ t :: rest) =
        ([.name label, .symbol .colon] ++ a) ++ (b ++ (c ++ t :: rest)) := by simp
    rw [e0, normalArgs]
    refine next_argument hb hc ht (by omega) (by omega)
      (fun ks h1 h2 h3 => reads_arguments as ok.2.2 ks c t rest _ h1 hc (fun h => absurd h h2) ht h3)
      (.labelled label (normal int float p)) _ fun s r hs => ?_
    have e2 := reads_pattern p ok.2.1 a (.symbol s :: r) (f + 2) ha (separator_base hs).1 (fun _ => notAs_symbol) (by omega)
    rw [finish_plain notAs_symbol] at e2
    exact .labelled e2
  | .shorthand label as, ok, ks, c, t, rest, fuel, h, hc, hn, ht, hf => by
    rw [ArgsToks] at h
    obtain ⟨b, rfl, hb⟩ := h
    rw [ArgsOk] at ok
    simp only [List.nil_append, List.length_append, List.length_cons, List.length_nil] at hf
    obtain ⟨f, rfl⟩ : ∃ f, fuel = f + 2 + 1 := ⟨fuel - 3, by omega⟩
    have e0 : [] ++ ([.name label, .symbol .colon] ++ b) ++ (c ++ t :: rest) =
        [.name label, .symbol .colon] ++ (b ++ (c ++ t :: rest)) := by simp
    rw [e0, normalArgs]
    refine next_argument hb hc ht (by omega) (by omega)
      (fun ks h1 h2 h3 => reads_arguments as ok.2 ks c t rest _ h1 hc (fun h => absurd h h2) ht h3)
      (.shorthand label) _ fun s r hs => ?_
    refine .shorthand ?_
    rcases hs with rfl | rfl | rfl | rfl
    · exact parse_comma
    · exact parse_close (.inl rfl)
    · exact parse_close (.inr (.inl rfl))
    · exact parse_close (.inr (.inr rfl))
end

end
end Verif.Format
