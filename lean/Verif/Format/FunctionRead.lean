import Verif.Format.FunctionSeen
import Verif.Format.DefinitionRead

/-!
# The tokens of a formatted signature are read as its normal form, and a signature that is read can be written
-/
namespace Verif.Format
open Verif.Lexer Verif.Lexer.Spec Verif.Format.Spec Verif.TypeText
open Verif.Pretty (Doc)

/-- The parameter with its annotation in its normal form. -/
def normalArg (a : Arg) : Arg := ⟨a.names, a.annotation.map normalType⟩

theorem reads_annotation {s : Symbol} {o : Option TypeAst} (ok : ∀ t, o = some t → TypeOk t) {ks rest : List Token}
    (h : AnnotationToks s o ks) (ha : After rest) (hr : rest.head? ≠ some (.symbol s)) :
    parseTypeAnnotation s (ks ++ rest) = some (o.map normalType, rest) := by
  cases o with
  | none =>
    have h : ks = [] := h
    subst h
    rw [List.nil_append]
    unfold parseTypeAnnotation
    split
    · rw [if_neg (by simpa using hr)]
      rfl
    · rfl
  | some t =>
    obtain ⟨a, h, rfl⟩ := h
    have h1 := reads_type t (ok t rfl) a rest (2 * (a ++ rest).length + 2) h ha (by simp; omega)
    unfold parseTypeAnnotation
    simp only [List.cons_append, if_true]
    rw [h1]
    rfl

theorem reads_argNames {names : ArgNames} {rest : List Token}
    (h : ∀ n, rest.head? ≠ some (.name n) ∧ rest.head? ≠ some (.discardName n)) :
    parseArgNames (argNamesToks names ++ rest) = (some names, rest) := by
  cases names with
  | named n =>
    unfold parseArgNames argNamesToks
    simp only [List.cons_append, List.nil_append]
    split
    · next e => cases e; exact absurd rfl (h _).2
    · next e => cases e
    · next e => cases e; exact absurd rfl (h _).1
    · next e => cases e; rfl
    · next e => exact absurd rfl (e _ _)
  | discard n => rfl
  | namedLabelled l n => rfl
  | labelledDiscard l n => rfl

theorem reads_arg {a : Arg} (ok : ∀ t, a.annotation = some t → TypeOk t) {ks rest : List Token} (h : ParamToks a ks)
    (hr : ∃ s r, rest = .symbol s :: r ∧ s ≠ .dot ∧ s ≠ .leftParen ∧ s ≠ .less ∧ s ≠ .colon) :
    parseArg (ks ++ rest) = some (some (normalArg a), rest) := by
  obtain ⟨names, annotation⟩ := a
  obtain ⟨b, h, rfl⟩ := h
  obtain ⟨s, r, rfl, h1, h2, h3, h4⟩ := hr
  have h5 := reads_annotation (rest := .symbol s :: r) ok h (after_symbol ⟨h1, h2, h3⟩) (by simpa using h4)
  have h6 : parseArgNames (argNamesToks names ++ (b ++ .symbol s :: r)) = (some names, b ++ .symbol s :: r) := by
    refine reads_argNames fun n => ?_
    cases annotation with
    | none => have h : b = [] := h; subst h; simp
    | some t => obtain ⟨a, _, rfl⟩ := h; simp
  unfold parseArg
  rw [List.append_assoc, h6]
  simp only
  rw [h5]
  rfl

theorem paramToks_head {a : Arg} {ks : List Token} (h : ParamToks a ks) : ∃ k r, ks = k :: r ∧ k ≠ .symbol .comma := by
  obtain ⟨names, annotation⟩ := a
  obtain ⟨b, h, rfl⟩ := h
  cases names <;> exact ⟨_, _, rfl, by simp⟩

theorem args_none {fuel : Nat} {rest : List Token} :
    parseArgs (fuel + 1) (.symbol .rightParen :: rest) = some ([], .symbol .rightParen :: rest) := rfl

theorem reads_args {rest : List Token} : (xs : List Arg) → ∀ {x : Arg} {a b c : List Token} {fuel : Nat},
    (∀ g ∈ x :: xs, ∀ t, g.annotation = some t → TypeOk t) → ParamToks x a → ParamsToks xs b → MaybeComma c →
    xs.length + 1 < fuel →
    parseArgs fuel (a ++ (b ++ (c ++ .symbol .rightParen :: rest))) =
      some ((x :: xs).map normalArg, .symbol .rightParen :: rest)
  | [], x, a, b, c, fuel, ok, ha, hb, hc, hf => by
    rw [ParamsToks] at hb
    subst hb
    obtain ⟨k, rfl⟩ : ∃ k, fuel = k + 2 := ⟨fuel - 2, by simp at hf; omega⟩
    rw [parseArgs.eq_def]
    simp only [List.nil_append]
    rcases hc with rfl | rfl
    · rw [List.nil_append, reads_arg (ok x (by simp)) ha ⟨_, _, rfl, by simp⟩]
      rfl
    · rw [List.cons_append, List.nil_append, reads_arg (ok x (by simp)) ha ⟨_, _, rfl, by simp⟩]
      simp only
      rw [args_none]
      rfl
  | g :: xs, x, a, b, c, fuel, ok, ha, hb, hc, hf => by
    obtain ⟨u, y, rfl, hx, hy⟩ := hb
    simp only [List.length_cons] at hf
    obtain ⟨k, rfl⟩ : ∃ k, fuel = k + 1 := ⟨fuel - 1, by omega⟩
    have h := reads_args (rest := rest) xs (fuel := k) (fun u hu => ok u (by simp [List.mem_cons.1 hu])) hx hy hc (by omega)
    obtain ⟨t, r, hq, hne⟩ := paramToks_head hx
    rw [parseArgs.eq_def]
    simp only [List.cons_append, List.append_assoc]
    rw [reads_arg (ok x (by simp)) ha ⟨_, _, rfl, by simp⟩]
    simp only
    rw [hq] at h ⊢
    simp only [List.cons_append] at h ⊢
    split
    · next e => cases e; exact absurd rfl hne
    · rw [h]
      rfl

theorem paramsToks_length : (xs : List Arg) → ∀ {ks : List Token}, ParamsToks xs ks → xs.length ≤ ks.length
  | [], _, _ => by simp
  | x :: xs, ks, h => by
    obtain ⟨a, b, rfl, _, hb⟩ := h
    have := paramsToks_length xs hb
    simp only [List.length_cons, List.length_append]
    omega

theorem reads_allArgs {xs : List Arg} (ok : ∀ g ∈ xs, ∀ t, g.annotation = some t → TypeOk t) {ks rest : List Token}
    (h : AllArgsToks xs ks) :
    parseArgs ((ks ++ .symbol .rightParen :: rest).length + 1) (ks ++ .symbol .rightParen :: rest) =
      some (xs.map normalArg, .symbol .rightParen :: rest) := by
  rcases h with ⟨rfl, rfl⟩ | ⟨x, more, a, b, c, rfl, ha, hb, hc, rfl⟩
  · exact args_none
  · rw [List.append_assoc, List.append_assoc]
    refine reads_args more ok ha hb hc ?_
    obtain ⟨k, r, rfl, _⟩ := paramToks_head ha
    have := paramsToks_length more hb
    simp only [List.length_append, List.length_cons]
    omega

theorem reads_signature {s : Signature} (ok : SignatureOk s) {ks rest : List Token} (h : SignatureToks s ks) (ha : After rest)
    (hr : rest.head? ≠ some (.symbol .colon) ∧ rest.head? ≠ some (.symbol .rArrow)) :
    parseFunction (allToks s.attributes ++ ks ++ rest) = some (normalSignature s, rest) := by
  obtain ⟨attributes, isPublic, name, arguments, returns⟩ := s
  obtain ⟨_, _, _, h0, _, h2, h3⟩ := ok
  obtain ⟨ps, r, hp, hret, rfl⟩ := h
  have h4 := reads_allArgs (rest := r ++ rest) (fun g hg => (h2 g hg).2) hp
  have h5 := reads_annotation h3 hret ha hr.2
  have h6 : parseSignature attributes isPublic (.name name :: .symbol .leftParen :: (ps ++ .symbol .rightParen :: (r ++ rest))) =
      some (normalSignature ⟨attributes, isPublic, name, arguments, returns⟩, rest) := by
    unfold parseSignature
    simp only
    rw [h4]
    simp only
    split
    · next e =>
      exfalso
      cases returns with
      | none =>
        have hret : r = [] := hret
        subst hret
        rw [List.nil_append] at e
        rw [e] at hr
        exact hr.1 rfl
      | some t => obtain ⟨a, _, rfl⟩ := hret; cases e
    · rw [h5]
      simp only
      rw [if_neg]
      · rfl
      · intro hh
        simp only [Bool.and_eq_true, Bool.not_eq_true'] at hh
        have := h0 hh.1
        simp only at this
        rw [this] at hh
        cases hh.2
  unfold parseFunction
  cases isPublic with
  | false =>
    simp only [Bool.false_eq_true, if_false, List.nil_append, List.append_assoc, List.cons_append] at h6 ⊢
    rw [reads_attributes attributes (by simp)]
    exact h6
  | true =>
    simp only [if_true, List.nil_append, List.append_assoc, List.cons_append] at h6 ⊢
    rw [reads_attributes attributes (by simp)]
    exact h6

/-! ### What is read can be written -/

theorem parseTypeAnnotation_ok {s : Symbol} {ks : List Token} (h : Spelled ks) {o : Option TypeAst} {rest : List Token}
    (e : parseTypeAnnotation s ks = some (o, rest)) : Spelled rest ∧ ∀ t, o = some t → TypeOk t := by
  unfold parseTypeAnnotation at e
  split at e
  · split at e
    · split at e
      · next e1 =>
        cases e
        have h2 := (typeParsers_ok _).1 _ (spelled_cons h).2 _ _ e1
        exact ⟨h2.1, fun t e => by cases e; exact h2.2 _ rfl⟩
      · cases e
    · cases e
      exact ⟨h, by simp⟩
  · cases e
    exact ⟨h, by simp⟩

theorem parseArgNames_ok {ks : List Token} (h : Spelled ks) {o : Option ArgNames} {rest : List Token}
    (e : parseArgNames ks = (o, rest)) : Spelled rest ∧ ∀ n, o = some n → ArgNamesOk n := by
  unfold parseArgNames at e
  split at e
  · cases e
    have h1 := spelled_cons h
    have h2 := spelled_cons h1.2
    exact ⟨h2.2, fun n e => by cases e; exact ⟨spelled_name h1.1, spelled_discard h2.1⟩⟩
  · cases e
    have h1 := spelled_cons h
    exact ⟨h1.2, fun n e => by cases e; exact spelled_discard h1.1⟩
  · cases e
    have h1 := spelled_cons h
    have h2 := spelled_cons h1.2
    exact ⟨h2.2, fun n e => by cases e; exact ⟨spelled_name h1.1, spelled_name h2.1⟩⟩
  · cases e
    have h1 := spelled_cons h
    exact ⟨h1.2, fun n e => by cases e; exact spelled_name h1.1⟩
  · cases e
    exact ⟨h, by simp⟩

theorem parseArg_ok {ks : List Token} (h : Spelled ks) {o : Option Arg} {rest : List Token}
    (e : parseArg ks = some (o, rest)) :
    Spelled rest ∧ ∀ a, o = some a → ArgNamesOk a.names ∧ ∀ t, a.annotation = some t → TypeOk t := by
  unfold parseArg at e
  split at e
  · next e1 =>
    cases e
    exact ⟨(parseArgNames_ok h e1).1, by simp⟩
  · next e1 =>
    have h1 := parseArgNames_ok h e1
    split at e
    · cases e
    · next e2 =>
      cases e
      have h2 := parseTypeAnnotation_ok h1.1 e2
      exact ⟨h2.1, fun a e => by cases e; exact ⟨h1.2 _ rfl, h2.2⟩⟩

theorem parseArgs_ok : (fuel : Nat) → ∀ {ks : List Token}, Spelled ks → ∀ {xs : List Arg} {rest : List Token},
    parseArgs fuel ks = some (xs, rest) →
    Spelled rest ∧ ∀ a ∈ xs, ArgNamesOk a.names ∧ ∀ t, a.annotation = some t → TypeOk t
  | 0, _, _, _, _, e => by cases e
  | fuel + 1, ks, h, xs, rest, e => by
    rw [parseArgs.eq_def] at e
    simp only at e
    split at e
    · cases e
    · next e1 =>
      cases e
      exact ⟨(parseArg_ok h e1).1, by simp⟩
    · next e1 =>
      have h1 := parseArg_ok h e1
      split at e
      · split at e
        · cases e
        · obtain ⟨q, e2, e3⟩ := Option.map_eq_some_iff.1 e
          cases e3
          have h2 := parseArgs_ok fuel (spelled_cons h1.1).2 e2
          refine ⟨h2.1, fun f hf => ?_⟩
          rcases List.mem_cons.1 hf with rfl | hf
          · exact h1.2 _ rfl
          · exact h2.2 f hf
      · cases e
        exact ⟨h1.1, fun f hf => by cases List.mem_singleton.1 hf; exact h1.2 _ rfl⟩

theorem parseSignature_ok {a : Attributes} (ha : StringsOk a) {isPublic : Bool} {ks : List Token} (h : Spelled ks)
    {s : Signature} {rest : List Token} (e : parseSignature a isPublic ks = some (s, rest)) :
    SignatureOk s ∧ Spelled rest := by
  unfold parseSignature at e
  split at e
  · have h1 := spelled_cons h
    split at e
    · next e1 =>
      have h2 := parseArgs_ok _ (spelled_cons h1.2).2 e1
      have h3 := (spelled_cons h2.1).2
      split at e
      · cases e
      · split at e
        · cases e
        · next e2 =>
          have h4 := parseTypeAnnotation_ok h3 e2
          split at e
          · cases e
          · next n1 =>
            cases e
            exact ⟨⟨ha.1, ha.2.1, ha.2.2, by simpa using n1, spelled_name h1.1, h2.2, h4.2⟩, h4.1⟩
    · cases e
  · cases e

theorem parseFunction_ok {ks : List Token} (h : Spelled ks) {s : Signature} {rest : List Token}
    (e : parseFunction ks = some (s, rest)) : SignatureOk s ∧ Spelled rest := by
  unfold parseFunction at e
  split at e
  · cases e
  · next e1 =>
    obtain ⟨h1, h2⟩ := parseAttributes_ok _ h ⟨by simp [Attributes.default], by simp [Attributes.default],
      by simp [Attributes.default]⟩ e1
    split at e
    · exact parseSignature_ok h1 (spelled_cons h2).2 e
    · exact parseSignature_ok h1 (spelled_cons (spelled_cons h2).2).2 e
    · cases e

theorem read_function_ok {source : List Char} {s : Signature} {rest : List Token}
    (h : readFunction source = some (s, rest)) : SignatureOk s := by
  have hg : Spelled (visible ((tokens source).1.map (·.token))) := by
    intro k hk
    obtain ⟨h1, h2⟩ := List.mem_filter.1 hk
    obtain ⟨t, ht, rfl⟩ := List.mem_map.1 h1
    obtain ⟨x, hx, _⟩ := span_of_token_is_its_text source t ht (by cases hk : t.token <;> simp_all [Inner])
    exact ⟨x, hx⟩
  unfold readFunction at h
  generalize tokens source = r at h hg
  obtain ⟨ts, e⟩ := r
  cases e with
  | some e => cases h
  | none => exact (parseFunction_ok hg h).1

end Verif.Format
