import Verif.Format.AnnotationSeen
import Verif.TypeText.Parse

/-!
# The tokens of a formatted type annotation are read as its normal form
-/
namespace Verif.Format
open Verif.Lexer Verif.Lexer.Spec Verif.Format.Spec Verif.TypeText

/-- What may follow an annotation. -/
def After (rest : List Token) : Prop := Follows rest ∧ ∀ n, rest.head? ≠ some (.upName n)

theorem after_symbol {s : Symbol} {rest : List Token} (h : s ≠ .dot ∧ s ≠ .leftParen ∧ s ≠ .less) :
    After (.symbol s :: rest) := by
  refine ⟨⟨by simpa using h.1, by simpa using h.2.1, by simpa using h.2.2⟩, by simp⟩

theorem parse_typeName {fuel : Nat} {module : Option Name} {n : Name} {rest : List Token} :
    parseType (fuel + 1) (typeNameToks module (some n) ++ rest) = parseTypeNameFinish fuel module (some n) rest := by
  cases module <;> (rw [parseType.eq_def]; rfl)

theorem parse_typeName_none {fuel : Nat} {m : Name} {rest : List Token} (h : After rest) :
    parseType (fuel + 1) (typeNameToks (some m) none ++ rest) = parseTypeNameFinish fuel (some m) none rest := by
  rw [parseType.eq_def]
  simp only [typeNameToks, List.append_nil, List.cons_append, List.nil_append]
  split
  · simp [After] at h
  · rfl

/-- The first token of an annotation is not a comma. -/
theorem typeToks_head {t : TypeAst} {ks : List Token} (ok : TypeOk t) (h : TypeToks t ks) :
    ∃ k r, ks = k :: r ∧ k ≠ .symbol .comma := by
  have key : ∀ (module name : Option Name) (rest : List Token), (name = none → module ≠ none) →
      ∃ k r, typeNameToks module name ++ rest = k :: r ∧ k ≠ .symbol .comma := by
    intro module name rest h
    cases module with
    | some m => exact ⟨_, _, rfl, by simp⟩
    | none =>
      cases name with
      | some n => exact ⟨_, _, rfl, by simp⟩
      | none => exact absurd rfl (h rfl)
  match t with
  | .hole name => rw [TypeToks] at h; exact ⟨_, _, h, by simp⟩
  | .var name => rw [TypeToks] at h; exact ⟨_, _, h, by simp⟩
  | .constructor module name [] p =>
    rw [TypeToks] at h
    rw [TypeOk] at ok
    subst h
    simpa using key module name [] (fun e => (ok.2.2.1 e).1)
  | .constructor module name (a :: as) p =>
    rw [TypeToks] at h
    rw [TypeOk] at ok
    obtain ⟨x, y, c, rfl, _⟩ := h
    exact key module name _ (fun e => (ok.2.2.1 e).1)
  | .fn arguments ret =>
    rw [TypeToks] at h
    obtain ⟨a, c, b, rfl, _⟩ := h
    exact ⟨_, _, rfl, by simp⟩
  | .tuple elements =>
    rw [TypeToks] at h
    obtain ⟨a, c, rfl, _⟩ := h
    exact ⟨_, _, rfl, by simp⟩

theorem parse_none {fuel : Nat} {rest : List Token} :
    parseTypes (fuel + 2) (.symbol .rightParen :: rest) = some ([], .symbol .rightParen :: rest) := by
  rw [parseTypes.eq_def]
  simp only
  rw [parseType.eq_def]

theorem parse_one {fuel : Nat} {ks rest : List Token} {t : TypeAst}
    (h : parseType fuel ks = some (some t, .symbol .rightParen :: rest)) :
    parseTypes (fuel + 1) ks = some ([t], .symbol .rightParen :: rest) := by
  rw [parseTypes.eq_def]
  simp only
  rw [h]

theorem parse_more {fuel : Nat} {ks rest rest' : List Token} {t : TypeAst} {ts : List TypeAst}
    (h : parseType fuel ks = some (some t, .symbol .comma :: rest)) (hc : rest.head? ≠ some (.symbol .comma))
    (h2 : parseTypes fuel rest = some (ts, rest')) :
    parseTypes (fuel + 1) ks = some (t :: ts, rest') := by
  rw [parseTypes.eq_def]
  simp only
  rw [h]
  simp only
  split
  · simp at hc
  · rw [h2]
    rfl

theorem typeNameToks_length {module name : Option Name} (h : name = none → module ≠ none) :
    1 ≤ (typeNameToks module name).length := by
  cases module <;> cases name <;> simp_all [typeNameToks]

mutual
theorem reads_type : (t : TypeAst) → TypeOk t → ∀ ks rest fuel, TypeToks t ks → After rest → 2 * ks.length ≤ fuel →
    parseType fuel (ks ++ rest) = some (some (normalType t), rest)
  | .hole name, _, ks, rest, fuel, h, ha, hl => by
    rw [TypeToks] at h
    subst h
    obtain ⟨k, rfl⟩ : ∃ k, fuel = k + 1 := ⟨fuel - 1, by simp at hl; omega⟩
    rw [parseType.eq_def, normalType]
    rfl
  | .var name, _, ks, rest, fuel, h, ha, hl => by
    rw [TypeToks] at h
    subst h
    obtain ⟨k, rfl⟩ : ∃ k, fuel = k + 1 := ⟨fuel - 1, by simp at hl; omega⟩
    rw [normalType]
    exact parse_var ha.1
  | .constructor module name [] p, ok, ks, rest, fuel, h, ha, hl => by
    rw [TypeToks] at h
    rw [TypeOk] at ok
    subst h
    have h1 := typeNameToks_length (fun e => (ok.2.2.1 e).1)
    obtain ⟨k, rfl⟩ : ∃ k, fuel = k + 2 := ⟨fuel - 2, by omega⟩
    rw [normalType, normalTypes]
    cases name with
    | some n => rw [parse_typeName, TypeText.finish_plain ha.1]; rfl
    | none =>
      cases module with
      | none => exact absurd rfl (ok.2.2.1 rfl).1
      | some m => rw [parse_typeName_none ha, TypeText.finish_plain ha.1]; rfl
  | .constructor module name (a :: as) p, ok, ks, rest, fuel, h, ha, hl => by
    rw [TypeToks] at h
    rw [TypeOk] at ok
    obtain ⟨x, y, c, rfl, hx, hy, hc⟩ := h
    obtain ⟨n, rfl⟩ : ∃ n, name = some n := by
      cases name with
      | none => exact absurd (ok.2.2.1 rfl).2 (by simp)
      | some n => exact ⟨n, rfl⟩
    have h1 := typeNameToks_length (module := module) (name := some n) (by simp)
    simp only [List.length_append, List.length_cons, List.length_nil] at hl
    obtain ⟨k, rfl⟩ : ∃ k, fuel = k + 2 := ⟨fuel - 2, by omega⟩
    have h2 := reads_types (a :: as) ok.2.2.2 (x ++ y) c rest k (by rw [TypesToks]; exact ⟨x, y, rfl, hx, hy⟩) hc
      (fun e => by cases e) (by simp; omega)
    rw [List.append_assoc, parse_typeName, normalType]
    simp only [List.cons_append, List.append_assoc, List.nil_append] at h2 ⊢
    rw [finish_paren h2]
    rfl
  | .fn arguments ret, ok, ks, rest, fuel, h, ha, hl => by
    rw [TypeToks] at h
    rw [TypeOk] at ok
    obtain ⟨a, c, b, rfl, hx, hc, hn, hb⟩ := h
    simp only [List.length_append, List.length_cons] at hl
    obtain ⟨k, rfl⟩ : ∃ k, fuel = k + 1 := ⟨fuel - 1, by omega⟩
    have h2 := reads_types arguments ok.1 a c (.symbol .rArrow :: (b ++ rest)) k hx hc hn (by omega)
    have h3 := reads_type ret ok.2 b rest k hb ha (by omega)
    rw [normalType]
    simp only [List.cons_append, List.append_assoc] at h2 ⊢
    exact parse_fn h2 h3
  | .tuple elements, ok, ks, rest, fuel, h, ha, hl => by
    rw [TypeToks] at h
    rw [TypeOk] at ok
    obtain ⟨a, c, rfl, hx, hc, hn⟩ := h
    simp only [List.length_append, List.length_cons, List.length_nil] at hl
    obtain ⟨k, rfl⟩ : ∃ k, fuel = k + 1 := ⟨fuel - 1, by omega⟩
    have h2 := reads_types elements ok a c rest k hx hc hn (by omega)
    rw [normalType]
    simp only [List.cons_append, List.append_assoc, List.nil_append] at h2 ⊢
    exact parse_tuple h2

theorem reads_types : (ts : List TypeAst) → TypesOk ts → ∀ ks c rest fuel, TypesToks [] ts ks → MaybeComma c →
    (ts = [] → c = []) → 2 * (ks.length + c.length) + 2 ≤ fuel →
    parseTypes fuel (ks ++ (c ++ .symbol .rightParen :: rest)) = some (normalTypes ts, .symbol .rightParen :: rest)
  | [], _, ks, c, rest, fuel, h, hc, hn, hl => by
    rw [TypesToks] at h
    subst h
    rw [hn rfl, normalTypes]
    obtain ⟨k, rfl⟩ : ∃ k, fuel = k + 2 := ⟨fuel - 2, by omega⟩
    exact parse_none
  | [t], ok, ks, c, rest, fuel, h, hc, hn, hl => by
    rw [TypesToks] at h
    obtain ⟨a, b, rfl, ha, hb⟩ := h
    rw [TypesToks] at hb
    rw [TypesOk] at ok
    subst hb
    obtain ⟨k, rfl⟩ : ∃ k, fuel = k + 1 := ⟨fuel - 1, by omega⟩
    simp only [List.nil_append, List.append_nil] at hl ⊢
    rw [normalTypes, normalTypes]
    rcases hc with rfl | rfl
    · exact parse_one (reads_type t ok.1 a _ k ha (after_symbol (by simp)) (by simp at hl; omega))
    · simp only [List.length_cons, List.length_nil] at hl
      refine parse_more (reads_type t ok.1 a _ k ha (after_symbol (by simp)) (by omega)) (by simp) ?_
      obtain ⟨j, rfl⟩ : ∃ j, k = j + 2 := ⟨k - 2, by omega⟩
      exact parse_none
  | t :: u :: ts, ok, ks, c, rest, fuel, h, hc, hn, hl => by
    rw [TypesToks] at h
    obtain ⟨a, b, rfl, ha, hb⟩ := h
    rw [TypesToks] at hb
    obtain ⟨x, y, rfl, hx, hy⟩ := hb
    rw [TypesOk] at ok
    obtain ⟨k, rfl⟩ : ∃ k, fuel = k + 1 := ⟨fuel - 1, by omega⟩
    simp only [List.nil_append, List.cons_append, List.append_assoc, List.length_append, List.length_cons,
      List.length_nil] at hl ⊢
    rw [normalTypes]
    obtain ⟨q, r, hq, hne⟩ := typeToks_head (TypesOk.eq_2 u ts ▸ ok.2).1 hx
    have h2 := reads_types (u :: ts) ok.2 (x ++ y) c rest k (by rw [TypesToks]; exact ⟨x, y, rfl, hx, hy⟩) hc
      (fun e => by cases e) (by simp; omega)
    rw [List.append_assoc] at h2
    refine parse_more (reads_type t ok.1 a _ k ha (after_symbol (by simp)) (by omega)) ?_ h2
    rw [hq]
    simpa using hne
end

end Verif.Format
