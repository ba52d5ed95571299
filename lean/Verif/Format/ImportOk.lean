import Verif.Format.ImportSeen
import Verif.Format.AnnotationOk

/-!
# Imports that are read are made of tokens of the language
-/
namespace Verif.Format
open Verif.Lexer Verif.Lexer.Spec Verif.Format.Spec Verif.TypeText

theorem moduleOk_name {n : Name} (h : IsName n) : ModuleOk n := ⟨n, [], by simp, h, by simp⟩

theorem moduleOk_slash {m n : Name} (hm : ModuleOk m) (h : IsName n) : ModuleOk (m ++ '/' :: n) := by
  obtain ⟨s, ss, rfl, h1, h2⟩ := hm
  refine ⟨s, ss ++ [n], by simp, h1, ?_⟩
  intro x hx
  rcases List.mem_append.1 hx with hx | hx
  · exact h2 x hx
  · rw [List.mem_singleton.1 hx]; exact h

theorem moduleOk_more {acc n : Name} (ha : acc = [] ∨ ModuleOk acc) (h : IsName n) :
    ModuleOk (if acc = [] then n else acc ++ '/' :: n) := by
  split
  · exact moduleOk_name h
  · next hne => exact moduleOk_slash (ha.resolve_left hne) h

theorem parseModule_ok {acc : Name} {ks : List Token} (h : Spelled ks) (ha : acc = [] ∨ ModuleOk acc) {m : Name}
    {rest : List Token} (e : parseModule acc ks = some (m, rest)) : ModuleOk m ∧ Spelled rest := by
  fun_induction parseModule acc ks with
  | case1 acc name rest' ih =>
    have h1 := spelled_cons h
    exact ih (spelled_cons h1.2).2 (.inr (moduleOk_more ha (spelled_name h1.1))) e
  | case2 acc name rest' _ _ => cases e
  | case3 acc name rest' _ _ =>
    have h1 := spelled_cons h
    cases e
    exact ⟨moduleOk_more ha (spelled_name h1.1), h1.2⟩
  | case4 => cases e

/-- The result of reading an item. -/
def ItemResult (r : Option (Option (Bool × Unqualified) × List Token)) : Prop :=
  ∀ o rest, r = some (o, rest) → Spelled rest ∧ ∀ x, o = some x → ItemOk x.1 x.2

theorem itemResult_none : ItemResult none := fun _ _ h => by cases h

theorem itemResult_some {x : Bool × Unqualified} {rest : List Token} (h : Spelled rest) (hx : ItemOk x.1 x.2) :
    ItemResult (some (some x, rest)) := by
  intro o r e
  cases e
  exact ⟨h, fun y e => by cases e; exact hx⟩

theorem upItem_ok {b : Bool} {n : Name} (hn : IsUpName n) {ks : List Token} (h : Spelled ks) : ItemResult (upItem b n ks) := by
  unfold upItem
  split
  · split
    · have h1 := spelled_cons (spelled_cons h).2
      exact itemResult_some h1.2 (.inl ⟨hn, fun a e => by cases e; exact spelled_upName h1.1⟩)
    · exact itemResult_none
  · exact itemResult_some h (.inl ⟨hn, by simp⟩)

theorem parseItem_ok {ks : List Token} (h : Spelled ks) : ItemResult (parseItem ks) := by
  unfold parseItem
  split
  · have h1 := spelled_cons h
    split
    · split
      · have h2 := spelled_cons (spelled_cons h1.2).2
        exact itemResult_some h2.2 (.inr ⟨rfl, spelled_name h1.1, fun a e => by cases e; exact spelled_name h2.1⟩)
      · exact itemResult_none
    · exact itemResult_some h1.2 (.inr ⟨rfl, spelled_name h1.1, by simp⟩)
  · have h1 := spelled_cons h
    exact upItem_ok (spelled_upName h1.1) h1.2
  · split
    · have h1 := spelled_cons (spelled_cons h).2
      exact upItem_ok (spelled_upName h1.1) h1.2
    · exact itemResult_none
  · intro o rest e
    cases e
    exact ⟨h, by simp⟩

theorem parseItems_ok : (fuel : Nat) → ∀ {ks : List Token}, Spelled ks → ∀ {ts vs : List Unqualified} {rest : List Token},
    parseItems fuel ks = some (ts, vs, rest) →
    Spelled rest ∧ (∀ u ∈ ts, ItemOk true u) ∧ ∀ u ∈ vs, ItemOk false u
  | 0, _, _, _, _, _, e => by cases e
  | fuel + 1, ks, h, ts, vs, rest, e => by
    rw [parseItems] at e
    split at e
    · cases e
    · next e1 =>
      cases e
      exact ⟨(parseItem_ok h _ _ e1).1, by simp, by simp⟩
    · next b u r e1 =>
      have h1 := parseItem_ok h _ _ e1
      have hu := h1.2 _ rfl
      split at e
      · obtain ⟨q, e2, e3⟩ := Option.map_eq_some_iff.1 e
        obtain ⟨ts', vs', rest'⟩ := q
        have h2 := parseItems_ok fuel (spelled_cons h1.1).2 e2
        cases b <;> cases e3
        · exact ⟨h2.1, h2.2.1, by
            intro x hx
            rcases List.mem_cons.1 hx with rfl | hx
            · exact hu
            · exact h2.2.2 x hx⟩
        · exact ⟨h2.1, by
            intro x hx
            rcases List.mem_cons.1 hx with rfl | hx
            · exact hu
            · exact h2.2.1 x hx, h2.2.2⟩
      · cases b <;> cases e
        · exact ⟨h1.1, by simp, by simpa using hu⟩
        · exact ⟨h1.1, by simpa using hu, by simp⟩

theorem parseBraces_ok {ks : List Token} (h : Spelled ks) {ts vs : List Unqualified} {rest : List Token}
    (e : parseBraces ks = some (ts, vs, rest)) : Spelled rest ∧ (∀ u ∈ ts, ItemOk true u) ∧ ∀ u ∈ vs, ItemOk false u := by
  unfold parseBraces at e
  split at e
  · split at e
    · split at e
      · next e1 =>
        cases e
        have h1 := parseItems_ok _ (spelled_cons (spelled_cons h).2).2 e1
        exact ⟨(spelled_cons h1.1).2, h1.2⟩
      · cases e
    · cases e
  · cases e
    exact ⟨h, by simp, by simp⟩

theorem parseImport_ok {ks : List Token} (h : Spelled ks) {i : Import} {rest : List Token}
    (e : parseImport ks = some (i, rest)) : ImportOk i ∧ Spelled rest := by
  unfold parseImport at e
  split at e
  · cases e
  · next e1 =>
    have h1 := parseModule_ok h (.inl rfl) e1
    split at e
    · cases e
    · next e2 =>
      have h2 := parseBraces_ok h1.2 e2
      split at e
      · split at e
        · have h3 := spelled_cons (spelled_cons h2.1).2
          cases e
          exact ⟨⟨h1.1, fun a e => by cases e; exact spelled_name h3.1, h2.2⟩, h3.2⟩
        · have h3 := spelled_cons (spelled_cons h2.1).2
          cases e
          exact ⟨⟨h1.1, fun a e => by cases e; exact spelled_discard h3.1, h2.2⟩, h3.2⟩
        · cases e
      · cases e
        exact ⟨⟨h1.1, by simp, h2.2⟩, h2.1⟩

theorem parseImports_ok : (fuel : Nat) → ∀ {ks : List Token}, Spelled ks → ∀ {is : List Import} {rest : List Token},
    parseImports fuel ks = some (is, rest) → Spelled rest ∧ ∀ i ∈ is, ImportOk i
  | 0, _, _, _, _, e => by cases e
  | fuel + 1, ks, h, is, rest, e => by
    rw [parseImports.eq_def] at e
    simp only at e
    split at e
    · split at e
      · cases e
      · next e1 =>
        have h1 := parseImport_ok (spelled_cons h).2 e1
        obtain ⟨q, e2, e3⟩ := Option.map_eq_some_iff.1 e
        cases e3
        have h2 := parseImports_ok fuel h1.2 e2
        refine ⟨h2.1, fun i hi => ?_⟩
        rcases List.mem_cons.1 hi with rfl | hi
        · exact h1.1
        · exact h2.2 i hi
    · cases e
      exact ⟨h, by simp⟩

theorem read_imports_ok {source : List Char} {is : List Import} {rest : List Token}
    (h : readImports source = some (is, rest)) : ∀ i ∈ is, ImportOk i := by
  have hg : Spelled (visible ((tokens source).1.map (·.token))) := by
    intro k hk
    obtain ⟨h1, h2⟩ := List.mem_filter.1 hk
    obtain ⟨t, ht, rfl⟩ := List.mem_map.1 h1
    obtain ⟨x, hx, _⟩ := span_of_token_is_its_text source t ht (by cases hk : t.token <;> simp_all [Inner])
    exact ⟨x, hx⟩
  unfold readImports at h
  generalize tokens source = r at h hg
  obtain ⟨ts, e⟩ := r
  cases e with
  | some e => cases h
  | none => exact (parseImports_ok _ hg h).2

end Verif.Format
