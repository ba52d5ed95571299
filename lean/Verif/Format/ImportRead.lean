import Verif.Format.ImportSeen

/-!
# The tokens of formatted imports are read as their normal forms
-/
namespace Verif.Format
open Verif.Lexer Verif.Lexer.Spec Verif.Format.Spec Verif.TypeText

/-- What may follow an import. -/
def AfterImport (rest : List Token) : Prop :=
  rest.head? ≠ some (.symbol .slash) ∧ rest.head? ≠ some (.symbol .slashDot) ∧ rest.head? ≠ some (.symbol .dot) ∧
    rest.head? ≠ some (.keyword .as_)

theorem name_ne_nil {n : Name} (h : IsName n) : n ≠ [] := by
  obtain ⟨_, ⟨c, r, rfl, _⟩, _⟩ := h
  simp

theorem reads_module {ss : List Name} (h : ∀ n ∈ ss, IsName n) : ∀ {acc s : Name} {rest : List Token}, IsName s →
    rest.head? ≠ some (.symbol .slash) → rest.head? ≠ some (.symbol .slashDot) →
    parseModule acc (.name s :: (ss.flatMap (fun n => [.symbol .slash, .name n]) ++ rest)) =
      some ((if acc = [] then s else acc ++ '/' :: s) ++ ss.flatMap (fun n => '/' :: n), rest) := by
  induction ss with
  | nil =>
    intro acc s rest hs h1 h2
    rw [List.flatMap_nil, List.nil_append, List.flatMap_nil, List.append_nil]
    unfold parseModule
    split
    · rename_i heq
      cases heq
      simp at h1
    · rename_i heq
      cases heq
      rw [if_neg h2]
    · rename_i h3
      exact absurd rfl (h3 s rest)
  | cons n ss ih =>
    intro acc s rest hs h1 h2
    have hn := h n (by simp)
    rw [List.flatMap_cons, List.flatMap_cons]
    simp only [List.cons_append, List.nil_append]
    rw [parseModule, ih (fun m hm => h m (by simp [hm])) hn h1 h2]
    have : (if acc = [] then s else acc ++ '/' :: s) ≠ [] := by
      split
      · exact name_ne_nil hs
      · simp
    rw [if_neg this]
    simp

theorem reads_item {x : Bool × Unqualified} (h : ItemOk x.1 x.2) {rest : List Token}
    (hr : rest.head? ≠ some (.keyword .as_)) :
    parseItem (itemToks x ++ rest) = some (some (x.1, normalItem x.2), rest) := by
  obtain ⟨b, n, a⟩ := x
  have hup : ∀ (b : Bool), IsUpName n → (∀ m, a = some m → IsUpName m) →
      upItem b n (asToks (normalItem ⟨n, a⟩).asName ++ rest) = some (some (b, normalItem ⟨n, a⟩), rest) := by
    intro b _ h2
    unfold normalItem
    simp only
    split
    · unfold upItem
      simp only [asToks, List.nil_append]
      split
      · simp at hr
      · rfl
    · cases a with
      | none =>
        unfold upItem
        simp only [asToks, List.nil_append]
        split
        · simp at hr
        · rfl
      | some m =>
        simp only [asToks]
        rw [nameTok_upName (h2 m rfl)]
        rfl
  rcases h with ⟨h1, h2⟩ | ⟨hb, h1, h2⟩
  · unfold itemToks
    simp only at h1 h2 ⊢
    rw [nameTok_upName h1]
    have := hup b h1 h2
    cases b <;> exact this
  · simp only at hb h1 h2
    subst hb
    unfold itemToks
    simp only [Bool.false_eq_true, if_false, List.nil_append]
    rw [nameTok_name h1]
    unfold normalItem
    simp only [List.cons_append]
    split
    · simp only [asToks, List.nil_append, parseItem]
      split
      · simp at hr
      · rfl
    · cases a with
      | none =>
        simp only [asToks, List.nil_append, parseItem]
        split
        · simp at hr
        · rfl
      | some m =>
        simp only [asToks]
        rw [nameTok_name (h2 m rfl)]
        rfl

/-- The items that are types, or are not. -/
def pick (b : Bool) (xs : List (Bool × Unqualified)) : List Unqualified :=
  (xs.filter fun x => x.1 == b).map fun x => normalItem x.2

theorem reads_noItem {fuel : Nat} {rest : List Token} :
    parseItems (fuel + 1) (.symbol .rightBrace :: rest) = some ([], [], .symbol .rightBrace :: rest) := rfl

theorem reads_items : {xs : List (Bool × Unqualified)} → (∀ x ∈ xs, ItemOk x.1 x.2) → ∀ {x : Bool × Unqualified},
    ItemOk x.1 x.2 → ∀ {c rest : List Token} {fuel : Nat}, MaybeComma c → xs.length + 2 ≤ fuel →
    parseItems fuel (itemToks x ++ (xs.flatMap (fun y => .symbol .comma :: itemToks y) ++
      (c ++ .symbol .rightBrace :: rest))) = some (pick true (x :: xs), pick false (x :: xs), .symbol .rightBrace :: rest)
  | [], _, x, hx, c, rest, fuel, hc, hf => by
    obtain ⟨k, rfl⟩ : ∃ k, fuel = k + 2 := ⟨fuel - 2, by simp at hf; omega⟩
    rw [List.flatMap_nil, List.nil_append, parseItems]
    rcases hc with rfl | rfl
    · rw [reads_item hx (by simp)]
      obtain ⟨b, u⟩ := x
      cases b <;> rfl
    · rw [reads_item hx (by simp)]
      simp only [List.cons_append, List.nil_append]
      rw [reads_noItem]
      obtain ⟨b, u⟩ := x
      cases b <;> rfl
  | y :: ys, h, x, hx, c, rest, fuel, hc, hf => by
    obtain ⟨k, rfl⟩ : ∃ k, fuel = k + 1 := ⟨fuel - 1, by omega⟩
    rw [parseItems, List.flatMap_cons]
    simp only [List.cons_append, List.append_assoc]
    rw [reads_item hx (by simp)]
    simp only
    rw [reads_items (fun z hz => h z (by simp [hz])) (h y (by simp)) hc (by simp at hf; omega)]
    obtain ⟨b, u⟩ := x
    cases b <;> rfl

theorem pick_items (i : Import) : pick true (items i) = (normalImport i).types ∧ pick false (items i) = (normalImport i).values := by
  constructor
  · simp [pick, items, normalImport, List.filter_map, Function.comp_def]
  · simp [pick, items, normalImport, List.filter_map, Function.comp_def]

theorem itemToks_length (x : Bool × Unqualified) : 1 ≤ (itemToks x).length := by
  unfold itemToks
  simp
  omega

theorem flat_length (xs : List (Bool × Unqualified)) :
    xs.length ≤ (xs.flatMap fun y => Token.symbol .comma :: itemToks y).length := by
  induction xs with
  | nil => simp
  | cons x xs ih => rw [List.flatMap_cons]; simp only [List.length_append, List.length_cons]; omega

theorem reads_braces {i : Import} (ok : ImportOk i) {ks rest : List Token} (h : BraceToks i ks)
    (hr : rest.head? ≠ some (.symbol .dot)) :
    parseBraces (ks ++ rest) = some ((normalImport i).types, (normalImport i).values, rest) := by
  have hp := pick_items i
  rcases h with ⟨h, rfl⟩ | ⟨x, xs, c, h, hc, rfl⟩
  · rw [h] at hp
    rw [← hp.1, ← hp.2]
    unfold parseBraces
    simp only [List.nil_append]
    split
    · simp at hr
    · rfl
  · have hok := items_ok ok
    rw [h] at hok hp
    rw [← hp.1, ← hp.2]
    unfold parseBraces
    simp only [List.cons_append, List.append_assoc, List.nil_append]
    rw [reads_items (fun y hy => hok y (by simp [hy])) (hok x (by simp)) hc]
    have := flat_length xs
    have := itemToks_length x
    simp only [List.length_append, List.length_cons]
    omega

theorem braceToks_head {i : Import} {ks rest : List Token} (h : BraceToks i ks) :
    ks = [] ∨ (ks ++ rest).head? = some (.symbol .dot) := by
  rcases h with ⟨_, rfl⟩ | ⟨x, xs, c, _, _, rfl⟩
  · exact .inl rfl
  · exact .inr rfl

theorem aliasToks_head {a : Option AssignName} {rest : List Token} :
    (aliasToks a = [] ∧ a = none) ∨ (aliasToks a ++ rest).head? = some (.keyword .as_) := by
  cases a with
  | none => exact .inl ⟨rfl, rfl⟩
  | some a => exact .inr rfl

theorem reads_import {i : Import} (ok : ImportOk i) {ks rest : List Token} (h : ImportToks i ks) (hr : AfterImport rest) :
    ∃ tail, ks = .keyword .import_ :: tail ∧ parseImport (tail ++ rest) = some (normalImport i, rest) := by
  obtain ⟨s, ss, mid, rfl, hm, hs, hss, hb⟩ := h
  refine ⟨_, rfl, ?_⟩
  obtain ⟨r1, r2, r3, r4⟩ := hr
  have key : ∀ k : Token, k ≠ .symbol .dot → k ≠ .keyword .as_ → rest.head? ≠ some k →
      (mid ++ (aliasToks (normalImport i).asName ++ rest)).head? ≠ some k := by
    intro k k1 k2 k3
    rcases braceToks_head (rest := aliasToks (normalImport i).asName ++ rest) hb with rfl | h
    · rw [List.nil_append]
      rcases aliasToks_head (a := (normalImport i).asName) (rest := rest) with ⟨h, _⟩ | h
      · rw [h]; exact k3
      · rw [h]; simpa using k2.symm
    · rw [h]; simpa using k1.symm
  have hd : (aliasToks (normalImport i).asName ++ rest).head? ≠ some (.symbol .dot) := by
    rcases aliasToks_head (a := (normalImport i).asName) (rest := rest) with ⟨h, _⟩ | h
    · rw [h]; exact r3
    · rw [h]; simp
  unfold parseImport
  simp only [List.cons_append, List.append_assoc]
  rw [reads_module hss hs (key _ (by simp) (by simp) r1) (key _ (by simp) (by simp) r2)]
  simp only [if_true]
  rw [reads_braces ok hb hd, ← hm]
  simp only
  have hmod : i.module = (normalImport i).module := rfl
  rw [hmod]
  generalize normalImport i = n
  obtain ⟨m, a, ts, vs⟩ := n
  cases a with
  | none =>
    simp only [aliasToks, List.nil_append]
    split
    · simp at r4
    · rfl
  | some a => cases a <;> rfl

theorem importToks_head {i : Import} {ks : List Token} (h : ImportToks i ks) : ∃ tail, ks = .keyword .import_ :: tail := by
  obtain ⟨s, ss, mid, rfl, _⟩ := h
  exact ⟨_, rfl⟩

theorem reads_imports : {is : List Import} → (∀ i ∈ is, ImportOk i) → ∀ {kss : List (List Token)} {rest : List Token}
    {fuel : Nat}, List.Forall₂ ImportToks is kss → AfterImport rest → rest.head? ≠ some (.keyword .import_) →
    is.length + 1 ≤ fuel → parseImports fuel (kss.flatten ++ rest) = some (is.map normalImport, rest)
  | [], _, _, rest, fuel, .nil, hr, hi, hf => by
    obtain ⟨k, rfl⟩ : ∃ k, fuel = k + 1 := ⟨fuel - 1, by simp at hf; omega⟩
    rw [parseImports.eq_def, List.flatten_nil, List.nil_append]
    simp only
    split
    · simp at hi
    · rfl
  | i :: is, h, ks :: kss, rest, fuel, .cons h1 h2, hr, hi, hf => by
    obtain ⟨k, rfl⟩ : ∃ k, fuel = k + 1 := ⟨fuel - 1, by omega⟩
    have ha : AfterImport (kss.flatten ++ rest) := by
      cases h2 with
      | nil => exact hr
      | cons h3 h4 =>
        obtain ⟨tail, rfl⟩ := importToks_head h3
        simp [AfterImport]
    obtain ⟨tail, rfl, h5⟩ := reads_import (h i (by simp)) h1 ha
    rw [parseImports.eq_def, List.flatten_cons, List.append_assoc, List.cons_append]
    simp only
    rw [h5]
    simp only
    rw [reads_imports (fun y hy => h y (by simp [hy])) h2 hr hi (by simp at hf; omega)]
    rfl

end Verif.Format
