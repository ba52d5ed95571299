import Verif.Format.PatternSpec
import Verif.Lexer.Props

/-!
# Patterns that are read are made of tokens of the language
-/
namespace Verif.Format
open Verif.Lexer Verif.Lexer.Spec Verif.Format.Spec

/-- A token with a text, that is not a float with an underscore before zeros at its end. -/
def Good (k : Token) : Prop := (∃ t, Reads k t) ∧ ∀ v, k = .float v → PlainZeros v

def AllGood (ks : List Token) : Prop := ∀ k ∈ ks, Good k

theorem allGood_cons {k : Token} {ks : List Token} (h : AllGood (k :: ks)) : Good k ∧ AllGood ks :=
  ⟨h k (by simp), fun x hx => h x (by simp [hx])⟩

theorem good_name {n : Name} (h : Good (.name n)) : IsName n := by
  obtain ⟨⟨t, h⟩, _⟩ := h
  have e : t = n := h.1
  rw [e] at h
  exact h

theorem good_upName {n : Name} (h : Good (.upName n)) : IsUpName n := by
  obtain ⟨⟨t, h⟩, _⟩ := h
  have e : t = n := h.1
  rw [e] at h
  exact h

theorem good_discard {n : Name} (h : Good (.discardName n)) : IsDiscardName n := by
  obtain ⟨⟨t, h⟩, _⟩ := h
  have e : t = n := h.1
  rw [e] at h
  exact h

theorem good_float {v : List Char} (h : Good (.float v)) : Ok (.float v) := by
  rw [Ok]
  obtain ⟨⟨t, h⟩, hz⟩ := h
  have e : t = v := h.1
  rw [e] at h
  exact ⟨h, hz v rfl⟩

/-- The result of a parser of patterns. -/
def Result (r : Option (Option Pat × List Token)) : Prop :=
  ∀ o rest, r = some (o, rest) → AllGood rest ∧ ∀ p, o = some p → Ok p

theorem result_none : Result none := fun _ _ h => by cases h

theorem result_finish {p : Pat} {ks : List Token} (hp : Ok p) (ha : ¬IsAssign p) (h : AllGood ks) : Result (finishAs p ks) := by
  intro o rest e
  unfold finishAs at e
  split at e
  · split at e
    · cases e
      have h1 := allGood_cons (allGood_cons h).2
      refine ⟨h1.2, fun q hq => ?_⟩
      cases hq
      rw [Ok]
      exact ⟨good_name h1.1, ha, hp⟩
    · cases e
  · cases e
    exact ⟨h, fun q hq => by cases hq; exact hp⟩

theorem result_prefix {left : List Char} {leftName : Option Name} {ks : List Token} (hl : IsString left)
    (hn : ∀ n, leftName = some n → IsName n) (h : AllGood ks) : Result (prefixRight left leftName ks) := by
  unfold prefixRight
  split
  · split
    · exact result_none
    · have h1 := allGood_cons h
      exact result_finish (by rw [Ok]; exact ⟨hl, hn, good_name h1.1⟩) (by simp [IsAssign]) h1.2
  · split
    · exact result_none
    · have h1 := allGood_cons h
      exact result_finish (by rw [Ok]; exact ⟨hl, hn, good_discard h1.1⟩) (by simp [IsAssign]) h1.2
  · exact result_none

/-- What is known of the parsers with some fuel. -/
def ParsersOk (fuel : Nat) : Prop :=
  (∀ ks, AllGood ks → Result (parsePattern fuel ks)) ∧
  (∀ ks, AllGood ks → ∀ ps rest, parsePatterns fuel ks = some (ps, rest) → AllGood rest ∧ AllOk ps) ∧
  (∀ module name ks, (∀ m, module = some m → IsName m) → IsUpName name → AllGood ks →
    Result (parseConstructor fuel module name ks)) ∧
  (∀ ks, AllGood ks → ∀ as rest, parseArguments fuel ks = some (as, rest) → AllGood rest ∧ ArgsOk as)

theorem parsePattern_ok {fuel : Nat} (ih : ParsersOk fuel) {ks : List Token} (h : AllGood ks) :
    Result (parsePattern (fuel + 1) ks) := by
  obtain ⟨i1, i2, i3, i4⟩ := ih
  rw [parsePattern.eq_def]
  simp only
  split
  · have h1 := allGood_cons h
    split
    · exact result_none
    · split
      · have h2 := allGood_cons (allGood_cons h1.2).2
        exact i3 _ _ _ (fun m e => by cases e; exact good_name h1.1) (good_upName h2.1) h2.2
      · exact result_none
    · exact result_finish (by rw [Ok]; exact good_name h1.1) (by simp [IsAssign]) h1.2
  · have h1 := allGood_cons h
    exact i3 _ _ _ (fun m e => by cases e) (good_upName h1.1) h1.2
  · have h1 := allGood_cons h
    split
    · exact result_none
    · exact result_finish (by rw [Ok]; exact good_discard h1.1) (by simp [IsAssign]) h1.2
  · have h1 := allGood_cons h
    have hs : IsString _ := h1.1.1
    split
    · split
      · have h2 := allGood_cons (allGood_cons h1.2).2
        split
        · exact result_prefix hs (fun n e => by cases e; exact good_name h2.1) (allGood_cons h2.2).2
        · intro o rest e
          cases e
          refine ⟨h2.2, fun p hp => ?_⟩
          cases hp
          rw [Ok, Ok]
          exact ⟨good_name h2.1, by simp [IsAssign], hs⟩
      · exact result_none
    · exact result_prefix hs (fun n e => by cases e) (allGood_cons h1.2).2
    · exact result_finish (by rw [Ok]; exact hs) (by simp [IsAssign]) h1.2
  · have h1 := allGood_cons h
    exact result_finish (by rw [Ok]; exact h1.1.1) (by simp [IsAssign]) h1.2
  · have h1 := allGood_cons h
    exact result_finish (good_float h1.1) (by simp [IsAssign]) h1.2
  · have h1 := allGood_cons h
    split
    · have h2 := allGood_cons h1.2
      split
      · next e =>
        have h3 := i2 _ h2.2 _ _ e
        exact result_finish (by rw [Ok]; exact h3.2) (by simp [IsAssign]) (allGood_cons h3.1).2
      · exact result_none
    · exact result_none
  · exact result_none
  · have h1 := allGood_cons h
    split
    · exact result_none
    · next e =>
      have h3 := i2 _ h1.2 _ _ e
      have h4 := allGood_cons h3.1
      split
      · exact result_none
      · next tail r e2 =>
        obtain ⟨h5, h6⟩ := i1 _ h4.2 _ _ e2
        split
        next r3 e3 =>
          have h7 : AllGood (.symbol .rightSquare :: r3) := by
            split at e3
            · exact (i2 _ (allGood_cons h5).2 _ _ e3).1
            · cases e3
              exact h5
          have h8 := allGood_cons h7
          split
          · have h9 := h6 _ rfl
            rw [Ok] at h9
            refine result_finish ?_ (by simp [IsAssign]) h8.2
            rw [Ok]
            exact ⟨h3.2, fun t e => by cases e; exact h9⟩
          · have h9 := h6 _ rfl
            rw [Ok] at h9
            refine result_finish ?_ (by simp [IsAssign]) h8.2
            rw [Ok]
            exact ⟨h3.2, fun t e => by cases e; exact h9⟩
          · exact result_none
          · refine result_finish ?_ (by simp [IsAssign]) h8.2
            rw [Ok]
            refine ⟨h3.2, fun t e => ?_⟩
            cases e
            exact ⟨rfl, ⟨[], rfl⟩, by simp [NameChar]⟩
        · exact result_none
    · next e =>
      have h3 := i2 _ h1.2 _ _ e
      refine result_finish ?_ (by simp [IsAssign]) (allGood_cons h3.1).2
      rw [Ok]
      exact ⟨h3.2, fun t e => by cases e⟩
    · exact result_none
  · intro o rest e
    cases e
    exact ⟨h, fun p hp => by cases hp⟩

theorem parsers_ok (fuel : Nat) : ParsersOk fuel := by
  induction fuel with
  | zero =>
    refine ⟨fun ks _ => ?_, fun ks _ ps rest e => ?_, fun m n ks _ _ _ => ?_, fun ks _ as rest e => ?_⟩
    · rw [parsePattern.eq_def]
      exact result_none
    · rw [parsePatterns.eq_def] at e
      cases e
    · rw [parseConstructor.eq_def]
      exact result_none
    · rw [parseArguments.eq_def] at e
      cases e
  | succ fuel ih =>
    refine ⟨fun ks h => parsePattern_ok ih h, fun ks h ps rest e => ?_, fun m n ks hm hn h => ?_, fun ks h as rest e => ?_⟩
    · obtain ⟨i1, i2, i3, i4⟩ := ih
      rw [parsePatterns.eq_def] at e
      simp only at e
      split at e
      · cases e
      · next e1 =>
        cases e
        exact ⟨(i1 _ h _ _ e1).1, by rw [AllOk]; trivial⟩
      · next p r e1 =>
        obtain ⟨h1, h2⟩ := i1 _ h _ _ e1
        split at e
        · split at e
          · cases e
          · obtain ⟨x, hx, e2⟩ := Option.map_eq_some_iff.1 e
            cases e2
            have h3 := i2 _ (allGood_cons h1).2 _ _ hx
            exact ⟨h3.1, by rw [AllOk]; exact ⟨h2 _ rfl, h3.2⟩⟩
        · cases e
          exact ⟨h1, by rw [AllOk, AllOk]; exact ⟨h2 _ rfl, trivial⟩⟩
    · obtain ⟨i1, i2, i3, i4⟩ := ih
      rw [parseConstructor.eq_def]
      simp only
      split
      · have h1 := allGood_cons h
        split
        · exact result_none
        · next e =>
          have h2 := i4 _ h1.2 _ _ e
          have h3 := allGood_cons h2.1
          split
          · refine result_finish ?_ (by simp [IsAssign]) (allGood_cons (allGood_cons h3.2).2).2
            rw [Ok]
            exact ⟨hm, hn, h2.2⟩
          · refine result_finish ?_ (by simp [IsAssign]) (allGood_cons h3.2).2
            rw [Ok]
            exact ⟨hm, hn, h2.2⟩
          · exact result_none
        · next e =>
          have h2 := i4 _ h1.2 _ _ e
          refine result_finish ?_ (by simp [IsAssign]) (allGood_cons h2.1).2
          rw [Ok]
          exact ⟨hm, hn, h2.2⟩
        · exact result_none
      · refine result_finish ?_ (by simp [IsAssign]) h
        rw [Ok, ArgsOk]
        exact ⟨hm, hn, trivial⟩
    · obtain ⟨i1, i2, i3, i4⟩ := ih
      rw [parseArguments.eq_def] at e
      simp only at e
      have key : ∀ (argument : Option (Option (Args → Args) × List Token)),
          (∀ f r, argument = some (f, r) → AllGood r ∧ ∀ g, f = some g → ∀ as, ArgsOk as → ArgsOk (g as)) →
          (match argument with
            | none => none
            | some (none, rest) => some (.nil, rest)
            | some (some a, rest) =>
              match rest with
              | .symbol .comma :: rest =>
                match rest with
                | .symbol .comma :: _ => none
                | _ => (parseArguments fuel rest).map fun r => (a r.1, r.2)
              | _ => some (a .nil, rest)) = some (as, rest) → AllGood rest ∧ ArgsOk as := by
        intro argument ha e
        split at e
        · cases e
        · next r =>
          cases e
          exact ⟨(ha _ _ rfl).1, by rw [ArgsOk]; trivial⟩
        · next g r =>
          obtain ⟨h1, h2⟩ := ha _ _ rfl
          split at e
          · split at e
            · cases e
            · obtain ⟨x, hx, e2⟩ := Option.map_eq_some_iff.1 e
              cases e2
              have h3 := i4 _ (allGood_cons h1).2 _ _ hx
              exact ⟨h3.1, h2 _ rfl _ h3.2⟩
          · cases e
            exact ⟨h1, h2 _ rfl _ (by rw [ArgsOk]; trivial)⟩
      refine key _ ?_ e
      intro f r ef
      split at ef
      · have h1 := allGood_cons h
        have h2 := allGood_cons h1.2
        split at ef
        · cases ef
        · next e1 =>
          cases ef
          obtain ⟨h3, h4⟩ := i1 _ h2.2 _ _ e1
          refine ⟨h3, fun g hg as has => ?_⟩
          cases hg
          rw [ArgsOk]
          exact ⟨good_name h1.1, h4 _ rfl, has⟩
        · next e1 =>
          cases ef
          obtain ⟨h3, h4⟩ := i1 _ h2.2 _ _ e1
          refine ⟨h3, fun g hg as has => ?_⟩
          cases hg
          rw [ArgsOk]
          exact ⟨good_name h1.1, has⟩
      · split at ef
        · cases ef
        · next e1 =>
          cases ef
          obtain ⟨h3, h4⟩ := i1 _ h _ _ e1
          refine ⟨h3, fun g hg as has => ?_⟩
          cases hg
          rw [ArgsOk]
          exact ⟨h4 _ rfl, has⟩
        · next e1 =>
          cases ef
          obtain ⟨h3, h4⟩ := i1 _ h _ _ e1
          exact ⟨h3, fun g hg => by cases hg⟩

/-- A pattern that is read is made of tokens of the language. -/
theorem read_pattern_ok {source : List Char} {p : Pat} {rest : List Token} (h : readPattern source = some (p, rest))
    (hz : ∀ t ∈ (tokens source).1, ∀ v, t.token = .float v → PlainZeros v) : Ok p := by
  have hg : AllGood (visible ((tokens source).1.map (·.token))) := by
    intro k hk
    obtain ⟨h1, h2⟩ := List.mem_filter.1 hk
    obtain ⟨t, ht, rfl⟩ := List.mem_map.1 h1
    refine ⟨?_, hz t ht⟩
    obtain ⟨x, hx, _⟩ := span_of_token_is_its_text source t ht (by cases hk : t.token <;> simp_all [Inner])
    exact ⟨x, hx⟩
  unfold readPattern at h
  generalize tokens source = r at h hg
  obtain ⟨ts, e⟩ := r
  cases e with
  | some e => cases h
  | none =>
    simp only at h
    split at h
    · next e1 =>
      cases h
      exact ((parsers_ok _).1 _ hg _ _ e1).2 _ rfl
    · cases h

end Verif.Format
