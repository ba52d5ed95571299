import Verif.Sugar.Rel

/-! # Operators, patterns and parameters do the same with the same values -/

namespace Verif.Sugar

open Verif.ErlText (Text)
open Verif.ErlGen (Loc Pattern Op M Match Out)
open Verif.ErlGen.Gleam (Panic both)

theorem same_bool (b : Bool) : Same (.bool b) (.bool b) := by
  cases b <;> exact .record _ .nil

theorem both_some {a b : Option Bool} {r : Bool} (h : both a b = some r) : ∃ x y, a = some x ∧ b = some y ∧ r = (x && y) := by
  cases a <;> cases b <;> simp [both] at h
  exact ⟨_, _, rfl, rfl, h.symm⟩

mutual

theorem eq_same : ∀ (v w : Value) {v' w' : ErlGen.Gleam.Value} {r : Bool}, Same v v' → Same w w' → v.eq w = some r →
    v'.eq w' = some r
  | .int _, w, _, _, _, .int _, hw, h => by
    cases hw <;> simp_all [Value.eq, ErlGen.Gleam.Value.eq]
  | .str _, w, _, _, _, .str _, hw, h => by
    cases hw <;> simp_all [Value.eq, ErlGen.Gleam.Value.eq]
  | .tuple vs, .tuple ws, _, _, _, .tuple hv, .tuple hw, h => by
    simp only [Value.eq] at h
    simp only [ErlGen.Gleam.Value.eq]
    exact eqAll_same vs ws hv hw h
  | .nil, w, _, _, _, .nil, hw, h => by
    cases hw <;> simp_all [Value.eq, ErlGen.Gleam.Value.eq]
  | .cons _ _, .nil, _, _, _, .cons _ _, .nil, h => by
    simp_all [Value.eq, ErlGen.Gleam.Value.eq]
  | .cons a as, .cons b bs, _, _, _, .cons ha has, .cons hb hbs, h => by
    simp only [Value.eq] at h
    simp only [ErlGen.Gleam.Value.eq]
    obtain ⟨x, y, hx, hy, rfl⟩ := both_some h
    rw [eq_same a b ha hb hx, eq_same as bs has hbs hy]
    rfl
  | .record t vs, .record u ws, _, _, _, .record _ hv, .record _ hw, h => by
    simp only [Value.eq] at h
    simp only [ErlGen.Gleam.Value.eq]
    split at h
    · rw [if_pos ‹_›]; exact eqAll_same vs ws hv hw h
    · rw [if_neg ‹_›]; exact h
  | .tuple _, .int _, _, _, _, _, _, h => by simp [Value.eq] at h
  | .tuple _, .str _, _, _, _, _, _, h => by simp [Value.eq] at h
  | .tuple _, .nil, _, _, _, _, _, h => by simp [Value.eq] at h
  | .tuple _, .cons _ _, _, _, _, _, _, h => by simp [Value.eq] at h
  | .tuple _, .record _ _, _, _, _, _, _, h => by simp [Value.eq] at h
  | .tuple _, .ctor _ _, _, _, _, _, _, h => by simp [Value.eq] at h
  | .tuple _, .fn _ _ _, _, _, _, _, _, h => by simp [Value.eq] at h
  | .tuple _, .closure _ _ _, _, _, _, _, _, h => by simp [Value.eq] at h
  | .tuple _, .capture _ _ _, _, _, _, _, _, h => by simp [Value.eq] at h
  | .tuple _, .callback _ _ _ _, _, _, _, _, _, h => by simp [Value.eq] at h
  | .cons _ _, .int _, _, _, _, _, _, h => by simp [Value.eq] at h
  | .cons _ _, .str _, _, _, _, _, _, h => by simp [Value.eq] at h
  | .cons _ _, .tuple _, _, _, _, _, _, h => by simp [Value.eq] at h
  | .cons _ _, .record _ _, _, _, _, _, _, h => by simp [Value.eq] at h
  | .cons _ _, .ctor _ _, _, _, _, _, _, h => by simp [Value.eq] at h
  | .cons _ _, .fn _ _ _, _, _, _, _, _, h => by simp [Value.eq] at h
  | .cons _ _, .closure _ _ _, _, _, _, _, _, h => by simp [Value.eq] at h
  | .cons _ _, .capture _ _ _, _, _, _, _, _, h => by simp [Value.eq] at h
  | .cons _ _, .callback _ _ _ _, _, _, _, _, _, h => by simp [Value.eq] at h
  | .record _ _, .int _, _, _, _, _, _, h => by simp [Value.eq] at h
  | .record _ _, .str _, _, _, _, _, _, h => by simp [Value.eq] at h
  | .record _ _, .tuple _, _, _, _, _, _, h => by simp [Value.eq] at h
  | .record _ _, .nil, _, _, _, _, _, h => by simp [Value.eq] at h
  | .record _ _, .cons _ _, _, _, _, _, _, h => by simp [Value.eq] at h
  | .record _ _, .ctor _ _, _, _, _, _, _, h => by simp [Value.eq] at h
  | .record _ _, .fn _ _ _, _, _, _, _, _, h => by simp [Value.eq] at h
  | .record _ _, .closure _ _ _, _, _, _, _, _, h => by simp [Value.eq] at h
  | .record _ _, .capture _ _ _, _, _, _, _, _, h => by simp [Value.eq] at h
  | .record _ _, .callback _ _ _ _, _, _, _, _, _, h => by simp [Value.eq] at h
  | .ctor _ _, _, _, _, _, _, _, h => by simp [Value.eq] at h
  | .fn _ _ _, _, _, _, _, _, _, h => by simp [Value.eq] at h
  | .closure _ _ _, _, _, _, _, _, _, h => by simp [Value.eq] at h
  | .capture _ _ _, _, _, _, _, _, _, h => by simp [Value.eq] at h
  | .callback _ _ _ _, _, _, _, _, _, _, h => by simp [Value.eq] at h

theorem eqAll_same : ∀ (vs ws : List Value) {vs' ws' : List ErlGen.Gleam.Value} {r : Bool}, SameAll vs vs' →
    SameAll ws ws' → eqAll vs ws = some r → ErlGen.Gleam.eqAll vs' ws' = some r
  | [], _, _, _, _, .nil, hw, h => by
    cases hw <;> simp_all [eqAll, ErlGen.Gleam.eqAll]
  | _ :: _, [], _, _, _, _, _, h => by simp [eqAll] at h
  | v :: vs, w :: ws, _, _, _, .cons hv hvs, .cons hw hws, h => by
    simp only [eqAll] at h
    simp only [ErlGen.Gleam.eqAll]
    obtain ⟨x, y, hx, hy, rfl⟩ := both_some h
    rw [eq_same v w hv hw hx, eqAll_same vs ws hvs hws hy]
    rfl

end

theorem binary_same (op : Op) {v w : Value} {v' w' : ErlGen.Gleam.Value} (hv : Same v v') (hw : Same w w') :
    ∀ r, binary op v w = some r → ∃ r', ErlGen.Gleam.binary op v' w' = some r' ∧ Same r r' := by
  intro r h
  cases op
  case eq =>
    simp only [binary, Option.map_eq_some_iff] at h
    obtain ⟨b, hb, rfl⟩ := h
    exact ⟨_, by simp only [ErlGen.Gleam.binary, eq_same v w hv hw hb]; rfl, same_bool b⟩
  case notEq =>
    simp only [binary, Option.map_eq_some_iff] at h
    obtain ⟨b, hb, rfl⟩ := h
    exact ⟨_, by simp only [ErlGen.Gleam.binary, eq_same v w hv hw hb]; rfl, same_bool _⟩
  all_goals
    cases hv <;> first | (simp [binary] at h; done) | skip
    all_goals
      cases hw <;> first | (simp [binary] at h; done) | skip
      all_goals
        simp only [binary, Option.some.injEq] at h
        subst h
        first
        | exact ⟨_, rfl, same_bool _⟩
        | exact ⟨_, rfl, .int _⟩
        | exact ⟨_, rfl, .str _⟩

theorem isTrue_same {v : Value} {v' : ErlGen.Gleam.Value} (h : Same v v') {b : Bool} (hb : v.isTrue = some b) :
    v'.isTrue = some b := by
  cases h with
  | record tag hs =>
    cases hs with
    | nil => simpa [Value.isTrue, ErlGen.Gleam.Value.isTrue] using hb
    | cons _ _ => simp [Value.isTrue] at hb
  | _ => simp [Value.isTrue] at hb

/-- The same result of a match. Nothing is said if the pattern does not fit. -/
def SameMatch : Match Value → Match ErlGen.Gleam.Value → Prop
  | .yes b, .yes b' => SameBindings b b'
  | .no, .no => True
  | .bad, _ => True
  | _, _ => False

theorem SameMatch.inv {m : Match Value} {m' : Match ErlGen.Gleam.Value} (h : SameMatch m m') :
    m = .bad ∨ (m = .no ∧ m' = .no) ∨ ∃ b b', m = .yes b ∧ m' = .yes b' ∧ SameBindings b b' := by
  cases m <;> cases m' <;> simp_all [SameMatch]

theorem bindOption_same (p : Parameter) {v : Value} {v' : ErlGen.Gleam.Value} (h : Same v v') :
    SameBindings (bindOption p v) (ErlGen.Gleam.bindOption p v') := by
  cases p with
  | none => exact .nil
  | some x => exact .cons _ h .nil

mutual

theorem matchOne_same : ∀ (p : Pattern) {v : Value} {v' : ErlGen.Gleam.Value}, Same v v' →
    SameMatch (matchOne p v) (ErlGen.Gleam.Pattern.run p v')
  | .discard, _, _, _ => by simp only [matchOne, ErlGen.Gleam.Pattern.run]; exact .nil
  | .int n, _, _, h => by
    cases h with
    | int m =>
      simp only [matchOne, ErlGen.Gleam.Pattern.run]
      by_cases hn : n = m
      · rw [if_pos hn, if_pos hn]; exact .nil
      · rw [if_neg hn, if_neg hn]; trivial
    | _ => simp only [matchOne]; trivial
  | .string ps, _, _, h => by
    cases h with
    | str s =>
      simp only [matchOne, ErlGen.Gleam.Pattern.run]
      cases ErlGen.Gleam.literal ps with
      | none => trivial
      | some t =>
        dsimp only
        by_cases hn : s = t
        · rw [if_pos hn, if_pos hn]; exact .nil
        · rw [if_neg hn, if_neg hn]; trivial
    | _ => simp only [matchOne]; trivial
  | .var x l, _, _, h => by simp only [matchOne, ErlGen.Gleam.Pattern.run]; exact .cons _ h .nil
  | .assign p x l, _, _, h => by
    simp only [matchOne, ErlGen.Gleam.Pattern.run]
    rcases (matchOne_same p h).inv with hm | ⟨hm, hm'⟩ | ⟨b, b', hm, hm', hb⟩
    · rw [hm]; trivial
    · rw [hm, hm']; trivial
    · rw [hm, hm']; exact hb.append (.cons _ h .nil)
  | .tuple ps, _, _, h => by
    cases h with
    | tuple hs => simp only [matchOne, ErlGen.Gleam.Pattern.run]; exact matchAll_same ps hs
    | _ => simp only [matchOne]; trivial
  | .nil, _, _, h => by
    cases h <;> simp only [matchOne, ErlGen.Gleam.Pattern.run, SameMatch]
    exact .nil
  | .cons p q, _, _, h => by
    cases h with
    | nil => simp only [matchOne, ErlGen.Gleam.Pattern.run]; trivial
    | cons hv hw =>
      simp only [matchOne, ErlGen.Gleam.Pattern.run]
      rcases (matchOne_same p hv).inv with hm | ⟨hm, hm'⟩ | ⟨b, b', hm, hm', hb⟩
      · rw [hm]; trivial
      · rw [hm, hm']; trivial
      · rw [hm, hm']
        rcases (matchOne_same q hw).inv with hm | ⟨hm, hm'⟩ | ⟨c, c', hm, hm', hc⟩
        · simp only [hm]; trivial
        · simp only [hm, hm']; trivial
        · simp only [hm, hm']; exact hb.append hc
    | _ => simp only [matchOne]; trivial
  | .ctor tag ps, _, _, h => by
    cases h with
    | record t hs =>
      simp only [matchOne, ErlGen.Gleam.Pattern.run]
      split
      · exact matchAll_same ps hs
      · trivial
    | _ => simp only [matchOne]; trivial
  | .prefix ps l r, _, _, h => by
    cases h with
    | str s =>
      simp only [matchOne, ErlGen.Gleam.Pattern.run]
      cases ErlGen.Gleam.literal ps with
      | none => trivial
      | some t =>
        dsimp only
        cases ErlGen.Gleam.stripPrefix t s with
        | none => trivial
        | some rest => exact (bindOption_same l (.str _)).append (bindOption_same r (.str _))
    | _ => simp only [matchOne]; trivial

theorem matchAll_same : ∀ (ps : List Pattern) {vs : List Value} {vs' : List ErlGen.Gleam.Value}, SameAll vs vs' →
    SameMatch (matchAll ps vs) (ErlGen.Gleam.Pattern.runAll ps vs')
  | [], _, _, h => by
    cases h with
    | nil => simp only [matchAll, ErlGen.Gleam.Pattern.runAll]; exact .nil
    | cons _ _ => simp only [matchAll]; trivial
  | p :: ps, _, _, h => by
    cases h with
    | nil => simp only [matchAll]; trivial
    | cons hv hvs =>
      simp only [matchAll, ErlGen.Gleam.Pattern.runAll]
      rcases (matchOne_same p hv).inv with hm | ⟨hm, hm'⟩ | ⟨b, b', hm, hm', hb⟩
      · rw [hm]; trivial
      · rw [hm, hm']; trivial
      · rw [hm, hm']
        rcases (matchAll_same ps hvs).inv with hm | ⟨hm, hm'⟩ | ⟨c, c', hm, hm', hc⟩
        · simp only [hm]; trivial
        · simp only [hm, hm']; trivial
        · simp only [hm, hm']; exact hb.append hc

end

theorem SameAll.length {vs : List Value} {vs' : List ErlGen.Gleam.Value} (h : SameAll vs vs') : vs.length = vs'.length := by
  induction vs generalizing vs' with
  | nil => cases h; rfl
  | cons v vs ih => cases h with | cons _ h => simp [ih h]

theorem SameAll.get {vs : List Value} {vs' : List ErlGen.Gleam.Value} (h : SameAll vs vs') (i : Nat) :
    ∀ v, vs[i]? = some v → ∃ v', vs'[i]? = some v' ∧ Same v v' := by
  induction vs generalizing vs' i with
  | nil => simp
  | cons v vs ih =>
    cases h with
    | cons hv h =>
      cases i with
      | zero => intro w hw; simp at hw; subst hw; exact ⟨_, rfl, hv⟩
      | succ i => simpa using ih h i

theorem SameAll.append {vs ws : List Value} {vs' ws' : List ErlGen.Gleam.Value} (h : SameAll vs vs') (k : SameAll ws ws') :
    SameAll (vs ++ ws) (vs' ++ ws') := by
  induction vs generalizing vs' with
  | nil => cases h; exact k
  | cons v vs ih => cases h with | cons hv h => exact .cons hv (ih h)

theorem bindParameters_same (ps : List Parameter) {vs : List Value} {vs' : List ErlGen.Gleam.Value} (h : SameAll vs vs')
    {b : Env} (hb : bindParameters ps vs = some b) :
    ∃ b', ErlGen.Gleam.bindParameters ps vs' = some b' ∧ SameBindings b b' := by
  induction ps generalizing vs vs' b with
  | nil =>
    cases h with
    | nil => simp only [bindParameters, Option.some.injEq] at hb; subst hb; exact ⟨[], rfl, .nil⟩
    | cons _ _ => simp [bindParameters] at hb
  | cons p ps ih =>
    cases h with
    | nil => simp [bindParameters] at hb
    | cons hv h =>
      simp only [bindParameters, Option.map_eq_some_iff] at hb
      obtain ⟨c, hc, rfl⟩ := hb
      obtain ⟨c', hc', hs⟩ := ih h hc
      exact ⟨_, by simp only [ErlGen.Gleam.bindParameters, hc']; rfl, (bindOption_same p hv).append hs⟩

end Verif.Sugar
