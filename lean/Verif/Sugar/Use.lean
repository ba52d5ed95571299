import Verif.Sugar.Data

/-! # What the function of a `use` does with the values it gets -/

namespace Verif.Sugar

open Verif.ErlText (Text)
open Verif.ErlGen (Loc Pattern Op M Match Out)
open Verif.ErlGen.Gleam (Panic both)

theorem useVariable_hidden (i : Nat) : userName (useVariable i) = false := by
  simp [userName, useVariable]

theorem digits_inj {a b : Nat} (h : Nat.toDigits 10 a = Nat.toDigits 10 b) : a = b := by
  rw [← Nat.ofDigitChars_ten_toDigits (n := a), h, Nat.ofDigitChars_ten_toDigits]

theorem useVariable_inj {i j : Nat} (h : useVariable i = useVariable j) : i = j := by
  simp only [useVariable, List.append_cancel_left_eq] at h
  exact digits_inj h

/-! ### Names that are bound -/

theorem bindOption_keys (p : Parameter) (v : Value) : (bindOption p v).map Prod.fst = p.toList.map Prod.fst := by
  cases p with
  | none => rfl
  | some x => rfl

mutual

theorem matchOne_keys : ∀ (p : Pattern) {v : Value} {b : Env}, matchOne p v = .yes b →
    b.map Prod.fst = p.vars.map Prod.fst
  | .discard, v, b, h => by
    cases v <;> simp only [matchOne, Match.yes.injEq] at h <;> subst h <;> rfl
  | .int n, v, b, h => by
    cases v <;> simp only [matchOne, reduceCtorEq] at h
    split at h <;> simp at h
    subst h; rfl
  | .string ps, v, b, h => by
    cases v <;> simp only [matchOne, reduceCtorEq] at h
    split at h
    · split at h <;> simp at h
      subst h; rfl
    · cases h
  | .var x l, v, b, h => by
    cases v <;> simp only [matchOne, Match.yes.injEq] at h <;> subst h <;> rfl
  | .assign p x l, v, b, h => by
    simp only [matchOne] at h
    cases hm : matchOne p v with
    | bad => rw [hm] at h; cases h
    | no => rw [hm] at h; cases h
    | yes c =>
      rw [hm] at h
      simp only [Match.yes.injEq] at h
      subst h
      simp [ErlGen.Pattern.vars, matchOne_keys p hm]
  | .tuple ps, v, b, h => by
    cases v <;> simp only [matchOne, reduceCtorEq] at h
    simpa only [ErlGen.Pattern.vars] using matchAll_keys ps h
  | .nil, v, b, h => by
    cases v <;> simp only [matchOne, reduceCtorEq, Match.yes.injEq] at h
    subst h; rfl
  | .cons p q, v, b, h => by
    cases v <;> simp only [matchOne, reduceCtorEq] at h
    rename_i v w
    cases hm : matchOne p v with
    | bad => rw [hm] at h; cases h
    | no => rw [hm] at h; cases h
    | yes c =>
      rw [hm] at h
      dsimp only at h
      cases hm' : matchOne q w with
      | bad => rw [hm'] at h; cases h
      | no => rw [hm'] at h; cases h
      | yes d =>
        rw [hm'] at h
        simp only [Match.yes.injEq] at h
        subst h
        simp [ErlGen.Pattern.vars, matchOne_keys p hm, matchOne_keys q hm']
  | .ctor tag ps, v, b, h => by
    cases v <;> simp only [matchOne, reduceCtorEq] at h
    split at h
    · simpa only [ErlGen.Pattern.vars] using matchAll_keys ps h
    · cases h
  | .prefix ps l r, v, b, h => by
    cases v <;> simp only [matchOne, reduceCtorEq] at h
    split at h
    · split at h
      · simp only [Match.yes.injEq] at h
        subst h
        simp only [List.map_append, bindOption_keys, ErlGen.Pattern.vars]
      · cases h
    · cases h

theorem matchAll_keys : ∀ (ps : List Pattern) {vs : List Value} {b : Env}, matchAll ps vs = .yes b →
    b.map Prod.fst = (ErlGen.varsAll ps).map Prod.fst
  | [], vs, b, h => by
    cases vs <;> simp only [matchAll, reduceCtorEq, Match.yes.injEq] at h
    subst h; rfl
  | p :: ps, vs, b, h => by
    cases vs with
    | nil => simp only [matchAll, reduceCtorEq] at h
    | cons v vs =>
      simp only [matchAll] at h
      cases hm : matchOne p v with
      | bad => rw [hm] at h; cases h
      | no => rw [hm] at h; cases h
      | yes c =>
        rw [hm] at h
        dsimp only at h
        cases hm' : matchAll ps vs with
        | bad => rw [hm'] at h; cases h
        | no => rw [hm'] at h; cases h
        | yes d =>
          rw [hm'] at h
          simp only [Match.yes.injEq] at h
          subst h
          simp [ErlGen.varsAll, matchOne_keys p hm, matchAll_keys ps hm']

end

theorem SameBindings.keys {b b'} (h : SameBindings b b') : b.map Prod.fst = b'.map Prod.fst := by
  induction h with
  | nil => rfl
  | cons x _ _ ih => simp [ih]

theorem SameBindings.lookup {b b'} (h : SameBindings b b') (x : Text) :
    (∀ v, b.lookup x = some v → ∃ v', b'.lookup x = some v' ∧ Same v v') ∧ (b.lookup x = none → b'.lookup x = none) := by
  induction h with
  | nil => simp
  | cons y hv _ ih =>
    simp only [List.lookup_cons]
    cases x == y with
    | true => exact ⟨fun w hw => by cases hw; exact ⟨_, rfl, hv⟩, fun h => by cases h⟩
    | false => exact ih

theorem lookup_none_of {β : Type} {l : List (Text × β)} {x : Text} (h : x ∉ l.map Prod.fst) : l.lookup x = none := by
  rw [List.lookup_eq_none_iff]
  intro p hp
  simp only [bne_iff_ne, ne_eq, beq_eq_false_iff_ne]
  rintro rfl
  exact h (List.mem_map.2 ⟨p, hp, rfl⟩)

theorem lookup_some_mem {β : Type} {l : List (Text × β)} {x : Text} {v : β} (h : l.lookup x = some v) : x ∈ l.map Prod.fst := by
  by_contra hx
  rw [lookup_none_of hx] at h
  cases h

/-- The names of patterns. -/
def useNames (ps : List (Pattern × Loc)) : List Text := ps.flatMap fun p => p.1.vars.map Prod.fst

variable {W : Type} (ap' : ErlGen.Gleam.Value → List ErlGen.Gleam.Value → ErlGen.Gleam.Run W ErlGen.Gleam.Value)

/-- Whether a pattern is taken apart in the body. -/
def complex : Pattern → Bool
  | .discard => false
  | .var _ _ => false
  | _ => true

theorem useParameters_complex {p : Pattern} (h : complex p = true) (i : Nat) (l : Loc) (ps : List (Pattern × Loc)) :
    useParameters i ((p, l) :: ps) = some (useVariable i, l) :: useParameters (i + 1) ps := by
  cases p <;> simp [complex] at h <;> rfl

theorem useAssignments_complex {p : Pattern} (h : complex p = true) (i : Nat) (l : Loc) (ps : List (Pattern × Loc)) :
    useAssignments i ((p, l) :: ps) = .let_ p (.var (useVariable i) l) :: useAssignments (i + 1) ps := by
  cases p <;> simp [complex] at h <;> rfl

theorem append_cons_exists {α : Type} (l : List α) (s : α) (ss : List α) : ∃ t ts, l ++ s :: ss = t :: ts := by
  cases l with
  | nil => exact ⟨s, ss, rfl⟩
  | cons t l => exact ⟨t, l ++ s :: ss, rfl⟩

/-- Values are bound to parameters, and then taken apart. -/
theorem use_binds : ∀ (ps : List (Pattern × Loc)) (i : Nat) {vs : List Value} {vs' : List ErlGen.Gleam.Value} {b : Env},
    SameAll vs vs' → matchAll (ps.map Prod.fst) vs = .yes b → ps.all (fun p => okPattern p.1) = true →
    (useNames ps).Nodup →
    ∃ A B : ErlGen.Gleam.Env, ErlGen.Gleam.bindParameters (useParameters i ps) vs' = some B ∧
      (∀ env0 : ErlGen.Gleam.Env,
        (∀ j v, i ≤ j → B.lookup (useVariable j) = some v → env0.lookup (useVariable j) = some v) →
        ∀ s ss, ErlGen.Gleam.stmts ap' env0 (useAssignments i ps ++ s :: ss) =
          ErlGen.Gleam.stmts ap' (A ++ env0) (s :: ss)) ∧
      (∀ x ∈ A.map Prod.fst, userName x = true ∧ x ∈ useNames ps) ∧
      (∀ x ∈ B.map Prod.fst, x ∈ useNames ps ∨ userName x = false) ∧
      ∀ x, userName x = true →
        (∀ v, b.lookup x = some v → ∃ v', (A ++ B).lookup x = some v' ∧ Same v v') ∧
        (b.lookup x = none → (A ++ B).lookup x = none)
  | [], i, vs, vs', b, hvs, hm, _, _ => by
    cases hvs with
    | cons _ _ => simp [matchAll] at hm
    | nil =>
      simp only [List.map_nil, matchAll, Match.yes.injEq] at hm
      subst hm
      exact ⟨[], [], rfl, fun _ _ _ _ => rfl, by simp, by simp, by simp⟩
  | (p, l) :: ps, i, vs, vs', b, hvs, hm, hok, hnd => by
    cases hvs with
    | nil => simp [matchAll] at hm
    | @cons v v' vs vs' hv hvs =>
      simp only [List.map_cons, matchAll] at hm
      have hsame := matchOne_same p hv
      cases hm1 : matchOne p v with
      | bad => rw [hm1] at hm; cases hm
      | no => rw [hm1] at hm; cases hm
      | yes b1 =>
        rw [hm1] at hm hsame
        dsimp only at hm
        cases hm2 : matchAll (ps.map Prod.fst) vs with
        | bad => rw [hm2] at hm; cases hm
        | no => rw [hm2] at hm; cases hm
        | yes b2 =>
          rw [hm2] at hm
          simp only [Match.yes.injEq] at hm
          subst hm
          simp only [List.all_cons, Bool.and_eq_true] at hok
          have hnames : useNames ((p, l) :: ps) = p.vars.map Prod.fst ++ useNames ps := by simp [useNames]
          rw [hnames] at hnd
          have hdisj : ∀ x, x ∈ p.vars.map Prod.fst → x ∉ useNames ps := fun x h1 h2 =>
            (List.nodup_append.1 hnd).2.2 x h1 x h2 rfl
          have hnd2 := (List.nodup_append.1 hnd).2.1
          obtain ⟨A2, B2, hB2, hrun, hA2, hB2k, hlook⟩ := use_binds ps (i + 1) hvs hm2 hok.2 hnd2
          have hkeys1 := matchOne_keys p hm1
          -- what is bound by the rest does not have the names of this pattern
          have hA2none : ∀ x, x ∈ p.vars.map Prod.fst → A2.lookup x = none := fun x hx =>
            lookup_none_of fun h => hdisj x hx (hA2 x h).2
          cases hc : complex p with
          | true =>
            obtain ⟨b1', hrun1, hb1⟩ : ∃ b1', ErlGen.Gleam.Pattern.run p v' = .yes b1' ∧ SameBindings b1 b1' := by
              rcases hsame.inv with h | ⟨h, _⟩ | ⟨_, b', h, h', hb⟩
              · cases h
              · cases h
              · cases h; exact ⟨b', h', hb⟩
            have hk1' : b1'.map Prod.fst = p.vars.map Prod.fst := hb1.keys.symm.trans hkeys1
            have huser1 : ∀ x ∈ b1'.map Prod.fst, userName x = true := by
              intro x hx
              rw [hk1'] at hx
              obtain ⟨y, hy, rfl⟩ := List.mem_map.1 hx
              exact List.all_eq_true.1 hok.1 y hy
            refine ⟨A2 ++ b1', (useVariable i, v') :: B2, ?_, ?_, ?_, ?_, ?_⟩
            · rw [useParameters_complex hc]
              simp only [ErlGen.Gleam.bindParameters, hB2]
              rfl
            · intro env0 h0 s ss
              rw [useAssignments_complex hc]
              obtain ⟨t, ts, hts⟩ := append_cons_exists (useAssignments (i + 1) ps) s ss
              rw [List.cons_append, hts]
              have h0i := h0 i v' (Nat.le_refl i) (by simp)
              have : ErlGen.Gleam.stmts ap' env0 (.let_ p (.var (useVariable i) l) :: t :: ts) =
                  ErlGen.Gleam.stmts ap' (b1' ++ env0) (t :: ts) := by
                simp only [ErlGen.Gleam.stmts, ErlGen.Gleam.expr, h0i, M.ofOption]
                funext w
                simp only [M.bind, M.pure, hrun1]
              rw [this, ← hts, hrun (b1' ++ env0), List.append_assoc]
              intro j u hj hu
              have hjk : useVariable j ∉ b1'.map Prod.fst := fun h => by
                have := huser1 _ h
                rw [useVariable_hidden] at this
                cases this
              rw [List.lookup_append, lookup_none_of hjk, Option.none_or]
              apply h0 j u (by omega)
              rw [List.lookup_cons]
              have : (useVariable j == useVariable i) = false := by
                rw [beq_eq_false_iff_ne]
                intro h
                have := useVariable_inj h
                omega
              rw [this]
              exact hu
            · intro x hx
              rw [List.map_append, List.mem_append] at hx
              rw [hnames]
              rcases hx with hx | hx
              · exact ⟨(hA2 x hx).1, List.mem_append_right _ (hA2 x hx).2⟩
              · exact ⟨huser1 x hx, List.mem_append_left _ (hk1' ▸ hx)⟩
            · intro x hx
              rw [hnames]
              simp only [List.map_cons, List.mem_cons] at hx
              rcases hx with rfl | hx
              · exact Or.inr (useVariable_hidden i)
              · rcases hB2k x hx with h | h
                · exact Or.inl (List.mem_append_right _ h)
                · exact Or.inr h
            · intro x hx
              have hxi : (x == useVariable i) = false := by
                rw [beq_eq_false_iff_ne]
                rintro rfl
                rw [useVariable_hidden] at hx
                cases hx
              have hexp : ((A2 ++ b1') ++ (useVariable i, v') :: B2).lookup x =
                  ((A2.lookup x).or (b1'.lookup x)).or (B2.lookup x) := by
                rw [List.lookup_append, List.lookup_append, List.lookup_cons, hxi]
              rw [hexp, List.lookup_append]
              have hl := hb1.lookup x
              by_cases hmem : x ∈ p.vars.map Prod.fst
              · rw [hA2none x hmem, Option.none_or]
                constructor
                · intro u hu
                  cases hb : b1.lookup x with
                  | none =>
                    have : x ∈ b1.map Prod.fst := by rw [hkeys1]; exact hmem
                    rw [List.lookup_eq_none_iff] at hb
                    obtain ⟨q, hq, rfl⟩ := List.mem_map.1 this
                    have := hb q hq
                    simp at this
                  | some z =>
                    rw [hb, Option.some_or] at hu
                    cases hu
                    obtain ⟨z', hz', hs⟩ := hl.1 _ hb
                    exact ⟨z', by rw [hz', Option.some_or], hs⟩
                · intro hu
                  cases hb : b1.lookup x with
                  | none =>
                    have : x ∈ b1.map Prod.fst := by rw [hkeys1]; exact hmem
                    rw [List.lookup_eq_none_iff] at hb
                    obtain ⟨q, hq, rfl⟩ := List.mem_map.1 this
                    have := hb q hq
                    simp at this
                  | some z => rw [hb, Option.some_or] at hu; cases hu
              · have h1 : b1.lookup x = none := lookup_none_of (by rw [hkeys1]; exact hmem)
                have h2 : b1'.lookup x = none := hl.2 h1
                rw [h1, h2, Option.none_or, Option.or_none]
                have := hlook x hx
                rw [List.lookup_append] at this
                exact this
          | false =>
            cases p <;> simp [complex] at hc
            case discard =>
              simp only [matchOne, Match.yes.injEq] at hm1
              subst hm1
              refine ⟨A2, B2, ?_, ?_, hA2, hB2k, hlook⟩
              · simp only [useParameters, ErlGen.Gleam.bindParameters, hB2]
                rfl
              · intro env0 h0 s ss
                exact hrun env0 (fun j u hj hu => h0 j u (by omega) hu) s ss
            case var x0 l0 =>
              simp only [matchOne, Match.yes.injEq] at hm1
              subst hm1
              have hx0 : userName x0 = true := by
                have := hok.1
                simpa [okPattern, ErlGen.Pattern.vars] using this
              refine ⟨A2, (x0, v') :: B2, ?_, ?_, ?_, ?_, ?_⟩
              · simp only [useParameters, ErlGen.Gleam.bindParameters, hB2]
                rfl
              · intro env0 h0 s ss
                refine hrun env0 (fun j u hj hu => h0 j u (by omega) ?_) s ss
                rw [List.lookup_cons]
                have : (useVariable j == x0) = false := by
                  rw [beq_eq_false_iff_ne]
                  rintro rfl
                  rw [useVariable_hidden] at hx0
                  cases hx0
                rw [this]
                exact hu
              · intro x hx
                exact ⟨(hA2 x hx).1, by rw [hnames]; exact List.mem_append_right _ (hA2 x hx).2⟩
              · intro x hx
                rw [hnames]
                simp only [List.map_cons, List.mem_cons] at hx
                rcases hx with rfl | hx
                · exact Or.inl (by simp [ErlGen.Pattern.vars])
                · rcases hB2k x hx with h | h
                  · exact Or.inl (List.mem_append_right _ h)
                  · exact Or.inr h
              · intro x hx
                simp only [List.lookup_append, List.lookup_cons, List.lookup_nil]
                cases hxx : x == x0 with
                | true =>
                  have := eq_of_beq hxx
                  subst this
                  rw [hA2none x (by simp [ErlGen.Pattern.vars]), Option.none_or]
                  refine ⟨fun u hu => ?_, fun h => ?_⟩
                  · simp only [Option.some_or, Option.some.injEq] at hu
                    subst hu
                    exact ⟨v', rfl, hv⟩
                  · simp at h
                | false =>
                  have := hlook x hx
                  rw [List.lookup_append] at this
                  simpa only [Option.none_or] using this

end Verif.Sugar
