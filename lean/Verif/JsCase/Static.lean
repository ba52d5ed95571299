import Verif.Case.Root
import Verif.JsCase.Inv

/-!
# The variables of a compiled decision tree

Lemmas: a tree made by the compiler only uses variables in scope, and introduces every variable once.
-/

namespace Verif.JsCase

open Verif.Case

variable {B : BitSys}

/-- A branch only uses the variables `sc`. -/
structure In (sc : List Var) (b : Branch B) : Prop where
  checks : ∀ c ∈ b.checks, c.1 ∈ sc
  binds : ∀ p ∈ b.body.bindings, ∀ v, boundVar p.2 = some v → v ∈ sc

theorem In.mono {sc sc' : List Var} {b : Branch B} (h : In sc b) (hs : ∀ v ∈ sc, v ∈ sc') :
    In sc' b := ⟨fun c hc => hs _ (h.checks c hc), fun p hp v hv => hs _ (h.binds p hp v hv)⟩

theorem In.add {sc : List Var} {b : Branch B} (h : In sc b) {cs : List (PCheck B)}
    (hc : ∀ c ∈ cs, c.1 ∈ sc) : In sc (b.add cs) := by
  refine ⟨fun c hm => ?_, h.binds⟩
  simp only [Branch.add, List.mem_append] at hm
  rcases hm with hm | hm
  · exact h.checks c hm
  · exact hc c hm

theorem In.popped {sc : List Var} {b : Branch B} (h : In sc b) {v : Var} {p : Pat B}
    {cs : List (PCheck B)} (hp : popCheck v b.checks = some (p, cs)) :
    In sc { b with checks := cs } :=
  ⟨fun c hc => h.checks c ((popCheck_mem hp).2 c hc), h.binds⟩

theorem In.move {sc : List Var} {b : Branch B} (h : In sc b) (t : List Nat) :
    In sc (moveBranch t b).1 := by
  refine ⟨fun c hc => ?_, fun p hp v hv => ?_⟩
  · obtain ⟨p, t', hm, -⟩ := moveChecks_mem _ _ c hc
    exact h.checks (c.1, p) hm
  · simp only [moveBranch, List.mem_append] at hp
    rcases hp with hp | hp
    · exact h.binds p hp v hv
    · rw [boundVar_eq] at hv
      obtain ⟨c, hc, rfl⟩ := moveChecks_binds_var _ _ p hp v hv
      exact h.checks c hc

theorem newChecks_vars {v : Var} {p : Pat B} {c : Check B} {new : List (PCheck B)}
    (h : newChecks v p c = some new) : ∀ d ∈ new, d.1 ∈ checkVars c ∨ d.1 = v := by
  cases p <;> cases c <;>
    simp only [newChecks, Option.some.injEq, reduceCtorEq] at h <;> subst h <;>
    try (intro d hd; simp at hd; done)
  case str.strPrefix s s0 r0 =>
    intro d hd
    simp only [List.mem_singleton] at hd
    subst hd
    simp [checkVars]
  case strPrefix.strPrefix s name rest s0 r0 =>
    intro d hd
    simp only [newPrefixChecks] at hd
    split at hd
    · split at hd <;> (simp only [List.mem_singleton] at hd; subst hd; simp [checkVars])
    · split at hd
      · simp at hd
      · simp only [List.mem_singleton] at hd
        subst hd
        exact .inr rfl
  case tuple.tuple ps vs =>
    intro d hd
    exact .inl (List.of_mem_zip hd).1
  case variant.variant i ps e j vs =>
    intro d hd
    exact .inl (List.of_mem_zip hd).1
  case cons.cons p q a b =>
    intro d hd
    simp only [List.mem_cons, List.not_mem_nil, or_false] at hd
    rcases hd with rfl | rfl <;> simp [checkVars]

/-! ### Fresh variables -/

theorem within_sub {n m n' m' : Nat} {l : List Nat} (h : Within n m l) (h1 : n' ≤ n) (h2 : m ≤ m') :
    Within n' m' l :=
  ⟨h.nodup, fun c hc => by have := h.bounds c hc; omega⟩

theorem freshVars_within : ∀ (n : Nat) (ts : List Ty),
    Within n (n + ts.length) ((freshVars n ts).map Var.id)
  | n, [] => Within.nil
  | n, t :: ts => by
    have h := freshVars_within (n + 1) ts
    simp only [freshVars, List.map_cons, List.length_cons]
    have h1 : Within n (n + 1) [n] := ⟨by simp, by simp⟩
    have := h1.append h (by omega) (by omega)
    exact within_sub this (Nat.le_refl _) (by omega)

/-- The numbers of the variables of checks. -/
def checkIds (cs : List (Check B)) : List Nat := (cs.flatMap checkVars).map Var.id

theorem checkIds_append (a b : List (Check B)) : checkIds (a ++ b) = checkIds a ++ checkIds b := by
  simp [checkIds]

theorem checkIds_one (c : Check B) : checkIds [c] = (checkVars c).map Var.id := by simp [checkIds]

theorem checkIds_cons (c : Check B) (cs : List (Check B)) :
    checkIds (c :: cs) = (checkVars c).map Var.id ++ checkIds cs := by simp [checkIds]

theorem variantChecks_within : ∀ (cs : List (List Ty)) (n i : Nat),
    n ≤ (variantChecks (B := B) n i cs).2 ∧
      Within n (variantChecks (B := B) n i cs).2 (checkIds (variantChecks (B := B) n i cs).1)
  | [], n, i => ⟨Nat.le_refl _, Within.nil⟩
  | fs :: cs, n, i => by
    obtain ⟨h1, h2⟩ := variantChecks_within cs (n + fs.length) (i + 1)
    simp only [variantChecks, variantCheck, checkIds_cons, checkVars]
    exact ⟨by omega, (freshVars_within n fs).append h2 (by omega) h1⟩

theorem knownChecks_within {n : Nat} {m : Mode} {r : List (Check B) × Nat}
    (h : knownChecks n m = some r) : n ≤ r.2 ∧ Within n r.2 (checkIds r.1) := by
  cases m <;> simp only [knownChecks] at h
  case infinite =>
    simp only [Option.some.injEq] at h
    subst h
    exact ⟨Nat.le_refl _, Within.nil⟩
  case tuple ts =>
    simp only [Option.some.injEq] at h
    subst h
    simp only [tupleCheck, checkIds_one, checkVars]
    exact ⟨by omega, freshVars_within n ts⟩
  case list t =>
    simp only [Option.some.injEq] at h
    subst h
    simp only [listCheck, checkIds_cons, checkVars]
    exact ⟨by omega, by simp [checkIds], by simp [checkIds]⟩
  case named cs inf =>
    cases inf with
    | some i =>
      simp only [knownChecks, Option.map_eq_some_iff] at h
      obtain ⟨fs, -, rfl⟩ := h
      simp only [variantCheck, checkIds_one, checkVars]
      exact ⟨by omega, freshVars_within n fs⟩
    | none =>
      simp only [knownChecks, Option.some.injEq] at h
      subst h
      exact variantChecks_within cs n 0

theorem freshCheck_within {n : Nat} {k : Kind} {m : Mode} {c : Check B × Nat}
    (h : freshCheck n k m = some c) : n ≤ c.2 ∧ Within n c.2 ((checkVars c.1).map Var.id) := by
  cases k <;> simp only [freshCheck, Option.some.injEq] at h
  case int | float | str | nil =>
    subst h
    exact ⟨Nat.le_refl _, Within.nil⟩
  case strPrefix =>
    subst h
    exact ⟨by simp, by simp [checkVars], by simp [checkVars]⟩
  case tuple =>
    cases m <;> simp only [freshCheck, Option.some.injEq, reduceCtorEq] at h
    subst h
    exact ⟨by simp [tupleCheck], freshVars_within n _⟩
  case variant i =>
    cases m <;> simp only [freshCheck, Option.map_eq_some_iff, reduceCtorEq] at h
    obtain ⟨fs, -, rfl⟩ := h
    exact ⟨by simp [variantCheck], freshVars_within n fs⟩
  case cons =>
    cases m <;> simp only [freshCheck, Option.some.injEq, reduceCtorEq] at h
    subst h
    exact ⟨by simp [listCheck], by simp [listCheck, checkVars], by simp [listCheck, checkVars]⟩

/-! ### Splitting -/

/-- The lists of branches of a splitter only use variables in scope. -/
structure SpIn (sc : List Var) (n0 n : Nat) (sp : Splitter B) : Prop where
  le : n0 ≤ n
  ids : Within n0 n (checkIds (sp.choices.map Prod.fst))
  choice : ∀ ch ∈ sp.choices, ∀ b ∈ ch.2, In (checkVars ch.1 ++ sc) b
  fallback : ∀ b ∈ sp.fallback, In sc b

theorem matched_checkVars (c : Check B) : checkVars c.matched = checkVars c := by cases c <;> rfl

section
variable {sc : List Var} {n0 n : Nat} {v : Var} {sp : Splitter B}

theorem SpIn.addFallback {b : Branch B} (h : SpIn sc n0 n sp) (hb : In sc b) :
    SpIn sc n0 n (addFallback sp b) := by
  refine ⟨h.le, ?_, ?_, ?_⟩
  · have : (Verif.Case.addFallback sp b).choices.map Prod.fst = sp.choices.map Prod.fst := by
      simp [Verif.Case.addFallback]
    rw [this]
    exact h.ids
  · intro ch hch b' hb'
    simp only [Verif.Case.addFallback, List.mem_map] at hch
    obtain ⟨ch0, h0, rfl⟩ := hch
    simp only [List.mem_append, List.mem_singleton] at hb'
    rcases hb' with hb' | rfl
    · exact h.choice ch0 h0 b' hb'
    · exact hb.mono fun v hv => List.mem_append_right _ hv
  · intro b' hb'
    simp only [Verif.Case.addFallback, List.mem_append, List.mem_singleton] at hb'
    rcases hb' with hb' | rfl
    · exact h.fallback b' hb'
    · exact hb

theorem SpIn.addBits {b : Branch B} {p : Pat B} {ts : List (BTest B)} {sp' : Splitter B}
    (h : SpIn sc n0 n sp) (hb : In sc b) (hv : v ∈ sc) (ha : addBits sp v p ts b = some sp') :
    SpIn sc n0 n sp' := by
  simp only [Verif.Case.addBits, Option.map_eq_some_iff] at ha
  obtain ⟨⟨t, bs⟩, hp, rfl⟩ := ha
  have hbs : ∀ b ∈ bs, In sc b := by
    intro b hb
    cases hch : sp.choices with
    | nil =>
      rw [hch] at hp
      simp only [pivotTest, Option.map_eq_some_iff, Prod.mk.injEq] at hp
      obtain ⟨_, -, -, rfl⟩ := hp
      simp at hb
    | cons ch chs =>
      rw [hch] at hp
      have hc := h.choice ch (by simp [hch])
      obtain ⟨c, bs'⟩ := ch
      cases c <;> cases chs <;>
        simp only [pivotTest, Option.some.injEq, Prod.mk.injEq, reduceCtorEq] at hp
      obtain ⟨-, rfl⟩ := hp
      simpa [checkVars] using hc b hb
  have hadd : ∀ q, In sc (b.add [(v, q)]) := fun q => hb.add (by simp [hv])
  refine ⟨h.le, ?_, ?_, ?_⟩
  · have : checkIds [(Check.bits t : Check B)] = [] := by simp [checkIds, checkVars]
    simp only [List.map_cons, List.map_nil, this]
    exact Within.nil
  · intro ch hch b' hb'
    simp only [List.mem_singleton] at hch
    subst hch
    simp only [checkVars, List.nil_append]
    split at hb'
    · exact hbs b' hb'
    · simp only [List.mem_append, List.mem_singleton] at hb'
      rcases hb' with hb' | rfl
      · exact hbs b' hb'
      · exact hadd _
  · intro b' hb'
    simp only at hb'
    split at hb'
    · exact h.fallback b' hb'
    · simp only [List.mem_append, List.mem_singleton] at hb'
      rcases hb' with hb' | rfl
      · exact h.fallback b' hb'
      · exact hadd _

theorem joined_vars {p : Pat B} {b : Branch B} {ov : Check B × List (Branch B) → Bool} :
    ∀ {l m : List (Check B × List (Branch B))}, List.Forall₂ (JoinedTo v p b ov) l m →
      checkIds (m.map Prod.fst) = checkIds (l.map Prod.fst)
  | _, _, .nil => rfl
  | _, _, .cons h t => by
    simp only [List.map_cons, checkIds_cons, joined_vars t]
    cases h with
    | join => rw [matched_checkVars]
    | keep => rfl

theorem SpIn.addKind {b : Branch B} {p : Pat B} {k : Kind} {mode : Mode} {r : Splitter B × Nat}
    (h : SpIn sc n0 n sp) (hb : In sc b) (hv : v ∈ sc)
    (ha : addKind n sp v p k b mode = some r) : SpIn sc n0 r.2 r.1 := by
  obtain ⟨chs, hj, ha⟩ := addKind_cases ha
  have hnew : ∀ {c : Check B} {new}, newChecks v p c = some new →
      In (checkVars c ++ sc) (b.add new) := by
    intro c new hn
    refine (hb.mono fun v hv => List.mem_append_right _ hv).add fun d hd => ?_
    rcases newChecks_vars hn d hd with h | h
    · exact List.mem_append_left _ h
    · rw [h]; exact List.mem_append_right _ hv
  have hch : ∀ ch ∈ chs, ∀ b ∈ ch.2, In (checkVars ch.1 ++ sc) b := by
    intro ch hch b' hb'
    obtain ⟨ch0, h0, hjt⟩ := forall₂_mem_right hj ch hch
    cases hjt with
    | keep _ => exact h.choice _ h0 b' hb'
    | join _ hn =>
      simp only [matched_checkVars]
      simp only [List.mem_append, List.mem_singleton] at hb'
      rcases hb' with hb' | rfl
      · exact h.choice ch0 h0 b' hb'
      · exact hnew hn
  rcases ha with ⟨-, rfl⟩ | ⟨-, c, new, hc, hn, rfl⟩
  · exact ⟨h.le, by rw [joined_vars hj]; exact h.ids, hch, h.fallback⟩
  · obtain ⟨h1, h2⟩ := freshCheck_within hc
    have := h.le
    refine ⟨by simp only; omega, ?_, ?_, h.fallback⟩
    · simp only [List.map_append, List.map_cons, List.map_nil, checkIds_append, checkIds_one,
        joined_vars hj]
      exact h.ids.append h2 h.le h1
    · intro ch hm b' hb'
      simp only [List.mem_append, List.mem_singleton] at hm
      rcases hm with hm | rfl
      · exact hch ch hm b' hb'
      · simp only [List.mem_append, List.mem_singleton] at hb'
        rcases hb' with hb' | rfl
        · exact (h.fallback b' hb').mono fun v hv => List.mem_append_right _ hv
        · exact hnew hn

theorem splitBranches_in {mode : Mode} (hv : v ∈ sc) : ∀ {bs : List (Branch B)} {st : Case.St}
    {sp : Splitter B} {r : Case.St × Splitter B}, splitBranches mode v st sp bs = some r →
    (∀ b ∈ bs, In sc b) → SpIn sc n0 st.next sp → SpIn sc n0 r.1.next r.2
  | [], st, sp, r, h, _, hsp => by
    simp only [splitBranches, Option.some.injEq] at h
    subst h
    exact hsp
  | b :: bs, st, sp, r, h, hb, hsp => by
    have hbs : ∀ b ∈ bs, In sc b := fun b' h' => hb b' (by simp [h'])
    have hb0 := hb b (by simp)
    simp only [splitBranches] at h
    split at h
    · exact splitBranches_in hv h hbs (hsp.addFallback hb0)
    · rename_i p cs hpop
      have hbp := hb0.popped hpop
      split at h
      · exact splitBranches_in hv h hbs hsp
      · split at h
        · exact splitBranches_in hv h hbs hsp
        · simp only [Option.bind_eq_some_iff] at h
          obtain ⟨⟨sp', n'⟩, ha, h⟩ := h
          refine splitBranches_in hv h hbs ?_
          simp only
          unfold addChecked at ha
          split at ha
          · simp only [Option.map_eq_some_iff, Prod.mk.injEq] at ha
            obtain ⟨s, hs, rfl, rfl⟩ := ha
            exact hsp.addBits hbp hv hs
          · simp only [Option.bind_eq_some_iff] at ha
            obtain ⟨k, -, ha⟩ := ha
            exact hsp.addKind hbp hv ha
end

/-! ### Compiling -/

/-- Compiling branches gives a tree with the right variables. -/
def Tracks (rec : Case.St → List (Branch B) → Option (Decision B × Case.St)) : Prop :=
  ∀ st bs r sc, rec st bs = some r → (∀ b ∈ bs, In sc b) →
    Scoped sc r.1 ∧ st.next ≤ r.2.next ∧ Within st.next r.2.next ((varsOf r.1).map Var.id)

section
variable {rec : Case.St → List (Branch B) → Option (Decision B × Case.St)} {sc : List Var}

theorem compileChoices_tracks (hr : Tracks rec) : ∀ {chs : List (Check B × List (Branch B))}
    {st : Case.St} {r : Choices B × Case.St}, compileChoices rec st chs = some r →
    (∀ ch ∈ chs, ∀ b ∈ ch.2, In (checkVars ch.1 ++ sc) b) →
    ScopedChoices sc r.1 ∧ st.next ≤ r.2.next ∧ ∃ inner, Within st.next r.2.next inner ∧
      ((varsOfChoices r.1).map Var.id).Perm (checkIds (chs.map Prod.fst) ++ inner)
  | [], st, r, h, _ => by
    simp only [compileChoices, Option.some.injEq] at h
    subst h
    exact ⟨by simp only [ScopedChoices], Nat.le_refl _, [], Within.nil,
      by simp [varsOfChoices, checkIds]⟩
  | ch :: chs, st, r, h, hb => by
    simp only [compileChoices, Option.bind_eq_some_iff, Option.some.injEq] at h
    obtain ⟨a, ha, s, hs, rfl⟩ := h
    obtain ⟨h1, h2, h3⟩ := hr st ch.2 a _ ha (hb ch (by simp))
    obtain ⟨k1, k2, inner, k3, k4⟩ := compileChoices_tracks hr hs fun ch' h' => hb ch' (by simp [h'])
    refine ⟨by simp only [ScopedChoices]; exact ⟨h1, k1⟩, by simp only; omega,
      (varsOf a.1).map Var.id ++ inner, h3.append k3 h2 k2, ?_⟩
    simp only [varsOfChoices, List.map_append, List.map_cons, checkIds_cons, List.append_assoc]
    refine List.Perm.append_left _ ?_
    refine (List.Perm.append_left _ k4).trans ?_
    rw [← List.append_assoc, ← List.append_assoc]
    exact List.Perm.append_right _ List.perm_append_comm

theorem compileSwitch_tracks (hr : Tracks rec) {chs : List (Check B × List (Branch B))} {st : Case.St}
    {v : Var} {fb : List (Branch B)} {fc : Fallback B} {r : Decision B × Case.St} {n0 : Nat}
    (h : compileSwitch rec st v chs fb fc = some r) (hv : v ∈ sc)
    (hc : ∀ ch ∈ chs, ∀ b ∈ ch.2, In (checkVars ch.1 ++ sc) b)
    (hf : ∀ b ∈ fb, In (fallbackVars fc ++ sc) b) (hn : n0 ≤ st.next)
    (hw : Within n0 st.next (checkIds (chs.map Prod.fst) ++ (fallbackVars fc).map Var.id)) :
    Scoped sc r.1 ∧ n0 ≤ r.2.next ∧ Within n0 r.2.next ((varsOf r.1).map Var.id) := by
  simp only [compileSwitch, Option.bind_eq_some_iff, Option.some.injEq] at h
  obtain ⟨a, ha, s, hs, rfl⟩ := h
  obtain ⟨h1, h2, inner, h3, h4⟩ := compileChoices_tracks (sc := sc) hr ha hc
  obtain ⟨k1, k2, k3⟩ := hr _ fb s _ hs hf
  refine ⟨by simp only [Scoped]; exact ⟨hv, h1, k1⟩, by simp only; omega, ?_⟩
  have hall := hw.append (h3.append k3 h2 k2) hn (by omega)
  have hp : ((varsOf (.switch v a.1 s.1 fc)).map Var.id).Perm
      ((checkIds (chs.map Prod.fst) ++ (fallbackVars fc).map Var.id) ++
        (inner ++ (varsOf s.1).map Var.id)) := by
    simp only [varsOf, List.map_append]
    refine (List.Perm.append_right _ h4).trans ?_
    simp only [List.append_assoc]
    refine List.Perm.append_left _ ?_
    rw [← List.append_assoc, ← List.append_assoc]
    exact List.Perm.append_right _ List.perm_append_comm
  exact ⟨hp.nodup_iff.2 hall.nodup, fun c hc => hall.bounds c (hp.mem_iff.1 hc)⟩

theorem within_sublist {n m : Nat} {l l' : List Nat} (h : Within n m l) (hs : l'.Sublist l) :
    Within n m l' :=
  ⟨h.nodup.sublist hs, fun c hc => h.bounds c (hs.subset hc)⟩

theorem checkIds_sublist {l m : List (Check B)} (h : l.Sublist m) :
    (checkIds l).Sublist (checkIds m) := by
  unfold checkIds
  refine List.Sublist.map _ ?_
  induction h with
  | slnil => exact List.Sublist.refl _
  | cons a h ih =>
    simp only [List.flatMap_cons]
    exact ih.trans (List.sublist_append_right _ _)
  | cons_cons a h ih =>
    simp only [List.flatMap_cons]
    exact (List.Sublist.refl _).append ih

theorem splitAndCompile_tracks {ds : Decls} (hr : Tracks rec) {st : Case.St} {v : Var}
    {bs : List (Branch B)} {r : Decision B × Case.St} (h : splitAndCompile ds rec st v bs = some r)
    (hv : v ∈ sc) (hb : ∀ b ∈ bs, In sc b) :
    Scoped sc r.1 ∧ st.next ≤ r.2.next ∧ Within st.next r.2.next ((varsOf r.1).map Var.id) := by
  simp only [splitAndCompile, Option.bind_eq_some_iff] at h
  obtain ⟨kc, hk, ⟨st', sp⟩, hs, h⟩ := h
  obtain ⟨k1, k2⟩ := knownChecks_within hk
  have hsp : SpIn sc st.next st'.next sp := by
    refine splitBranches_in (r := (st', sp)) hv hs hb ⟨k1, ?_, ?_, by simp [Splitter.fromChecks]⟩
    · have : (Splitter.fromChecks (B := B) kc.1).choices.map Prod.fst = kc.1 := by
        simp only [Splitter.fromChecks, List.map_map]
        exact List.map_id _
      rw [this]
      exact k2
    · intro ch hch b hb
      simp only [Splitter.fromChecks, List.mem_map] at hch
      obtain ⟨c, -, rfl⟩ := hch
      simp at hb
  simp only at h
  split at h
  · refine compileSwitch_tracks hr h hv hsp.choice ?_ hsp.le ?_
    · simpa [fallbackVars] using hsp.fallback
    · simpa [fallbackVars] using hsp.ids
  · split at h
    · simp only [Option.some.injEq] at h
      subst h
      exact ⟨by simp only [Scoped], hsp.le, by simp only [varsOf, List.map_nil]; exact Within.nil⟩
    · unfold exhaustiveSwitch at h
      split at h
      · refine compileSwitch_tracks hr h hv (fun ch hch => hsp.choice ch (List.mem_filter.1 hch).1)
          ?_ hsp.le ?_
        · simpa [fallbackVars] using hsp.fallback
        · simp only [fallbackVars, List.map_nil, List.append_nil]
          exact within_sublist hsp.ids (checkIds_sublist (List.Sublist.map _ List.filter_sublist))
      · split at h
        · simp at h
        · rename_i last hl
          obtain ⟨hd, hne⟩ : sp.choices = sp.choices.dropLast ++ [last] ∧ True :=
            ⟨(List.dropLast_append_getLast? last hl).symm, trivial⟩
          have hm : last ∈ sp.choices := List.mem_of_getLast? hl
          refine compileSwitch_tracks hr h hv
            (fun ch hch => hsp.choice ch (List.dropLast_subset _ hch)) ?_ hsp.le ?_
          · simpa [fallbackVars] using hsp.choice last hm
          · have := hsp.ids
            rw [hd, List.map_append, checkIds_append] at this
            simpa [fallbackVars, checkIds_one] using this
end

theorem compile_tracks (ds : Decls) : ∀ fuel, Tracks (compile (B := B) ds fuel)
  | 0 => fun st bs r sc h => by simp [compile] at h
  | fuel + 1 => fun st bs r sc h hb => by
    have ih := compile_tracks ds fuel
    have hm : ∀ b ∈ (moveAll st.taken bs).1, In sc b := by
      intro b' hb'
      obtain ⟨b, hb0, t, rfl⟩ := moveAll_mem bs _ b' hb'
      exact (hb b hb0).move t
    simp only [compile] at h
    split at h
    · simp only [Option.some.injEq] at h
      subst h
      exact ⟨by simp only [Scoped], Nat.le_refl _, by simp only [varsOf, List.map_nil]; exact Within.nil⟩
    · rename_i first rest taken heq
      rw [heq] at hm
      simp only at hm
      have hnext : (Case.St.reached { st with taken := taken } (first.clause, first.alt)).next =
          st.next := by
        unfold Case.St.reached; split <;> rfl
      have hf := hm first (by simp)
      split at h
      · rename_i v hv
        obtain ⟨p, hp⟩ := findPivot_mem hv
        have := splitAndCompile_tracks ih h (hf.checks _ hp) hm
        rwa [hnext] at this
      · split at h
        · simp only [Option.some.injEq] at h
          subst h
          refine ⟨by simp only [Scoped]; exact hf.binds, by simp only [hnext]; omega, ?_⟩
          simp only [varsOf, List.map_nil]
          exact Within.nil
        · simp only [Option.bind_eq_some_iff, Option.some.injEq] at h
          obtain ⟨a, ha, rfl⟩ := h
          obtain ⟨k1, k2, k3⟩ := ih _ rest a sc ha fun b hb => hm b (by simp [hb])
          rw [hnext] at k2 k3
          exact ⟨by simp only [Scoped]; exact ⟨hf.binds, k1⟩, k2, by simpa only [varsOf] using k3⟩

/-- The tree of a `case` expression. -/
theorem compileCase_tracks {ds : Decls} {subjects : List Ty} {clauses : List (Clause B)}
    {r : Decision B × Case.St} (h : compileCase ds subjects clauses = some r) :
    Scoped (freshVars 0 subjects) r.1 ∧
      ((varsOf r.1 ++ freshVars 0 subjects).map Var.id).Nodup := by
  have key : ∀ {n : Nat}, n = (freshVars 0 subjects).length →
      Scoped (freshVars 0 subjects) r.1 ∧ n ≤ r.2.next ∧
        Within n r.2.next ((varsOf r.1).map Var.id) →
      Scoped (freshVars 0 subjects) r.1 ∧
        ((varsOf r.1 ++ freshVars 0 subjects).map Var.id).Nodup := by
    intro n hn hk
    subst hn
    refine ⟨hk.1, ?_⟩
    have hw := freshVars_within 0 subjects
    rw [Nat.zero_add] at hw
    rw [freshVars_length] at hk
    have := hw.append hk.2.2 (Nat.zero_le _) hk.2.1
    rw [List.map_append]
    exact (List.perm_append_comm.nodup_iff).1 this.nodup
  simp only [compileCase] at h
  split at h
  · split at h
    · simp at h
    · rename_i v vars hv
      refine key (n := (Case.St.init (freshVars 0 subjects).length).next) rfl ?_
      exact splitAndCompile_tracks (compile_tracks ds 1) h (by rw [hv]; simp) (by simp)
  · refine key (n := (Case.St.init (freshVars 0 subjects).length).next) rfl ?_
    refine compile_tracks ds _ _ _ _ _ h ?_
    intro b hb
    obtain ⟨i, c, j, ps, -, -, h3⟩ := clauseBranches_mem hb
    obtain ⟨n, rfl⟩ := h3.eq
    refine ⟨fun d hd => ?_, by simp [altBranch]⟩
    simp only [altBranch] at hd
    exact (List.of_mem_zip hd).1

end Verif.JsCase
