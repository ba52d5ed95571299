import Verif.Case.Exact

/-!
# The decision tree runs the first branch that matches

Lemmas: what holds of splitting tidy branches holds of compiling them.
-/

namespace Verif.Case

variable {B : BitSys}

/-- A branch that can be compiled. -/
structure Good (ds : Decls) (n : Nat) (sk : Char → Nat) (env : Env B) (b : Branch B) : Prop where
  ok : BranchOk ds n env b
  tidy : ∀ c ∈ b.checks, Tidy ds sk c
  nodup : NodupRun env b
  body : b.body.clause = b.clause

/-- Compiling gives a tree that runs the first branch that matches. -/
def RunsFirst (ds : Decls) (sk : Char → Nat) (guards : Guards B)
    (rec : St → List (Branch B) → Option (Decision B × St)) : Prop :=
  ∀ st bs r env, rec st bs = some r → (∀ b ∈ bs, Good ds st.next sk env b) → bs.Pairwise NC →
    r.1.eval guards env = pick guards env bs

theorem knownChecks_plain {n : Nat} {m : Mode} {r : List (Check B) × Nat}
    (h : knownChecks n m = some r) : ∀ c ∈ r.1, c.prefixText = none ∧ ∀ t, c ≠ .str t := by
  cases m <;> simp only [knownChecks] at h
  case infinite =>
    simp only [Option.some.injEq] at h
    subst h
    simp
  case tuple ts =>
    simp only [Option.some.injEq] at h
    subst h
    simp [tupleCheck, Check.prefixText]
  case list t =>
    simp only [Option.some.injEq] at h
    subst h
    simp [listCheck, Check.prefixText]
  case named cs inf =>
    cases inf with
    | some i =>
      simp only [knownChecks, Option.map_eq_some_iff] at h
      obtain ⟨fs, -, rfl⟩ := h
      simp [variantCheck, Check.prefixText]
    | none =>
      simp only [knownChecks, Option.some.injEq] at h
      subst h
      generalize 0 = i
      induction cs generalizing n i with
      | nil => simp [variantChecks]
      | cons c cs ih =>
        simp only [variantChecks, List.mem_cons, forall_eq_or_imp]
        exact ⟨by simp [variantCheck, Check.prefixText], ih _⟩

theorem splitAndCompile_exact {ds : Decls} {sk : Char → Nat} {guards : Guards B}
    {rec : St → List (Branch B) → Option (Decision B × St)} (hsnd : B.Sound) (hg : Grows rec)
    (hrec : RunsFirst ds sk guards rec) {env : Env B} {st : St} {v : Var} {first : Branch B}
    {rest : List (Branch B)} {r : Decision B × St}
    (h : splitAndCompile ds rec st v (first :: rest) = some r) {p : Pat B}
    (hp : (v, p) ∈ first.checks) (hgood : ∀ b ∈ first :: rest, Good ds st.next sk env b)
    (hst : ∀ b ∈ first :: rest, b.stuck) (hnc : (first :: rest).Pairwise NC) :
    r.1.eval guards env = pick guards env (first :: rest) := by
  have hpop : popCheck v first.checks ≠ none := fun h0 => popCheck_none h0 _ hp rfl
  have hv := (hgood first (by simp)).ok.val _ hp
  obtain ⟨kc, stm, sp, hkc, hsp, hw, hd, hpath⟩ := splitAndCompile_path hsnd hg env h hv
    fun b hb => ⟨(hgood b hb).ok, hst b hb⟩
  obtain ⟨hn, hkok⟩ := knownChecks_ok hkc
  have hmem : ∀ ch ∈ (Splitter.fromChecks kc.1).choices, ∃ c ∈ kc.1, ch = (c, []) := by
    intro ch hch
    simp only [Splitter.fromChecks, List.mem_map] at hch
    obtain ⟨c, hc, rfl⟩ := hch
    exact ⟨c, hc, rfl⟩
  have hplain : ∀ ch ∈ (Splitter.fromChecks kc.1).choices, ch.1.prefixText = none := by
    intro ch hch
    obtain ⟨c, hc, rfl⟩ := hmem ch hch
    exact (knownChecks_plain hkc c hc).1
  have hw0 : SpWf ds st.next kc.2 env v (Splitter.fromChecks kc.1) := by
    refine ⟨hn, ?_, ?_, by simp [Splitter.fromChecks]⟩
    · intro ch hch
      obtain ⟨c, hc, rfl⟩ := hmem ch hch
      exact hkok c hc
    · intro ch hch _ b hb
      obtain ⟨c, hc, rfl⟩ := hmem ch hch
      simp at hb
  have hd0 : SpSound env v [] (Splitter.fromChecks kc.1) := by
    refine ⟨?_, by simp [Splitter.fromChecks]⟩
    intro ch hch _ b hb
    obtain ⟨c, hc, rfl⟩ := hmem ch hch
    simp at hb
  have hx0 : SpExact guards env v [] (Splitter.fromChecks kc.1) := by
    refine ⟨fun _ => rfl, ?_, ?_, ?_, ?_, ?_, by simp [Splitter.fromChecks]⟩
    · intro pre c l suf hs _ _
      obtain ⟨c', hc, he⟩ := hmem (c, l) (by rw [hs]; simp)
      simp only [Prod.mk.injEq] at he
      rw [he.2]; rfl
    · intro ch hch t ht
      obtain ⟨c, hc, rfl⟩ := hmem ch hch
      exact absurd ht ((knownChecks_plain hkc c hc).2 t)
    · intro ch hch t r ht
      have := hplain ch hch
      rw [ht] at this
      simp [Check.prefixText] at this
    · rw [List.pairwise_iff_forall_sublist]
      intro a b hab s t hs _
      rw [hplain a (hab.subset (by simp))] at hs
      simp at hs
    · intro ch hch _ b hb
      obtain ⟨c, hc, rfl⟩ := hmem ch hch
      simp at hb
  have hr0 : SpDer NC v [] (Splitter.fromChecks kc.1) := by
    refine ⟨?_, ?_, by simp [Splitter.fromChecks], by simp [Splitter.fromChecks]⟩
    · intro ch hch b hb
      obtain ⟨c, hc, rfl⟩ := hmem ch hch
      simp at hb
    · intro ch hch
      obtain ⟨c, hc, rfl⟩ := hmem ch hch
      simp
  have hcov : (branchMode ds v.ty).isInfinite = false →
      Cover (env v) (Splitter.fromChecks (B := B) kc.1).choices := by
    intro hi
    refine knownChecks_cover hkc hi ?_ hv
    intro hnil
    exact knownChecks_nil hkc hi hnil ((hgood first (by simp)).ok.pat _ hp)
      (hst first (by simp) _ hp)
  obtain ⟨hex, hder⟩ := splitBranches_exact (guards := guards) (sk := sk) (seen := []) hsnd
    NC.lasting (fun _ _ h => h) hsp
    (fun b hb => ⟨(hgood b (by simpa using hb)).ok, hst b (by simpa using hb),
      (hgood b (by simpa using hb)).tidy, (hgood b (by simpa using hb)).nodup⟩)
    (by simpa using hnc) hw0 hd0 hx0 hr0 hcov (fun _ _ => ⟨rfl, by simpa using hpop⟩)
  obtain ⟨hk, -⟩ := splitBranches_keeps (tidy_kept ds sk) hsp
    (fun b hb => ⟨(hgood b hb).tidy, hst b hb⟩) (by
      refine ⟨?_, ?_, by simp [Splitter.fromChecks]⟩
      · intro ch hch
        obtain ⟨c, hc, rfl⟩ := hmem ch hch
        exact (hkok c hc).ty
      · intro ch hch b hb
        obtain ⟨c, hc, rfl⟩ := hmem ch hch
        simp at hb)
  simp only [List.nil_append] at hex hder
  rcases hpath with ⟨-, -, hall⟩ | ⟨l, env', dL, s1, s2, g1, g2, g3, g4, g5⟩
  · exact absurd (hall first (by simp)) hpop
  · obtain ⟨k1, -⟩ := g5.sound hw hd
    have hbody : ∀ {b b' : Branch B}, b ∈ first :: rest → Tag b' b → b'.body.clause = b'.clause := by
      intro b b' hb ht
      rw [ht.clause, ht.body]
      exact (hgood b hb).body
    rw [g2]
    cases g5 with
    | choice pre suf c hs hh hf he =>
      subst he
      have hm : (c, l) ∈ sp.choices := by rw [hs]; simp
      rw [hrec s1 l (dL, s2) _ g1 ?_ (hder.pairs _ hm)]
      · exact hex.choice pre c l suf hs hh hf
      · intro b hb
        obtain ⟨e, he, hde⟩ := hder.choice _ hm b hb
        exact ⟨(k1 b hb).mono g3.next, hk.choice _ hm b hb, hex.cnodup _ hm hh b hb,
          hbody he hde.tag⟩
    | fallback hl he hf =>
      subst he; subst hl
      rw [hrec s1 _ (dL, s2) _ g1 ?_ hder.fpairs]
      · exact hex.fallback hf
      · intro b hb
        obtain ⟨e, he, hde⟩ := hder.fallback b hb
        exact ⟨(k1 b hb).mono g3.next, hk.fallback b hb, hex.fnodup b hb,
          hbody he (hde .nil).tag⟩

/-! ### Moving variables -/

/-- All cells of branches. -/
def branchesCells (bs : List (Branch B)) : List Nat := bs.flatMap fun b => checksCells b.checks

theorem moveAll_same (hu : B.UnaliasLaw) (env : Env B) : ∀ (bs : List (Branch B))
    (taken : List Nat), (branchesCells bs).Nodup → (∀ c ∈ branchesCells bs, c ∉ taken) →
    List.Forall₂ (fun b' b => (∃ t, b' = (moveBranch t b).1) ∧ Same (b'.run env) (b.run env))
      (moveAll taken bs).1 bs
  | [], taken, _, _ => .nil
  | b :: bs, taken, hn, hd => by
    have hn' : (checksCells b.checks ++ branchesCells bs).Nodup := by
      simpa [branchesCells] using hn
    have hn2 := List.nodup_append.1 hn'
    have hmem : ∀ c, c ∈ checksCells b.checks ∨ c ∈ branchesCells bs → c ∉ taken := by
      intro c hc
      refine hd c ?_
      simp only [branchesCells, List.flatMap_cons, List.mem_append] at hc ⊢
      exact hc
    simp only [moveAll]
    refine .cons ⟨⟨taken, rfl⟩, moveBranch_run hu env b taken hn2.1 fun c hc => hmem c (.inl hc)⟩ ?_
    refine moveAll_same hu env bs _ hn2.2.1 ?_
    intro c hc hc'
    rcases moveChecks_taken _ _ _ hc' with h | h
    · exact hn2.2.2 c h c hc rfl
    · exact hmem c (.inr hc) h

theorem forall₂_pairwise {α β : Type} {R : α → β → Prop} {S : β → β → Prop} {S' : α → α → Prop}
    (hS : ∀ a a' b b', R a a' → R b b' → S a' b' → S' a b) :
    ∀ {l : List α} {l' : List β}, List.Forall₂ R l l' → l'.Pairwise S → l.Pairwise S'
  | _, _, .nil, _ => .nil
  | _, _, .cons (l₁ := l) (l₂ := l') h t, hp => by
    rw [List.pairwise_cons] at hp
    refine .cons ?_ (forall₂_pairwise hS t hp.2)
    intro b hb
    obtain ⟨b', hb', hr⟩ := forall₂_mem_right t.flip b hb
    exact hS _ _ _ _ h hr (hp.1 b' hb')

theorem moveAll_pick (guards : Guards B) {env : Env B} {bs bs' : List (Branch B)}
    (h : List.Forall₂ (fun b' b => (∃ t, b' = (moveBranch t b).1) ∧
      Same (b'.run env) (b.run env)) bs' bs) (hn : ∀ b ∈ bs, NodupRun env b) :
    pick guards env bs' = pick guards env bs := by
  induction h with
  | nil => rfl
  | @cons b' b l' l h _ ih =>
    obtain ⟨⟨t, rfl⟩, hs⟩ := h
    have h1 : b :: l = [b] ++ l := rfl
    have h2 : (moveBranch t b).1 :: l' = [(moveBranch t b).1] ++ l' := rfl
    rw [h1, h2, pick_append, pick_append, pick_one, pick_one, ih fun b hb => hn b (by simp [hb]),
      outcome_same guards (b' := (moveBranch t b).1) (b := b) ⟨rfl, rfl, rfl, rfl⟩ hs (hn b (by simp))]

theorem compile_step {ds : Decls} {sk : Char → Nat} {guards : Guards B} (hs : B.Sound)
    {fuel : Nat} (ih : RunsFirst ds sk guards (compile (B := B) ds fuel)) {st : St}
    {bs : List (Branch B)} {r : Decision B × St} {env : Env B}
    (h : compile ds (fuel + 1) st bs = some r)
    (hgood : ∀ b ∈ (moveAll st.taken bs).1, Good ds st.next sk env b)
    (hnc : (moveAll st.taken bs).1.Pairwise NC) :
    r.1.eval guards env = pick guards env (moveAll st.taken bs).1 := by
  have hst : ∀ b' ∈ (moveAll st.taken bs).1, b'.stuck := by
    intro b' hb'
    obtain ⟨b, hb, t, rfl⟩ := moveAll_mem bs _ b' hb'
    exact moveBranch_stuck t b
  simp only [compile] at h
  split at h
  · rename_i taken heq
    rw [heq]
    simp only [Option.some.injEq] at h
    subst h
    rfl
  · rename_i first rest taken heq
    rw [heq] at hst hgood hnc ⊢
    simp only at hst hgood hnc ⊢
    have hnext : (St.reached { st with taken := taken } (first.clause, first.alt)).next =
        st.next := by
      unfold St.reached; split <;> rfl
    split at h
    · rename_i v hv
      obtain ⟨p, hp⟩ := findPivot_mem hv
      exact splitAndCompile_exact hs (compile_le ds fuel) ih h hp (by rw [hnext]; exact hgood) hst
        hnc
    · rename_i hv
      have hnil := findPivot_none hv
      have hrun : first.run env = some (first.body.values env) := by
        simp [Branch.run, hnil, runChecks]
      have hbody := (hgood first (by simp)).body
      have hcons : first :: rest = [first] ++ rest := rfl
      have hlook : first.body.lookup env = fun x => (first.body.values env).lookup x := rfl
      rw [hcons, pick_append, pick_one, hrun]
      split at h
      · rename_i hgd
        simp only [Option.some.injEq] at h
        subst h
        simp only [Decision.eval, outcome, hgd, hbody, hlook, Option.bind_some,
          Option.isNone_none, Bool.true_or, if_true, Option.some_or]
      · rename_i g hgd
        simp only [Option.bind_eq_some_iff, Option.some.injEq] at h
        obtain ⟨a, ha, rfl⟩ := h
        have hp := ih _ rest a env ha (by
          rw [hnext]; exact fun b hb => hgood b (by simp [hb])) (List.pairwise_cons.1 hnc).2
        simp only [Decision.eval, outcome, hgd, hbody, hlook, Option.bind_some,
          Option.isNone_some, Bool.false_or, hp]
        split <;> simp

theorem Good.move {ds : Decls} {n : Nat} {sk : Char → Nat} {env : Env B} {b : Branch B}
    (h : Good ds n sk env b) (t : List Nat)
    (hs : Same ((moveBranch t b).1.run env) (b.run env)) :
    Good ds n sk env (moveBranch t b).1 := by
  refine ⟨moveBranch_ok t h.ok, ?_, h.nodup.same hs, h.body⟩
  intro c hc
  obtain ⟨p, t', hm, hl⟩ := moveChecks_mem _ _ _ hc
  exact (tidy_kept ds sk).move (0, 0) _ _ _ _ (h.tidy _ hm) hl

theorem compile_exact {ds : Decls} (sk : Char → Nat) (guards : Guards B) (hs : B.Sound) :
    ∀ fuel, RunsFirst ds sk guards (compile (B := B) ds fuel)
  | 0 => fun st bs r env h => by simp [compile] at h
  | fuel + 1 => fun st bs r env h hgood hnc => by
    have ih := compile_exact (ds := ds) sk guards hs fuel
    have hcells : branchesCells bs = [] := by
      simp only [branchesCells, checksCells, List.flatMap_eq_nil_iff]
      intro b hb c hc
      exact Pat.clean_cells _ ((hgood b hb).tidy c hc).clean
    have hm := moveAll_same hs.unaliasLaw env bs st.taken (by rw [hcells]; simp)
      (by rw [hcells]; simp)
    rw [compile_step hs ih h ?_ ?_, moveAll_pick guards hm fun b hb => (hgood b hb).nodup]
    · intro b' hb'
      obtain ⟨b, hb, ⟨t, rfl⟩, hsm⟩ := forall₂_mem_right hm.flip b' hb'
      exact (hgood b hb).move t hsm
    · refine forall₂_pairwise (R := fun b' b => ∃ t, b' = (moveBranch t b).1) (S := NC) ?_
        (hm.imp fun _ _ h => h.1) hnc
      rintro _ a _ b ⟨t, rfl⟩ ⟨u, rfl⟩ h
      exact h.move t u

end Verif.Case
