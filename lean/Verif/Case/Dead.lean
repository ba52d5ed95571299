import Verif.Case.Register

/-!
# Alternatives that can never match

Lemmas: an invariant of the checks of all branches the compiler ever looks at, and that only
alternatives that match no value are recorded as impossible.
-/

namespace Verif.Case

variable {B : BitSys}

/-- A property of the checks of an alternative that is kept by all the compiler does to them. -/
structure Kept (ds : Decls) (I : Nat × Nat → PCheck B → Prop) : Prop where
  move : ∀ x v p t q, I x (v, p) → (movePat t v p).left = some q → I x (v, q)
  new : ∀ x v p (c : Check B) new c', I x (v, p) → p.stuck → c.hasTy ds v.ty → Related p c →
    newChecks v p c = some new → c' ∈ new → I x c'
  left : ∀ x v cell ts pivot, I x (v, .bits cell ts) → I x (v, .bits none (leftTests pivot ts))
  ty : ∀ x c, I x c → c.2.hasTy ds c.1.ty

/-- The checks of a branch have the property. -/
def Branch.Keeps (I : Nat × Nat → PCheck B → Prop) (b : Branch B) : Prop :=
  ∀ c ∈ b.checks, I (b.clause, b.alt) c

structure SpKeeps (ds : Decls) (I : Nat × Nat → PCheck B → Prop) (v : Var) (sp : Splitter B) :
    Prop where
  check : ∀ ch ∈ sp.choices, ch.1.hasTy ds v.ty
  choice : ∀ ch ∈ sp.choices, ∀ b ∈ ch.2, b.Keeps I
  fallback : ∀ b ∈ sp.fallback, b.Keeps I

/-- The alternatives recorded as impossible are old ones, or have an impossible check. -/
structure Marks (ds : Decls) (I : Nat × Nat → PCheck B → Prop) (s s' : St) : Prop where
  variants : ∀ x ∈ s'.impossibleVariants, x ∈ s.impossibleVariants ∨
    ∃ v p, I x (v, p) ∧ p.unreachableVariant (branchMode ds v.ty) = true
  segments : ∀ x ∈ s'.impossibleSegments, x ∈ s.impossibleSegments ∨
    ∃ v p, I x (v, p) ∧ p.impossibleSegment = true

theorem Marks.refl (ds : Decls) (I : Nat × Nat → PCheck B → Prop) (s : St) : Marks ds I s s :=
  ⟨fun _ h => .inl h, fun _ h => .inl h⟩

theorem Marks.trans {ds : Decls} {I : Nat × Nat → PCheck B → Prop} {a b c : St}
    (h1 : Marks ds I a b) (h2 : Marks ds I b c) : Marks ds I a c := by
  refine ⟨fun x hx => ?_, fun x hx => ?_⟩
  · rcases h2.variants x hx with h | h
    · exact h1.variants x h
    · exact .inr h
  · rcases h2.segments x hx with h | h
    · exact h1.segments x h
    · exact .inr h

theorem Marks.same {ds : Decls} {I : Nat × Nat → PCheck B → Prop} {a b : St}
    (h1 : b.impossibleVariants = a.impossibleVariants)
    (h2 : b.impossibleSegments = a.impossibleSegments) : Marks ds I a b :=
  ⟨fun x hx => .inl (h1 ▸ hx), fun x hx => .inl (h2 ▸ hx)⟩

theorem Branch.Keeps.popped {I : Nat × Nat → PCheck B → Prop} {b : Branch B} {v : Var} {p : Pat B}
    {cs : List (PCheck B)} (h : b.Keeps I) (hp : popCheck v b.checks = some (p, cs))
    {new : List (PCheck B)} (hn : ∀ c ∈ new, I (b.clause, b.alt) c) :
    ((b.popped cs).add new).Keeps I := by
  intro c hc
  simp only [Branch.add, Branch.popped, List.mem_append] at hc
  rcases hc with hc | hc
  · exact h c ((popCheck_mem hp).2 c hc)
  · exact hn c hc

theorem SpKeeps.addFallback {ds : Decls} {I : Nat × Nat → PCheck B → Prop} {v : Var}
    {sp : Splitter B} {b : Branch B} (h : SpKeeps ds I v sp) (hb : b.Keeps I) :
    SpKeeps ds I v (addFallback sp b) := by
  refine ⟨?_, ?_, ?_⟩
  · intro ch hch
    simp only [Verif.Case.addFallback, List.mem_map] at hch
    obtain ⟨ch0, h0, rfl⟩ := hch
    exact h.check ch0 h0
  · intro ch hch b' hb'
    simp only [Verif.Case.addFallback, List.mem_map] at hch
    obtain ⟨ch0, h0, rfl⟩ := hch
    simp only [List.mem_append, List.mem_singleton] at hb'
    rcases hb' with hb' | rfl
    · exact h.choice ch0 h0 b' hb'
    · exact hb
  · intro b' hb'
    simp only [Verif.Case.addFallback, List.mem_append, List.mem_singleton] at hb'
    rcases hb' with hb' | rfl
    · exact h.fallback b' hb'
    · exact hb

theorem SpKeeps.addBits {ds : Decls} {I : Nat × Nat → PCheck B → Prop} (hI : Kept ds I) {v : Var}
    {sp sp' : Splitter B} {b : Branch B} {cs : List (PCheck B)} {cell : Option Nat}
    {ts : List (BTest B)} (h : SpKeeps ds I v sp) (hb : b.Keeps I)
    (hp : popCheck v b.checks = some (.bits cell ts, cs))
    (ha : addBits sp v (.bits cell ts) ts (b.popped cs) = some sp') : SpKeeps ds I v sp' := by
  simp only [Verif.Case.addBits, Option.map_eq_some_iff] at ha
  obtain ⟨r, hr, rfl⟩ := ha
  have hi := hb _ (popCheck_mem hp).1
  have hvt : v.ty = .bitArray := by
    have := hI.ty _ _ hi
    revert this
    generalize v.ty = t
    cases t <;> simp [Pat.hasTy]
  have hold : ∀ b' ∈ r.2, b'.Keeps I := by
    intro b' hb'
    rcases pivotTest_cases hr with ⟨_, h2, _⟩ | h2
    · rw [h2] at hb'; simp at hb'
    · exact h.choice (.bits r.1, r.2) (by simp [h2]) b' hb'
  refine ⟨?_, ?_, ?_⟩
  · intro ch hch
    simp only [List.mem_singleton] at hch
    subst hch
    rw [hvt]; trivial
  · intro ch hch b' hb'
    simp only [List.mem_singleton] at hch
    subst hch
    simp only at hb'
    split at hb'
    · exact hold b' hb'
    · simp only [List.mem_append, List.mem_singleton] at hb'
      rcases hb' with hb' | rfl
      · exact hold b' hb'
      · refine hb.popped hp fun c hc => ?_
        simp only [List.mem_singleton] at hc
        subst hc
        exact hI.left _ _ _ _ _ hi
  · intro b' hb'
    simp only at hb'
    split at hb'
    · exact h.fallback b' hb'
    · simp only [List.mem_append, List.mem_singleton] at hb'
      rcases hb' with hb' | rfl
      · exact h.fallback b' hb'
      · refine hb.popped hp fun c hc => ?_
        simp only [List.mem_singleton] at hc
        subst hc
        exact hi

theorem SpKeeps.addKind {ds : Decls} {I : Nat × Nat → PCheck B → Prop} (hI : Kept ds I) {v : Var}
    {sp : Splitter B} {b : Branch B} {p : Pat B} {cs : List (PCheck B)} {k : Kind} {n : Nat}
    {r : Splitter B × Nat} (h : SpKeeps ds I v sp) (hb : b.Keeps I) (hst : b.stuck)
    (hp : popCheck v b.checks = some (p, cs)) (hk : p.kind = some k)
    (ha : addKind n sp v p k (b.popped cs) (branchMode ds v.ty) = some r) :
    SpKeeps ds I v r.1 := by
  obtain ⟨chs, hj, ha⟩ := addKind_cases ha
  have hm := (popCheck_mem hp).1
  have hi := hb _ hm
  have hps := hst _ hm
  have hold : SpKeeps ds I v ⟨chs, sp.fallback⟩ := by
    refine ⟨?_, ?_, h.fallback⟩
    · intro ch hch
      obtain ⟨ch0, h0, hjt⟩ := forall₂_mem_right hj ch hch
      cases hjt with
      | keep hov => exact h.check _ h0
      | join hov hnew =>
        have := h.check ch0 h0
        revert this
        cases ch0.1 <;> generalize v.ty = t <;> cases t <;> simp [Check.matched, Check.hasTy]
    · intro ch hch b' hb'
      obtain ⟨ch0, h0, hjt⟩ := forall₂_mem_right hj ch hch
      cases hjt with
      | keep hov => exact h.choice _ h0 b' hb'
      | join hov hnew =>
        simp only [List.mem_append, List.mem_singleton] at hb'
        rcases hb' with hb' | rfl
        · exact h.choice ch0 h0 b' hb'
        · exact hb.popped hp fun c hc =>
            hI.new _ _ _ _ _ _ hi hps (h.check ch0 h0) (overlapping_related hk hov) hnew hc
  rcases ha with ⟨-, rfl⟩ | ⟨-, c, new, hc, hnew, rfl⟩
  · exact hold
  · obtain ⟨hcok, -, hrel⟩ := freshCheck_ok (Nat.le_refl n) (hI.ty _ _ hi) hk hc
    refine ⟨?_, ?_, hold.fallback⟩
    · intro ch hch
      simp only [List.mem_append, List.mem_singleton] at hch
      rcases hch with hch | rfl
      · exact hold.check ch hch
      · exact hcok.ty
    · intro ch hch b' hb'
      simp only [List.mem_append, List.mem_singleton] at hch
      rcases hch with hch | rfl
      · exact hold.choice ch hch b' hb'
      · simp only [List.mem_append, List.mem_singleton] at hb'
        rcases hb' with hb' | rfl
        · exact hold.fallback b' hb'
        · exact hb.popped hp fun c' hc' => hI.new _ _ _ _ _ _ hi hps hcok.ty hrel hnew hc'

theorem splitBranches_keeps {ds : Decls} {I : Nat × Nat → PCheck B → Prop} (hI : Kept ds I)
    {v : Var} : ∀ {bs : List (Branch B)} {st : St} {sp : Splitter B} {r : St × Splitter B},
    splitBranches (branchMode ds v.ty) v st sp bs = some r →
    (∀ b ∈ bs, b.Keeps I ∧ b.stuck) → SpKeeps ds I v sp → SpKeeps ds I v r.2 ∧ Marks ds I st r.1
  | [], st, sp, r, h, _, hsp => by
    simp only [splitBranches, Option.some.injEq] at h
    subst h
    exact ⟨hsp, Marks.refl ds I _⟩
  | b :: bs, st, sp, r, h, hb, hsp => by
    have hbs : ∀ b ∈ bs, b.Keeps I ∧ b.stuck := fun b' h' => hb b' (by simp [h'])
    obtain ⟨hbk, hbst⟩ := hb b (by simp)
    simp only [splitBranches] at h
    split at h
    · exact splitBranches_keeps hI h hbs (hsp.addFallback hbk)
    · rename_i p cs hpop
      have hi := hbk _ (popCheck_mem hpop).1
      split at h
      · rename_i hu
        obtain ⟨h1, h2⟩ := splitBranches_keeps hI h hbs hsp
        refine ⟨h1, Marks.trans (b := st.markVariant (b.clause, b.alt)) ⟨?_, fun x hx => .inl hx⟩ h2⟩
        intro x hx
        simp only [St.markVariant, List.mem_cons] at hx
        rcases hx with rfl | hx
        · exact .inr ⟨v, p, hi, hu⟩
        · exact .inl hx
      · split at h
        · rename_i hu
          obtain ⟨h1, h2⟩ := splitBranches_keeps hI h hbs hsp
          refine ⟨h1, Marks.trans (b := st.markSegment (b.clause, b.alt)) ⟨fun x hx => .inl hx, ?_⟩ h2⟩
          intro x hx
          simp only [St.markSegment, List.mem_cons] at hx
          rcases hx with rfl | hx
          · exact .inr ⟨v, p, hi, hu⟩
          · exact .inl hx
        · simp only [Option.bind_eq_some_iff] at h
          obtain ⟨a, ha, h⟩ := h
          have hsp' : SpKeeps ds I v a.1 := by
            unfold addChecked at ha
            split at ha
            · simp only [Option.map_eq_some_iff] at ha
              obtain ⟨s, hs, rfl⟩ := ha
              exact hsp.addBits hI hbk hpop hs
            · simp only [Option.bind_eq_some_iff] at ha
              obtain ⟨k, hk, ha⟩ := ha
              exact hsp.addKind hI hbk hbst hpop hk ha
          obtain ⟨h1, h2⟩ := splitBranches_keeps hI h hbs hsp'
          exact ⟨h1, Marks.trans (b := { st with next := a.2 }) (Marks.same rfl rfl) h2⟩

/-- A function that compiles branches only records impossible alternatives. -/
def MarksRight (ds : Decls) (I : Nat × Nat → PCheck B → Prop)
    (rec : St → List (Branch B) → Option (Decision B × St)) : Prop :=
  ∀ st bs r, rec st bs = some r → (∀ b ∈ bs, b.Keeps I) → Marks ds I st r.2

theorem compileChoices_marks {ds : Decls} {I : Nat × Nat → PCheck B → Prop}
    {rec : St → List (Branch B) → Option (Decision B × St)} (hr : MarksRight ds I rec) :
    ∀ {chs : List (Check B × List (Branch B))} {st : St} {r : Choices B × St},
    compileChoices rec st chs = some r → (∀ ch ∈ chs, ∀ b ∈ ch.2, b.Keeps I) → Marks ds I st r.2
  | [], st, r, h, _ => by
    simp only [compileChoices, Option.some.injEq] at h
    subst h
    exact Marks.refl ds I _
  | ch :: chs, st, r, h, hk => by
    simp only [compileChoices, Option.bind_eq_some_iff, Option.some.injEq] at h
    obtain ⟨a, ha, s, hs, rfl⟩ := h
    have := compileChoices_marks hr hs fun c hc => hk c (by simp [hc])
    exact (hr _ _ _ ha (hk ch (by simp))).trans this

theorem compileSwitch_marks {ds : Decls} {I : Nat × Nat → PCheck B → Prop}
    {rec : St → List (Branch B) → Option (Decision B × St)} (hr : MarksRight ds I rec)
    {st : St} {v : Var} {chs : List (Check B × List (Branch B))}
    {fb : List (Branch B)} {fc : Fallback B} {r : Decision B × St}
    (h : compileSwitch rec st v chs fb fc = some r) (hk : ∀ ch ∈ chs, ∀ b ∈ ch.2, b.Keeps I)
    (hf : ∀ b ∈ fb, b.Keeps I) : Marks ds I st r.2 := by
  simp only [compileSwitch, Option.bind_eq_some_iff, Option.some.injEq] at h
  obtain ⟨a, ha, s, hs, rfl⟩ := h
  have := hr _ _ _ hs hf
  exact (compileChoices_marks hr ha hk).trans this

theorem splitAndCompile_marks {ds : Decls} {I : Nat × Nat → PCheck B → Prop} (hI : Kept ds I)
    {rec : St → List (Branch B) → Option (Decision B × St)} (hr : MarksRight ds I rec) {st : St}
    {v : Var} {bs : List (Branch B)} {r : Decision B × St}
    (h : splitAndCompile ds rec st v bs = some r) (hb : ∀ b ∈ bs, b.Keeps I ∧ b.stuck) :
    Marks ds I st r.2 := by
  simp only [splitAndCompile, Option.bind_eq_some_iff] at h
  obtain ⟨kc, hkc, sp, hsp, h⟩ := h
  obtain ⟨-, hkok⟩ := knownChecks_ok hkc
  obtain ⟨h1, h2⟩ := splitBranches_keeps hI hsp hb (by
    refine ⟨?_, ?_, by simp [Splitter.fromChecks]⟩
    · intro ch hch
      simp only [Splitter.fromChecks, List.mem_map] at hch
      obtain ⟨c, hc, rfl⟩ := hch
      exact (hkok c hc).ty
    · intro ch hch b hb
      simp only [Splitter.fromChecks, List.mem_map] at hch
      obtain ⟨c, hc, rfl⟩ := hch
      simp at hb)
  have h0 : Marks ds I st sp.1 :=
    Marks.trans (b := { st with next := kc.2 }) (Marks.same rfl rfl) h2
  refine h0.trans ?_
  split at h
  · exact compileSwitch_marks hr h h1.choice h1.fallback
  · split at h
    · simp only [Option.some.injEq] at h
      subst h
      exact Marks.same rfl rfl
    · unfold exhaustiveSwitch at h
      split at h
      · exact compileSwitch_marks hr h
          (fun ch hch => h1.choice ch (List.mem_of_mem_filter hch)) h1.fallback
      · split at h
        · simp at h
        · rename_i last hlast
          exact compileSwitch_marks hr h
            (fun ch hch => h1.choice ch (List.dropLast_subset _ hch))
            (h1.choice last (List.mem_of_getLast? hlast))

theorem compile_marks {ds : Decls} {I : Nat × Nat → PCheck B → Prop} (hI : Kept ds I) :
    ∀ fuel, MarksRight ds I (compile (B := B) ds fuel)
  | 0 => fun st bs r h _ => by simp [compile] at h
  | fuel + 1 => fun st bs r h hb => by
    have ih := compile_marks hI fuel
    simp only [compile] at h
    have hmem : ∀ b' ∈ (moveAll st.taken bs).1, b'.Keeps I ∧ b'.stuck := by
      intro b' hb'
      obtain ⟨b, hbm, t, rfl⟩ := moveAll_mem bs _ b' hb'
      refine ⟨?_, moveBranch_stuck t b⟩
      intro c hc
      obtain ⟨p, t, hm, hl⟩ := moveChecks_mem _ _ _ hc
      exact hI.move _ _ _ _ _ (hb b hbm _ hm) hl
    split at h
    · simp only [Option.some.injEq] at h
      subst h
      exact Marks.same rfl rfl
    · rename_i first rest taken heq
      rw [heq] at hmem
      simp only at hmem
      have h0 : Marks ds I st (St.reached { st with taken := taken } (first.clause, first.alt)) := by
        unfold St.reached
        split <;> exact Marks.same rfl rfl
      refine h0.trans ?_
      split at h
      · exact splitAndCompile_marks hI ih h hmem
      · split at h
        · simp only [Option.some.injEq] at h
          subst h
          exact Marks.refl ds I _
        · simp only [Option.bind_eq_some_iff, Option.some.injEq] at h
          obtain ⟨a, ha, rfl⟩ := h
          have := ih _ _ _ ha fun b hb => (hmem b (by simp [hb])).1
          exact this

/-! ### Dead checks -/

/-- A check that no value of the type of its variable passes. -/
def DeadCheck (ds : Decls) (c : PCheck B) : Prop :=
  ∀ w : Val B.Bits, w.hasTy ds c.1.ty → c.2.run w = none

theorem runTests_leftTests {pivot : B.Test} {w : Val B.Bits} : ∀ {ts : List (BTest B)},
    runTests w (leftTests pivot ts) = none → runTests w ts = none
  | [], h => h
  | .bind y r :: ts, h => by
    simp only [leftTests, BTest.test, Option.any_none, Bool.not_false, List.filter_cons, if_true,
      runTests, Option.map_eq_none_iff] at h ⊢
    exact runTests_leftTests h
  | .discard :: ts, h => by
    simp only [leftTests, BTest.test, Option.any_none, Bool.not_false, List.filter_cons, if_true,
      runTests] at h ⊢
    exact runTests_leftTests h
  | .check as t :: ts, h => by
    simp only [leftTests, BTest.test, Option.any_some, List.filter_cons] at h
    simp only [runTests]
    split
    · rename_i ht
      simp only [Option.map_eq_none_iff]
      split at h
      · simp only [runTests, ht, if_true, Option.map_eq_none_iff] at h
        exact runTests_leftTests h
      · exact runTests_leftTests h
    · rfl

theorem Pat.runs_dead {ds : Decls} : ∀ {vs : List Var} {ps : List (Pat B)} {xs : List (Val B.Bits)},
    Val.haveTys ds xs (vs.map Var.ty) → ∀ c ∈ vs.zip ps, DeadCheck ds c → Pat.runs ps xs = none
  | [], ps, xs, _, c, hc, _ => by simp at hc
  | v :: vs, [], xs, _, c, hc, _ => by simp at hc
  | v :: vs, p :: ps, [], h, c, hc, _ => by simp [Val.haveTys] at h
  | v :: vs, p :: ps, x :: xs, h, c, hc, hd => by
    simp only [List.map_cons, Val.haveTys] at h
    simp only [List.zip_cons_cons, List.mem_cons] at hc
    simp only [Pat.runs]
    rcases hc with rfl | hc
    · rw [hd x h.1]; rfl
    · rw [Pat.runs_dead h.2 c hc hd]
      cases p.run x <;> rfl

theorem newChecks_pat {ds : Decls} {v : Var} {p : Pat B} {c : Check B} {new : List (PCheck B)}
    (hp : p.hasTy ds v.ty) (hst : p.stuck) (hc : c.hasTy ds v.ty) (hr : Related p c)
    (hn : newChecks v p c = some new) : ∀ d ∈ new, d.2.hasTy ds d.1.ty ∧
      (DeadCheck ds d → DeadCheck ds (v, p)) := by
  have hstr : ∀ (d : PCheck B), d.1.ty = .string → (∃ s, d.2.run (.str s) ≠ none) →
      DeadCheck ds d → DeadCheck ds (v, p) := by
    intro d ht ⟨s, hs⟩ hd
    exact absurd (hd (.str s) (by rw [ht]; trivial)) hs
  intro d hd
  cases p with
  | discard | var _ | assign _ _ | slice _ _ _ => simp [Pat.stuck] at hst
  | int _ | float _ | nil => 
    cases c <;> simp only [newChecks, Option.some.injEq] at hn <;> subst hn <;> simp at hd
  | bits _ _ => cases c <;> simp [Related] at hr
  | str s =>
    cases c <;> simp only [newChecks, Option.some.injEq, reduceCtorEq] at hn
    · subst hn; simp at hd
    · subst hn
      simp only [List.mem_singleton] at hd
      subst hd
      rename_i s0 rest0
      have hrt : rest0.ty = .string := by
        revert hc; generalize v.ty = t; cases t <;> simp [Check.hasTy]
      refine ⟨by simp [hrt, Pat.hasTy], hstr _ hrt
        ⟨Lit.decode (if s0.isPrefixOf s then s.drop s0.length else s), ?_⟩⟩
      simp [Pat.run]
  | strPrefix s name rest =>
    cases c <;> simp only [newChecks, Option.some.injEq, reduceCtorEq] at hn
    rename_i s0 rest0
    have hrt : rest0.ty = .string := by
      revert hc; generalize v.ty = t; cases t <;> simp [Check.hasTy]
    have hvt : v.ty = .string := by
      revert hc; generalize v.ty = t; cases t <;> simp [Check.hasTy]
    unfold newPrefixChecks at hn
    split at hn
    · split at hn
      · subst hn
        simp only [List.mem_singleton] at hd
        subst hd
        refine ⟨by cases rest <;> simp [restPat, Pat.hasTy], hstr _ hrt ⟨[], ?_⟩⟩
        cases rest <;> simp [restPat, Pat.run]
      · subst hn
        simp only [List.mem_singleton] at hd
        subst hd
        refine ⟨by simp [hrt, Pat.hasTy], hstr _ hrt ⟨Lit.decode (s.drop s0.length), ?_⟩⟩
        simp [Pat.run]
    · split at hn
      · subst hn; simp at hd
      · subst hn
        simp only [List.mem_singleton] at hd
        subst hd
        exact ⟨by simp [hvt, Pat.hasTy], hstr _ hvt ⟨[], by simp [Pat.run]⟩⟩
  | tuple ps =>
    cases c with
    | tuple vs =>
      simp only [newChecks, Option.some.injEq] at hn
      subst hn
      unfold DeadCheck
      simp only
      generalize v.ty = t at *
      cases t <;> simp only [Check.hasTy] at hc
      subst hc
      simp only [Pat.hasTy] at hp
      refine ⟨Pat.hasTy_zip hp d hd, fun hdead w hw => ?_⟩
      cases w <;> simp only [Val.hasTy] at hw
      simp only [Pat.run]
      exact Pat.runs_dead hw d hd hdead
    | int _ | float _ | str _ | strPrefix _ _ | bits _ | variant _ _ _ | nil | cons _ _ =>
      simp [Related, Pat.kind, Check.kind] at hr
  | variant i ps =>
    cases c with
    | variant e j vs =>
      simp only [newChecks, Option.some.injEq] at hn
      subst hn
      simp only [Related, Pat.kind, Check.kind, Option.some.injEq, Kind.variant.injEq] at hr
      obtain ⟨rfl, -⟩ := hr
      unfold DeadCheck
      simp only
      generalize v.ty = t at *
      cases t <;> simp only [Check.hasTy] at hc
      simp only [Pat.hasTy] at hp
      obtain ⟨fs, hfs, hps⟩ := hp
      rw [hc] at hfs
      simp only [Option.some.injEq] at hfs
      subst hfs
      refine ⟨Pat.hasTy_zip hps d hd, fun hdead w hw => ?_⟩
      cases w <;> simp only [Pat.run]
      rename_i k ws
      split
      · rename_i hik
        subst hik
        simp only [Val.hasTy] at hw
        have hw := hw.resolve_left (by rintro h; simp [h] at hc)
        obtain ⟨-, gs, hgs, hws⟩ := hw
        rw [hc] at hgs
        simp only [Option.some.injEq] at hgs
        subst hgs
        exact Pat.runs_dead hws d hd hdead
      · rfl
    | int _ | float _ | str _ | strPrefix _ _ | bits _ | tuple _ | nil | cons _ _ =>
      simp [Related, Pat.kind, Check.kind] at hr
  | cons h t =>
    cases c with
    | cons first rest =>
      simp only [newChecks, Option.some.injEq] at hn
      subst hn
      unfold DeadCheck
      simp only
      generalize v.ty = ty at *
      cases ty <;> simp only [Check.hasTy] at hc
      simp only [Pat.hasTy] at hp
      simp only [List.mem_cons, List.not_mem_nil, or_false] at hd
      rcases hd with rfl | rfl
      · refine ⟨by simpa [hc.1] using hp.1, fun hdead w hw => ?_⟩
        cases w <;> simp only [Val.hasTy] at hw
        · rfl
        · simp only [Pat.run]
          rw [hdead _ (by rw [hc.1]; exact hw.1)]
          rfl
      · refine ⟨by simpa [hc.2] using hp.2, fun hdead w hw => ?_⟩
        cases w <;> simp only [Val.hasTy] at hw
        · rfl
        · rename_i a b
          simp only [Pat.run]
          rw [hdead _ (by rw [hc.2]; exact hw.2)]
          cases h.run a <;> rfl
    | int _ | float _ | str _ | strPrefix _ _ | bits _ | tuple _ | nil | variant _ _ _ =>
      simp [Related, Pat.kind, Check.kind] at hr

theorem movePat_dead (hs : B.Sound) {ds : Decls} {v : Var} {p q : Pat B} {t : List Nat}
    (h : (movePat t v p).left = some q) (hd : DeadCheck ds (v, q)) : DeadCheck ds (v, p) := by
  intro w hw
  have := movePat_isSome hs.unaliasLaw (fun _ => w) t v p
  rw [h] at this
  simp only [leftRun] at this
  rw [hd w hw] at this
  simp only [Option.isSome_none] at this
  exact Option.not_isSome_iff_eq_none.1 (by simp [← this])

/-- Typed checks that are not dead unless their alternative is in `D`. -/
def DeadIn (ds : Decls) (D : Nat × Nat → Prop) (x : Nat × Nat) (c : PCheck B) : Prop :=
  c.2.hasTy ds c.1.ty ∧ (DeadCheck ds c → D x)

theorem deadIn_kept (hs : B.Sound) (ds : Decls) (D : Nat × Nat → Prop) :
    Kept (B := B) ds (DeadIn ds D) := by
  refine ⟨?_, ?_, ?_, fun _ _ h => h.1⟩
  · intro x v p t q h hl
    exact ⟨movePat_left_hasTy ds t v _ p q h.1 hl, fun hd => h.2 (movePat_dead hs hl hd)⟩
  · intro x v p c new c' h hst hc hr hn hc'
    obtain ⟨h1, h2⟩ := newChecks_pat h.1 hst hc hr hn c' hc'
    exact ⟨h1, fun hd => h.2 (h2 hd)⟩
  · intro x v cell ts pivot h
    refine ⟨?_, fun hd => h.2 fun w hw => ?_⟩
    · have := h.1
      revert this
      simp only
      generalize v.ty = t
      cases t <;> simp [Pat.hasTy]
    · have := hd w hw
      simp only [Pat.run] at this ⊢
      exact runTests_leftTests this

theorem unreachableVariant_dead {ds : Decls} {v : Var} {p : Pat B} (hp : p.hasTy ds v.ty)
    (h : p.unreachableVariant (branchMode ds v.ty) = true) : DeadCheck ds (v, p) := by
  intro w hw
  simp only at hw ⊢
  generalize v.ty = t at *
  cases p <;> simp only [Pat.unreachableVariant, Bool.false_eq_true] at h
  rename_i i ps
  cases t <;> simp only [Pat.hasTy] at hp
  rename_i n args inf
  obtain ⟨fs, hfs, -⟩ := hp
  cases inf with
  | none => simp [branchMode, Pat.unreachableVariant] at h
  | some j =>
    simp only [branchMode, bne_iff_ne, ne_eq] at h
    cases w <;> simp only [Pat.run]
    simp only [Val.hasTy] at hw
    have hw := hw.resolve_left (by rintro h; simp [h] at hfs)
    rw [if_neg]
    rintro rfl
    exact h (hw.1 j rfl)

theorem runTests_impossible (hs : B.Sound) (w : Val B.Bits) : ∀ {ts : List (BTest B)},
    (ts.any fun t => t.test.any B.impossible) = true → runTests w ts = none
  | [], h => by simp at h
  | .bind y r :: ts, h => by
    simp only [List.any_cons, BTest.test, Option.any_none, Bool.false_or] at h
    simp only [runTests, runTests_impossible hs w h, Option.map_none]
  | .discard :: ts, h => by
    simp only [List.any_cons, BTest.test, Option.any_none, Bool.false_or] at h
    simp only [runTests, runTests_impossible hs w h]
  | .check as t :: ts, h => by
    simp only [List.any_cons, BTest.test, Option.any_some, Bool.or_eq_true] at h
    simp only [runTests]
    split
    · rename_i ht
      rcases h with h | h
      · cases w <;> simp only [testHolds, Bool.false_eq_true] at ht
        rw [hs.impossible t _ h] at ht
        simp at ht
      · rw [runTests_impossible hs w h, Option.map_none]
    · rfl

theorem impossibleSegment_dead (hs : B.Sound) {ds : Decls} {v : Var} {p : Pat B}
    (h : p.impossibleSegment = true) : DeadCheck ds (v, p) := by
  intro w hw
  cases p <;> simp only [Pat.impossibleSegment, Bool.false_eq_true] at h
  simp only [Pat.run]
  exact runTests_impossible hs w h

/-- An alternative is only recorded as impossible if one of its patterns matches nothing. -/
theorem compileCase_impossible {ds : Decls} {subjects : List Ty} {clauses : List (Clause B)}
    {r : Decision B × St} (hs : B.Sound) (h : compileCase ds subjects clauses = some r)
    (ht : ClausesTyped ds subjects clauses) {i j : Nat}
    (hx : (i, j) ∈ r.2.impossibleVariants ∨ (i, j) ∈ r.2.impossibleSegments) :
    ∃ c ps, clauses[i]? = some c ∧ c.alternatives[j]? = some ps ∧
      ∀ vs : List (Val B.Bits), Val.haveTys ds vs subjects → SrcPat.runs ps vs = none := by
  let D : Nat × Nat → Prop := fun x => ∃ c ps, clauses[x.1]? = some c ∧
    c.alternatives[x.2]? = some ps ∧
      ∀ vs : List (Val B.Bits), Val.haveTys ds vs subjects → SrcPat.runs ps vs = none
  have hI := deadIn_kept hs ds D
  have hb : ∀ b ∈ clauseBranches (freshVars 0 subjects) 0 0 clauses, b.Keeps (DeadIn ds D) := by
    intro b hb c hc
    obtain ⟨i, cl, j, ps, h1, h2, h3⟩ := clauseBranches_mem hb
    have hty := ht cl (List.mem_of_getElem? h1) ps (List.mem_of_getElem? h2)
    obtain ⟨n, rfl⟩ := h3.eq
    have hps := registers_haveTys ds ps n subjects hty
    rw [← freshVars_ty 0 subjects] at hps
    refine ⟨Pat.hasTy_zip hps c hc, fun hd => ⟨cl, ps, by simpa [altBranch] using h1, h2, ?_⟩⟩
    intro vs hvs
    rw [← registers_runs ds ps n subjects vs hty hvs]
    exact Pat.runs_dead (by rw [freshVars_ty]; exact hvs) c hc hd
  have hm : Marks ds (DeadIn (B := B) ds D) (.init subjects.length) r.2 := by
    simp only [compileCase, freshVars_length] at h
    split at h
    · cases subjects with
      | nil => simp [freshVars] at h
      | cons t ts =>
        simp only [freshVars] at h
        exact splitAndCompile_marks hI (compile_marks hI 1) h (by simp)
    · exact compile_marks hI _ _ _ r h hb
  rcases hx with hx | hx
  · rcases hm.variants _ hx with h | ⟨v, p, hi, hu⟩
    · simp [St.init] at h
    · exact hi.2 (unreachableVariant_dead hi.1 hu)
  · rcases hm.segments _ hx with h | ⟨v, p, hi, hu⟩
    · simp [St.init] at h
    · exact hi.2 (impossibleSegment_dead hs hu)

end Verif.Case
