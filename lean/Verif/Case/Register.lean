import Verif.Case.Exhaustive

/-!
# From the clauses to the branches

Lemmas: the branches made of the clauses match what the clauses match.
-/

namespace Verif.Case

variable {B : BitSys}

mutual
theorem register_hasTy (ds : Decls) : ∀ (p : SrcPat B) (n : Nat) (t : Ty), p.hasTy ds t →
    (register n p).1.hasTy ds t
  | .discard, n, t, _ => by simp only [register, Pat.hasTy]
  | .var x, n, t, _ => by simp only [register, Pat.hasTy]
  | .assign x p, n, t, h => by
    simp only [SrcPat.hasTy] at h
    simp only [register, Pat.hasTy]
    exact register_hasTy ds p n t h
  | .int i, n, t, h => by
    cases t <;> simp only [SrcPat.hasTy] at h
    simp only [register, Pat.hasTy]
  | .float f, n, t, h => by
    cases t <;> simp only [SrcPat.hasTy] at h
    simp only [register, Pat.hasTy]
  | .str s, n, t, h => by
    cases t <;> simp only [SrcPat.hasTy] at h
    simp only [register, Pat.hasTy]
  | .strPrefix s l r, n, t, h => by
    cases t <;> simp only [SrcPat.hasTy] at h
    simp only [register, Pat.hasTy]
  | .tuple ps, n, t, h => by
    cases t <;> simp only [SrcPat.hasTy] at h
    simp only [register, Pat.hasTy]
    exact registers_haveTys ds ps n _ h
  | .list es tail, n, t, h => by
    cases t <;> simp only [SrcPat.hasTy] at h
    rename_i e
    simp only [register]
    have h1 := registerTail_hasTy ds tail n e h.2
    have h2 := registers_allHaveTy ds es (registerTail n tail).2 e h.1
    generalize (registers (registerTail n tail).2 es).1 = l at h2
    generalize (registerTail n tail).1 = q at h1
    induction l with
    | nil => exact h1
    | cons a l ih =>
      simp only [List.foldr_cons, Pat.hasTy]
      exact ⟨h2 a (by simp), ih fun b hb => h2 b (by simp [hb])⟩
  | .variant i ps, n, t, h => by
    cases t <;> simp only [SrcPat.hasTy] at h
    obtain ⟨fields, hf, h⟩ := h
    simp only [register, Pat.hasTy]
    exact ⟨fields, hf, registers_haveTys ds ps n _ h⟩
  | .bits ts, n, t, h => by
    cases t <;> simp only [SrcPat.hasTy] at h
    simp only [register, Pat.hasTy]
theorem registers_haveTys (ds : Decls) : ∀ (ps : List (SrcPat B)) (n : Nat) (ts : List Ty),
    SrcPat.haveTys ds ps ts → Pat.haveTys ds (registers n ps).1 ts
  | [], n, ts, h => by
    cases ts <;> simp only [SrcPat.haveTys] at h
    simp only [registers, Pat.haveTys]
  | p :: ps, n, ts, h => by
    cases ts <;> simp only [SrcPat.haveTys] at h
    simp only [registers, Pat.haveTys]
    exact ⟨register_hasTy ds p n _ h.1, registers_haveTys ds ps _ _ h.2⟩
theorem registers_allHaveTy (ds : Decls) : ∀ (ps : List (SrcPat B)) (n : Nat) (t : Ty),
    SrcPat.allHaveTy ds ps t → ∀ q ∈ (registers n ps).1, q.hasTy ds t
  | [], n, t, _ => by simp [registers]
  | p :: ps, n, t, h => by
    simp only [SrcPat.allHaveTy] at h
    intro q hq
    simp only [registers, List.mem_cons] at hq
    rcases hq with rfl | hq
    · exact register_hasTy ds p n t h.1
    · exact registers_allHaveTy ds ps _ t h.2 q hq
theorem registerTail_hasTy (ds : Decls) : ∀ (p : Option (SrcPat B)) (n : Nat) (e : Ty),
    SrcPat.tailHasTy ds p (.list e) → (registerTail n p).1.hasTy ds (.list e)
  | none, n, e, _ => by simp only [registerTail, Pat.hasTy]
  | some p, n, e, h => by
    simp only [SrcPat.tailHasTy] at h
    simp only [registerTail]
    exact register_hasTy ds p n _ h
end

theorem runTests_bits (b : B.Bits) : ∀ ts : List (BTest B),
    runTests (.bits b) ts = matchTests b ts
  | [] => rfl
  | .bind x r :: ts => by simp only [runTests, matchTests, readBits, runTests_bits b ts]
  | .discard :: ts => by simp only [runTests, matchTests, runTests_bits b ts]
  | .check as t :: ts => by
    simp only [runTests, matchTests, testHolds, runTests_bits b ts]

mutual
theorem register_run (ds : Decls) : ∀ (p : SrcPat B) (n : Nat) (t : Ty) (w : Val B.Bits),
    p.hasTy ds t → w.hasTy ds t → (register n p).1.run w = p.run w
  | .discard, n, t, w, _, _ => by cases w <;> simp only [register, Pat.run, SrcPat.run]
  | .var x, n, t, w, _, _ => by cases w <;> simp only [register, Pat.run, SrcPat.run]
  | .assign x p, n, t, w, h, hw => by
    simp only [SrcPat.hasTy] at h
    have := register_run ds p n t w h hw
    simp only [register, Pat.run, SrcPat.run, this]
  | .int i, n, t, w, h, hw => by cases w <;> simp only [register, Pat.run, SrcPat.run]
  | .float f, n, t, w, h, hw => by cases w <;> simp only [register, Pat.run, SrcPat.run]
  | .str s, n, t, w, h, hw => by cases w <;> simp only [register, Pat.run, SrcPat.run]
  | .strPrefix s l r, n, t, w, h, hw => by
    cases w <;> simp only [register, Pat.run, SrcPat.run]
    simp [nameBinds, Function.comp_def]
  | .tuple ps, n, t, w, h, hw => by
    cases t <;> simp only [SrcPat.hasTy] at h
    cases w <;> simp only [Val.hasTy] at hw
    simp only [register, Pat.run, SrcPat.run]
    exact registers_runs ds ps n _ _ h hw
  | .list es tail, n, t, w, h, hw => by
    cases t <;> simp only [SrcPat.hasTy] at h
    rename_i e
    simp only [register, SrcPat.run]
    exact registers_runList ds es _ (registerTail n tail).1 (fun w => SrcPat.runTail tail w) e h.1
      (fun w hw => registerTail_run ds tail n e w h.2 hw) w hw
  | .variant i ps, n, t, w, h, hw => by
    cases t <;> simp only [SrcPat.hasTy] at h
    obtain ⟨fields, hf, h⟩ := h
    cases w <;> simp only [register, Pat.run, SrcPat.run]
    rename_i j vs
    simp only [Val.hasTy] at hw
    split
    · rename_i hij
      subst hij
      rcases hw with hw | ⟨-, fields', hf', hw⟩
      · rw [hw] at hf; simp at hf
      · rw [hf] at hf'
        simp only [Option.some.injEq] at hf'
        subst hf'
        exact registers_runs ds ps n _ _ h hw
    · rfl
  | .bits ts, n, t, w, h, hw => by
    cases t <;> simp only [SrcPat.hasTy] at h
    cases w <;> simp only [Val.hasTy] at hw
    simp only [register, Pat.run, SrcPat.run]
    exact runTests_bits _ ts
theorem registers_runs (ds : Decls) : ∀ (ps : List (SrcPat B)) (n : Nat) (ts : List Ty)
    (ws : List (Val B.Bits)), SrcPat.haveTys ds ps ts → Val.haveTys ds ws ts →
    Pat.runs (registers n ps).1 ws = SrcPat.runs ps ws
  | [], n, ts, ws, h, hw => by cases ws <;> simp only [registers, Pat.runs, SrcPat.runs]
  | p :: ps, n, ts, ws, h, hw => by
    cases ts <;> simp only [SrcPat.haveTys] at h
    cases ws <;> simp only [Val.haveTys] at hw
    simp only [registers, Pat.runs, SrcPat.runs]
    rw [register_run ds p n _ _ h.1 hw.1, registers_runs ds ps _ _ _ h.2 hw.2]
theorem registers_runList (ds : Decls) : ∀ (ps : List (SrcPat B)) (n : Nat) (q : Pat B)
    (f : Val B.Bits → Option (Bindings B)) (e : Ty), SrcPat.allHaveTy ds ps e →
    (∀ w : Val B.Bits, w.hasTy ds (.list e) → q.run w = f w) → ∀ w : Val B.Bits,
    w.hasTy ds (.list e) → ((registers n ps).1.foldr Pat.cons q).run w = SrcPat.runList ps f w
  | [], n, q, f, e, _, hq, w, hw => by
    simp only [registers, List.foldr_nil, SrcPat.runList]
    exact hq w hw
  | p :: ps, n, q, f, e, h, hq, w, hw => by
    simp only [SrcPat.allHaveTy] at h
    simp only [registers, List.foldr_cons]
    cases w <;> simp only [Val.hasTy] at hw
    · simp only [Pat.run, SrcPat.runList]
    · simp only [Pat.run, SrcPat.runList]
      rw [register_run ds p n e _ h.1 hw.1, registers_runList ds ps _ q f e h.2 hq _ hw.2]
theorem registerTail_run (ds : Decls) : ∀ (p : Option (SrcPat B)) (n : Nat) (e : Ty)
    (w : Val B.Bits), SrcPat.tailHasTy ds p (.list e) → w.hasTy ds (.list e) →
    (registerTail n p).1.run w = SrcPat.runTail p w
  | none, n, e, w, _, _ => by
    cases w <;> simp only [registerTail, Pat.run, SrcPat.runTail]
  | some p, n, e, w, h, hw => by
    simp only [SrcPat.tailHasTy] at h
    simp only [registerTail, SrcPat.runTail]
    exact register_run ds p n _ w h hw
end

/-! ### The branches of the clauses -/

/-- The branch of alternative `ai` of clause `ci`. -/
structure IsBranch (subjects : List Var) (ci ai : Nat) (c : Clause B) (ps : List (SrcPat B))
    (b : Branch B) : Prop where
  eq : ∃ n, b = (altBranch subjects ci ai c.guard n ps).1

theorem altBranches_mem {subjects : List Var} {ci : Nat} {c : Clause B} :
    ∀ {alts : List (List (SrcPat B))} {ai n : Nat} {b : Branch B},
    b ∈ (altBranches subjects ci c.guard ai n alts).1 →
    ∃ j ps, alts[j]? = some ps ∧ IsBranch subjects ci (ai + j) c ps b
  | [], ai, n, b, h => by simp [altBranches] at h
  | ps :: alts, ai, n, b, h => by
    simp only [altBranches, List.mem_cons] at h
    rcases h with rfl | h
    · exact ⟨0, ps, rfl, ⟨n, rfl⟩⟩
    · obtain ⟨j, qs, h1, h2⟩ := altBranches_mem h
      refine ⟨j + 1, qs, by simpa using h1, ?_⟩
      have : ai + (j + 1) = ai + 1 + j := by omega
      rw [this]
      exact h2

theorem clauseBranches_mem {subjects : List Var} : ∀ {cs : List (Clause B)} {ci n : Nat}
    {b : Branch B}, b ∈ clauseBranches subjects ci n cs →
    ∃ (i : Nat) (c : Clause B) (j : Nat) (ps : List (SrcPat B)), cs[i]? = some c ∧
      c.alternatives[j]? = some ps ∧ IsBranch subjects (ci + i) j c ps b
  | [], ci, n, b, h => by simp [clauseBranches] at h
  | c :: cs, ci, n, b, h => by
    simp only [clauseBranches, List.mem_append] at h
    rcases h with h | h
    · obtain ⟨j, ps, h1, h2⟩ := altBranches_mem h
      refine ⟨0, c, j, ps, rfl, h1, ?_⟩
      simpa using h2
    · obtain ⟨i, c', j, ps, h1, h2, h3⟩ := clauseBranches_mem h
      refine ⟨i + 1, c', j, ps, by simpa using h1, h2, ?_⟩
      have : ci + (i + 1) = ci + 1 + i := by omega
      rw [this]
      exact h3

theorem subjectVars_eq : ∀ (subjects : List Ty) (n : Nat),
    freshVars n subjects =
      ((List.range' n subjects.length).zip subjects).map fun p => Var.mk p.1 p.2
  | [], n => rfl
  | t :: ts, n => by
    simp only [freshVars, List.length_cons, List.range'_succ, List.zip_cons_cons, List.map_cons]
    rw [subjectVars_eq ts (n + 1)]

theorem subjectEnv_eq (subjects : List Ty) (vs : List (Val B.Bits)) :
    subjectEnv subjects vs = Env.set (fun _ => .opaque 0) ((freshVars 0 subjects).zip vs) := by
  rw [subjectVars_eq, ← List.range_eq_range']
  rfl

theorem IsBranch.ok {ds : Decls} {subjects : List Ty} {ci ai : Nat} {c : Clause B}
    {ps : List (SrcPat B)} {b : Branch B} {vs : List (Val B.Bits)}
    (h : IsBranch (freshVars 0 subjects) ci ai c ps b) (ht : SrcPat.haveTys ds ps subjects)
    (hv : Val.haveTys ds vs subjects) :
    BranchOk ds subjects.length (subjectEnv subjects vs) b := by
  obtain ⟨n, rfl⟩ := h.eq
  have hps := registers_haveTys ds ps n subjects ht
  have hid := freshVars_id 0 subjects
  refine ⟨?_, ?_, ?_, ?_⟩
  · intro c hc
    have := hid c.1 (List.of_mem_zip hc).1
    simpa using this.2
  · intro c hc
    exact Pat.hasTy_zip (by rw [freshVars_ty]; exact hps) c hc
  · intro c hc
    rw [subjectEnv_eq]
    exact env_set_zip _ (by rw [freshVars_ty]; exact hv) (List.of_mem_zip hc).1
  · intro e he
    simp [altBranch] at he

theorem IsBranch.run {ds : Decls} {subjects : List Ty} {ci ai : Nat} {c : Clause B}
    {ps : List (SrcPat B)} {b : Branch B} {vs : List (Val B.Bits)}
    (h : IsBranch (freshVars 0 subjects) ci ai c ps b) (ht : SrcPat.haveTys ds ps subjects)
    (hv : Val.haveTys ds vs subjects) :
    b.run (subjectEnv subjects vs) = SrcPat.runs ps vs := by
  obtain ⟨n, rfl⟩ := h.eq
  have hl := Pat.haveTys_length (registers_haveTys ds ps n subjects ht)
  have hl' := Val.haveTys_length hv
  have hlen := freshVars_length 0 subjects
  rw [← registers_runs ds ps n subjects vs ht hv, subjectEnv_eq, Branch.run]
  simp only [altBranch]
  rw [runChecks_zip _ (freshVars_nodup 0 subjects) (by omega) (by omega)]
  simp [Body.values]

theorem haveTys_cons {ds : Decls} {t : Ty} {ts : List Ty} {vs : List (Val B.Bits)}
    (h : Val.haveTys ds vs (t :: ts)) :
    (subjectEnv (t :: ts) vs ⟨0, t⟩).hasTy ds t := by
  rw [subjectEnv_eq]
  have := env_set_zip (ds := ds) (fun _ => .opaque 0) (vs := freshVars 0 (t :: ts)) (xs := vs)
    (by rw [freshVars_ty]; exact h) (v := ⟨0, t⟩) (by simp [freshVars])
  exact this

/-- The promise for a whole `case` expression. -/
theorem compileCase_promise {ds : Decls} {subjects : List Ty} {clauses : List (Clause B)}
    {r : Decision B × St} {vs : List (Val B.Bits)} (hs : B.Sound)
    (h : compileCase ds subjects clauses = some r) (ht : ClausesTyped ds subjects clauses)
    (hv : Val.haveTys ds vs subjects) :
    Promise (clauseBranches (freshVars 0 subjects) 0 0 clauses) (subjectEnv subjects vs) r := by
  simp only [compileCase, freshVars_length] at h
  split at h
  · rename_i he
    have he : clauseBranches (freshVars 0 subjects) 0 0 clauses = [] := by simpa using he
    rw [he]
    cases subjects with
    | nil => simp [freshVars] at h
    | cons t ts =>
      simp only [freshVars] at h
      refine splitAndCompile_promise hs (compile_le ds 1) (compile_promise hs 1) h ?_ (by simp)
      exact haveTys_cons hv
  · refine compile_promise hs _ _ _ r _ h ?_
    intro b hb
    obtain ⟨i, c, j, ps, h1, h2, h3⟩ := clauseBranches_mem hb
    exact h3.ok (ht c (List.mem_of_getElem? h1) ps (List.mem_of_getElem? h2)) hv

/-! ### Selecting -/

theorem selectAlt_isSome (guards : Guards B) (vs : List (Val B.Bits)) (ci : Nat) :
    ∀ (alts : List (List (SrcPat B))) (ai : Nat),
    (∃ ps ∈ alts, (SrcPat.runs ps vs).isSome = true) →
    (selectAlt guards vs ci false ai alts).isSome = true
  | [], ai, h => by simp at h
  | ps :: alts, ai, h => by
    simp only [selectAlt]
    split
    · simp
    · rename_i hn
      obtain ⟨qs, hq, hr⟩ := h
      simp only [List.mem_cons] at hq
      rcases hq with rfl | hq
      · rw [hn] at hr; simp at hr
      · exact selectAlt_isSome guards vs ci alts _ ⟨qs, hq, hr⟩

theorem select_isSome (guards : Guards B) (vs : List (Val B.Bits)) :
    ∀ (cs : List (Clause B)) (ci : Nat),
    (∃ c ∈ cs, c.guard = none ∧ ∃ ps ∈ c.alternatives, (SrcPat.runs ps vs).isSome = true) →
    (select guards vs ci cs).isSome = true
  | [], ci, h => by simp at h
  | c :: cs, ci, h => by
    simp only [select]
    obtain ⟨c', hc', hg, hps⟩ := h
    simp only [List.mem_cons] at hc'
    rcases hc' with rfl | hc'
    · have := selectAlt_isSome guards vs ci _ 0 hps
      rw [hg]
      simp only [Option.isSome_none]
      rw [Option.isSome_or, this]
      rfl
    · have := select_isSome guards vs cs (ci + 1) ⟨c', hc', hg, hps⟩
      rw [Option.isSome_or, this]
      simp

end Verif.Case
