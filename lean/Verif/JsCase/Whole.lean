import Verif.JsCase.Fine
import Verif.JsCase.Static
import Verif.JsCase.Top

/-!
# From the source to JavaScript

Lemmas: the decision tree of clauses makes sense, and the variables of the subjects have the values
of the subjects.
-/

set_option linter.unusedSectionVars false

namespace Verif.JsCase

open Verif.Case

variable {B : BitSys}

/-- A branch made of a numbered alternative. -/
def Made (vars : List Var) (b : Branch B) (a : Nat × List (SrcPat B) × Option (List Name)) : Prop :=
  ∃ ai n, b = (altBranch vars a.1 ai a.2.2 n a.2.1).1

theorem altBranches_made (vars : List Var) (ci : Nat) (g : Option (List Name)) :
    ∀ (alts : List (List (SrcPat B))) (ai n : Nat),
    List.Forall₂ (Made vars) (altBranches vars ci g ai n alts).1 (alts.map fun ps => (ci, ps, g))
  | [], ai, n => .nil
  | ps :: alts, ai, n => .cons ⟨ai, n, rfl⟩ (altBranches_made vars ci g alts _ _)

theorem clauseBranches_made (vars : List Var) : ∀ (cs : List (Clause B)) (ci n : Nat),
    List.Forall₂ (Made vars) (clauseBranches vars ci n cs) (numbered ci cs)
  | [], ci, n => .nil
  | c :: cs, ci, n => by
    simp only [clauseBranches, numbered]
    exact forall₂_append (altBranches_made vars ci c.guard _ _ _) (clauseBranches_made vars cs _ _)

theorem numbered_ge : ∀ (cs : List (Clause B)) (ci : Nat), ∀ a ∈ numbered ci cs, ci ≤ a.1
  | [], ci, a, h => by simp [numbered] at h
  | c :: cs, ci, a, h => by
    simp only [numbered, List.mem_append, List.mem_map] at h
    rcases h with ⟨ps, -, rfl⟩ | h
    · exact Nat.le_refl _
    · have := numbered_ge cs (ci + 1) a h
      omega

theorem numbered_sorted : ∀ (cs : List (Clause B)) (ci : Nat),
    (numbered ci cs).Pairwise fun a b => a.1 ≤ b.1
  | [], ci => by simp [numbered]
  | c :: cs, ci => by
    simp only [numbered, List.pairwise_append]
    refine ⟨?_, numbered_sorted cs (ci + 1), ?_⟩
    · rw [List.pairwise_map]
      exact List.pairwise_of_forall fun _ _ => Nat.le_refl _
    · intro a ha b hb
      simp only [List.mem_map] at ha
      obtain ⟨ps, -, rfl⟩ := ha
      have := numbered_ge cs (ci + 1) b hb
      simp only
      omega

theorem Clear.later {vars : List Var} (hn : vars.Nodup) {b b' : Branch B}
    {a a' : Nat × List (SrcPat B) × Option (List Name)} (hb : Made vars b a) (hb' : Made vars b' a')
    (h : Clear a a') (hle : a.1 ≤ a'.1) : Later b b' := by
  obtain ⟨ai, n, rfl⟩ := hb
  obtain ⟨ai', n', rfl⟩ := hb'
  refine ⟨hle, ?_⟩
  intro v pe pl t s h1 h2 ht hs hst
  obtain ⟨i, m, p, hi, hp, he⟩ := zip_register h1
  obtain ⟨j, m', q, hj, hq, he'⟩ := zip_register h2
  have hij : i = j := by
    obtain ⟨l1, e1⟩ := List.getElem?_eq_some_iff.1 hi
    obtain ⟨l2, e2⟩ := List.getElem?_eq_some_iff.1 hj
    exact (List.Nodup.getElem_inj_iff hn).1 (e1.trans e2.symm)
  subst hij
  simp only at he he'
  subst he
  subst he'
  rw [register_lits, register_prefs] at ht
  rw [register_prefs] at hs
  obtain ⟨⟨g1, g2⟩, g3⟩ := h i p q hp hq s hs t ht hst
  refine ⟨⟨?_, by simp [altBranch, g1]⟩, g3⟩
  have := checksWidth_zip vars (registers n a.2.1).1
  rw [registers_width] at this
  exact Nat.le_trans this g2

theorem compileCase_proper {ds : Decls} {subjects : List Ty} {clauses : List (Clause B)}
    {r : Decision B × Case.St} {vs : List (Val B.Bits)} {ctx : Ctx} (hs : B.Sound)
    (h : compileCase ds subjects clauses = some r) (ht : ClausesTyped ds subjects clauses)
    (hv : Val.haveTys ds vs subjects) (ho : Orderly clauses)
    (hcl : (numbered 0 clauses).Pairwise Clear) (hbin : BoolsBinary ds ctx)
    (hla : AssertsBind ctx clauses) (guards : Guards B) :
    Proper ctx guards false (subjectEnv subjects vs) r.1 := by
  obtain ⟨sk, hsk⟩ := ho.spelling
  have hmade := clauseBranches_made (B := B) (freshVars 0 subjects) clauses 0 0
  simp only [compileCase, freshVars_length] at h
  split at h
  · split at h
    · simp at h
    · rename_i v vars hfv
      cases subjects with
      | nil => simp [freshVars] at hfv
      | cons t ts =>
        simp only [freshVars, List.cons.injEq] at hfv
        obtain ⟨rfl, -⟩ := hfv
        cases vs with
        | nil => simp [Val.haveTys] at hv
        | cons x vs =>
        have hx : (subjectEnv (t :: ts) (x :: vs) (Var.mk 0 t)).hasTy ds t := by
          rw [subjectEnv_eq]
          exact env_set_zip (v := Var.mk 0 t) _ (by rw [freshVars_ty]; exact hv)
            (by simp [freshVars])
        exact (splitAndCompile_fine (sk := sk) (compile_le ds 1) (compile_exact sk guards hs 1)
          (compile_fine hs hbin 1) hbin h hx
          fun kc stm sp hkc hsp => empty_facts hx hkc hsp).1 false
  · obtain ⟨m, -, hcells⟩ := clauseBranches_within (B := B) (freshVars 0 subjects) clauses 0 0
    generalize hbs : clauseBranches (freshVars 0 subjects) 0 0 clauses = bs at *
    have hm := moveAll_same hs.unaliasLaw (subjectEnv subjects vs) bs
      (Case.St.init subjects.length).taken hcells.nodup (by simp [Case.St.init])
    have hb : ∀ b ∈ bs, BranchOk ds subjects.length (subjectEnv subjects vs) b ∧
        NodupRun (subjectEnv subjects vs) b ∧ b.body.clause = b.clause ∧
        (∀ d ∈ b.checks, d.2.clean true ∧ (∀ s ∈ d.2.lits, Lit.spelled sk s) ∧
          ∀ s ∈ d.2.prefs, Lit.spelled sk s) ∧ Readable (subjectEnv subjects vs) b ∧
        Loud ctx.letAssert (subjectEnv subjects vs) b := by
      intro b hb
      have hb0 := hb
      rw [← hbs] at hb0
      obtain ⟨i, c, j, ps, h1, h2, h3⟩ := clauseBranches_mem hb0
      have hmc := List.mem_of_getElem? h1
      have hmp := List.mem_of_getElem? h2
      have hall : (ps, c.guard) ∈ allAlternatives clauses := by
        simp only [allAlternatives, List.mem_flatMap, List.mem_map]
        exact ⟨c, hmc, ps, hmp, rfl⟩
      have hty := ht c hmc ps hmp
      refine ⟨h3.ok hty hv, ?_, ?_, ?_, ?_, ?_⟩
      · intro l hl
        rw [h3.run hty hv] at hl
        rw [SrcPat.runs_names ps vs l hl]
        exact ho.names _ hall
      · obtain ⟨n, rfl⟩ := h3.eq; rfl
      · obtain ⟨n, rfl⟩ := h3.eq
        intro d hd
        obtain ⟨i, m, p, -, hp, he⟩ := zip_register hd
        have hpm := List.mem_of_getElem? hp
        rw [he, register_lits, register_prefs]
        refine ⟨register_clean p m true (ho.patterns _ hall p hpm), ?_, ?_⟩
        · intro s hs
          exact hsk _ hall p hpm s (by simp [hs])
        · intro s hs
          exact hsk _ hall p hpm s (by simp [hs])
      · obtain ⟨n, rfl⟩ := h3.eq
        refine ⟨by simp [altBranch], ?_⟩
        intro d hd
        obtain ⟨i, m, p, -, hp, he⟩ := zip_register hd
        exact .inl (by rw [he]; exact register_unsliced p m)
      · intro hl
        obtain ⟨g1, g2⟩ := hla hl _ hall
        simp only at g1 g2
        refine ⟨?_, ?_⟩
        · obtain ⟨n, rfl⟩ := h3.eq
          simp [altBranch, g1]
        · intro l hr
          rw [h3.run hty hv] at hr
          have := SrcPat.runs_names ps vs l hr
          rintro rfl
          exact g2 (by simpa using this.symm)
    refine (compile_fine_step hs (compile_exact sk guards hs _) (compile_fine hs hbin _) hbin h
      ⟨?_, ?_, ?_, ?_⟩).1 false
    · intro b' hb'
      obtain ⟨b, hbm, ⟨t, rfl⟩, hsm⟩ := forall₂_mem_right hm.flip b' hb'
      obtain ⟨h1, h2, h3, h4, -⟩ := hb b hbm
      refine ⟨moveBranch_ok t h1, ?_, h2.same hsm, h3⟩
      intro d hd
      obtain ⟨p, t', hmm, hl⟩ := moveChecks_mem _ _ _ hd
      obtain ⟨k1, k2, k3⟩ := h4 _ hmm
      obtain ⟨e1, e2⟩ := movePat_lits t' d.1 p d.2 hl
      exact ⟨movePat_left_hasTy ds t' d.1 _ p d.2 (h1.pat _ hmm) hl,
        movePat_clean t' d.1 p d.2 k1 hl, by rw [e1]; exact k2, by rw [e2]; exact k3⟩
    · refine forall₂_pairwise (R := fun b' a => ∃ b t, Made (freshVars 0 subjects) b a ∧
        b' = (moveBranch t b).1) (S := fun a a' => Clear a a' ∧ a.1 ≤ a'.1) ?_ ?_
        (List.pairwise_and_iff.2 ⟨hcl, numbered_sorted clauses 0⟩)
      · rintro _ a _ a' ⟨b, t, hba, rfl⟩ ⟨b2, u, hba', rfl⟩ ⟨hno, hle⟩
        exact (hno.later (freshVars_nodup 0 subjects) hba hba' hle).move t u
      · revert hm hmade
        generalize (moveAll (Case.St.init subjects.length).taken bs).1 = bs'
        generalize numbered 0 clauses = as
        clear * -
        intro hfrom hm
        induction hm generalizing as with
        | nil => cases hfrom; exact .nil
        | cons h1 _ ih =>
          cases hfrom with
          | cons h2 h3 =>
            obtain ⟨⟨t, rfl⟩, -⟩ := h1
            exact .cons ⟨_, t, h2, rfl⟩ (ih _ h3)
    · intro b' hb'
      obtain ⟨b, hbm, ⟨t, rfl⟩, hsm⟩ := forall₂_mem_right hm.flip b' hb'
      obtain ⟨h1, -, -, -, h5, -⟩ := hb b hbm
      exact h5.move h1 t
    · intro b' hb'
      obtain ⟨b, hbm, ⟨t, rfl⟩, hsm⟩ := forall₂_mem_right hm.flip b' hb'
      exact (hb b hbm).2.2.2.2.2.same rfl hsm

theorem subjectEnv_get {ds : Decls} : ∀ {subjects : List Ty} {vs : List (Val B.Bits)},
    Val.haveTys ds vs subjects → ∀ (i : Nat) v, (freshVars 0 subjects)[i]? = some v →
    vs[i]? = some (subjectEnv subjects vs v) := by
  intro subjects vs hv i v hi
  rw [subjectEnv_eq]
  have hlen : vs.length = (freshVars 0 subjects).length := by
    rw [haveTys_length hv, freshVars_length]
  have hnd := freshVars_nodup 0 subjects
  revert hi hlen hnd
  generalize freshVars 0 subjects = l
  clear hv
  generalize (fun _ => Val.opaque 0 : Env B) = env
  induction l generalizing vs i env with
  | nil => intro hi; simp at hi
  | cons w l ih =>
    intro hi hlen hnd
    cases vs with
    | nil => simp at hlen
    | cons x vs =>
      rw [List.nodup_cons] at hnd
      cases i with
      | zero =>
        simp only [List.getElem?_cons_zero, Option.some.injEq] at hi
        subst hi
        simp [Env.set]
      | succ i =>
        simp only [List.getElem?_cons_succ] at hi
        have hne : v ≠ w := by
          rintro rfl
          exact hnd.1 (List.mem_of_getElem? hi)
        have := ih i hi (by simpa using hlen) hnd.2 (vs := vs) (env := env)
        simp only [List.getElem?_cons_succ]
        rw [this]
        have hb : (v == w) = false := by rw [beq_eq_false_iff_ne]; exact hne
        simp [Env.set, List.lookup_cons, hb]

end Verif.JsCase
