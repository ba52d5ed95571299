import Verif.JsCase.Apart

/-!
# Splitting all branches

Lemmas: what the choices of a splitter have in common when all branches have been added.
-/

set_option linter.unusedSectionVars false

namespace Verif.JsCase

open Verif.Case

variable {B : BitSys}

/-- In a `let assert`, a branch that matches binds a variable. -/
def Loud (loud : Bool) (env : Env B) (b : Branch B) : Prop :=
  loud = true → b.guard = none ∧ ∀ l, b.run env = some l → l ≠ []

theorem Loud.same {loud : Bool} {env env' : Env B} {b b' : Branch B} (h : Loud loud env b)
    (ht : b'.guard = b.guard) (hs : Same (b'.run env') (b.run env)) : Loud loud env' b' := by
  intro hl
  refine ⟨by rw [ht]; exact (h hl).1, ?_⟩
  intro l hr
  rw [hr] at hs
  cases hb : b.run env with
  | none => rw [hb] at hs; cases hs
  | some m =>
    rw [hb] at hs
    cases hs with
    | some hp =>
      rintro rfl
      exact (h hl).2 m hb (List.nil_perm.1 hp)

structure SpLoud (loud : Bool) (env : Env B) (v : Var) (sp : Splitter B) : Prop where
  choice : ∀ ch ∈ sp.choices, ch.1.holds (env v) = true →
    ∀ b ∈ ch.2, Loud loud (env.set (ch.1.binds (env v))) b
  fallback : ∀ b ∈ sp.fallback, Loud loud env b

section
variable {ds : Decls} {n0 n : Nat} {guards : Guards B} {env : Env B} {v : Var} {loud : Bool}
  {seen : List (Branch B)} {sp : Splitter B} {b : Branch B}

theorem SpLoud.addFallback (hw : SpWf ds n0 n env v sp) (h : SpLoud loud env v sp)
    (hb : BranchOk ds n0 env b) (hl : Loud loud env b) : SpLoud loud env v (addFallback sp b) := by
  refine ⟨?_, ?_⟩
  · intro ch hch hh b' hb'
    simp only [Verif.Case.addFallback, List.mem_map] at hch
    obtain ⟨ch0, h0, rfl⟩ := hch
    simp only [List.mem_append, List.mem_singleton] at hb'
    rcases hb' with hb' | rfl
    · exact h.choice ch0 h0 hh b' hb'
    · exact hl.same rfl (Same.of_eq (Branch.run_old hb
        fun w hw' => env_set_old (hw.checks ch0 h0) env _ hw'))
  · intro b' hb'
    simp only [Verif.Case.addFallback, List.mem_append, List.mem_singleton] at hb'
    rcases hb' with hb' | rfl
    · exact h.fallback b' hb'
    · exact hl

theorem SpLoud.addKind {p : Pat B} {cs : List (PCheck B)} {k : Kind} {r : Splitter B × Nat}
    (ha : Adding ds n0 env v b p cs) (hk : p.kind = some k) (hw : SpWf ds n0 n env v sp)
    (h : SpLoud loud env v sp) (hl : Loud loud env b)
    (hadd : addKind n sp v p k (b.popped cs) (branchMode ds v.ty) = some r) :
    SpLoud loud env v r.1 := by
  obtain ⟨chs, hj, hadd⟩ := addKind_cases hadd
  have hread : ∀ ch ∈ chs, ch.1.holds (env v) = true →
      ∀ b ∈ ch.2, Loud loud (env.set (ch.1.binds (env v))) b := by
    intro ch hch hh b' hb'
    obtain ⟨ch0, h0, hjt⟩ := forall₂_mem_right hj ch hch
    cases hjt with
    | keep => exact h.choice _ h0 hh b' hb'
    | join hov hnew =>
      simp only [matched_binds]
      rw [matched_holds] at hh
      simp only [List.mem_append, List.mem_singleton] at hb'
      rcases hb' with hb' | rfl
      · exact h.choice _ h0 hh b' hb'
      · exact hl.same (tag_add b cs _).guard
          (ha.joined_run (hw.checks ch0 h0) (overlapping_related hk hov) hnew hh)
  rcases hadd with ⟨-, rfl⟩ | ⟨hn, c, new, hc, hnew, rfl⟩
  · exact ⟨hread, h.fallback⟩
  · obtain ⟨hcok, hnle, hrel⟩ := freshCheck_ok hw.le ha.pat hk hc
    refine ⟨?_, h.fallback⟩
    intro ch hch hh b' hb'
    simp only [List.mem_append, List.mem_singleton] at hch
    rcases hch with hch | rfl
    · exact hread ch hch hh b' hb'
    · simp only [List.mem_append, List.mem_singleton] at hb'
      rcases hb' with hb' | rfl
      · exact (h.fallback b' hb').same rfl (Same.of_eq (Branch.run_old (hw.fallback b' hb')
          fun w hw' => env_set_old hcok env _ hw'))
      · exact hl.same (tag_add b cs _).guard (ha.joined_run hcok hrel hnew hh)

theorem SpLoud.addBits {p : Pat B} {cs : List (PCheck B)} {cell : Option Nat}
    {ts : List (BTest B)} {sp' : Splitter B} (hs : B.Sound) (ha : Adding ds n0 env v b p cs)
    (hp : p = .bits cell ts) (hpl : ∀ t ∈ ts, t.plain) (h : SpLoud loud env v sp)
    (hl : Loud loud env b) (hadd : addBits sp v p ts (b.popped cs) = some sp') :
    SpLoud loud env v sp' := by
  simp only [Verif.Case.addBits, Option.map_eq_some_iff] at hadd
  obtain ⟨r, hpv, rfl⟩ := hadd
  have hrun : p.run (env v) = runTests (env v) ts := by rw [hp]; cases env v <;> rfl
  have hleft : testHolds r.1 (env v) = true →
      Same (((b.popped cs).add [(v, .bits none (leftTests r.1 ts))]).run env) (b.run env) := by
    intro hh
    refine derived_run ha.ok ha.pop (fun _ _ => rfl) (Same.of_eq ?_)
    have : (Pat.bits (B := B) none (leftTests r.1 ts)).run (env v) =
        runTests (env v) (leftTests r.1 ts) := by cases env v <;> rfl
    rw [runChecks_cons, runChecks, seq2_nil', this, hrun, leftTests_run hs r.1 hh ts hpl]
  have hold : testHolds r.1 (env v) = true → ∀ b' ∈ r.2, Loud loud env b' := by
    intro hh b' hb'
    rcases pivotTest_cases hpv with ⟨-, h2, -⟩ | h2
    · rw [h2] at hb'; simp at hb'
    · have := h.choice (.bits r.1, r.2) (by rw [h2]; simp) (by rw [Check.bits_holds]; exact hh) b' hb'
      rwa [Check.bits_binds, env_set_nil] at this
  refine ⟨?_, ?_⟩
  · intro ch hch hh b' hb'
    simp only [List.mem_singleton] at hch
    subst hch
    simp only [Check.bits_holds] at hh
    simp only [Check.bits_binds, env_set_nil]
    simp only at hb'
    split at hb'
    · exact hold hh b' hb'
    · simp only [List.mem_append, List.mem_singleton] at hb'
      rcases hb' with hb' | rfl
      · exact hold hh b' hb'
      · exact hl.same (tag_add b cs _).guard (hleft hh)
  · intro b' hb'
    simp only at hb'
    split at hb'
    · exact h.fallback b' hb'
    · simp only [List.mem_append, List.mem_singleton] at hb'
      rcases hb' with hb' | rfl
      · exact h.fallback b' hb'
      · exact hl.same (tag_add b cs _).guard ha.back_run

theorem splitBranches_agree {sk : Char → Nat} (hs : B.Sound) :
    ∀ {bs seen sound : List (Branch B)} {st : Case.St} {sp : Splitter B} {r : Case.St × Splitter B},
    splitBranches (branchMode ds v.ty) v st sp bs = some r →
    (∀ b ∈ seen ++ bs, Ready ds n0 sk env b) → (seen ++ bs).Pairwise Later →
    (∀ b ∈ bs, Readable env b) → (∀ b ∈ bs, Loud loud env b) →
    SpWf ds n0 st.next env v sp → SpSound env v sound sp → SpExact guards env v seen sp →
    SpDer Later v seen sp → SpAgree guards env v seen sp → SpLoud loud env v sp →
    ((branchMode ds v.ty).isInfinite = false → Cover (env v) sp.choices) →
    (v.ty = .bitArray → sp.choices = [] → seen = [] ∧ ∀ b ∈ bs.head?, popCheck v b.checks ≠ none) →
    SpAgree guards env v (seen ++ bs) r.2 ∧ SpLoud loud env v r.2
  | [], seen, sound, st, sp, r, h, _, _, _, _, _, _, hx, hd, hag, hlo, _, _ => by
    simp only [splitBranches, Option.some.injEq] at h
    subst h
    simpa using ⟨hag, hlo⟩
  | b :: bs, seen, sound, st, sp, r, h, hr, hnc, hre, hlb, hw, hsd, hx, hd, hag, hlo, hcov, hbit => by
    have happ : seen ++ b :: bs = (seen ++ [b]) ++ bs := by simp
    have hb := hr b (by simp)
    have hnc' := List.pairwise_append.1 hnc
    have hle : ∀ e ∈ seen, Later e b := fun e he => hnc'.2.2 e he b (by simp)
    have hcl : ∀ e ∈ seen, e.clause ≤ b.clause := fun e he => (hle e he).le
    have hbe : Before ds sk seen b :=
      ⟨fun e he => (hr e (by simp [he])).stuck, fun e he => (hle e he).nc,
        fun e he => (hr e (by simp [he])).tidy, hb.tidy⟩
    have hbelow : ∀ e ∈ seen, (∀ d ∈ e.checks, d.1.id < n0) ∧ Later e b :=
      fun e he => ⟨(hr e (by simp [he])).ok.below, hle e he⟩
    have hreb := hre b (by simp)
    have hlob := hlb b (by simp)
    have hre' : ∀ b ∈ bs, Readable env b := fun b hb => hre b (by simp [hb])
    have hlb' : ∀ b ∈ bs, Loud loud env b := fun b hb => hlb b (by simp [hb])
    rw [happ] at hr hnc ⊢
    simp only [splitBranches] at h
    split at h
    · rename_i hpop
      have hne : v.ty = .bitArray → sp.choices ≠ [] := fun ht h0 =>
        (hbit ht h0).2 b rfl hpop
      refine splitBranches_agree hs h hr hnc hre' hlb' (hw.addFallback hb.ok)
        (SpSound.addFallback hw hsd hb.ok) (hx.addFallback hw hb.ok hb.nodup)
        (hd.addFallback Later.lasting hw hbelow hb.ok.below) (hag.addFallback hw hd hb.ok hreb hcl)
        (hlo.addFallback hw hb.ok hlob) (fun hf => (hcov hf).addFallback b) ?_
      intro ht h0
      simp only [addFallback, List.map_eq_nil_iff] at h0
      exact absurd h0 (hne ht)
    · rename_i p cs hpop
      have ha : Adding ds n0 env v b p cs := ⟨hb.ok, hb.stuck, hpop⟩
      have htd := hb.tidy _ ha.mem
      split at h
      · rename_i hun
        have hdead := dead_run ha (unreachableVariant_dead ha.pat hun)
        refine splitBranches_agree hs h hr hnc hre' hlb' hw hsd (hx.skip hdead) (hd.skip b)
          (hag.skip hcl) hlo hcov ?_
        intro ht
        exfalso
        revert hun
        rw [ht]
        cases p <;> simp [branchMode, Pat.unreachableVariant]
      · split at h
        · rename_i hseg
          exfalso
          have hc := htd.clean
          cases p <;> simp only [Pat.impossibleSegment, Bool.false_eq_true] at hseg
          simp only [Pat.clean] at hc
          simp only [List.any_eq_true, Option.any_eq_true] at hseg
          obtain ⟨t, ht, u, hu, himp⟩ := hseg
          have := hc.2 t ht
          cases t <;> simp only [BTest.test, reduceCtorEq, Option.some.injEq] at hu
          subst hu
          simp only [BTest.plain] at this
          rw [this.2] at himp
          simp at himp
        · simp only [Option.bind_eq_some_iff] at h
          obtain ⟨a, hadd, h⟩ := h
          obtain ⟨h1, h2, h3⟩ := addChecked_inv hs ha hw hsd hadd
          have hkey : SpExact guards env v (seen ++ [b]) a.1 ∧ SpDer Later v (seen ++ [b]) a.1 ∧
              SpAgree guards env v (seen ++ [b]) a.1 ∧ SpLoud loud env v a.1 ∧
              (v.ty = .bitArray → a.1.choices ≠ []) := by
            have hbk : v.ty = .bitArray → p.kind = none := by
              intro ht
              have := ha.pat
              rw [ht] at this
              cases p <;> simp [Pat.hasTy] at this <;> rfl
            unfold addChecked at hadd
            split at hadd
            · rename_i p cell ts
              simp only [Option.map_eq_some_iff] at hadd
              obtain ⟨s, hadd, rfl⟩ := hadd
              have hcln := htd.clean
              simp only [Pat.clean] at hcln
              have hvt := ha.bits_ty rfl
              refine ⟨hx.addBits hs ha rfl hcln.2 hb.nodup (fun h0 => (hbit hvt h0).1) hadd,
                hd.addBits Later.lasting ha rfl hbelow hadd, hag.addBits ha rfl hd hreb hcl hadd,
                hlo.addBits hs ha rfl hcln.2 hlob hadd, fun _ => ?_⟩
              simp only [addBits, Option.map_eq_some_iff] at hadd
              obtain ⟨pv, -, rfl⟩ := hadd
              simp
            · simp only [Option.bind_eq_some_iff] at hadd
              obtain ⟨k, hk, hadd⟩ := hadd
              refine ⟨hx.addKind' ha hk hw hb.nodup hbe hcov hadd,
                hd.addKind Later.lasting ha hk hw hbelow hadd,
                hag.addKind ha hk hw hd hreb hbe hle hadd, hlo.addKind ha hk hw hlob hadd,
                fun ht => ?_⟩
              rw [hbk ht] at hk
              simp at hk
          refine splitBranches_agree hs (st := { st with next := a.2 }) h hr hnc hre' hlb' h1 h2
            hkey.1 hkey.2.1 hkey.2.2.1 hkey.2.2.2.1 (fun hf => h3 hf (hcov hf)) ?_
          intro ht h0
          exact absurd h0 (hkey.2.2.2.2 ht)

end

/-! ### The first checks -/

theorem variantChecks_kinds : ∀ (cs : List (List Ty)) (n i : Nat),
    ((variantChecks (B := B) n i cs).1.map Check.kind).Nodup ∧
      ∀ k ∈ (variantChecks (B := B) n i cs).1.map Check.kind, ∃ j, i ≤ j ∧ k = some (.variant j)
  | [], n, i => by simp [variantChecks]
  | fs :: cs, n, i => by
    obtain ⟨h1, h2⟩ := variantChecks_kinds cs (n + fs.length) (i + 1)
    simp only [variantChecks, variantCheck, List.map_cons, Check.kind]
    refine ⟨List.nodup_cons.2 ⟨?_, h1⟩, ?_⟩
    · intro hm
      obtain ⟨j, hj, he⟩ := h2 _ hm
      simp only [Option.some.injEq, Kind.variant.injEq] at he
      omega
    · intro k hk
      simp only [List.mem_cons] at hk
      rcases hk with rfl | hk
      · exact ⟨i, Nat.le_refl _, rfl⟩
      · obtain ⟨j, hj, he⟩ := h2 k hk
        exact ⟨j, by omega, he⟩

theorem knownChecks_kinds {n : Nat} {m : Mode} {r : List (Check B) × Nat}
    (h : knownChecks n m = some r) : (r.1.map Check.kind).Nodup := by
  cases m <;> simp only [knownChecks] at h
  case infinite =>
    simp only [Option.some.injEq] at h
    subst h
    simp
  case tuple ts =>
    simp only [Option.some.injEq] at h
    subst h
    simp
  case list t =>
    simp only [Option.some.injEq] at h
    subst h
    simp [listCheck, Check.kind]
  case named cs inf =>
    cases inf with
    | some i =>
      simp only [knownChecks, Option.map_eq_some_iff] at h
      obtain ⟨fs, -, rfl⟩ := h
      simp
    | none =>
      simp only [knownChecks, Option.some.injEq] at h
      subst h
      exact (variantChecks_kinds cs n 0).1

theorem spAgree_first {ds : Decls} {n : Nat} {v : Var} {kc : List (Check B) × Nat}
    (h : knownChecks n (branchMode ds v.ty) = some kc) (guards : Guards B) (env : Env B)
    (loud : Bool) : SpAgree guards env v [] (Splitter.fromChecks kc.1) ∧
      SpLoud loud env v (Splitter.fromChecks kc.1) := by
  have hmem : ∀ ch ∈ (Splitter.fromChecks kc.1).choices, ∃ c ∈ kc.1, ch = (c, []) := by
    intro ch hch
    simp only [Splitter.fromChecks, List.mem_map] at hch
    obtain ⟨c, hc, rfl⟩ := hch
    exact ⟨c, hc, rfl⟩
  have hinf : v.ty = .string ∨ v.ty = .bitArray → kc.1 = [] := by
    intro ht
    rcases ht with ht | ht <;>
      (rw [ht] at h; simp only [branchMode, knownChecks, Option.some.injEq] at h; subst h; rfl)
  refine ⟨⟨?_, ?_, ?_, ?_, ?_, ?_, ?_⟩, ⟨?_, ?_⟩⟩
  · intro ch hch _ b hb
    obtain ⟨c, hc, rfl⟩ := hmem ch hch
    simp at hb
  · simp [Splitter.fromChecks]
  · intro ch hch
    obtain ⟨c, hc, rfl⟩ := hmem ch hch
    simp
  · intro _ _
    have := knownChecks_kinds h
    simpa [Splitter.fromChecks, Function.comp_def] using this
  · intro ht
    simp [Splitter.fromChecks, hinf (.inr ht)]
  · intro ht ch hch
    simp [Splitter.fromChecks, hinf (.inl ht)] at hch
  · intro ht
    simp [Splitter.fromChecks, hinf (.inl ht)]
  · intro ch hch _ b hb
    obtain ⟨c, hc, rfl⟩ := hmem ch hch
    simp at hb
  · simp [Splitter.fromChecks]

end Verif.JsCase
