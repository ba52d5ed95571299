import Verif.Case.Check

/-!
# Splitting the branches on a variable

Lemmas: the lists of branches of a splitter are well formed, and each of their branches comes from
a branch that was split.
-/

namespace Verif.Case

variable {B : BitSys}

/-! ### New checks are well formed -/

theorem Pat.hasTy_zip {ds : Decls} : ∀ {vs : List Var} {ps : List (Pat B)},
    Pat.haveTys ds ps (vs.map Var.ty) → ∀ c ∈ vs.zip ps, c.2.hasTy ds c.1.ty
  | [], ps, _, c, hc => by simp at hc
  | v :: vs, [], h, c, hc => by simp at hc
  | v :: vs, p :: ps, h, c, hc => by
    simp only [List.map_cons, Pat.haveTys] at h
    simp only [List.zip_cons_cons, List.mem_cons] at hc
    rcases hc with rfl | hc
    · exact h.1
    · exact Pat.hasTy_zip h.2 c hc

theorem Val.hasTy_zip {ds : Decls} : ∀ {vs : List Var} {xs : List (Val B.Bits)},
    Val.haveTys ds xs (vs.map Var.ty) → ∀ c ∈ vs.zip xs, c.2.hasTy ds c.1.ty
  | [], ps, _, c, hc => by simp at hc
  | v :: vs, [], h, c, hc => by simp at hc
  | v :: vs, p :: ps, h, c, hc => by
    simp only [List.map_cons, Val.haveTys] at h
    simp only [List.zip_cons_cons, List.mem_cons] at hc
    rcases hc with rfl | hc
    · exact h.1
    · exact Val.hasTy_zip h.2 c hc

theorem env_set_zip {ds : Decls} (env : Env B) {vs : List Var} {xs : List (Val B.Bits)}
    (h : Val.haveTys ds xs (vs.map Var.ty)) {v : Var} (hv : v ∈ vs) :
    (env.set (vs.zip xs) v).hasTy ds v.ty := by
  have hl := Val.haveTys_length h
  rw [List.length_map] at hl
  unfold Env.set
  cases hlk : (vs.zip xs).lookup v with
  | none =>
    rw [List.lookup_eq_none_iff] at hlk
    obtain ⟨i, hi⟩ := List.mem_iff_getElem?.1 hv
    have hi' : i < xs.length := by
      rw [hl]
      exact (List.getElem?_eq_some_iff.1 hi).1
    have : (v, xs[i]) ∈ vs.zip xs := by
      rw [List.mem_iff_getElem?]
      exact ⟨i, by rw [List.getElem?_zip_eq_some]; exact ⟨hi, List.getElem?_eq_getElem hi'⟩⟩
    simpa using hlk _ this
  | some x =>
    obtain ⟨l1, l2, he, -⟩ := List.lookup_eq_some_iff.1 hlk
    exact Val.hasTy_zip h (v, x) (by rw [he]; simp)

theorem newChecks_ok {ds : Decls} {n m : Nat} {env : Env B} {v : Var} {p : Pat B} {c : Check B}
    {cs : List (PCheck B)} (hc : CheckOk ds n m v.ty c) (hnm : n ≤ m) (hv : v.id < n)
    (hp : p.hasTy ds v.ty) (hst : p.stuck) (hx : (env v).hasTy ds v.ty)
    (hh : c.holds (env v) = true) (hr : Related p c) (hn : newChecks v p c = some cs) :
    ∀ d ∈ cs, d.1.id < m ∧ d.2.hasTy ds d.1.ty ∧
      ((env.set (c.binds (env v))) d.1).hasTy ds d.1.ty := by
  have hold := env_set_old hc env (env v) hv
  have hty := hc.ty
  have hnd := hc.nodup
  have hup := hc.upper
  intro d hd
  cases p with
  | discard => exact hst.elim
  | var x => exact hst.elim
  | assign x p => exact hst.elim
  | slice s a b => exact hst.elim
  | bits cell ts => exact hr.elim
  | int i | float i | nil =>
    simp only [newChecks, Option.some.injEq] at hn
    subst hn; simp at hd
  | str s =>
    cases c with
    | str s0 =>
      simp only [newChecks, Option.some.injEq] at hn
      subst hn; simp at hd
    | strPrefix s0 rest =>
      simp only [newChecks, Option.some.injEq] at hn
      subst hn
      simp only [List.mem_singleton] at hd
      subst hd
      generalize hvt : v.ty = t at *
      cases t <;> simp only [Check.hasTy] at hty
      generalize env v = x at *
      cases x <;> simp [Check.holds] at hh
      refine ⟨hup _ (by simp [Check.vars]), by simp [hty, Pat.hasTy], ?_⟩
      simp [Env.set, List.lookup, Check.binds, hty, Val.hasTy]
    | int _ | float _ | tuple _ | bits _ | variant _ _ _ | nil | cons _ _ =>
      simp [Related, Pat.kind, Check.kind] at hr
  | strPrefix s name rest1 =>
    cases c with
    | strPrefix s0 rest0 =>
      simp only [newChecks, Option.some.injEq, newPrefixChecks] at hn
      have hvt : v.ty = .string := by
        revert hty; generalize v.ty = t; cases t <;> simp [Check.hasTy]
      have hrt : rest0.ty = .string := by simpa [hvt, Check.hasTy] using hty
      have hrest : ∀ q : Pat B, q.hasTy ds .string → d = (rest0, q) →
          d.1.id < m ∧ d.2.hasTy ds d.1.ty ∧
            ((env.set ((Check.strPrefix s0 rest0).binds (env v))) d.1).hasTy ds d.1.ty := by
        rintro q hq rfl
        generalize env v = x at *
        cases x <;> simp [Check.holds] at hh
        refine ⟨hup _ (by simp [Check.vars]), by simp [hrt, hq], ?_⟩
        simp [Env.set, List.lookup, Check.binds, hrt, Val.hasTy]
      split at hn
      · split at hn
        · subst hn
          simp only [List.mem_singleton] at hd
          exact hrest _ (by cases rest1 <;> simp [restPat, Pat.hasTy]) hd
        · subst hn
          simp only [List.mem_singleton] at hd
          exact hrest _ (by simp [Pat.hasTy]) hd
      · split at hn
        · subst hn; simp at hd
        · subst hn
          simp only [List.mem_singleton] at hd
          subst hd
          refine ⟨Nat.lt_of_lt_of_le hv hnm, by simp [hvt, Pat.hasTy], ?_⟩
          rw [hold]; exact hx
    | int _ | float _ | str _ | tuple _ | bits _ | variant _ _ _ | nil | cons _ _ =>
      simp [Related, Pat.kind, Check.kind] at hr
  | tuple ps =>
    cases c with
    | tuple vs =>
      simp only [newChecks, Option.some.injEq] at hn
      subst hn
      generalize hvt : v.ty = t at *
      cases t <;> simp only [Check.hasTy] at hty
      simp only [Pat.hasTy] at hp
      generalize env v = x at *
      cases x <;> simp [Check.holds] at hh
      simp only [Val.hasTy] at hx
      subst hty
      have hm := List.of_mem_zip hd
      exact ⟨hup _ hm.1, Pat.hasTy_zip hp d hd, env_set_zip env hx hm.1⟩
    | int _ | float _ | str _ | strPrefix _ _ | bits _ | variant _ _ _ | nil | cons _ _ =>
      simp [Related, Pat.kind, Check.kind] at hr
  | variant i ps =>
    cases c with
    | variant e j vs =>
      simp only [newChecks, Option.some.injEq] at hn
      subst hn
      simp only [Related, Pat.kind, Check.kind, Option.some.injEq, Kind.variant.injEq] at hr
      obtain ⟨rfl, -⟩ := hr
      generalize hvt : v.ty = t at *
      cases t <;> simp only [Check.hasTy] at hty
      simp only [Pat.hasTy] at hp
      obtain ⟨fs, hfs, hps⟩ := hp
      rw [hty] at hfs
      simp only [Option.some.injEq] at hfs
      generalize env v = x at *
      cases x <;> simp [Check.holds] at hh
      subst hh
      simp only [Val.hasTy] at hx
      have hx : _ := hx.resolve_left (by rintro h; simp [h] at hty)
      obtain ⟨-, gs, hgs, hvs⟩ := hx
      rw [hty] at hgs
      simp only [Option.some.injEq] at hgs
      subst hfs
      subst hgs
      have hm := List.of_mem_zip hd
      exact ⟨hup _ hm.1, Pat.hasTy_zip hps d hd, env_set_zip env hvs hm.1⟩
    | int _ | float _ | str _ | strPrefix _ _ | bits _ | tuple _ | nil | cons _ _ =>
      simp [Related, Pat.kind, Check.kind] at hr
  | cons h t =>
    cases c with
    | cons first rest =>
      simp only [newChecks, Option.some.injEq] at hn
      subst hn
      generalize hvt : v.ty = t at *
      cases t <;> simp only [Check.hasTy] at hty
      simp only [Pat.hasTy] at hp
      generalize env v = x at *
      cases x <;> simp [Check.holds] at hh
      rename_i a b
      simp only [Val.hasTy] at hx
      have hne : rest ≠ first := by
        simp only [Check.vars] at hnd
        simp at hnd
        exact fun e => hnd e.symm
      have h1 : env.set [(first, a), (rest, b)] first = a := by simp [Env.set, List.lookup]
      have h2 : env.set [(first, a), (rest, b)] rest = b := by
        have : (rest == first) = false := by simpa using hne
        simp [Env.set, List.lookup, this]
      simp only [List.mem_cons, List.not_mem_nil, or_false] at hd
      rcases hd with rfl | rfl
      · refine ⟨hup _ (by simp [Check.vars]), by simpa [hty.1] using hp.1, ?_⟩
        simp only [Check.binds, h1, hty.1]; exact hx.1
      · refine ⟨hup _ (by simp [Check.vars]), by simpa [hty.2] using hp.2, ?_⟩
        simp only [Check.binds, h2, hty.2]; exact hx.2
    | int _ | float _ | str _ | strPrefix _ _ | bits _ | tuple _ | nil | variant _ _ _ =>
      simp [Related, Pat.kind, Check.kind] at hr

/-! ### Taking the check on the pivot variable -/

theorem popCheck_mem {v : Var} : ∀ {cs : List (PCheck B)} {p : Pat B} {cs' : List (PCheck B)},
    popCheck v cs = some (p, cs') → (v, p) ∈ cs ∧ ∀ c ∈ cs', c ∈ cs
  | [], p, cs', h => by simp [popCheck] at h
  | (w, q) :: cs, p, cs', h => by
    simp only [popCheck] at h
    split at h
    · rename_i e
      simp only [Option.some.injEq, Prod.mk.injEq] at h
      obtain ⟨rfl, rfl⟩ := h
      exact ⟨by simp [e], fun c hc => by simp [hc]⟩
    · simp only [Option.map_eq_some_iff, Prod.mk.injEq] at h
      obtain ⟨⟨p', r⟩, hr, rfl, rfl⟩ := h
      obtain ⟨h1, h2⟩ := popCheck_mem hr
      refine ⟨by simp [h1], fun c hc => ?_⟩
      simp only [List.mem_cons] at hc ⊢
      exact hc.imp id (h2 c)

theorem popCheck_none {v : Var} : ∀ {cs : List (PCheck B)}, popCheck v cs = none →
    ∀ c ∈ cs, c.1 ≠ v
  | [], _, c, hc => by simp at hc
  | (w, q) :: cs, h, c, hc => by
    simp only [popCheck] at h
    split at h
    · simp at h
    · rename_i e
      simp only [Option.map_eq_none_iff] at h
      simp only [List.mem_cons] at hc
      rcases hc with rfl | hc
      · exact e
      · exact popCheck_none h c hc

theorem popCheck_run {v : Var} (env : Env B) : ∀ {cs : List (PCheck B)} {p : Pat B}
    {cs' : List (PCheck B)}, popCheck v cs = some (p, cs') →
    Same (seq2 (runChecks env cs') (p.run (env v))) (runChecks env cs)
  | [], p, cs', h => by simp [popCheck] at h
  | (w, q) :: cs, p, cs', h => by
    simp only [popCheck] at h
    split at h
    · rename_i e
      simp only [Option.some.injEq, Prod.mk.injEq] at h
      obtain ⟨rfl, rfl⟩ := h
      rw [runChecks_cons, e]
      exact seq2_comm _ _
    · simp only [Option.map_eq_some_iff, Prod.mk.injEq] at h
      obtain ⟨⟨p', r⟩, hr, rfl, rfl⟩ := h
      rw [runChecks_cons, runChecks_cons, seq2_assoc]
      exact seq2_same (Same.refl _) (popCheck_run env hr)

/-- The branch left when the check on the pivot has been taken. -/
def Branch.popped (b : Branch B) (cs : List (PCheck B)) : Branch B := { b with checks := cs }

/-- A branch whose check on the pivot is replaced by checks that match and bind the same. -/
theorem derived_run {ds : Decls} {n : Nat} {env env' : Env B} {v : Var} {b : Branch B} {p : Pat B}
    {cs new : List (PCheck B)} (hb : BranchOk ds n env b) (hpop : popCheck v b.checks = some (p, cs))
    (he : ∀ w : Var, w.id < n → env' w = env w)
    (hnew : Same (runChecks env' new) (p.run (env v))) :
    Same (((b.popped cs).add new).run env') (b.run env) := by
  rw [Branch.run_eq, Branch.run_eq]
  have hbody : ((b.popped cs).add new).body.values env' = b.body.values env :=
    values_agree hb.binds he
  rw [hbody]
  refine seq2_same (Same.refl _) ?_
  simp only [Branch.add, Branch.popped]
  rw [runChecks_append]
  refine Same.trans ?_ (popCheck_run env hpop)
  refine seq2_same (Same.of_eq ?_) hnew
  apply runChecks_agree
  intro c hc
  exact he _ (hb.below _ ((popCheck_mem hpop).2 c hc))

theorem derived_isSome {ds : Decls} {n : Nat} {env env' : Env B} {v : Var} {b : Branch B}
    {p : Pat B} {cs new : List (PCheck B)} (hb : BranchOk ds n env b)
    (hpop : popCheck v b.checks = some (p, cs))
    (he : ∀ w : Var, w.id < n → env' w = env w)
    (hnew : (runChecks env' new).isSome = (p.run (env v)).isSome) :
    (((b.popped cs).add new).run env').isSome = (b.run env).isSome := by
  rw [Branch.run_eq, Branch.run_eq, seq2_isSome, seq2_isSome]
  simp only [Option.isSome_some, Bool.true_and]
  rw [← (popCheck_run env hpop).isSome]
  simp only [Branch.add, Branch.popped]
  rw [runChecks_append, seq2_isSome, seq2_isSome, hnew]
  congr 1
  rw [runChecks_agree]
  intro c hc
  exact he _ (hb.below _ ((popCheck_mem hpop).2 c hc))

theorem derived_ok {ds : Decls} {n m : Nat} {env env' : Env B} {v : Var} {b : Branch B} {p : Pat B}
    {cs new : List (PCheck B)} (hb : BranchOk ds n env b) (hpop : popCheck v b.checks = some (p, cs))
    (he : ∀ w : Var, w.id < n → env' w = env w) (hnm : n ≤ m)
    (hnew : ∀ d ∈ new, d.1.id < m ∧ d.2.hasTy ds d.1.ty ∧ (env' d.1).hasTy ds d.1.ty) :
    BranchOk ds m env' ((b.popped cs).add new) := by
  have hb' := hb.env hnm he
  have hsub : ∀ c ∈ cs, c ∈ b.checks := (popCheck_mem hpop).2
  refine ⟨?_, ?_, ?_, hb'.binds⟩ <;> intro c hc <;>
    simp only [Branch.add, Branch.popped, List.mem_append] at hc <;> rcases hc with hc | hc
  · exact hb'.below c (hsub c hc)
  · exact (hnew c hc).1
  · exact hb'.pat c (hsub c hc)
  · exact (hnew c hc).2.1
  · exact hb'.val c (hsub c hc)
  · exact (hnew c hc).2.2

/-! ### Fresh checks -/

theorem freshVars_ty : ∀ (n : Nat) (ts : List Ty), (freshVars n ts).map Var.ty = ts
  | _, [] => rfl
  | n, t :: ts => by simp [freshVars, freshVars_ty (n + 1) ts]

theorem freshVars_id : ∀ (n : Nat) (ts : List Ty) (v : Var), v ∈ freshVars n ts →
    n ≤ v.id ∧ v.id < n + ts.length
  | _, [], v, h => by simp [freshVars] at h
  | n, t :: ts, v, h => by
    simp only [freshVars, List.mem_cons] at h
    rcases h with rfl | h
    · simp
    · have := freshVars_id (n + 1) ts v h
      simp only [List.length_cons]
      omega

theorem freshVars_nodup : ∀ (n : Nat) (ts : List Ty), (freshVars n ts).Nodup
  | _, [] => List.nodup_nil
  | n, t :: ts => by
    rw [freshVars, List.nodup_cons]
    refine ⟨fun h => ?_, freshVars_nodup (n + 1) ts⟩
    have := (freshVars_id (n + 1) ts _ h).1
    simp only at this
    omega

theorem freshVars_length (n : Nat) (ts : List Ty) : (freshVars n ts).length = ts.length := by
  conv_rhs => rw [← freshVars_ty n ts, List.length_map]

theorem variantCheck_ok (ds : Decls) {n k : Nat} (hk : k ≤ n) {i nm : Nat} {args : List Ty}
    {inf : Option Nat} {fs : List Ty} (h : (constructors ds nm args)[i]? = some fs) :
    CheckOk (B := B) ds k (n + fs.length) (.named nm args inf) (variantCheck n i fs).1 := by
  refine ⟨?_, freshVars_nodup n fs, ?_, ?_⟩
  · simpa [variantCheck, Check.hasTy, freshVars_ty] using h
  · intro v hv
    exact Nat.le_trans hk (freshVars_id n fs v hv).1
  · intro v hv
    exact (freshVars_id n fs v hv).2

theorem tupleCheck_ok (ds : Decls) {n k : Nat} (hk : k ≤ n) (ts : List Ty) :
    CheckOk (B := B) ds k (n + ts.length) (.tuple ts) (tupleCheck n ts).1 := by
  refine ⟨?_, freshVars_nodup n ts, ?_, ?_⟩
  · simp [tupleCheck, Check.hasTy, freshVars_ty]
  · intro v hv
    exact Nat.le_trans hk (freshVars_id n ts v hv).1
  · intro v hv
    exact (freshVars_id n ts v hv).2

theorem listCheck_ok (ds : Decls) {n k : Nat} (hk : k ≤ n) (t : Ty) :
    CheckOk (B := B) ds k (n + 2) (.list t) (listCheck n t).1 := by
  refine ⟨⟨rfl, rfl⟩, ?_, ?_, ?_⟩
  · simp [listCheck, Check.vars]
  · intro v hv
    simp only [listCheck, Check.vars, List.mem_cons, List.not_mem_nil, or_false] at hv
    rcases hv with rfl | rfl <;> simp <;> omega
  · intro v hv
    simp only [listCheck, Check.vars, List.mem_cons, List.not_mem_nil, or_false] at hv
    rcases hv with rfl | rfl <;> simp

theorem emptyCheck_ok (ds : Decls) {n m : Nat} {t : Ty} {c : Check B} (h : c.hasTy ds t)
    (hv : c.vars = []) : CheckOk ds n m t c := by
  refine ⟨h, by rw [hv]; exact List.nodup_nil, ?_, ?_⟩ <;> simp [hv]

theorem freshCheck_ok {ds : Decls} {n k : Nat} (hk : k ≤ n) {t : Ty} {p : Pat B} {kd : Kind}
    {r : Check B × Nat} (hp : p.hasTy ds t) (hkd : p.kind = some kd)
    (h : freshCheck n kd (branchMode ds t) = some r) :
    CheckOk ds k r.2 t r.1 ∧ n ≤ r.2 ∧ Related p r.1 := by
  cases p <;> simp only [Pat.kind, Option.some.injEq, reduceCtorEq] at hkd <;> subst hkd <;>
    cases t <;> simp only [Pat.hasTy] at hp <;>
    simp only [freshCheck, branchMode, Option.some.injEq, Option.map_eq_some_iff] at h
  · subst h
    exact ⟨emptyCheck_ok ds trivial rfl, by simp, by simp [Related, Pat.kind, Check.kind]⟩
  · subst h
    exact ⟨emptyCheck_ok ds trivial rfl, by simp, by simp [Related, Pat.kind, Check.kind]⟩
  · subst h
    exact ⟨emptyCheck_ok ds trivial rfl, by simp, by simp [Related, Pat.kind, Check.kind]⟩
  · subst h
    refine ⟨⟨rfl, by simp [Check.vars], ?_, ?_⟩, by simp, .inl (List.prefix_refl _)⟩
    · simpa [Check.vars] using hk
    · simp [Check.vars]
  · subst h
    refine ⟨tupleCheck_ok ds hk _, by simp [tupleCheck], ?_⟩
    have := Pat.haveTys_length hp
    simp [Related, Pat.kind, Check.kind, tupleCheck, freshVars_length, this]
  · obtain ⟨fs, hfs, rfl⟩ := h
    exact ⟨variantCheck_ok ds hk hfs, by simp [variantCheck],
      by simp [Related, Pat.kind, Check.kind, variantCheck]⟩
  · subst h
    exact ⟨emptyCheck_ok ds trivial rfl, by simp, by simp [Related, Pat.kind, Check.kind]⟩
  · subst h
    exact ⟨listCheck_ok ds hk _, by simp [listCheck],
      by simp [Related, Pat.kind, Check.kind, listCheck]⟩

theorem variantChecks_ok (ds : Decls) {k nm : Nat} {args : List Ty} {inf : Option Nat} :
    ∀ (cs : List (List Ty)) (n i : Nat), k ≤ n →
      (∀ j fs, cs[j]? = some fs → (constructors ds nm args)[i + j]? = some fs) →
      n ≤ (variantChecks (B := B) n i cs).2 ∧
      ∀ c ∈ (variantChecks (B := B) n i cs).1,
        CheckOk ds k (variantChecks (B := B) n i cs).2 (.named nm args inf) c
  | [], n, i, _, _ => by simp [variantChecks]
  | fs :: cs, n, i, hk, h => by
    have ih := variantChecks_ok ds (k := k) (inf := inf) cs (n + fs.length) (i + 1) (by omega) (by
      intro j gs hj
      have := h (j + 1) gs (by simpa using hj)
      rwa [show i + (j + 1) = i + 1 + j by omega] at this)
    simp only [variantChecks, List.mem_cons]
    refine ⟨by omega, ?_⟩
    rintro c (rfl | hc)
    · exact (variantCheck_ok ds hk (by simpa using h 0 fs rfl)).mono ih.1
    · exact ih.2 c hc

theorem knownChecks_ok {ds : Decls} {n : Nat} {t : Ty} {r : List (Check B) × Nat}
    (h : knownChecks n (branchMode ds t) = some r) :
    n ≤ r.2 ∧ ∀ c ∈ r.1, CheckOk ds n r.2 t c := by
  cases t with
  | int | float | string | bitArray | fn | var i =>
    simp only [knownChecks, branchMode, Option.some.injEq] at h
    subst h; simp
  | list t =>
    simp only [knownChecks, branchMode, Option.some.injEq] at h
    subst h
    refine ⟨by simp [listCheck], ?_⟩
    intro c hc
    simp only [List.mem_cons, List.not_mem_nil, or_false] at hc
    rcases hc with rfl | rfl
    · exact emptyCheck_ok ds trivial rfl
    · exact listCheck_ok ds (Nat.le_refl n) t
  | tuple ts =>
    simp only [knownChecks, branchMode, Option.some.injEq] at h
    subst h
    refine ⟨by simp [tupleCheck], ?_⟩
    intro c hc
    simp only [List.mem_singleton] at hc
    subst hc
    exact tupleCheck_ok ds (Nat.le_refl n) ts
  | named nm args inf =>
    cases inf with
    | none =>
      simp only [knownChecks, branchMode, Option.some.injEq] at h
      subst h
      exact variantChecks_ok ds _ n 0 (Nat.le_refl n) (by intro j fs hj; simpa using hj)
    | some i =>
      simp only [knownChecks, branchMode, Option.map_eq_some_iff] at h
      obtain ⟨fs, hfs, rfl⟩ := h
      refine ⟨by simp [variantCheck], ?_⟩
      intro c hc
      simp only [List.mem_singleton] at hc
      subst hc
      exact variantCheck_ok ds (Nat.le_refl n) hfs

/-! ### Explicit variants -/

theorem matched_holds (c : Check B) (x : Val B.Bits) : c.matched.holds x = c.holds x := by
  cases c <;> cases x <;> rfl

theorem matched_binds (c : Check B) (x : Val B.Bits) : c.matched.binds x = c.binds x := by
  cases c <;> cases x <;> rfl

theorem matched_kind (c : Check B) : c.matched.kind = c.kind := by cases c <;> rfl

theorem matched_prefixText (c : Check B) : c.matched.prefixText = c.prefixText := by
  cases c <;> rfl

theorem matched_active (c : Check B) : c.matched.ignored = false := by cases c <;> rfl

theorem matched_ok {ds : Decls} {n m : Nat} {t : Ty} {c : Check B} (h : CheckOk ds n m t c) :
    CheckOk ds n m t c.matched := by
  obtain ⟨h1, h2, h3, h4⟩ := h
  refine ⟨?_, ?_, ?_, ?_⟩
  · cases c <;> cases t <;> simp_all [Check.matched, Check.hasTy]
  all_goals (cases c <;> simp_all [Check.matched, Check.vars])

/-! ### Joining choices -/

theorem prefixIs_iff {f : Lit → Bool} {c : Check B} :
    prefixIs f c = true ↔ ∃ s, c.prefixText = some s ∧ f s = true := by
  unfold prefixIs; cases c.prefixText <;> simp

theorem prefixText_iff {c : Check B} {s : Lit} :
    c.prefixText = some s ↔ ∃ r, c = .strPrefix s r := by
  cases c <;> simp [Check.prefixText]

/-- The choices a pattern joins are ones it can match after. -/
theorem overlapping_related {chs : List (Check B × List (Branch B))} {p : Pat B} {k : Kind}
    {ch : Check B × List (Branch B)} (hk : p.kind = some k)
    (h : (checkOverlaps chs k).overlapping ch = true) : Related p ch.1 := by
  obtain ⟨c, bs⟩ := ch
  cases p <;> simp only [Pat.kind, Option.some.injEq, reduceCtorEq] at hk <;> subst hk
  case str s =>
    simp only [checkOverlaps, strOverlapping, Bool.or_eq_true, beq_iff_eq, Option.any_eq_true] at h
    rcases h with h | ⟨a, -, h⟩
    · cases c <;> simp_all [Check.kind, Related, Pat.kind]
    · rw [prefixIs_iff] at h
      obtain ⟨s', hs, h⟩ := h
      obtain ⟨r, rfl⟩ := prefixText_iff.1 hs
      simp only [Bool.and_eq_true, isPrefixOf_eq] at h
      exact h.2
  case strPrefix s name rest =>
    simp only [checkOverlaps, prefixOverlaps] at h
    split at h
    · rw [prefixIs_iff] at h
      obtain ⟨s', hs, h⟩ := h
      obtain ⟨r, rfl⟩ := prefixText_iff.1 hs
      simp only [Bool.and_eq_true, Bool.or_eq_true, isPrefixOf_eq] at h
      exact h.2.imp id fun h => h.1
    · rw [prefixIs_iff] at h
      obtain ⟨s', hs, h⟩ := h
      obtain ⟨r, rfl⟩ := prefixText_iff.1 hs
      simp only [Bool.and_eq_true, isPrefixOf_eq] at h
      exact .inr h.1
  all_goals
    simp only [checkOverlaps, beq_iff_eq] at h
    cases c <;> simp_all [Check.kind, Related, Pat.kind]

/-- A choice before and after a branch has been added to the choices. -/
inductive JoinedTo (v : Var) (p : Pat B) (b : Branch B)
    (ov : Check B × List (Branch B) → Bool) :
    Check B × List (Branch B) → Check B × List (Branch B) → Prop
  | join {ch cs} : ov ch = true → newChecks v p ch.1 = some cs →
      JoinedTo v p b ov ch (ch.1.matched, ch.2 ++ [b.add cs])
  | keep {ch} : ov ch = false → JoinedTo v p b ov ch ch

theorem joinChoice_iff {v : Var} {p : Pat B} {b : Branch B}
    {ov : Check B × List (Branch B) → Bool} {ch ch' : Check B × List (Branch B)}
    (h : joinChoice v p b ov ch = some ch') : JoinedTo v p b ov ch ch' := by
  unfold joinChoice at h
  split at h
  · simp only [Option.map_eq_some_iff] at h
    obtain ⟨cs, hcs, rfl⟩ := h
    exact .join (by assumption) hcs
  · simp only [Option.some.injEq] at h
    subst h
    exact .keep (by simpa using ‹¬ ov ch = true›)

theorem joinChoices_forall {v : Var} {p : Pat B} {b : Branch B}
    {ov : Check B × List (Branch B) → Bool} : ∀ {chs chs' : List (Check B × List (Branch B))},
    joinChoices v p b ov chs = some chs' → List.Forall₂ (JoinedTo v p b ov) chs chs'
  | [], chs', h => by
    simp only [joinChoices, Option.some.injEq] at h
    subst h; exact .nil
  | ch :: chs, chs', h => by
    simp only [joinChoices, Option.bind_eq_some_iff, Option.some.injEq] at h
    obtain ⟨c, hc, r, hr, rfl⟩ := h
    exact .cons (joinChoice_iff hc) (joinChoices_forall hr)

theorem forall₂_mem_right {α β : Type} {R : α → β → Prop} : ∀ {l : List α} {m : List β},
    List.Forall₂ R l m → ∀ y ∈ m, ∃ x ∈ l, R x y
  | _, _, .nil, y, hy => by simp at hy
  | _, _, .cons h t, y, hy => by
    simp only [List.mem_cons] at hy
    rcases hy with rfl | hy
    · exact ⟨_, by simp, h⟩
    · obtain ⟨x, hx, hr⟩ := forall₂_mem_right t y hy
      exact ⟨x, by simp [hx], hr⟩

theorem forall₂_mem_left {α β : Type} {R : α → β → Prop} : ∀ {l : List α} {m : List β},
    List.Forall₂ R l m → ∀ x ∈ l, ∃ y ∈ m, R x y
  | _, _, .nil, y, hy => by simp at hy
  | _, _, .cons h t, y, hy => by
    simp only [List.mem_cons] at hy
    rcases hy with rfl | hy
    · exact ⟨_, by simp, h⟩
    · obtain ⟨x, hx, hr⟩ := forall₂_mem_left t y hy
      exact ⟨x, by simp [hx], hr⟩

/-! ### The invariant of the splitter -/

structure SpWf (ds : Decls) (n0 n : Nat) (env : Env B) (v : Var) (sp : Splitter B) : Prop where
  le : n0 ≤ n
  checks : ∀ ch ∈ sp.choices, CheckOk ds n0 n v.ty ch.1
  choice : ∀ ch ∈ sp.choices, ch.1.holds (env v) = true → ∀ b ∈ ch.2,
    BranchOk ds n (env.set (ch.1.binds (env v))) b
  fallback : ∀ b ∈ sp.fallback, BranchOk ds n0 env b

/-- The same alternative of the same clause. -/
structure Tag (b' b : Branch B) : Prop where
  clause : b'.clause = b.clause
  alt : b'.alt = b.alt
  guard : b'.guard = b.guard
  body : b'.body.clause = b.body.clause

theorem Tag.rfl' {b : Branch B} : Tag b b := ⟨rfl, rfl, rfl, rfl⟩

theorem Tag.trans {a b c : Branch B} (h1 : Tag a b) (h2 : Tag b c) : Tag a c :=
  ⟨h1.1.trans h2.1, h1.2.trans h2.2, h1.3.trans h2.3, h1.4.trans h2.4⟩

/-- Every branch of the lists comes from a branch that was split and that matches as well. -/
structure SpSound (env : Env B) (v : Var) (bs : List (Branch B)) (sp : Splitter B) : Prop where
  choice : ∀ ch ∈ sp.choices, ch.1.holds (env v) = true → ∀ b' ∈ ch.2, ∃ b ∈ bs, Tag b' b ∧
    ((b'.run (env.set (ch.1.binds (env v)))).isSome → (b.run env).isSome)
  fallback : ∀ b' ∈ sp.fallback, ∃ b ∈ bs, Tag b' b ∧ ((b'.run env).isSome → (b.run env).isSome)

theorem Branch.run_old {ds : Decls} {n : Nat} {env env' : Env B} {b : Branch B}
    (hb : BranchOk ds n env b) (he : ∀ w : Var, w.id < n → env' w = env w) :
    b.run env' = b.run env := by
  rw [Branch.run_eq, Branch.run_eq, runChecks_agree fun c hc => he _ (hb.below c hc)]
  congr 2
  exact values_agree hb.binds he

theorem SpWf.addFallback {ds : Decls} {n0 n : Nat} {env : Env B} {v : Var} {sp : Splitter B}
    {b : Branch B} (h : SpWf ds n0 n env v sp) (hb : BranchOk ds n0 env b) :
    SpWf ds n0 n env v (addFallback sp b) := by
  refine ⟨h.le, ?_, ?_, ?_⟩
  · intro ch hch
    simp only [Verif.Case.addFallback, List.mem_map] at hch
    obtain ⟨ch0, h0, rfl⟩ := hch
    exact h.checks ch0 h0
  · intro ch hch hh b' hb'
    simp only [Verif.Case.addFallback, List.mem_map] at hch
    obtain ⟨ch0, h0, rfl⟩ := hch
    simp only [List.mem_append, List.mem_singleton] at hb'
    rcases hb' with hb' | rfl
    · exact h.choice ch0 h0 hh b' hb'
    · exact hb.env h.le fun w hw => env_set_old (h.checks ch0 h0) env _ hw
  · intro b' hb'
    simp only [Verif.Case.addFallback, List.mem_append, List.mem_singleton] at hb'
    rcases hb' with hb' | rfl
    · exact h.fallback b' hb'
    · exact hb

theorem SpSound.mono {env : Env B} {v : Var} {bs bs' : List (Branch B)} {sp : Splitter B}
    (h : SpSound env v bs sp) (hs : ∀ b ∈ bs, b ∈ bs') : SpSound env v bs' sp := by
  refine ⟨?_, ?_⟩
  · intro ch hch hh b' hb'
    obtain ⟨b, hb, r⟩ := h.choice ch hch hh b' hb'
    exact ⟨b, hs b hb, r⟩
  · intro b' hb'
    obtain ⟨b, hb, r⟩ := h.fallback b' hb'
    exact ⟨b, hs b hb, r⟩

theorem SpSound.addFallback {ds : Decls} {n0 n : Nat} {env : Env B} {v : Var} {sp : Splitter B}
    {bs : List (Branch B)} {b : Branch B} (hw : SpWf ds n0 n env v sp) (h : SpSound env v bs sp)
    (hb : BranchOk ds n0 env b) : SpSound env v (bs ++ [b]) (addFallback sp b) := by
  refine ⟨?_, ?_⟩
  · intro ch hch hh b' hb'
    simp only [Verif.Case.addFallback, List.mem_map] at hch
    obtain ⟨ch0, h0, rfl⟩ := hch
    simp only [List.mem_append, List.mem_singleton] at hb'
    rcases hb' with hb' | rfl
    · obtain ⟨b0, hb0, r⟩ := h.choice ch0 h0 hh b' hb'
      exact ⟨b0, by simp [hb0], r⟩
    · refine ⟨b', by simp, Tag.rfl', fun hs => ?_⟩
      rwa [Branch.run_old hb fun w hw' => env_set_old (hw.checks ch0 h0) env _ hw'] at hs
  · intro b' hb'
    simp only [Verif.Case.addFallback, List.mem_append, List.mem_singleton] at hb'
    rcases hb' with hb' | rfl
    · obtain ⟨b0, hb0, r⟩ := h.fallback b' hb'
      exact ⟨b0, by simp [hb0], r⟩
    · exact ⟨b', by simp, Tag.rfl', id⟩

end Verif.Case
