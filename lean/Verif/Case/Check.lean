import Verif.Case.Sem

/-!
# What is left to check after a runtime check has succeeded

Lemmas: the checks that take the place of a pattern match the same values and bind the same
variables.
-/

namespace Verif.Case

variable {B : BitSys}

/-! ### Well formed branches -/

structure BranchOk (ds : Decls) (n : Nat) (env : Env B) (b : Branch B) : Prop where
  below : ∀ c ∈ b.checks, c.1.id < n
  pat : ∀ c ∈ b.checks, c.2.hasTy ds c.1.ty
  val : ∀ c ∈ b.checks, (env c.1).hasTy ds c.1.ty
  binds : BindsBelow n b.body.bindings

theorem BranchOk.mono {ds : Decls} {n m : Nat} {env : Env B} {b : Branch B}
    (h : BranchOk ds n env b) (hnm : n ≤ m) : BranchOk ds m env b :=
  ⟨fun c hc => Nat.lt_of_lt_of_le (h.below c hc) hnm, h.pat, h.val,
    fun p hp v hv => Nat.lt_of_lt_of_le (h.binds p hp v hv) hnm⟩

theorem BranchOk.env {ds : Decls} {n m : Nat} {env env' : Env B} {b : Branch B}
    (h : BranchOk ds n env b) (hnm : n ≤ m) (he : ∀ v : Var, v.id < n → env' v = env v) :
    BranchOk ds m env' b :=
  ⟨fun c hc => Nat.lt_of_lt_of_le (h.below c hc) hnm, h.pat,
    fun c hc => by rw [he _ (h.below c hc)]; exact h.val c hc,
    fun p hp v hv => Nat.lt_of_lt_of_le (h.binds p hp v hv) hnm⟩

theorem movePat_left_hasTy (ds : Decls) (taken : List Nat) (v : Var) (t : Ty) :
    ∀ (p q : Pat B), p.hasTy ds t → (movePat taken v p).left = some q → q.hasTy ds t
  | .var x, q, _, h => by simp [movePat] at h
  | .discard, q, _, h => by simp [movePat] at h
  | .assign x p, q, hp, h => movePat_left_hasTy ds taken v t p q (by simpa [Pat.hasTy] using hp) h
  | .strPrefix s none rest, q, hp, h => by
    simp only [movePat, Option.some.injEq] at h; exact h ▸ hp
  | .strPrefix s (some (c, x)) rest, q, hp, h => by
    have : q = .strPrefix s none rest := by
      simp only [movePat] at h
      split at h <;> simpa using h.symm
    subst this
    cases t <;> simp_all [Pat.hasTy]
  | .slice s name rest, q, _, h => by simp [movePat] at h
  | .bits cell ts, q, hp, h => by
    simp only [movePat] at h
    split at h
    · simp at h
    · simp only [Option.some.injEq] at h
      subst h
      cases t <;> simp_all [Pat.hasTy]
  | .int i, q, hp, h => by simp only [movePat, Option.some.injEq] at h; exact h ▸ hp
  | .float f, q, hp, h => by simp only [movePat, Option.some.injEq] at h; exact h ▸ hp
  | .str s, q, hp, h => by simp only [movePat, Option.some.injEq] at h; exact h ▸ hp
  | .tuple ps, q, hp, h => by simp only [movePat, Option.some.injEq] at h; exact h ▸ hp
  | .variant i ps, q, hp, h => by simp only [movePat, Option.some.injEq] at h; exact h ▸ hp
  | .nil, q, hp, h => by simp only [movePat, Option.some.injEq] at h; exact h ▸ hp
  | .cons a b, q, hp, h => by simp only [movePat, Option.some.injEq] at h; exact h ▸ hp

theorem stripTests_var (v : Var) : ∀ (ts : List (BTest B)), ∀ p ∈ (stripTests v ts).1, ∀ w,
    p.2.var? = some w → w = v
  | [], p, hp, w, _ => by simp [stripTests] at hp
  | .bind x r :: ts, p, hp, w, h => by
    simp only [stripTests, List.mem_cons] at hp
    rcases hp with rfl | hp
    · simpa [Bound.var?] using h.symm
    · exact stripTests_var v ts p hp w h
  | .discard :: ts, p, hp, w, h => stripTests_var v ts p hp w h
  | .check (some (x, c)) t :: ts, p, hp, w, h => by
    simp only [stripTests, List.mem_singleton] at hp
    subst hp; simp [Bound.var?] at h
  | .check none t :: ts, p, hp, w, _ => by simp [stripTests] at hp

theorem movePat_binds_var (taken : List Nat) (v : Var) : ∀ (p : Pat B),
    ∀ e ∈ (movePat taken v p).binds, ∀ w, e.2.var? = some w → w = v
  | .var x, e, he, w, h => by
    simp only [movePat, List.mem_singleton] at he
    subst he; simpa [Bound.var?] using h.symm
  | .discard, e, he, w, _ => by simp [movePat] at he
  | .assign x p, e, he, w, h => by
    simp only [movePat, List.mem_cons] at he
    rcases he with rfl | he
    · simpa [Bound.var?] using h.symm
    · exact movePat_binds_var taken v p e he w h
  | .strPrefix s none rest, e, he, w, _ => by simp [movePat] at he
  | .strPrefix s (some (c, x)) rest, e, he, w, h => by
    simp only [movePat] at he
    split at he
    · simp at he
    · simp only [List.mem_singleton] at he
      subst he; simp [Bound.var?] at h
  | .slice s name rest, e, he, w, h => by
    simp only [movePat, sliceBindings, List.mem_append, Option.mem_toList, Option.mem_def,
      Option.map_eq_some_iff] at he
    rcases he with ⟨y, -, rfl⟩ | ⟨y, -, rfl⟩
    · simp [Bound.var?] at h
    · simpa [Bound.var?] using h.symm
  | .bits cell ts, e, he, w, h => by
    simp only [movePat] at he
    split at he
    · simp at he
    · exact stripTests_var v ts e he w h
  | .int i, e, he, w, _ => by simp [movePat] at he
  | .float f, e, he, w, _ => by simp [movePat] at he
  | .str s, e, he, w, _ => by simp [movePat] at he
  | .tuple ps, e, he, w, _ => by simp [movePat] at he
  | .variant i ps, e, he, w, _ => by simp [movePat] at he
  | .nil, e, he, w, _ => by simp [movePat] at he
  | .cons a b, e, he, w, _ => by simp [movePat] at he

theorem moveChecks_mem : ∀ (cs : List (PCheck B)) (taken : List Nat) (c : PCheck B),
    c ∈ (moveChecks taken cs).1 → ∃ p t, (c.1, p) ∈ cs ∧ (movePat t c.1 p).left = some c.2
  | [], taken, c, h => by simp [moveChecks] at h
  | (v, p) :: cs, taken, c, h => by
    simp only [moveChecks, List.mem_append, Option.mem_toList, Option.mem_def,
      Option.map_eq_some_iff] at h
    rcases h with ⟨q, hq, rfl⟩ | h
    · exact ⟨p, taken, by simp, hq⟩
    · obtain ⟨p', t, hm, hl⟩ := moveChecks_mem cs _ c h
      exact ⟨p', t, by simp [hm], hl⟩

theorem moveChecks_binds_var : ∀ (cs : List (PCheck B)) (taken : List Nat),
    ∀ e ∈ (moveChecks taken cs).2.1, ∀ w, e.2.var? = some w → ∃ c ∈ cs, c.1 = w
  | [], taken, e, h, _, _ => by simp [moveChecks] at h
  | (v, p) :: cs, taken, e, h, w, hw => by
    simp only [moveChecks, List.mem_append] at h
    rcases h with h | h
    · exact ⟨(v, p), by simp, (movePat_binds_var taken v p e h w hw).symm⟩
    · obtain ⟨c, hc, he⟩ := moveChecks_binds_var cs _ e h w hw
      exact ⟨c, by simp [hc], he⟩

theorem moveBranch_ok {ds : Decls} {n : Nat} {env : Env B} {b : Branch B} (taken : List Nat)
    (h : BranchOk ds n env b) : BranchOk ds n env (moveBranch taken b).1 := by
  refine ⟨?_, ?_, ?_, ?_⟩
  · intro c hc
    obtain ⟨p, t, hm, -⟩ := moveChecks_mem _ _ _ hc
    exact h.below (c.1, p) hm
  · intro c hc
    obtain ⟨p, t, hm, hl⟩ := moveChecks_mem _ _ _ hc
    exact movePat_left_hasTy ds t c.1 _ p _ (h.pat _ hm) hl
  · intro c hc
    obtain ⟨p, t, hm, -⟩ := moveChecks_mem _ _ _ hc
    exact h.val (c.1, p) hm
  · intro e he w hw
    simp only [moveBranch, List.mem_append] at he
    rcases he with he | he
    · exact h.binds e he w hw
    · obtain ⟨c, hc, rfl⟩ := moveChecks_binds_var _ _ e he w hw
      exact h.below c hc

theorem moveAll_mem : ∀ (bs : List (Branch B)) (taken : List Nat) (b' : Branch B),
    b' ∈ (moveAll taken bs).1 → ∃ b ∈ bs, ∃ t, b' = (moveBranch t b).1
  | [], _, b', h => by simp [moveAll] at h
  | b :: bs, taken, b', h => by
    simp only [moveAll, List.mem_cons] at h
    rcases h with rfl | h
    · exact ⟨b, by simp, taken, rfl⟩
    · obtain ⟨b0, hb, t, e⟩ := moveAll_mem bs _ b' h
      exact ⟨b0, by simp [hb], t, e⟩

/-! ### Stuck patterns -/

/-- A pattern that stays a check. -/
def Pat.stuck : Pat B → Prop
  | .discard => False
  | .var _ => False
  | .assign _ _ => False
  | .slice _ _ _ => False
  | .strPrefix _ name _ => name = none
  | .bits _ ts => ∃ t ts', ts = .check none t :: ts'
  | _ => True

theorem stripTests_stuck (v : Var) : ∀ ts : List (BTest B),
    (stripTests v ts).2 = [] ∨ ∃ t ts', (stripTests v ts).2 = .check none t :: ts'
  | [] => .inl rfl
  | .bind x r :: ts => stripTests_stuck v ts
  | .discard :: ts => stripTests_stuck v ts
  | .check (some (x, c)) t :: ts => .inr ⟨_, _, rfl⟩
  | .check none t :: ts => .inr ⟨_, _, rfl⟩

theorem movePat_stuck (taken : List Nat) (v : Var) : ∀ (p q : Pat B),
    (movePat taken v p).left = some q → q.stuck
  | .var x, q, h => by simp [movePat] at h
  | .discard, q, h => by simp [movePat] at h
  | .assign x p, q, h => movePat_stuck taken v p q h
  | .strPrefix s none rest, q, h => by
    simp only [movePat, Option.some.injEq] at h; subst h; rfl
  | .strPrefix s (some (c, x)) rest, q, h => by
    simp only [movePat] at h
    split at h <;> (simp only [Option.some.injEq] at h; subst h; rfl)
  | .slice s name rest, q, h => by simp [movePat] at h
  | .bits cell ts, q, h => by
    simp only [movePat] at h
    split at h
    · simp at h
    · rename_i hne
      simp only [Option.some.injEq] at h
      subst h
      rcases stripTests_stuck v ts with h | h
      · exact absurd (by rw [h]; rfl) hne
      · exact h
  | .int i, q, h => by simp only [movePat, Option.some.injEq] at h; subst h; trivial
  | .float f, q, h => by simp only [movePat, Option.some.injEq] at h; subst h; trivial
  | .str s, q, h => by simp only [movePat, Option.some.injEq] at h; subst h; trivial
  | .tuple ps, q, h => by simp only [movePat, Option.some.injEq] at h; subst h; trivial
  | .variant i ps, q, h => by simp only [movePat, Option.some.injEq] at h; subst h; trivial
  | .nil, q, h => by simp only [movePat, Option.some.injEq] at h; subst h; trivial
  | .cons a b, q, h => by simp only [movePat, Option.some.injEq] at h; subst h; trivial

def Branch.stuck (b : Branch B) : Prop := ∀ c ∈ b.checks, c.2.stuck

theorem moveBranch_stuck (taken : List Nat) (b : Branch B) : (moveBranch taken b).1.stuck := by
  intro c hc
  obtain ⟨p, t, -, hl⟩ := moveChecks_mem _ _ _ hc
  exact movePat_stuck t _ p _ hl

/-! ### Checks -/

def Check.vars : Check B → List Var
  | .strPrefix _ rest => [rest]
  | .tuple vs => vs
  | .variant _ _ vs => vs
  | .cons first rest => [first, rest]
  | _ => []

def Check.hasTy (ds : Decls) : Check B → Ty → Prop
  | .int _, .int => True
  | .float _, .float => True
  | .str _, .string => True
  | .strPrefix _ rest, .string => rest.ty = .string
  | .tuple vs, .tuple ts => vs.map Var.ty = ts
  | .bits _, .bitArray => True
  | .variant _ i vs, .named n args _ => (constructors ds n args)[i]? = some (vs.map Var.ty)
  | .nil, .list _ => True
  | .cons first rest, .list e => first.ty = e ∧ rest.ty = .list e
  | _, _ => False

/-- A check on a variable of type `t` whose new variables are numbered from `n` up to `m`. -/
structure CheckOk (ds : Decls) (n m : Nat) (t : Ty) (c : Check B) : Prop where
  ty : c.hasTy ds t
  nodup : c.vars.Nodup
  lower : ∀ v ∈ c.vars, n ≤ v.id
  upper : ∀ v ∈ c.vars, v.id < m

theorem CheckOk.mono {ds : Decls} {n m k : Nat} {t : Ty} {c : Check B}
    (h : CheckOk ds n m t c) (hk : m ≤ k) : CheckOk ds n k t c :=
  ⟨h.ty, h.nodup, h.lower, fun v hv => Nat.lt_of_lt_of_le (h.upper v hv) hk⟩

theorem binds_vars (c : Check B) (x : Val B.Bits) : ∀ e ∈ c.binds x, e.1 ∈ c.vars := by
  intro e he
  unfold Check.binds at he
  split at he
  · simp only [List.mem_singleton] at he; simp [he, Check.vars]
  · exact (List.of_mem_zip he).1
  · exact (List.of_mem_zip he).1
  · simp only [List.mem_cons, List.not_mem_nil, or_false] at he
    rcases he with rfl | rfl <;> simp [Check.vars]
  · simp at he

theorem env_set_old {ds : Decls} {n m : Nat} {t : Ty} {c : Check B} (h : CheckOk ds n m t c)
    (env : Env B) (x : Val B.Bits) {v : Var} (hv : v.id < n) :
    env.set (c.binds x) v = env v := by
  apply Env.set_of_not_mem
  rintro e he rfl
  exact absurd (h.lower _ (binds_vars c x e he)) (by omega)

theorem lookup_zip {α β : Type} [DecidableEq α] : ∀ {as : List α} {bs : List β} {i : Nat} {a : α}
    {b : β}, as.Nodup → as[i]? = some a → bs[i]? = some b → (as.zip bs).lookup a = some b
  | [], _, _, _, _, _, h, _ => by simp at h
  | _ :: _, [], _, _, _, _, _, h => by simp at h
  | a0 :: as, b0 :: bs, 0, a, b, _, h, h' => by simp_all
  | a0 :: as, b0 :: bs, i + 1, a, b, hn, h, h' => by
    simp only [List.getElem?_cons_succ] at h h'
    have hn := List.nodup_cons.1 hn
    have hne : a ≠ a0 := by
      rintro rfl
      exact hn.1 (List.mem_of_getElem? h)
    rw [List.zip_cons_cons, List.lookup_cons]
    have : (a == a0) = false := by simpa using hne
    rw [this]
    exact lookup_zip hn.2 h h'

theorem runChecks_zip_aux (env : Env B) : ∀ (vs : List Var) (ps : List (Pat B))
    (xs : List (Val B.Bits)), vs.length = ps.length → vs.length = xs.length →
    (∀ (i : Nat) v x, vs[i]? = some v → xs[i]? = some x → env v = x) →
    runChecks env (vs.zip ps) = Pat.runs ps xs
  | [], ps, xs, hp, hx, _ => by
    have : ps = [] := List.length_eq_zero_iff.1 hp.symm
    have : xs = [] := List.length_eq_zero_iff.1 hx.symm
    subst_vars; rfl
  | v :: vs, [], xs, hp, _, _ => by simp at hp
  | v :: vs, p :: ps, [], _, hx, _ => by simp at hx
  | v :: vs, p :: ps, x :: xs, hp, hx, h => by
    rw [List.zip_cons_cons, runChecks_cons]
    have hv : env v = x := h 0 v x rfl rfl
    rw [runChecks_zip_aux env vs ps xs (by simpa using hp) (by simpa using hx)
      fun i w y hw hy => h (i + 1) w y hw hy]
    simp only [hv, Pat.runs]
    rfl

theorem runChecks_zip (env : Env B) {vs : List Var} {ps : List (Pat B)} {xs : List (Val B.Bits)}
    (hn : vs.Nodup) (hp : vs.length = ps.length) (hx : vs.length = xs.length) :
    runChecks (env.set (vs.zip xs)) (vs.zip ps) = Pat.runs ps xs := by
  apply runChecks_zip_aux _ _ _ _ hp hx
  intro i v x hv hx'
  unfold Env.set
  rw [lookup_zip hn hv hx']; rfl

theorem Pat.haveTys_length {ds : Decls} : ∀ {ps : List (Pat B)} {ts : List Ty},
    Pat.haveTys ds ps ts → ps.length = ts.length
  | [], [], _ => rfl
  | p :: ps, t :: ts, h => by
    simp only [Pat.haveTys] at h
    simp [Pat.haveTys_length h.2]
  | [], _ :: _, h => by simp [Pat.haveTys] at h
  | _ :: _, [], h => by simp [Pat.haveTys] at h

theorem Val.haveTys_length {β : Type} {ds : Decls} : ∀ {vs : List (Val β)} {ts : List Ty},
    Val.haveTys ds vs ts → vs.length = ts.length
  | [], [], _ => rfl
  | p :: ps, t :: ts, h => by
    simp only [Val.haveTys] at h
    simp [Val.haveTys_length h.2]
  | [], _ :: _, h => by simp [Val.haveTys] at h
  | _ :: _, [], h => by simp [Val.haveTys] at h

/-- A pattern that belongs where a check has succeeded. -/
def Related : Pat B → Check B → Prop
  | .str s, .strPrefix s0 _ => s0 <+: s
  | .strPrefix s _ _, .strPrefix s0 _ => s0 <+: s ∨ s <+: s0
  | .bits _ _, _ => False
  | p, c => p.kind = c.kind ∧ p.kind ≠ none

theorem decode_append (s t : Lit) : Lit.decode (s ++ t) = Lit.decode s ++ Lit.decode t := by
  simp [Lit.decode]

theorem decode_prefix {s t : Lit} (h : s <+: t) : Lit.decode s <+: Lit.decode t := by
  obtain ⟨u, rfl⟩ := h
  exact ⟨Lit.decode u, (decode_append s u).symm⟩

theorem restPat_run (rest : Option Name) (v : Val B.Bits) :
    (restPat (B := B) rest).run v = some (nameBinds rest v) := by
  cases rest <;> rfl

theorem isPrefixOf_eq {s t : Lit} : s.isPrefixOf t = true ↔ s <+: t := List.isPrefixOf_iff_prefix

theorem prefix_drop {s t : Lit} (h : s <+: t) : t = s ++ t.drop s.length := by
  obtain ⟨u, rfl⟩ := h
  simp

theorem append_prefix_iff {α : Type} {a b x : List α} (h : a <+: x) :
    a ++ b <+: x ↔ b <+: x.drop a.length := by
  obtain ⟨y, rfl⟩ := h
  simp [List.prefix_append_right_inj]

/-- The new checks match the same and bind the same as the pattern. -/
theorem newChecks_run {ds : Decls} {n m : Nat} {env : Env B} {v : Var} {p : Pat B} {c : Check B}
    {cs : List (PCheck B)} (hc : CheckOk ds n m v.ty c) (hv : v.id < n)
    (hp : p.hasTy ds v.ty) (hst : p.stuck) (hx : (env v).hasTy ds v.ty)
    (hh : c.holds (env v) = true) (hr : Related p c) (hn : newChecks v p c = some cs) :
    runChecks (env.set (c.binds (env v))) cs = p.run (env v) := by
  have hold := env_set_old hc env (env v) hv
  have hty := hc.ty
  have hnd := hc.nodup
  cases p with
  | discard => exact hst.elim
  | var x => exact hst.elim
  | assign x p => exact hst.elim
  | slice s a b => exact hst.elim
  | bits cell ts => exact hr.elim
  | int i =>
    cases c <;> simp [Related, Pat.kind, Check.kind] at hr
    simp only [newChecks, Option.some.injEq] at hn
    subst hn hr
    generalize env v = x at *
    cases x <;> simp [Check.holds] at hh
    simp [Pat.run, hh, runChecks]
  | float i =>
    cases c <;> simp [Related, Pat.kind, Check.kind] at hr
    simp only [newChecks, Option.some.injEq] at hn
    subst hn hr
    generalize env v = x at *
    cases x <;> simp [Check.holds] at hh
    simp [Pat.run, hh, runChecks]
  | nil =>
    cases c <;> simp [Related, Pat.kind, Check.kind] at hr
    simp only [newChecks, Option.some.injEq] at hn
    subst hn
    generalize env v = x at *
    cases x <;> simp [Check.holds] at hh
    simp [Pat.run, runChecks]
  | str s =>
    cases c with
    | str s0 =>
      simp [Related, Pat.kind, Check.kind] at hr
      simp only [newChecks, Option.some.injEq] at hn
      subst hn hr
      generalize env v = x at *
      cases x <;> simp [Check.holds] at hh
      simp [Pat.run, hh, runChecks]
    | strPrefix s0 rest =>
      have hr : s0 <+: s := hr
      have hsplit := prefix_drop hr
      simp only [newChecks, if_pos (isPrefixOf_eq.2 hr), Option.some.injEq] at hn
      subst hn
      generalize hxe : env v = x at *
      cases x <;> simp [Check.holds] at hh
      rename_i x
      simp only [runChecks_cons, runChecks, seq2_nil', Check.binds]
      have : env.set [(rest, Val.str (x.drop (Lit.decode s0).length))] rest =
          Val.str (x.drop (Lit.decode s0).length) := by simp [Env.set, List.lookup]
      rw [this]
      simp only [Pat.run]
      obtain ⟨y, rfl⟩ := hh
      have hdec : Lit.decode s = Lit.decode s0 ++ Lit.decode (s.drop s0.length) := by
        conv_lhs => rw [hsplit]
        exact decode_append _ _
      rw [hdec]
      simp
    | int _ | float _ | tuple _ | bits _ | variant _ _ _ | nil | cons _ _ =>
      simp [Related, Pat.kind, Check.kind] at hr
  | strPrefix s name rest1 =>
    have hname : name = none := hst
    subst hname
    cases c with
    | strPrefix s0 rest0 =>
      generalize hxe : env v = x at *
      cases x <;> simp [Check.holds] at hh
      rename_i x
      simp only [Check.binds] at hold ⊢
      have hset : env.set [(rest0, Val.str (x.drop (Lit.decode s0).length))] rest0 =
          Val.str (x.drop (Lit.decode s0).length) := by simp [Env.set, List.lookup]
      simp only [newChecks, Option.some.injEq, newPrefixChecks] at hn
      by_cases hpre : s0 <+: s
      · rw [if_pos (isPrefixOf_eq.2 hpre)] at hn
        have hsplit := prefix_drop hpre
        have hdec : Lit.decode s = Lit.decode s0 ++ Lit.decode (s.drop s0.length) := by
          conv_lhs => rw [hsplit]
          exact decode_append _ _
        split at hn
        · rename_i he
          subst hn
          rw [List.isEmpty_iff.1 he] at hdec
          have hdec : Lit.decode s = Lit.decode s0 := by simpa [Lit.decode] using hdec
          simp only [runChecks_cons, runChecks, seq2_nil', hset, restPat_run, Pat.run, hdec,
            if_pos hh]
          simp [nameBinds]
        · subst hn
          simp only [runChecks_cons, runChecks, seq2_nil', hset, Pat.run]
          rw [hdec]
          obtain ⟨y, rfl⟩ := hh
          have hd : ∀ k, (Lit.decode s0 ++ y).drop ((Lit.decode s0).length + k) = y.drop k := by
            intro k
            rw [← List.drop_drop, List.drop_left]
          simp [List.prefix_append_right_inj, nameBinds, hd]
      · rw [if_neg (fun h => hpre (isPrefixOf_eq.1 h))] at hn
        have hsp : s <+: s0 := hr.resolve_left hpre
        have hsx : Lit.decode s <+: x := (decode_prefix hsp).trans hh
        cases rest1 with
        | none =>
          simp at hn
          subst hn
          simp [runChecks, Pat.run, hsx, nameBinds]
        | some y =>
          simp at hn
          subst hn
          simp only [runChecks_cons, runChecks, seq2_nil', hold, hxe, Pat.run, if_pos hsx]
          simp [nameBinds, dropPrefix]
    | int _ | float _ | str _ | tuple _ | bits _ | variant _ _ _ | nil | cons _ _ =>
      simp [Related, Pat.kind, Check.kind] at hr
  | tuple ps =>
    cases c with
    | tuple vs =>
      simp only [newChecks, Option.some.injEq] at hn
      subst hn
      simp only [Related, Pat.kind, Check.kind, Option.some.injEq, Kind.tuple.injEq] at hr
      generalize env v = x at *
      cases x <;> simp [Check.holds] at hh
      simp only [Check.binds, Pat.run]
      exact runChecks_zip env hnd hr.1.symm hh
    | int _ | float _ | str _ | strPrefix _ _ | bits _ | variant _ _ _ | nil | cons _ _ =>
      simp [Related, Pat.kind, Check.kind] at hr
  | variant i ps =>
    cases c with
    | variant e j vs =>
      simp only [newChecks, Option.some.injEq] at hn
      subst hn
      simp only [Related, Pat.kind, Check.kind, Option.some.injEq, Kind.variant.injEq] at hr
      obtain ⟨rfl, -⟩ := hr
      generalize hvt : v.ty = t at *
      cases t <;> simp only [Check.hasTy] at hty
      simp only [Pat.hasTy] at hp
      obtain ⟨fs, hfs, hps⟩ := hp
      rw [hty] at hfs
      simp only [Option.some.injEq] at hfs
      generalize env v = x at *
      cases x <;> simp [Check.holds] at hh
      subst hh
      simp only [Val.hasTy] at hx
      have hx : _ := hx.resolve_left (by rintro h; simp [h] at hty)
      obtain ⟨-, gs, hgs, hvs⟩ := hx
      rw [hty] at hgs
      simp only [Option.some.injEq] at hgs
      simp only [Check.binds, Pat.run, if_true]
      have h1 := Pat.haveTys_length hps
      have h2 := Val.haveTys_length hvs
      rw [← hfs] at h1
      rw [← hgs] at h2
      exact runChecks_zip env hnd (by simpa using h1.symm) (by simpa using h2.symm)
    | int _ | float _ | str _ | strPrefix _ _ | bits _ | tuple _ | nil | cons _ _ =>
      simp [Related, Pat.kind, Check.kind] at hr
  | cons h t =>
    cases c with
    | cons first rest =>
      simp only [newChecks, Option.some.injEq] at hn
      subst hn
      generalize env v = x at *
      cases x <;> simp [Check.holds] at hh
      rename_i a b
      have hne : rest ≠ first := by
        simp only [Check.vars] at hnd
        simp at hnd
        exact fun e => hnd e.symm
      have h1 : env.set [(first, a), (rest, b)] first = a := by simp [Env.set, List.lookup]
      have h2 : env.set [(first, a), (rest, b)] rest = b := by
        have : (rest == first) = false := by simpa using hne
        simp [Env.set, List.lookup, this]
      simp only [Check.binds, runChecks_cons, h1, h2, Pat.run]
      rw [show runChecks _ [] = some [] from rfl, seq2_nil']
      rfl
    | int _ | float _ | str _ | strPrefix _ _ | bits _ | tuple _ | nil | variant _ _ _ =>
      simp [Related, Pat.kind, Check.kind] at hr

end Verif.Case
