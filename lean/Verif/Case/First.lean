import Verif.Case.Tidy

/-!
# The first branch that matches

Lemmas: splitting tidy branches keeps which branch is the first one that matches.
-/

namespace Verif.Case

variable {B : BitSys}

abbrev Outcome (B : BitSys) := Option (Nat × (Name → Option (Val B.Bits)))

/-- What a branch does when its checks have been matched. -/
def outcome (guards : Guards B) (clause : Nat) (guard : Option Bool) (o : Option (Bindings B)) :
    Outcome B :=
  o.bind fun l => if guard.isNone || guards clause (fun x => l.lookup x)
    then some (clause, fun x => l.lookup x) else none

/-- The first branch that matches and whose guard holds. -/
def pick (guards : Guards B) (env : Env B) (bs : List (Branch B)) : Outcome B :=
  bs.findSome? fun b => outcome guards b.clause b.guard (b.run env)

theorem pick_nil (guards : Guards B) (env : Env B) : pick guards env [] = none := rfl

theorem pick_append (guards : Guards B) (env : Env B) (l m : List (Branch B)) :
    pick guards env (l ++ m) = (pick guards env l).or (pick guards env m) := by
  simp [pick, List.findSome?_append]

theorem pick_one (guards : Guards B) (env : Env B) (b : Branch B) :
    pick guards env [b] = outcome guards b.clause b.guard (b.run env) := by
  simp [pick, List.findSome?_cons]
  split <;> simp_all

theorem lookup_of_mem {α β : Type} [DecidableEq α] : ∀ {l : List (α × β)} {a : α} {b : β},
    (l.map Prod.fst).Nodup → (a, b) ∈ l → l.lookup a = some b
  | [], _, _, _, h => by simp at h
  | (a', b') :: l, a, b, hn, h => by
    simp only [List.map_cons, List.nodup_cons] at hn
    simp only [List.mem_cons, Prod.mk.injEq] at h
    rw [List.lookup_cons]
    rcases h with ⟨rfl, rfl⟩ | h
    · simp
    · have : (a == a') = false := by
        rw [beq_eq_false_iff_ne]
        rintro rfl
        exact hn.1 (List.mem_map.2 ⟨_, h, rfl⟩)
      rw [this]
      exact lookup_of_mem hn.2 h

theorem lookup_perm {α β : Type} [DecidableEq α] {l m : List (α × β)} (h : l.Perm m)
    (hn : (l.map Prod.fst).Nodup) (a : α) : l.lookup a = m.lookup a := by
  have hm : (m.map Prod.fst).Nodup := (h.map Prod.fst).nodup_iff.1 hn
  cases hl : m.lookup a with
  | some b =>
    have : (a, b) ∈ m := by
      clear hn hm h
      induction m with
      | nil => simp at hl
      | cons e m ih =>
        obtain ⟨a', b'⟩ := e
        rw [List.lookup_cons] at hl
        split at hl
        · rename_i he
          simp only [beq_iff_eq] at he
          simp only [Option.some.injEq] at hl
          simp [he, hl]
        · simp [ih hl]
    exact lookup_of_mem hn (h.mem_iff.2 this)
  | none =>
    rw [List.lookup_eq_none_iff] at hl ⊢
    exact fun p hp => hl p (h.mem_iff.1 hp)

/-- A branch binds every name once. -/
def NodupRun (env : Env B) (b : Branch B) : Prop :=
  ∀ l, b.run env = some l → (l.map Prod.fst).Nodup

theorem NodupRun.same {env env' : Env B} {b b' : Branch B} (h : NodupRun env b)
    (hs : Same (b'.run env') (b.run env)) : NodupRun env' b' := by
  intro l hl
  rw [hl] at hs
  cases hb : b.run env with
  | none => rw [hb] at hs; cases hs
  | some m =>
    rw [hb] at hs
    cases hs with
    | some hp => exact (hp.map Prod.fst).nodup_iff.2 (h m hb)

theorem outcome_same (guards : Guards B) {env env' : Env B} {b b' : Branch B} (ht : Tag b' b)
    (hs : Same (b'.run env') (b.run env)) (hn : NodupRun env b) :
    outcome guards b'.clause b'.guard (b'.run env') = outcome guards b.clause b.guard (b.run env) := by
  rw [ht.clause, ht.guard]
  cases hb : b.run env with
  | none => rw [hb] at hs; generalize b'.run env' = o at hs; cases hs; rfl
  | some m =>
    have hn := hn m hb
    rw [hb] at hs
    generalize b'.run env' = o at hs
    cases hs with
    | some hp =>
      rename_i l
      have : (fun x => l.lookup x) = fun x => m.lookup x := by
        funext x
        exact (lookup_perm hp.symm hn x).symm
      simp only [outcome, Option.bind_some, this]

theorem pick_congr (guards : Guards B) {env env' : Env B} {l : List (Branch B)}
    (h : ∀ b ∈ l, b.run env' = b.run env) : pick guards env' l = pick guards env l := by
  induction l with
  | nil => rfl
  | cons b l ih =>
    have h1 : b :: l = [b] ++ l := rfl
    rw [h1, pick_append, pick_append, pick_one, pick_one, h b (by simp),
      ih fun b hb => h b (by simp [hb])]

theorem pick_isSome (guards : Guards B) {env : Env B} {l : List (Branch B)} {b : Branch B}
    (hb : b ∈ l) (hg : b.guard = none) (hr : (b.run env).isSome = true) :
    (pick guards env l).isSome = true := by
  obtain ⟨pre, suf, rfl⟩ := List.append_of_mem hb
  have : b :: suf = [b] ++ suf := rfl
  rw [this, pick_append, pick_append, pick_one, hg]
  obtain ⟨m, hm⟩ := Option.isSome_iff_exists.1 hr
  rw [hm]
  simp [outcome]

/-! ### The invariant of the splitter -/

/-- Where the branches of the lists come from. -/
structure SpDer (R : Branch B → Branch B → Prop) (v : Var) (seen : List (Branch B)) (sp : Splitter B) : Prop where
  choice : ∀ ch ∈ sp.choices, ∀ b' ∈ ch.2, ∃ b ∈ seen, Der v ch.1 b b'
  pairs : ∀ ch ∈ sp.choices, ch.2.Pairwise R
  fallback : ∀ b' ∈ sp.fallback, ∃ b ∈ seen, ∀ c, Der v c b b'
  fpairs : sp.fallback.Pairwise R

/-- The first branch that matches is the first one of the list a value leads to. -/
structure SpExact (guards : Guards B) (env : Env B) (v : Var) (seen : List (Branch B))
    (sp : Splitter B) : Prop where
  fallback : (∀ e ∈ sp.choices, e.1.ignored = false → e.1.holds (env v) = false) →
    pick guards env sp.fallback = pick guards env seen
  choice : ∀ pre c l suf, sp.choices = pre ++ (c, l) :: suf → c.holds (env v) = true →
    (∀ e ∈ pre, e.1.ignored = false → e.1.holds (env v) = false) →
    pick guards (env.set (c.binds (env v))) l = pick guards env seen
  str : ∀ ch ∈ sp.choices, ∀ t, ch.1 = .str t → ∃ e ∈ seen, (v, Pat.str t) ∈ e.checks
  pre : ∀ ch ∈ sp.choices, ∀ t r, ch.1 = .strPrefix t r → ∃ e ∈ seen, ∃ rest,
    (v, Pat.strPrefix t none rest) ∈ e.checks ∧ (e.guard = some true → hasGuard ch.2 = true)
  order : sp.choices.Pairwise fun a b =>
    ∀ s t, a.1.prefixText = some s → b.1.prefixText = some t → ¬ s <+: t
  cnodup : ∀ ch ∈ sp.choices, ch.1.holds (env v) = true →
    ∀ b ∈ ch.2, NodupRun (env.set (ch.1.binds (env v))) b
  fnodup : ∀ b ∈ sp.fallback, NodupRun env b

theorem hasGuard_append {l m : List (Branch B)} (h : hasGuard l = true) :
    hasGuard (l ++ m) = true := by
  simp only [hasGuard, List.any_append, Bool.or_eq_true] at *
  exact .inl h

theorem forall₂_split {α β : Type} {R : α → β → Prop} : ∀ {l : List α} {pre suf : List β} {y : β},
    List.Forall₂ R l (pre ++ y :: suf) → ∃ pre' x suf', l = pre' ++ x :: suf' ∧
      List.Forall₂ R pre' pre ∧ R x y ∧ List.Forall₂ R suf' suf
  | _, [], suf, y, h => by
    cases h with
    | cons h t => exact ⟨[], _, _, rfl, .nil, h, t⟩
  | _, b :: pre, suf, y, h => by
    cases h with
    | cons h t =>
      obtain ⟨pre', x, suf', rfl, h1, h2, h3⟩ := forall₂_split t
      exact ⟨_ :: pre', x, suf', rfl, .cons h h1, h2, h3⟩

theorem split_snoc {α : Type} {l pre suf : List α} {a b : α} (h : l ++ [a] = pre ++ b :: suf) :
    (∃ suf', suf = suf' ++ [a] ∧ l = pre ++ b :: suf') ∨ (suf = [] ∧ b = a ∧ l = pre) := by
  rcases List.eq_nil_or_concat suf with rfl | ⟨suf', c, rfl⟩
  · right
    have := List.append_inj' (t₁ := [a]) (t₂ := [b]) (by simpa using h) rfl
    simp_all
  · left
    have h' : l ++ [a] = (pre ++ b :: suf') ++ [c] := by simpa using h
    have := List.append_inj' h' rfl
    simp only [List.cons.injEq, and_true] at this
    exact ⟨suf', by simp [this.2], this.1⟩

/-! ### Adding a branch without a check on the pivot -/

section
variable {ds : Decls} {n0 n : Nat} {guards : Guards B} {env : Env B} {v : Var}
  {seen : List (Branch B)} {sp : Splitter B} {R : Branch B → Branch B → Prop}

theorem SpExact.addFallback {b : Branch B} (hw : SpWf ds n0 n env v sp)
    (h : SpExact guards env v seen sp) (hb : BranchOk ds n0 env b) (hnd : NodupRun env b) :
    SpExact guards env v (seen ++ [b]) (addFallback sp b) := by
  have hact : ∀ {l : List (Check B × List (Branch B))},
      (∀ e ∈ l.map (fun ch => (ch.1, ch.2 ++ [b])), e.1.ignored = false →
        e.1.holds (env v) = false) → ∀ e ∈ l, e.1.ignored = false → e.1.holds (env v) = false := by
    intro l hl e he
    exact hl (e.1, e.2 ++ [b]) (List.mem_map.2 ⟨e, he, rfl⟩)
  refine ⟨?_, ?_, ?_, ?_, ?_, ?_, ?_⟩
  · intro hn
    simp only [Verif.Case.addFallback] at hn ⊢
    rw [pick_append, pick_append, h.fallback (hact hn)]
  · intro pre c l suf hsp hh hpre
    simp only [Verif.Case.addFallback] at hsp
    obtain ⟨pre', rest, h1, h2, h3⟩ := List.map_eq_append_iff.1 hsp
    obtain ⟨ch, suf', rfl, h4, h5⟩ := List.map_eq_cons_iff.1 h3
    simp only [Prod.mk.injEq] at h4
    obtain ⟨rfl, rfl⟩ := h4
    subst h2
    have hex := h.choice pre' ch.1 ch.2 suf' h1 hh (hact hpre)
    have hc := hw.checks ch (by rw [h1]; simp)
    rw [pick_append, pick_append, hex, pick_one, pick_one,
      Branch.run_old hb fun w hw' => env_set_old hc env _ hw']
  · intro ch hch t ht
    simp only [Verif.Case.addFallback, List.mem_map] at hch
    obtain ⟨ch0, h0, rfl⟩ := hch
    obtain ⟨e, he, hm⟩ := h.str ch0 h0 t ht
    exact ⟨e, by simp [he], hm⟩
  · intro ch hch t r ht
    simp only [Verif.Case.addFallback, List.mem_map] at hch
    obtain ⟨ch0, h0, rfl⟩ := hch
    obtain ⟨e, he, rest, hm, hg⟩ := h.pre ch0 h0 t r ht
    exact ⟨e, by simp [he], rest, hm, fun h => hasGuard_append (hg h)⟩
  · simp only [Verif.Case.addFallback]
    exact List.pairwise_map.2 h.order
  · intro ch hch hh b' hb'
    simp only [Verif.Case.addFallback, List.mem_map] at hch
    obtain ⟨ch0, h0, rfl⟩ := hch
    simp only [List.mem_append, List.mem_singleton] at hb'
    rcases hb' with hb' | rfl
    · exact h.cnodup ch0 h0 hh b' hb'
    · exact hnd.same (Same.of_eq (Branch.run_old hb fun w hw' =>
        env_set_old (hw.checks ch0 h0) env _ hw'))
  · intro b' hb'
    simp only [Verif.Case.addFallback, List.mem_append, List.mem_singleton] at hb'
    rcases hb' with hb' | rfl
    · exact h.fnodup b' hb'
    · exact hnd

theorem SpDer.addFallback {b : Branch B} (hR : Lasting R) (hw : SpWf ds n0 n env v sp) (h : SpDer R v seen sp)
    (hs : ∀ e ∈ seen, (∀ d ∈ e.checks, d.1.id < n0) ∧ R e b) (hb : ∀ d ∈ b.checks, d.1.id < n0) :
    SpDer R v (seen ++ [b]) (addFallback sp b) := by
  refine ⟨?_, ?_, ?_, ?_⟩
  · intro ch hch b' hb'
    simp only [Verif.Case.addFallback, List.mem_map] at hch
    obtain ⟨ch0, h0, rfl⟩ := hch
    simp only [List.mem_append, List.mem_singleton] at hb'
    rcases hb' with hb' | rfl
    · obtain ⟨e, he, hd⟩ := h.choice ch0 h0 b' hb'
      exact ⟨e, by simp [he], hd⟩
    · exact ⟨b', by simp, Der.refl v _ b'⟩
  · intro ch hch
    simp only [Verif.Case.addFallback, List.mem_map] at hch
    obtain ⟨ch0, h0, rfl⟩ := hch
    simp only [List.pairwise_append, List.mem_singleton, forall_eq]
    refine ⟨h.pairs ch0 h0, by simp, ?_⟩
    intro e' he'
    obtain ⟨e, he, hd⟩ := h.choice ch0 h0 e' he'
    exact hR (hs e he).2 hd (Der.refl v _ b) (hs e he).1 hb (hw.checks ch0 h0).lower
  · intro b' hb'
    simp only [Verif.Case.addFallback, List.mem_append, List.mem_singleton] at hb'
    rcases hb' with hb' | rfl
    · obtain ⟨e, he, hd⟩ := h.fallback b' hb'
      exact ⟨e, by simp [he], hd⟩
    · exact ⟨b', by simp, fun c => Der.refl v c b'⟩
  · simp only [Verif.Case.addFallback, List.pairwise_append, List.mem_singleton, forall_eq]
    refine ⟨h.fpairs, by simp, ?_⟩
    intro e' he'
    obtain ⟨e, he, hd⟩ := h.fallback e' he'
    exact hR (hs e he).2 (hd .nil) (Der.refl v _ b) (hs e he).1 hb (by simp [Check.vars])

/-! ### Adding a branch to the choices -/

theorem der_new {b : Branch B} {p : Pat B} {cs new : List (PCheck B)} {c : Check B}
    (hpop : popCheck v b.checks = some (p, cs)) (hr : Related p c)
    (hnew : newChecks v p c = some new) : Der v c b ((b.popped cs).add new) := by
  refine ⟨tag_add b cs new, ?_, ?_⟩
  · have h1 := popCheck_width hpop
    have h2 := newChecks_width hnew
    simp only [Branch.width, Branch.add, Branch.popped, checksWidth_append]
    omega
  · intro d hd
    simp only [Branch.add, Branch.popped, List.mem_append] at hd
    rcases hd with hd | hd
    · exact .inl ((popCheck_mem hpop).2 d hd)
    · exact .inr ⟨p, (popCheck_mem hpop).1, newChecks_cut hr hnew d hd⟩

theorem Der.matched {c : Check B} {b b' : Branch B} (h : Der v c b b') : Der v c.matched b b' := by
  refine ⟨h.tag, h.width, fun d hd => ?_⟩
  rcases h.checks d hd with h | ⟨p, h1, h2, h3, h4⟩
  · exact .inl h
  · refine .inr ⟨p, h1, ?_, ?_, ?_⟩ <;> cases c <;> assumption

theorem matched_vars (c : Check B) : c.matched.vars = c.vars := by cases c <;> rfl

theorem SpDer.addKind {b : Branch B} {p : Pat B} {cs : List (PCheck B)} {k : Kind}
    {r : Splitter B × Nat} (hR : Lasting R) (ha : Adding ds n0 env v b p cs)
    (hk : p.kind = some k) (hw : SpWf ds n0 n env v sp) (h : SpDer R v seen sp)
    (hs : ∀ e ∈ seen, (∀ d ∈ e.checks, d.1.id < n0) ∧ R e b)
    (hadd : addKind n sp v p k (b.popped cs) (branchMode ds v.ty) = some r) :
    SpDer R v (seen ++ [b]) r.1 := by
  obtain ⟨chs, hj, hadd⟩ := addKind_cases hadd
  have hb := ha.ok.below
  have hfb : ∀ b' ∈ sp.fallback, ∃ e ∈ seen ++ [b], ∀ c, Der v c e b' := by
    intro b' hb'
    obtain ⟨e, he, hd⟩ := h.fallback b' hb'
    exact ⟨e, by simp [he], hd⟩
  have hold : SpDer R v (seen ++ [b]) ⟨chs, sp.fallback⟩ := by
    refine ⟨?_, ?_, hfb, h.fpairs⟩
    · intro ch hch b' hb'
      obtain ⟨ch0, h0, hjt⟩ := forall₂_mem_right hj ch hch
      cases hjt with
      | keep hov =>
        obtain ⟨e, he, hd⟩ := h.choice _ h0 b' hb'
        exact ⟨e, by simp [he], hd⟩
      | join hov hnew =>
        simp only [List.mem_append, List.mem_singleton] at hb'
        rcases hb' with hb' | rfl
        · obtain ⟨e, he, hd⟩ := h.choice ch0 h0 b' hb'
          exact ⟨e, by simp [he], hd.matched⟩
        · exact ⟨b, by simp, (der_new ha.pop (overlapping_related hk hov) hnew).matched⟩
    · intro ch hch
      obtain ⟨ch0, h0, hjt⟩ := forall₂_mem_right hj ch hch
      cases hjt with
      | keep hov => exact h.pairs _ h0
      | join hov hnew =>
        simp only [List.pairwise_append, List.mem_singleton, forall_eq]
        refine ⟨h.pairs ch0 h0, by simp, ?_⟩
        intro e' he'
        obtain ⟨e, he, hd⟩ := h.choice ch0 h0 e' he'
        exact hR (hs e he).2 hd (der_new ha.pop (overlapping_related hk hov) hnew) (hs e he).1 hb
          (hw.checks ch0 h0).lower
  rcases hadd with ⟨-, rfl⟩ | ⟨-, c, new, hc, hnew, rfl⟩
  · exact hold
  · obtain ⟨hcok, hnle, hrel⟩ := freshCheck_ok hw.le ha.pat hk hc
    refine ⟨?_, ?_, hfb, h.fpairs⟩
    · intro ch hch b' hb'
      simp only [List.mem_append, List.mem_singleton] at hch
      rcases hch with hch | rfl
      · exact hold.choice ch hch b' hb'
      · simp only [List.mem_append, List.mem_singleton] at hb'
        rcases hb' with hb' | rfl
        · obtain ⟨e, he, hd⟩ := h.fallback b' hb'
          exact ⟨e, by simp [he], hd _⟩
        · exact ⟨b, by simp, der_new ha.pop hrel hnew⟩
    · intro ch hch
      simp only [List.mem_append, List.mem_singleton] at hch
      rcases hch with hch | rfl
      · exact hold.pairs ch hch
      · simp only [List.pairwise_append, List.mem_singleton, forall_eq]
        refine ⟨h.fpairs, by simp, ?_⟩
        intro e' he'
        obtain ⟨e, he, hd⟩ := h.fallback e' he'
        exact hR (hs e he).2 (hd _) (der_new ha.pop hrel hnew) (hs e he).1 hb hcok.lower

theorem outcome_skip (guards : Guards B) {a : Outcome B} {b : Branch B}
    (h : (b.run env).isSome = true → a.isSome = true) :
    a.or (outcome guards b.clause b.guard (b.run env)) = a := by
  cases a with
  | some a => rfl
  | none =>
    have : b.run env = none := by
      cases hb : b.run env with
      | none => rfl
      | some l => rw [hb] at h; simp at h
    rw [this]
    rfl

theorem Adding.run_isSome {b : Branch B} {p : Pat B} {cs : List (PCheck B)}
    (ha : Adding ds n0 env v b p cs) (h : (b.run env).isSome = true) :
    (p.run (env v)).isSome = true := by
  rw [Branch.run_eq, seq2_isSome] at h
  have h2 := (popCheck_run env ha.pop).isSome
  rw [seq2_isSome] at h2
  simp only [Option.isSome_some, Bool.true_and] at h
  rw [h] at h2
  simp only [Bool.and_eq_true] at h2
  exact h2.2

theorem JoinedTo.check {p : Pat B} {b : Branch B} {ov : Check B × List (Branch B) → Bool}
    {ch ch' : Check B × List (Branch B)} (h : JoinedTo v p b ov ch ch') :
    (∀ x, ch'.1.holds x = ch.1.holds x) ∧ (∀ x, ch'.1.binds x = ch.1.binds x) ∧
      ch'.1.prefixText = ch.1.prefixText ∧ ch'.1.kind = ch.1.kind ∧
      (ch.1.ignored = false → ch'.1.ignored = false) ∧ (ov ch = true → ch'.1.ignored = false) := by
  cases h with
  | keep hov => simp [hov]
  | join hov hnew =>
    exact ⟨matched_holds _, matched_binds _, matched_prefixText _, matched_kind _,
      fun _ => matched_active _, fun _ => matched_active _⟩

/-- What has to be known of the overlaps of a pattern. -/
structure OverlapOk (guards : Guards B) (ds : Decls) (n : Nat) (env : Env B) (v : Var)
    (seen : List (Branch B)) (sp : Splitter B) (p : Pat B) (k : Kind) : Prop where
  out : ∀ pre ch suf, sp.choices = pre ++ ch :: suf → ch.1.holds (env v) = true →
    (∀ e ∈ pre, e.1.ignored = false → e.1.holds (env v) = false) →
    (checkOverlaps sp.choices k).overlapping ch = false → (p.run (env v)).isSome = true →
    (pick guards env seen).isSome = true
  old : (checkOverlaps sp.choices k).needsNew = false → (p.run (env v)).isSome = true →
    ∃ ch ∈ sp.choices, (checkOverlaps sp.choices k).overlapping ch = true ∧
      ch.1.holds (env v) = true
  fresh : ∀ c : Check B × Nat, (checkOverlaps sp.choices k).needsNew = true →
    freshCheck n k (branchMode ds v.ty) = some c → (p.run (env v)).isSome = true →
    c.1.holds (env v) = true ∧ c.1.ignored = false
  order : ∀ s, k = .strPrefix s → (checkOverlaps sp.choices k).needsNew = true →
    ∀ ch ∈ sp.choices, ∀ t, ch.1.prefixText = some t → ¬ t <+: s

theorem Pat.kind_str {p : Pat B} {t : Lit} (h : p.kind = some (.str t)) : p = .str t := by
  cases p <;> simp only [Pat.kind, Option.some.injEq, reduceCtorEq, Kind.str.injEq] at h
  rw [h]

theorem Pat.kind_strPrefix {p : Pat B} {t : Lit} (h : p.kind = some (.strPrefix t)) :
    ∃ name rest, p = .strPrefix t name rest := by
  cases p <;> simp only [Pat.kind, Option.some.injEq, reduceCtorEq, Kind.strPrefix.injEq] at h
  exact ⟨_, _, by rw [h]⟩

theorem freshCheck_str {n : Nat} {k : Kind} {mode : Mode} {c : Check B × Nat}
    (h : freshCheck n k mode = some c) : (∀ t, c.1 = .str t → k = .str t) ∧
      ∀ t r, c.1 = .strPrefix t r → k = .strPrefix t := by
  cases k <;> cases mode <;>
    simp only [freshCheck, variantCheck, listCheck, tupleCheck, Option.some.injEq,
      Option.map_eq_some_iff, reduceCtorEq] at h <;>
    first
    | (subst h; simp)
    | (obtain ⟨fs, -, rfl⟩ := h; simp)

/-- Adding a branch, given that it is only left out of a list where it cannot be picked. -/
theorem SpExact.addKind {b : Branch B} {p : Pat B} {cs : List (PCheck B)} {k : Kind}
    {r : Splitter B × Nat} (ha : Adding ds n0 env v b p cs) (hk : p.kind = some k)
    (hw : SpWf ds n0 n env v sp) (h : SpExact guards env v seen sp) (hnd : NodupRun env b)
    (ho : OverlapOk guards ds n env v seen sp p k)
    (hadd : addKind n sp v p k (b.popped cs) (branchMode ds v.ty) = some r) :
    SpExact guards env v (seen ++ [b]) r.1 := by
  obtain ⟨chs, hj, hadd⟩ := addKind_cases hadd
  have hact : ∀ {l l' : List (Check B × List (Branch B))},
      List.Forall₂ (JoinedTo v p (b.popped cs) (checkOverlaps sp.choices k).overlapping) l l' →
      (∀ e ∈ l', e.1.ignored = false → e.1.holds (env v) = false) →
      ∀ e ∈ l, e.1.ignored = false → e.1.holds (env v) = false := by
    intro l l' hl h' e he hi
    obtain ⟨e', he', hjt⟩ := forall₂_mem_left hl e he
    have := hjt.check
    rw [← this.1]
    exact h' e' he' (this.2.2.2.2.1 hi)
  have hjr : ∀ ch ∈ sp.choices, ∀ new, (checkOverlaps sp.choices k).overlapping ch = true →
      newChecks v p ch.1 = some new → ch.1.holds (env v) = true →
      Same (((b.popped cs).add new).run (env.set (ch.1.binds (env v)))) (b.run env) := by
    intro ch hch new hov hnew hh
    exact ha.joined_run (hw.checks ch hch) (overlapping_related hk hov) hnew hh
  have hchoice : ∀ pre c l suf, chs = pre ++ (c, l) :: suf → c.holds (env v) = true →
      (∀ e ∈ pre, e.1.ignored = false → e.1.holds (env v) = false) →
      pick guards (env.set (c.binds (env v))) l = pick guards env (seen ++ [b]) := by
    intro pre c l suf hs hh hpre
    rw [hs] at hj
    obtain ⟨pre', ch, suf', h1, h2, h3, -⟩ := forall₂_split hj
    have hm : ch ∈ sp.choices := by rw [h1]; simp
    have hck := h3.check
    simp only at hck
    have hh0 : ch.1.holds (env v) = true := by rw [← hck.1]; exact hh
    have hex := h.choice pre' ch.1 ch.2 suf' h1 hh0 (hact h2 hpre)
    rw [pick_append, pick_one]
    generalize hg : (c, l) = ch' at h3
    cases h3 with
    | keep hov =>
      subst hg
      rw [hex, outcome_skip guards]
      exact fun hr => ho.out pre' _ suf' h1 hh0 (hact h2 hpre) hov (ha.run_isSome hr)
    | join hov hnew =>
      simp only [Prod.mk.injEq] at hg
      obtain ⟨rfl, rfl⟩ := hg
      rw [matched_binds, pick_append, pick_one, hex,
        outcome_same guards (tag_add b cs _) (hjr ch hm _ hov hnew hh0) hnd]
  have hstr : ∀ ch ∈ chs, ∀ t, ch.1 = .str t → ∃ e ∈ seen ++ [b], (v, Pat.str t) ∈ e.checks := by
    intro ch hch t ht
    obtain ⟨ch0, h0, hjt⟩ := forall₂_mem_right hj ch hch
    have : ch0.1 = .str t := by
      cases hjt with
      | keep => exact ht
      | join =>
        simp only at ht
        revert ht
        cases ch0.1 <;> simp [Check.matched]
    obtain ⟨e, he, hm⟩ := h.str ch0 h0 t this
    exact ⟨e, by simp [he], hm⟩
  have hpre : ∀ ch ∈ chs, ∀ t r, ch.1 = .strPrefix t r → ∃ e ∈ seen ++ [b], ∃ rest,
      (v, Pat.strPrefix t none rest) ∈ e.checks ∧ (e.guard = some true → hasGuard ch.2 = true) := by
    intro ch hch t r ht
    obtain ⟨ch0, h0, hjt⟩ := forall₂_mem_right hj ch hch
    have : ch0.1 = .strPrefix t r ∧ (hasGuard ch0.2 = true → hasGuard ch.2 = true) := by
      cases hjt with
      | keep => exact ⟨ht, id⟩
      | join =>
        simp only at ht
        refine ⟨?_, hasGuard_append⟩
        revert ht
        cases ch0.1 <;> simp [Check.matched]
    obtain ⟨e, he, rest, hm, hg⟩ := h.pre ch0 h0 t r this.1
    exact ⟨e, by simp [he], rest, hm, fun h => this.2 (hg h)⟩
  have hord : chs.Pairwise fun a b =>
      ∀ s t, a.1.prefixText = some s → b.1.prefixText = some t → ¬ s <+: t := by
    have : sp.choices.map (fun ch => ch.1.prefixText) = chs.map (fun ch => ch.1.prefixText) := by
      clear hact hjr hchoice hstr hpre hadd ho h hw
      generalize sp.choices = l at hj
      revert hj
      generalize (checkOverlaps l k).overlapping = ov
      intro hj
      induction hj with
      | nil => rfl
      | cons hjt _ ih => simp [hjt.check.2.2.1, ih]
    have h2 : (sp.choices.map (fun ch => ch.1.prefixText)).Pairwise fun a b =>
        ∀ s t, a = some s → b = some t → ¬ s <+: t := List.pairwise_map.2 h.order
    rw [this] at h2
    exact List.pairwise_map.1 h2
  have hcnd : ∀ ch ∈ chs, ch.1.holds (env v) = true →
      ∀ b ∈ ch.2, NodupRun (env.set (ch.1.binds (env v))) b := by
    intro ch hch hh b' hb'
    obtain ⟨ch0, h0, hjt⟩ := forall₂_mem_right hj ch hch
    cases hjt with
    | keep => exact h.cnodup _ h0 hh b' hb'
    | join hov hnew =>
      simp only [matched_binds]
      rw [matched_holds] at hh
      simp only [List.mem_append, List.mem_singleton] at hb'
      rcases hb' with hb' | rfl
      · exact h.cnodup _ h0 hh b' hb'
      · exact hnd.same (hjr ch0 h0 _ hov hnew hh)
  rcases hadd with ⟨hnew, rfl⟩ | ⟨hnew, c, new, hc, hcs, rfl⟩
  · refine ⟨?_, hchoice, hstr, hpre, hord, hcnd, h.fnodup⟩
    intro hn
    rw [pick_append, pick_one, h.fallback (hact hj hn), outcome_skip guards]
    intro hr
    obtain ⟨ch, hch, hov, hh⟩ := ho.old hnew (ha.run_isSome hr)
    obtain ⟨ch', hch', hjt⟩ := forall₂_mem_left hj ch hch
    have := hjt.check
    have hx := hn ch' hch' (this.2.2.2.2.2 hov)
    rw [this.1, hh] at hx
    simp at hx
  · obtain ⟨hcok, hnle, hrel⟩ := freshCheck_ok hw.le ha.pat hk hc
    have hsub : ∀ x ∈ chs, x ∈ chs ++ [(c.1, sp.fallback ++ [(b.popped cs).add new])] :=
      fun x hx => by simp [hx]
    refine ⟨?_, ?_, ?_, ?_, ?_, ?_, h.fnodup⟩
    · intro hn
      rw [pick_append, pick_one, h.fallback (hact hj fun e he => hn e (hsub e he)),
        outcome_skip guards]
      intro hr
      obtain ⟨hh, hi⟩ := ho.fresh c hnew hc (ha.run_isSome hr)
      have hx := hn (c.1, sp.fallback ++ [(b.popped cs).add new]) (by simp) hi
      rw [hh] at hx
      simp at hx
    · intro pre c' l suf hs hh hp
      rcases split_snoc hs with ⟨suf', -, hs'⟩ | ⟨-, he, hs'⟩
      · exact hchoice pre c' l suf' hs' hh hp
      · simp only [Prod.mk.injEq] at he
        obtain ⟨rfl, rfl⟩ := he
        rw [← hs'] at hp
        rw [pick_append, pick_one, pick_append, pick_one,
          outcome_same guards (tag_add b cs new) (ha.joined_run hcok hrel hcs hh) hnd,
          ← h.fallback (hact hj hp)]
        congr 1
        exact pick_congr guards fun b' hb' =>
          Branch.run_old (hw.fallback b' hb') fun w hw' => env_set_old hcok env _ hw'
    · intro ch hch t ht
      simp only [List.mem_append, List.mem_singleton] at hch
      rcases hch with hch | rfl
      · exact hstr ch hch t ht
      · refine ⟨b, by simp, ?_⟩
        simp only at ht
        have : p = .str t := by
          rw [(freshCheck_str hc).1 t ht] at hk
          exact Pat.kind_str hk
        rw [← this]
        exact ha.mem
    · intro ch hch t r ht
      simp only [List.mem_append, List.mem_singleton] at hch
      rcases hch with hch | rfl
      · exact hpre ch hch t r ht
      · refine ⟨b, by simp, ?_⟩
        simp only at ht
        have : ∃ name rest, p = .strPrefix t name rest := by
          rw [(freshCheck_str hc).2 t r ht] at hk
          exact Pat.kind_strPrefix hk
        obtain ⟨name, rest, hp⟩ := this
        have hst := ha.pstuck
        rw [hp] at hst
        simp only [Pat.stuck] at hst
        subst hst
        refine ⟨rest, hp ▸ ha.mem, fun hg => ?_⟩
        simp only [hasGuard, List.any_append, Bool.or_eq_true, List.any_cons, List.any_nil,
          Bool.or_false, beq_iff_eq]
        exact .inr hg
    · refine List.pairwise_append.2 ⟨hord, by simp, ?_⟩
      intro ch hch c' hc' s t hs ht
      simp only [List.mem_singleton] at hc'
      subst hc'
      obtain ⟨ch0, h0, hjt⟩ := forall₂_mem_right hj ch hch
      rw [hjt.check.2.2.1] at hs
      refine ho.order t ?_ hnew ch0 h0 s hs
      obtain ⟨r, hr⟩ := prefixText_iff.1 ht
      simp only at hr
      exact (freshCheck_str hc).2 t r hr
    · intro ch hch hh b' hb'
      simp only [List.mem_append, List.mem_singleton] at hch
      rcases hch with hch | rfl
      · exact hcnd ch hch hh b' hb'
      · simp only [List.mem_append, List.mem_singleton] at hb'
        rcases hb' with hb' | rfl
        · exact (h.fnodup b' hb').same (Same.of_eq (Branch.run_old (hw.fallback b' hb')
            fun w hw' => env_set_old hcok env _ hw'))
        · exact hnd.same (ha.joined_run hcok hrel hcs hh)

end

end Verif.Case
