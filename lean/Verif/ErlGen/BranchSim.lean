import Verif.ErlGen.BindSim

/-!
# The clauses of a `case`
-/

namespace Verif.ErlGen

open Verif.ErlText (Text Term astAll chain)
open Verif.Strings.Spec (Piece text UpperCamel)

/-- The names of the variables `vs` are those that are next in a state. -/
def Named (s t : State) (vs : Scope) : Prop := ∀ x l, (x, l) ∈ vs → t.names l = some (nameOf x (s.count x))

theorem PatternsWf.vars {ps : List Pattern} (h : PatternsWf ps) : Vars (varsAll ps) := ⟨h.2.1, h.2.2⟩

theorem PatternsWf.ordered {ps : List Pattern} (h : PatternsWf ps) : Vars (ordered ps) :=
  h.vars.perm (ordered_perm ps).symm

/-- The keys of the matched variables. -/
theorem Bound.between {as : List (Text × Loc × List Piece)} {now : List (Text × Loc)} {s : State} {b : Gleam.Env}
    {b' : Erlang.Env} (h : Bound as now s b b') (hv : Vars now) : Between s (defineAll s now) (Erlang.keys b') := by
  intro n hn
  exact defineAll_between s now hv.2 n (h.1.mem_iff.1 hn)

theorem Bound.nodup {as : List (Text × Loc × List Piece)} {now : List (Text × Loc)} {s : State} {b : Gleam.Env}
    {b' : Erlang.Env} (h : Bound as now s b b') (hv : Vars now) : (Erlang.keys b').Nodup :=
  h.1.nodup_iff.2 (namesOf_nodup s hv)

theorem now_alias {ps : List Pattern} (h : Vars (varsAll ps)) {x : Text} (hx : x ∈ (nowAll ps).map Prod.fst) :
    x ∉ (aliasesAll ps).map fun a => a.1 := by
  have h1 := (h.perm (varsAll_perm ps)).1
  rw [List.map_append] at h1
  intro hc
  refine (List.nodup_append.1 h1).2.2 x hx x ?_ rfl
  simpa [aliasVars, List.map_map, Function.comp_def] using hc

theorem get_none {later : Later} {x : Text} (h : x ∉ later.map fun e => e.1) : later.get x = none := by
  unfold Later.get
  rw [Option.map_eq_none_iff, List.find?_eq_none]
  intro e he hc
  simp only [decide_eq_true_eq] at hc
  exact h (List.mem_map.2 ⟨e, he, hc⟩)

theorem get_some {later : Later} (hn : (later.map fun e => e.1).Nodup) {x : Text} {l : Loc} {t : Text}
    (h : (x, l, t) ∈ later) : later.get x = some t := by
  induction later with
  | nil => simp at h
  | cons e later ih =>
    simp only [List.map_cons, List.nodup_cons] at hn
    unfold Later.get
    rw [List.find?_cons]
    by_cases he : e.1 = x
    · simp only [he, decide_true, Option.map_some]
      rcases List.mem_cons.1 h with h | h
      · rw [← h]
      · exact absurd (List.mem_map.2 ⟨_, h, he.symm⟩) hn.1
    · simp only [he, decide_false]
      rcases List.mem_cons.1 h with h | h
      · rw [← h] at he
        exact absurd rfl he
      · exact ih hn.2 h

section

variable {W W' : Type} {RW : W → W' → Prop} {ap : Gleam.Value → List Gleam.Value → Gleam.Run W Gleam.Value}
  {ap' : Erlang.Value → List Erlang.Value → Erlang.Run W' Erlang.Value} {c : Context}

variable {Γ vs : Scope} {s : State} {env : Gleam.Env} {env' : Erlang.Env} {qs : List Pattern}

/-- After a match, the literals get their names. -/
theorem matched_eval (hs : Sit Γ s env env') (hq : PatternsWf qs) (hperm : ((varsAll qs).map Prod.fst).Perm (vs.map Prod.fst))
    (hl : ∀ l ∈ (varsAll qs).map Prod.snd, l ∉ Γ.map Prod.snd) (hnm : Named s (defineAll s (ordered qs)) vs)
    {b : Gleam.Env} {b' : Erlang.Env} (hk : b.map Prod.fst = (varsAll qs).map Prod.fst)
    (hb : Bound (aliasesAll qs) (nowAll qs) s b b') :
    ∃ as, Between s (defineAll s (ordered qs)) (Erlang.keys (as ++ b')) ∧
      Sit (vs ++ Γ) (defineAll s (ordered qs)) (b ++ env) (as ++ (b' ++ env')) ∧
      ∀ ys, ys ≠ [] →
        Erlang.seq ap' (b' ++ env')
            (astAll (tAssignments (defineAll s (nowAll qs)) (sortLater (storedAliases (aliasesAll qs)))).1 ++ ys) =
          (Erlang.seq ap' (as ++ (b' ++ env')) ys).bind fun q => M.pure (q.1, q.2 ++ as) := by
  have hvn := hq.vars.nowAll
  have hst := defineAll_step s (nowAll qs)
  have hbt := hb.between hvn
  have hord := hq.ordered
  have hvL : Vars ((sortLater (storedAliases (aliasesAll qs))).map fun e => (e.1, e.2.1)) := by
    unfold ordered at hord
    exact hord.right
  have hmem : ∀ e, e ∈ sortLater (storedAliases (aliasesAll qs)) ↔ e ∈ storedAliases (aliasesAll qs) :=
    fun e => (sortLater_perm _).mem_iff
  obtain ⟨as, h1, h2, h3, h4⟩ := tAssignments_eval ap' (sortLater (storedAliases (aliasesAll qs))) (defineAll s (nowAll qs))
    (b' ++ env') (hs.bounded.append hbt fun _ hn => hst.mono hn) hvL (by
      intro e he
      obtain ⟨a, ha, rfl⟩ := List.mem_map.1 ((hmem e).1 he)
      obtain ⟨u, hu⟩ := literal_some (aliasesAll_literal hq.1 a ha)
      exact ⟨a.2.2, u, rfl, hu⟩)
  have hde : defineAll s (ordered qs) =
      (tAssignments (defineAll s (nowAll qs)) (sortLater (storedAliases (aliasesAll qs)))).2 := by
    rw [tAssignments_state]
    unfold ordered
    rw [defineAll_append]
  rw [← hde] at h3
  have hst2 := defineAll_step (defineAll s (nowAll qs)) ((sortLater (storedAliases (aliasesAll qs))).map fun e => (e.1, e.2.1))
  rw [← tAssignments_state, ← hde] at hst2
  have hbet : Between s (defineAll s (ordered qs)) (Erlang.keys (as ++ b')) := by
    rw [keys_append]
    exact hbt.append' h3 (fun n hn => hst.mono hn) fun n hn => hst2.mono hn
  refine ⟨as, hbet, ?_, h4⟩
  have hs1 : Sit Γ (defineAll s (ordered qs)) env env' :=
    hs.step' (defineAll_step s (ordered qs)) fun l hm => hl l (mem_map_snd hm)
  rw [← List.append_assoc]
  have hperm' : ∀ x, x ∈ b.map Prod.fst ↔ x ∈ vs.map Prod.fst := fun x => by rw [hk]; exact hperm.mem_iff
  refine hs1.vars hperm' (fun n hn hc => (hbet n hn).1 (hs.bounded n hc)) (fun n hn => (hbet n hn).2) ?_
  intro x l w hx hw
  have hnames := hnm x l (mem_of_lookup hx)
  rcases hb.2 x w (mem_of_lookup hw) with ⟨l', ps, t, h5, h6, rfl⟩ | ⟨w', h5, h6, h7⟩
  · have hin : (x, l', text ps) ∈ sortLater (storedAliases (aliasesAll qs)) :=
      (hmem _).2 (List.mem_map.2 ⟨_, h5, rfl⟩)
    have h8 := h1 x l' ps t hin h6
    have hxv : VariableName x := hvL.2 x (List.mem_map.2 ⟨(x, l'), List.mem_map.2 ⟨_, hin, rfl⟩, rfl⟩)
    have hcount : (defineAll s (nowAll qs)).count x = s.count x :=
      count_defineAll s hxv fun hc => now_alias hq.vars hc (List.mem_map.2 ⟨_, h5, rfl⟩)
    rw [hcount] at h8
    exact ⟨_, .str t, hnames, lookup_append_of_lookup (lookup_of_mem h2 h8), VRel.str t⟩
  · have h8 := lookup_of_mem (hb.nodup hvn) h5
    refine ⟨_, w', hnames, ?_, h6⟩
    rw [lookup_append_of_not_mem, h8]
    intro hc
    have := hbt _ (mem_keys_of_lookup h8)
    exact (h3 _ hc).1 this.2

/-- The variables of a guard. -/
theorem guard_env (hs : Sit Γ s env env') (hq : PatternsWf qs) (hperm : ((varsAll qs).map Prod.fst).Perm (vs.map Prod.fst))
    (hl : ∀ l ∈ (varsAll qs).map Prod.snd, l ∉ Γ.map Prod.snd)
    (hnm : ∀ x l, (x, l) ∈ vs → x ∈ (nowAll qs).map Prod.fst →
      (defineAll s (nowAll qs)).names l = some (nameOf x (s.count x)))
    {b : Gleam.Env} {b' : Erlang.Env} (hk : b.map Prod.fst = (varsAll qs).map Prod.fst)
    (hb : Bound (aliasesAll qs) (nowAll qs) s b b') :
    GuardEnv (vs ++ Γ) (defineAll s (nowAll qs)) (storedAliases (aliasesAll qs)) (b ++ env) (b' ++ env') := by
  have hvn := hq.vars.nowAll
  have hbt := hb.between hvn
  intro x v l hx hxl
  have hperm' : ∀ x, x ∈ b.map Prod.fst ↔ x ∈ vs.map Prod.fst := fun x => by rw [hk]; exact hperm.mem_iff
  by_cases hxb : x ∈ b.map Prod.fst
  · obtain ⟨w, hw⟩ := lookup_of_key hxb
    rw [lookup_some_append hw] at hx
    cases hx
    obtain ⟨l', hl'⟩ := lookup_of_key ((hperm' x).1 hxb)
    rw [lookup_some_append hl'] at hxl
    cases hxl
    rcases hb.2 x v (mem_of_lookup hw) with ⟨l', ps, t, h5, h6, rfl⟩ | ⟨w', h5, h6, h7⟩
    · refine Or.inl ⟨ps, t, ?_, h6, rfl⟩
      refine get_some (l := l') ?_ (List.mem_map.2 ⟨_, h5, rfl⟩)
      rw [storedAliases_fst]
      exact aliases_nodup hq.2.1
    · refine Or.inr ⟨?_, _, w', hnm x l (mem_of_lookup hl') h7, ?_, h6⟩
      · apply get_none
        rw [storedAliases_fst]
        exact now_alias hq.vars h7
      · exact lookup_append_of_lookup (lookup_of_mem (hb.nodup hvn) h5)
  · rw [lookup_none_append hxb] at hx
    rw [lookup_none_append fun hc => hxb ((hperm' x).2 hc)] at hxl
    have hnl : ∀ l ∈ (nowAll qs).map Prod.snd, l ∉ Γ.map Prod.snd := by
      intro m hm
      apply hl
      rw [((varsAll_perm qs).map Prod.snd).mem_iff, List.map_append]
      exact List.mem_append_left _ hm
    have hs1 := hs.step (defineAll_step s (nowAll qs)) hnl hbt
    obtain ⟨l', n, v', h1, h2, h3, h4⟩ := hs1.env x v hx
    rw [hxl] at h1
    cases h1
    refine Or.inr ⟨?_, n, v', h2, h3, h4⟩
    apply get_none
    rw [storedAliases_fst]
    intro hc
    apply hxb
    rw [hk, ((varsAll_perm qs).map Prod.fst).mem_iff, List.map_append]
    refine List.mem_append_right _ ?_
    simpa [aliasVars, List.map_map, Function.comp_def] using hc

/-- The rest of the alternatives and clauses. -/
def otherwise (ap : Gleam.Value → List Gleam.Value → Gleam.Run W Gleam.Value) (env : Gleam.Env) (body : Expr)
    (next : Gleam.Run W Gleam.Value) : Match Gleam.Value → Gleam.Run W Gleam.Value
  | .yes b => Gleam.expr ap (b ++ env) body
  | .no => next
  | .bad => M.stuck

theorem clauseAst_append : ∀ (as bs : List ErlText.Clause),
    ErlText.clauseAst (as ++ bs) = ErlText.clauseAst as ++ ErlText.clauseAst bs
  | [], bs => by simp [ErlText.clauseAst]
  | .mk p none body :: as, bs => by simp [ErlText.clauseAst, clauseAst_append as bs]
  | .mk p (some g) body :: as, bs => by simp [ErlText.clauseAst, clauseAst_append as bs]

/-- One alternative. -/
theorem branch_sim {s0 tf : State} {g : Option Guard} {body : TGens} {e : Expr} {rest : List (List Pattern)}
    {values : List Gleam.Value} {v' : Erlang.Value} {next : Gleam.Run W Gleam.Value} {cs : List ErlText.Clause}
    (hs : Sit Γ s env env') (hq : PatternsWf qs) (hperm : ((varsAll qs).map Prod.fst).Perm (vs.map Prod.fst))
    (hl : ∀ l ∈ (varsAll qs).map Prod.snd, l ∉ Γ.map Prod.snd)
    (hg : ∀ g' ∈ g, g'.Wf ((aliasesAll qs).map fun a => a.1) (vs ++ Γ))
    (hn1 : ∀ x l, (x, l) ∈ vs → x ∈ (nowAll qs).map Prod.fst →
      (defineAll s (nowAll qs)).names l = some (nameOf x (s.count x)))
    (hn2 : Named s (defineAll s (ordered qs)) vs)
    (hne : (body (defineAll s (ordered qs))).1 ≠ [])
    (hbs : ∀ n, (defineAll s (ordered qs)).Taken n → (body (defineAll s (ordered qs))).2.Taken n)
    (hbody : ∀ env env', Sit (vs ++ Γ) (defineAll s (ordered qs)) env env' →
      MRel RW (RRel (defineAll s (ordered qs)) (body (defineAll s (ordered qs))).2) (Gleam.expr ap env e)
        (Erlang.seq ap' env' (astAll (body (defineAll s (ordered qs))).1)))
    (hs0 : ∀ n, s0.Taken n → s.Taken n) (htf : ∀ n, (body (defineAll s (ordered qs))).2.Taken n → tf.Taken n)
    (hsub : Subject values v')
    (hnext : MRel RW (RRel s0 tf) (otherwise ap env e next (Gleam.choose env g rest values))
      (Erlang.clauses ap' env' v' (ErlText.clauseAst cs))) :
    MRel RW (RRel s0 tf) (otherwise ap env e next (Gleam.choose env g (qs :: rest) values))
      (Erlang.clauses ap' env' v' (ErlText.clauseAst (.mk (tSubjectPatterns s [] qs).1
        (g.map (tGuard (defineAll s (nowAll qs)) (storedAliases (aliasesAll qs))))
        ((tAssignments (defineAll s (nowAll qs)) (sortLater (storedAliases (aliasesAll qs)))).1 ++
          (body (defineAll s (ordered qs))).1) :: cs))) := by
  rw [Gleam.choose]
  by_cases hlen : qs.length = values.length
  case neg => rw [if_neg hlen]; exact MRel.stuck
  rw [if_pos hlen]
  have hm := tSubjectPatterns_sim s hq hlen hsub
  cases hr : Gleam.Pattern.runAll qs values with
  | bad => exact MRel.stuck
  | no =>
    rw [hr] at hm
    simp only [MatchRel] at hm
    cases g with
    | none =>
      simp only [Option.map_none, ErlText.clauseAst, Erlang.clauses, hm, Erlang.fresh]
      exact hnext
    | some g =>
      simp only [Option.map_some, ErlText.clauseAst, Erlang.clauses, hm, Erlang.fresh]
      exact hnext
  | yes b =>
    rw [hr] at hm
    obtain ⟨b', h1, h2⟩ := hm
    have hfresh : Erlang.fresh env' (Erlang.pattern ((tSubjectPatterns s [] qs).1.ast false) v') = .yes b' := by
      rw [h1]
      exact fresh_between hs.bounded (h2.between hq.vars.nowAll)
    have hk := runAll_keys qs hr
    obtain ⟨as, h3, h4, h5⟩ := matched_eval (ap' := ap') hs hq hperm hl hn2 hk h2
    have hrun : MRel RW (RRel s0 tf) (Gleam.expr ap (b ++ env) e)
        ((Erlang.seq ap' (b' ++ env') (astAll ((tAssignments (defineAll s (nowAll qs))
          (sortLater (storedAliases (aliasesAll qs)))).1 ++ (body (defineAll s (ordered qs))).1))).bind
          fun (w, a) => M.pure (w, a ++ b')) := by
      rw [astAll_append, h5 _ (astAll_ne hne)]
      simp only [M.bind_assoc, M.pure_bind]
      rw [← M.bind_pure (Gleam.expr ap (b ++ env) e)]
      apply (hbody _ _ h4).bind
      rintro v ⟨w, a⟩ ⟨h6, h7⟩
      refine MRel.pure ⟨h6, ?_⟩
      dsimp only at h7 ⊢
      intro n hn
      rw [List.append_assoc, keys_append, List.mem_append] at hn
      rcases hn with hn | hn
      · refine ⟨fun hc => (h7 n hn).1 ((defineAll_step s (ordered qs)).mono (hs0 n hc)), htf n (h7 n hn).2⟩
      · exact ⟨fun hc => (h3 n hn).1 (hs0 n hc), htf n (hbs n (h3 n hn).2)⟩
    cases g with
    | none =>
      simp only [Option.map_none, ErlText.clauseAst, Erlang.clauses, hfresh, Gleam.holds]
      exact hrun
    | some g =>
      simp only [Option.map_some, ErlText.clauseAst, Erlang.clauses, hfresh, Gleam.holds]
      have henv := guard_env hs hq hperm hl hn1 hk h2
      have hw := hg g rfl
      cases hv : Gleam.guard (b ++ env) g with
      | none => exact MRel.stuck
      | some gv =>
        obtain ⟨gv', h6, h7⟩ := guard_sim ap' henv (by
          intro x hx
          rw [← storedAliases_fst]
          exact Classical.byContradiction fun hc => hx (get_none hc)) g gv hw hv
        simp only [Option.bind_some]
        cases ht : gv.isTrue with
        | none => exact MRel.stuck
        | some r =>
          have h8 := h7.isTrue ht
          subst h8
          simp only [guard_legal, if_true, h6]
          cases r with
          | true =>
            simp only [otherwise]
            intro w w' hw
            have := hrun w w' hw
            simpa [M.pure, Erlang.Value.bool] using this
          | false =>
            intro w w' hw
            have := hnext w w' hw
            simpa [M.pure, Erlang.Value.bool] using this

/-- The state with the names that were taken before. -/
abbrev State.reset (before : Text → Option Nat) (s : State) : State := { s with taken := before }

theorem Step.reset {before : Text → Option Nat} {s t : State} {bs : List Text} {ls : List Loc}
    (h : Step (s.reset before) t bs ls) : Step (s.reset before) (t.reset before) [] ls where
  taken x := by simp
  generated := h.generated
  names l hl := h.names l hl

theorem Named.step {before : Text → Option Nat} {s t : State} {bs : List Text} {ls : List Loc} (hv : Vars vs)
    (h : Step (s.reset before) t bs ls) (hn : Named (s.reset before) (s.reset before) vs)
    (hl : ∀ l ∈ ls, l ∉ vs.map Prod.snd) : Named (t.reset before) (t.reset before) vs := by
  intro x l hx
  have hr : x ≠ reserved := (hv.2 x (List.mem_map.2 ⟨_, hx, rfl⟩)).2
  show t.names l = _
  rw [h.names l fun hc => hl l hc (List.mem_map.2 ⟨_, hx, rfl⟩), hn x l hx]
  simp only [State.count, if_neg hr]

/-- The end of an alternative, and the end of all. -/
theorem branch_taken {before : Text → Option Nat} {g : Option Guard} {body : TGens} {bs : List Text} {ls : List Loc}
    (hb : ∀ s, Step s (body s).2 bs ls) {s s' : State} {N : List Text} {ms : List Loc} (h : Step (s.reset before) s' (N ++ bs) ms)
    (pss : List (List Pattern)) (hp : ∀ qs ∈ pss, PatternsWf qs ∧ ((varsAll qs).map Prod.fst).Perm N) :
    ∀ n, s'.Taken n → (tBranches before g body s' pss).2.Taken n := by
  intro n hn
  cases pss with
  | nil => exact hn
  | cons ps rest =>
    have hstep := tBranches_step before g body bs ls hb N (ps :: rest) s' (by simp) hp
    refine State.taken_mono ?_ hn
    intro x _
    unfold State.count
    split
    · exact hstep.generated
    · rw [hstep.taken, h.taken]
      exact Nat.le_refl _

theorem tBranches_cons (before : Text → Option Nat) (g : Option Guard) (body : TGens) (s : State) (hq : PatternsWf qs)
    (rest : List (List Pattern)) :
    tBranches before g body s (qs :: rest) =
      (.mk (tSubjectPatterns (s.reset before) [] qs).1
        (g.map (tGuard (defineAll (s.reset before) (nowAll qs)) (storedAliases (aliasesAll qs))))
        ((tAssignments (defineAll (s.reset before) (nowAll qs)) (sortLater (storedAliases (aliasesAll qs)))).1 ++
          (body (defineAll (s.reset before) (ordered qs))).1) ::
        (tBranches before g body (body (defineAll (s.reset before) (ordered qs))).2 rest).1,
       (tBranches before g body (body (defineAll (s.reset before) (ordered qs))).2 rest).2) := by
  rw [tBranches]
  simp only [branch_state (s.reset before) hq]
  simp only [tSubjectPatterns_state (s.reset before) [] qs hq.aliases, List.nil_append]

/-- The alternatives after the first one. -/
theorem later_sim {before : Text → Option Nat} {s0 tf : State} {g : Option Guard} {body : TGens} {e : Expr}
    {values : List Gleam.Value} {v' : Erlang.Value} {next : Gleam.Run W Gleam.Value} {cs : List ErlText.Clause}
    {bs : List Text} {ls : List Loc} (hb : ∀ s, Step s (body s).2 bs ls) (hne : ∀ s, (body s).1 ≠ [])
    (hvs : Vars vs) (hls : ∀ l ∈ ls, l ∉ Γ.map Prod.snd ∧ l ∉ vs.map Prod.snd)
    (hbody : ∀ t env env', Sit (vs ++ Γ) t env env' →
      MRel RW (RRel t (body t).2) (Gleam.expr ap env e) (Erlang.seq ap' env' (astAll (body t).1)))
    (hsub : Subject values v')
    (hnext : MRel RW (RRel s0 tf) next (Erlang.clauses ap' env' v' (ErlText.clauseAst cs)))
    (pss : List (List Pattern)) :
    ∀ s, Sit Γ (s.reset before) env env' → Named (s.reset before) (s.reset before) vs →
    (∀ qs ∈ pss, PatternsWf qs ∧ ((varsAll qs).map Prod.fst).Perm (vs.map Prod.fst) ∧
      ∀ g' ∈ g, g'.Wf ((aliasesAll qs).map fun a => a.1) (vs ++ Γ)) →
    (∀ qs ∈ pss, ∀ l ∈ (varsAll qs).map Prod.snd, l ∉ Γ.map Prod.snd ∧ l ∉ vs.map Prod.snd) →
    (∀ n, s0.Taken n → (s.reset before).Taken n) →
    (pss ≠ [] → ∀ n, (tBranches before g body s pss).2.Taken n → tf.Taken n) →
    MRel RW (RRel s0 tf) (otherwise ap env e next (Gleam.choose env g pss values))
      (Erlang.clauses ap' env' v' (ErlText.clauseAst ((tBranches before g body s pss).1 ++ cs))) := by
  induction pss with
  | nil =>
    intro s _ _ _ _ _ _
    simp only [Gleam.choose, otherwise, tBranches, List.nil_append]
    exact hnext
  | cons qs rest ih =>
    intro s hs hnm hwf hloc hs0 htf
    obtain ⟨hq, hperm, hg⟩ := hwf qs (by simp)
    have hql := hloc qs (by simp)
    rw [tBranches_cons _ _ _ _ hq] at htf ⊢
    simp only [List.cons_append]
    have hstep := (defineAll_step (s.reset before) (ordered qs)).trans (hb (defineAll (s.reset before) (ordered qs)))
    have hstep' := hstep.perm (((ordered_perm qs).map Prod.fst).trans hperm |>.append_right bs) (fun l hl => hl)
    have hrest : ∀ n, (body (defineAll (s.reset before) (ordered qs))).2.Taken n → tf.Taken n := fun n hn =>
      htf (by simp) n (branch_taken hb hstep' rest (fun qs hqs =>
        ⟨(hwf qs (List.mem_cons_of_mem _ hqs)).1, (hwf qs (List.mem_cons_of_mem _ hqs)).2.1⟩) n hn)
    have hloc' : ∀ l ∈ (ordered qs).map Prod.snd ++ ls, l ∉ Γ.map Prod.snd ∧ l ∉ vs.map Prod.snd := by
      intro l hl
      rcases List.mem_append.1 hl with hl | hl
      · exact hql l (mem_map_snd hl)
      · exact hls l hl
    refine branch_sim hs hq hperm (fun l hl => (hql l hl).1) hg ?_ ?_ (hne _) (fun n hn => (hb _).mono hn)
      (fun env env' h => hbody _ env env' h) hs0 hrest hsub ?_
    · intro x l hx _
      rw [(defineAll_step (s.reset before) (nowAll qs)).names l, hnm x l hx]
      intro hc
      refine (hql l ?_).2 (List.mem_map.2 ⟨_, hx, rfl⟩)
      rw [((varsAll_perm qs).map Prod.snd).mem_iff, List.map_append]
      exact List.mem_append_left _ hc
    · intro x l hx
      rw [(defineAll_step (s.reset before) (ordered qs)).names l, hnm x l hx]
      intro hc
      exact (hql l (mem_map_snd hc)).2 (List.mem_map.2 ⟨_, hx, rfl⟩)
    · refine ih _ ?_ ?_ (fun qs hqs => hwf qs (List.mem_cons_of_mem _ hqs)) (fun qs hqs => hloc qs (List.mem_cons_of_mem _ hqs))
        (fun n hn => hstep.reset.mono (hs0 n hn)) (fun _ n hn => htf (by simp) n hn)
      · exact hs.step' hstep.reset fun l hl => (hloc' l hl).1
      · exact hnm.step hvs hstep fun l hl => (hloc' l hl).2

/-- All alternatives of a clause. -/
theorem branches_sim {s0 tf : State} {g : Option Guard} {body : TGens} {e : Expr} {ps : List Pattern}
    {values : List Gleam.Value} {v' : Erlang.Value} {next : Gleam.Run W Gleam.Value} {cs : List ErlText.Clause}
    {bs : List Text} {ls : List Loc} (hb : ∀ s, Step s (body s).2 bs ls) (hne : ∀ s, (body s).1 ≠ [])
    (hls : ∀ l ∈ ls, l ∉ Γ.map Prod.snd ∧ l ∉ (varsAll ps).map Prod.snd)
    (hbody : ∀ t env env', Sit (varsAll ps ++ Γ) t env env' →
      MRel RW (RRel t (body t).2) (Gleam.expr ap env e) (Erlang.seq ap' env' (astAll (body t).1)))
    (hsub : Subject values v')
    (hnext : MRel RW (RRel s0 tf) next (Erlang.clauses ap' env' v' (ErlText.clauseAst cs)))
    (pss : List (List Pattern)) (hs : Sit Γ s env env')
    (hwf : ∀ qs ∈ ps :: pss, PatternsWf qs ∧ ((varsAll qs).map Prod.fst).Perm ((varsAll ps).map Prod.fst) ∧
      ∀ g' ∈ g, g'.Wf ((aliasesAll qs).map fun a => a.1) (varsAll ps ++ Γ))
    (hl : ((varsAll ps).map Prod.snd).Nodup) (hlp : ∀ l ∈ (varsAll ps).map Prod.snd, l ∉ Γ.map Prod.snd)
    (hloc : ∀ qs ∈ pss, ∀ l ∈ (varsAll qs).map Prod.snd, l ∉ Γ.map Prod.snd ∧ l ∉ (varsAll ps).map Prod.snd)
    (hs0 : ∀ n, s0.Taken n → s.Taken n)
    (htf : ∀ n, (tBranches s.taken g body s (ps :: pss)).2.Taken n → tf.Taken n) :
    MRel RW (RRel s0 tf) (otherwise ap env e next (Gleam.choose env g (ps :: pss) values))
      (Erlang.clauses ap' env' v' (ErlText.clauseAst ((tBranches s.taken g body s (ps :: pss)).1 ++ cs))) := by
  obtain ⟨hq, hperm, hg⟩ := hwf ps (by simp)
  rw [tBranches_cons _ _ _ _ hq] at htf ⊢
  have hreset : s.reset s.taken = s := rfl
  rw [hreset] at htf ⊢
  simp only [List.cons_append]
  have hstep0 := (defineAll_step s (ordered ps)).trans (hb (defineAll s (ordered ps)))
  have hstep : Step (s.reset s.taken) (body (defineAll s (ordered ps))).2 ((varsAll ps).map Prod.fst ++ bs) _ :=
    hstep0.perm (((ordered_perm ps).map Prod.fst).append_right bs) (fun l hl => hl)
  have hord := hq.ordered
  have hnames : Named s (defineAll s (ordered ps)) (varsAll ps) := by
    intro x l hx
    refine defineAll_names s (ordered ps) hord.2 hord.1 ?_ x l ((ordered_perm ps).mem_iff.2 hx)
    exact ((ordered_perm ps).map Prod.snd).nodup_iff.2 hl
  have hrest : ∀ n, (body (defineAll s (ordered ps))).2.Taken n → tf.Taken n := fun n hn =>
    htf n (branch_taken hb hstep pss (fun qs hqs =>
      ⟨(hwf qs (List.mem_cons_of_mem _ hqs)).1, (hwf qs (List.mem_cons_of_mem _ hqs)).2.1⟩) n hn)
  refine branch_sim hs hq hperm hlp hg ?_ hnames (hne _) (fun n hn => (hb _).mono hn)
    (fun env env' h => hbody _ env env' h) hs0 hrest hsub ?_
  · intro x l hx hnow
    have hnd := (((varsAll_perm ps).map Prod.snd).nodup_iff.1 hl)
    rw [List.map_append] at hnd
    refine defineAll_names s (nowAll ps) hq.vars.nowAll.2 hq.vars.nowAll.1 (List.nodup_append.1 hnd).1 x l ?_
    have hm := (varsAll_perm ps).mem_iff.1 hx
    rcases List.mem_append.1 hm with hm | hm
    · exact hm
    · refine absurd ?_ (now_alias hq.vars hnow)
      obtain ⟨a, ha, he⟩ := List.mem_map.1 hm
      simp only [Prod.mk.injEq] at he
      exact List.mem_map.2 ⟨a, ha, he.1⟩
  · refine later_sim (before := s.taken) hb hne hq.vars hls hbody hsub hnext pss _ ?_ ?_
      (fun qs hqs => hwf qs (List.mem_cons_of_mem _ hqs)) hloc (fun n hn => hstep.reset.mono (hs0 n hn)) (fun _ n hn => htf n hn)
    · refine Sit.step' (s := s.reset s.taken) hs hstep.reset ?_
      intro l hl
      rcases List.mem_append.1 hl with hl | hl
      · exact hlp l (mem_map_snd hl)
      · exact (hls l hl).1
    · intro x l hx
      have hr : x ≠ reserved := (hq.vars.2 x (List.mem_map.2 ⟨_, hx, rfl⟩)).2
      show (body (defineAll s (ordered ps))).2.names l = _
      rw [(hb _).names l fun hc => (hls l hc).2 (List.mem_map.2 ⟨_, hx, rfl⟩), hnames x l hx]
      simp only [State.count, if_neg hr]

end

end Verif.ErlGen
