import Verif.ErlGen.StmtSim

/-!
# Assignments
-/

namespace Verif.ErlGen

open Verif.ErlText (Text Term astAll chain)
open Verif.Strings.Spec (Piece text UpperCamel)

section

variable {W W' : Type} {RW : W → W' → Prop} {ap : Gleam.Value → List Gleam.Value → Gleam.Run W Gleam.Value}
  {ap' : Erlang.Value → List Erlang.Value → Erlang.Run W' Erlang.Value} {c : Context}

theorem fresh_disjoint {env b : Erlang.Env} (h : ∀ n ∈ Erlang.keys b, n ∉ Erlang.keys env) :
    Erlang.fresh env (.yes b) = .yes b := by
  unfold Erlang.fresh
  dsimp only
  rw [if_pos]
  simpa [List.all_eq_true] using h

/-- A match that succeeds. -/
theorem match_eval (s : State) {p : Pattern} (hp : p.Parts) (hv : Vars p.vars) (env' : Erlang.Env) (E : ErlText.Read.Ast) :
    ∃ k : Erlang.Result → Erlang.Run W' Erlang.Result,
      Erlang.expr ap' env' (chain ((tPattern s [] p).1.ast false) E) = (Erlang.expr ap' env' E).bind k ∧
      ∀ v v' a b, VRel v v' → Gleam.Pattern.run p v = .yes b →
        (∀ n ∈ namesOf s p.now, n ∉ Erlang.keys (a ++ env')) →
        ∃ b', k (v', a) = M.pure (v', b' ++ a) ∧ Bound p.aliases p.now s b b' := by
  by_cases ha : p.isAssign = true
  · cases p with
    | assign q x l =>
      simp only [Pattern.Parts] at hp
      simp only [Pattern.vars] at hv
      have hx : VariableName x := hv.2 x (by simp)
      have hnow : Vars (q.now ++ [(x, l)]) := by
        have : Vars ((Pattern.assign q x l).now) := Vars.now (p := .assign q x l) hv
        exact this
      have hchain : chain ((tPattern s [] (.assign q x l)).1.ast false) E =
          .binary .bind ((tPattern s [] q).1.ast false) (.binary .bind (.var (((tPattern s [] q).2.1).newVar x l).1) E) := by
        simp only [tPattern, Term.ast]
        rw [chain_simple s [] hp.1]
        rfl
      rw [hchain, Erlang.expr, Erlang.expr, M.bind_assoc]
      refine ⟨_, rfl, ?_⟩
      intro v v' a b hr hrun hdis
      have hsim := tPattern_sim s [] q hp.2 hv.left hr
      simp only [Gleam.Pattern.run] at hrun
      cases hq : Gleam.Pattern.run q v with
      | bad => rw [hq] at hrun; cases hrun
      | no => rw [hq] at hrun; cases hrun
      | yes b0 =>
        rw [hq] at hrun hsim
        cases hrun
        obtain ⟨b', h1, h2⟩ := hsim
        obtain ⟨hj, h4⟩ := h2.join (as2 := []) hnow (bound_one [] (defineAll s q.now) x l hr)
        have hN := h4.1.nodup_iff.2 (namesOf_nodup s hnow)
        rw [keys_append] at hN
        have hNd := (List.nodup_append.1 hN).2.2
        have hXin : nameOf x ((defineAll s q.now).count x) ∈ namesOf s (q.now ++ [(x, l)]) := by
          apply h4.1.mem_iff.1
          simp [Erlang.keys]
        have hbin : ∀ n ∈ Erlang.keys b', n ∈ namesOf s (q.now ++ [(x, l)]) := by
          intro n hn
          apply h4.1.mem_iff.1
          rw [keys_append]
          exact List.mem_append_left _ hn
        refine ⟨b' ++ [(nameOf x ((defineAll s q.now).count x), v')], ?_, ?_⟩
        · simp only [Erlang.pattern, tPattern_now, bindVar_new hx]
          rw [fresh_disjoint (by
            intro n hn
            simp only [Erlang.keys, List.map_cons, List.map_nil, List.mem_singleton] at hn
            rw [hn]
            exact hdis _ hXin)]
          simp only [M.pure_bind, h1]
          rw [fresh_disjoint (by
            intro n hn hc
            rw [List.append_assoc, keys_append, List.mem_append] at hc
            rcases hc with hc | hc
            · exact hNd n hn n hc rfl
            · exact hdis n (hbin n hn) hc)]
          simp
        · refine ⟨h4.1, ?_⟩
          intro y w hy
          rcases h4.2 y w hy with ⟨l', ps, t, h5, h6⟩ | h5
          · exact Or.inl ⟨l', ps, t, by simpa [Pattern.aliases] using h5, h6⟩
          · exact Or.inr h5
    | _ => simp [Pattern.isAssign] at ha
  · simp only [Bool.not_eq_true] at ha
    rw [chain_simple s [] ha, Erlang.expr]
    refine ⟨_, rfl, ?_⟩
    intro v v' a b hr hrun hdis
    have hsim := tPattern_sim s [] p hp hv hr
    rw [hrun] at hsim
    obtain ⟨b', h1, h2⟩ := hsim
    refine ⟨b', ?_, h2⟩
    simp only [h1]
    rw [fresh_disjoint]
    intro n hn
    exact hdis n (h2.1.mem_iff.1 hn)

/-- The value and the variables of an assignment. -/
def assigned (ap : Gleam.Value → List Gleam.Value → Gleam.Run W Gleam.Value) (env : Gleam.Env) (p : Pattern) (e : Expr) :
    Gleam.Run W (Gleam.Value × Gleam.Env) :=
  (Gleam.expr ap env e).bind fun v =>
    match Gleam.Pattern.run p v with
    | .yes b => M.pure (v, b)
    | _ => M.stuck

theorem now_vars {p : Pattern} (ha : p.aliases = []) : p.vars.Perm p.now := by
  have hv := vars_perm p
  rw [ha] at hv
  simpa [aliasVars] using hv

theorem PatternsWf.single {p : Pattern} (h : PatternsWf [p]) : p.Parts ∧ Vars p.vars := by
  refine ⟨h.1.1, ?_⟩
  have := h.vars
  simpa [varsAll] using this

theorem assigned_sim {Γ : Scope} {s : State} {env : Gleam.Env} {env' : Erlang.Env} {p : Pattern} {e : Expr} {ms : List Loc}
    (h : ExprSim RW ap ap' c e) (hpw : PatternsWf [p]) (ha : p.aliases = []) (hw : e.Wf c.purity Γ)
    (hp : Places Γ (p.vars.map Prod.snd ++ (e.locs ++ ms))) (hs : Sit Γ s env env') :
    MRel RW (fun r r' => VRel r.1 r'.1 ∧
        Between s (tOne c e (tPattern s [] p).2.1).2 (Erlang.keys r'.2) ∧
        Sit (p.vars ++ Γ) (tOne c e (tPattern s [] p).2.1).2 (r.2 ++ env) (r'.2 ++ env'))
      (assigned ap env p e)
      (Erlang.expr ap' env' (Term.ast false (.bind (tPattern s [] p).1 (tOne c e (tPattern s [] p).2.1).1))) := by
  obtain ⟨hparts, hv⟩ := hpw.single
  have hnow := hv.now
  have hst : Step s (tPattern s [] p).2.1 (p.now.map Prod.fst) (p.now.map Prod.snd) := by
    rw [tPattern_now]; exact defineAll_step s p.now
  have hbt0 : Between s (tPattern s [] p).2.1 (namesOf s p.now) := by
    rw [tPattern_now]; exact defineAll_between s p.now hnow.2
  have hperm := now_vars ha
  have hsnd := hperm.map Prod.snd
  have hnames : ∀ x l, (x, l) ∈ p.vars → (tPattern s [] p).2.1.names l = some (nameOf x (s.count x)) := by
    intro x l hx
    rw [tPattern_now]
    exact defineAll_names s p.now hnow.2 hnow.1 (hsnd.nodup_iff.1 (List.nodup_append.1 hp.1).1) x l (hperm.mem_iff.1 hx)
  have hs1 : Sit Γ (tPattern s [] p).2.1 env env' :=
    hs.step' hst fun l hl => hp.2 l (List.mem_append_left _ (hsnd.mem_iff.2 hl))
  obtain ⟨k, hk1, hk2⟩ := match_eval (ap' := ap') s hparts hv env' ((tOne c e (tPattern s [] p).2.1).1.ast false)
  simp only [Term.ast]
  rw [hk1]
  unfold assigned
  apply (h.one hw hp.right.left hs1).bind
  rintro v ⟨v', a⟩ ⟨h1, h2⟩
  cases hrun : Gleam.Pattern.run p v with
  | bad => exact MRel.stuck
  | no => exact MRel.stuck
  | yes b =>
    dsimp only at h1 h2 ⊢
    have hst2 := tOne_step hw (tPattern s [] p).2.1
    generalize (tPattern s [] p).2.1 = t at *
    generalize (tOne c e t).2 = t2 at *
    obtain ⟨b', h3, h4⟩ := hk2 v v' a b h1 hrun (by
      intro n hn hc
      rw [keys_append, List.mem_append] at hc
      rcases hc with hc | hc
      · exact (h2 n hc).1 (hbt0 n hn).2
      · exact (hbt0 n hn).1 (hs.bounded n hc))
    rw [h3]
    have hbt : Between s t (Erlang.keys b') := fun n hn => hbt0 n (h4.1.mem_iff.1 hn)
    have hbt2 : Between s t2 (Erlang.keys (b' ++ a)) := by
      rw [keys_append]
      exact hbt.append h2 (fun n hn => hst.mono hn) fun n hn => hst2.mono hn
    refine MRel.pure ⟨h1, hbt2, ?_⟩
    have hs2 : Sit Γ t2 env env' := hs1.step' hst2 hp.right.left.2
    refine hs2.vars ?_ (fun n hn hc => (hbt2 n hn).1 (hs.bounded n hc)) (fun n hn => (hbt2 n hn).2) ?_
    · intro x
      rw [run_keys p hrun]
    · intro x l w hx hw'
      have hxm := mem_of_lookup hx
      refine ⟨nameOf x (s.count x), ?_⟩
      rcases h4.2 x w (mem_of_lookup hw') with ⟨l', ps, t', h5, -⟩ | ⟨w', h5, h6, -⟩
      · rw [ha] at h5
        simp at h5
      · refine ⟨w', ?_, lookup_append_of_lookup (lookup_of_mem (h4.nodup hnow) h5), h6⟩
        rw [hst2.names l, hnames x l hxm]
        intro hc
        exact (List.nodup_append.1 hp.1).2.2 l (List.mem_map.2 ⟨_, hxm, rfl⟩) l (List.mem_append_left _ hc) rfl

/-- An assignment whose pattern matches, and the rest. -/
theorem let_sim {p : Pattern} {e : Expr} {ss : List Stmt} (h : ExprSim RW ap ap' c e) (hr : StmtsSim RW ap ap' c ss)
    {Γ : Scope} {s : State} {env : Gleam.Env} {env' : Erlang.Env} (hpw : PatternsWf [p]) (ha : p.aliases = [])
    (hw : e.Wf c.purity Γ) (hws : stmtsWf c.purity (p.vars ++ Γ) ss)
    (hp : Places Γ (p.vars.map Prod.snd ++ (e.locs ++ stmtsLocs ss))) (hs : Sit Γ s env env') :
    MRel RW (RRel s (tStmts c (tOne c e (tPattern s [] p).2.1).2 ss).2)
      ((assigned ap env p e).bind fun r => if ss.isEmpty then M.pure r.1 else Gleam.stmts ap (r.2 ++ env) ss)
      (Erlang.seq ap' env' (astAll (.bind (tPattern s [] p).1 (tOne c e (tPattern s [] p).2.1).1 ::
        (tStmts c (tOne c e (tPattern s [] p).2.1).2 ss).1))) := by
  have h1 := assigned_sim h hpw ha hw hp hs
  generalize hu : (tOne c e (tPattern s [] p).2.1).2 = u at *
  rw [ErlText.astAll]
  cases ss with
  | nil =>
    simp only [tStmts, ErlText.astAll, seq_one, List.isEmpty_nil, if_true]
    rw [← M.bind_pure (Erlang.expr ap' env' _)]
    apply h1.bind
    rintro ⟨v, b⟩ ⟨v', b'⟩ ⟨h2, h3, -⟩
    exact MRel.pure ⟨h2, h3⟩
  | cons x xs =>
    rw [seq_cons ap' env' _ (astAll_ne (tStmts_ne _ (by simp)))]
    simp only [List.isEmpty_cons, Bool.false_eq_true, if_false]
    apply h1.bind
    rintro ⟨v, b⟩ ⟨v', b'⟩ ⟨h2, h3, h4⟩
    rw [← M.bind_pure (Gleam.stmts ap _ _)]
    have hpr : Places (p.vars ++ Γ) (stmtsLocs (x :: xs)) := by
      apply Places.under
      exact hp.sub (List.Sublist.append (List.Sublist.refl _) (List.sublist_append_right _ _))
    apply (hr _ u _ _ hws hpr h4).bind
    rintro w ⟨w', b2⟩ ⟨h5, h6⟩
    refine MRel.pure ⟨h5, ?_⟩
    dsimp only at h3 h6 ⊢
    rw [keys_append]
    have hst : ∀ n, s.Taken n → u.Taken n := by
      intro n hn
      rw [← hu]
      have := defineAll_step s p.now
      rw [← tPattern_now s []] at this
      exact (tOne_step hw _).mono (this.mono hn)
    exact h3.append' h6 hst fun n hn => (tStmts_step c _ _ hws u).mono hn

theorem stmts_let (env : Gleam.Env) (p : Pattern) (e : Expr) (ss : List Stmt) :
    Gleam.stmts ap env (.let_ p e :: ss) =
      (assigned ap env p e).bind fun r => if ss.isEmpty then M.pure r.1 else Gleam.stmts ap (r.2 ++ env) ss := by
  unfold assigned
  cases ss with
  | nil =>
    rw [Gleam.stmts, M.bind_assoc]
    congr 1
    funext v
    cases Gleam.Pattern.run p v <;> rfl
  | cons x xs =>
    rw [Gleam.stmts, M.bind_assoc]
    congr 1
    funext v
    cases Gleam.Pattern.run p v <;> rfl

theorem sim_stmts_let {p : Pattern} {e : Expr} {ss : List Stmt} (h : ExprSim RW ap ap' c e) (hr : StmtsSim RW ap ap' c ss) :
    StmtsSim RW ap ap' c (.let_ p e :: ss) := by
  intro Γ s env env' hw hp hs
  simp only [stmtsWf] at hw
  simp only [stmtsLocs] at hp
  rw [stmts_let, tStmts]
  exact let_sim h hr hw.1 hw.2.1 hw.2.2.1 hw.2.2.2 hp hs

/-! ### `let assert` -/

mutual

theorem run_always : ∀ {p : Pattern}, p.alwaysMatches = true → ∀ v, Gleam.Pattern.run p v ≠ .no
  | .discard, _, v => by simp [Gleam.Pattern.run]
  | .var _ _, _, v => by simp [Gleam.Pattern.run]
  | .assign p x l, h, v => by
    simp only [Pattern.alwaysMatches] at h
    have := run_always h v
    simp only [Gleam.Pattern.run]
    cases hr : Gleam.Pattern.run p v <;> simp_all
  | .tuple ps, h, v => by
    simp only [Pattern.alwaysMatches] at h
    cases v <;> simp only [Gleam.Pattern.run] <;> try (intro hc; cases hc)
    exact runAll_always h _
  | .int _, h, _ => by simp [Pattern.alwaysMatches] at h
  | .string _, h, _ => by simp [Pattern.alwaysMatches] at h
  | .nil, h, _ => by simp [Pattern.alwaysMatches] at h
  | .cons _ _, h, _ => by simp [Pattern.alwaysMatches] at h
  | .ctor _ _, h, _ => by simp [Pattern.alwaysMatches] at h
  | .prefix _ _ _, h, _ => by simp [Pattern.alwaysMatches] at h

theorem runAll_always : ∀ {ps : List Pattern}, Pattern.alwaysMatches.allAlwaysMatch ps = true → ∀ vs,
    Gleam.Pattern.runAll ps vs ≠ .no
  | [], _, vs => by cases vs <;> simp [Gleam.Pattern.runAll]
  | p :: ps, h, vs => by
    simp only [Pattern.alwaysMatches.allAlwaysMatch, Bool.and_eq_true] at h
    cases vs with
    | nil => simp [Gleam.Pattern.runAll]
    | cons v vs =>
      have h1 := run_always h.1 v
      have h2 := runAll_always h.2 vs
      rw [runAll_cons]
      cases hr : Gleam.Pattern.run p v <;> cases hr2 : Gleam.Pattern.runAll ps vs <;> simp_all [gBoth]

end

/-- The error of a `let assert`. -/
def assertError (ap : Gleam.Value → List Gleam.Value → Gleam.Run W Gleam.Value) (env : Gleam.Env) (v : Gleam.Value)
    (i : AssertInfo) : Option Expr → Gleam.Run W Gleam.Value
  | none => M.error ⟨.letAssert, (Gleam.ErrorKind.message .letAssert).toList, i.line, some (v, i)⟩
  | some m => (Gleam.expr ap env m).bind fun w => Gleam.panicWith .letAssert i.line (some (v, i)) w

theorem stmts_letAssert (env : Gleam.Env) (p : Pattern) (e : Expr) (i : AssertInfo) (m : Option Expr) (ss : List Stmt) :
    Gleam.stmts ap env (.letAssert p e i m :: ss) = (Gleam.expr ap env e).bind fun v =>
      match Gleam.Pattern.run p v with
      | .yes b => if ss.isEmpty then M.pure v else Gleam.stmts ap (b ++ env) ss
      | .no => assertError ap env v i m
      | .bad => M.stuck := by
  cases ss with
  | nil =>
    cases m <;> rw [Gleam.stmts] <;> congr 1 <;> funext v <;> cases Gleam.Pattern.run p v <;> rfl
  | cons x xs =>
    cases m <;> rw [Gleam.stmts] <;> congr 1 <;> funext v <;> cases Gleam.Pattern.run p v <;> rfl

theorem stmts_always (env : Gleam.Env) {p : Pattern} (h : p.alwaysMatches = true) (e : Expr) (i : AssertInfo) (m : Option Expr)
    (ss : List Stmt) :
    Gleam.stmts ap env (.letAssert p e i m :: ss) =
      (assigned ap env p e).bind fun r => if ss.isEmpty then M.pure r.1 else Gleam.stmts ap (r.2 ++ env) ss := by
  rw [stmts_letAssert]
  unfold assigned
  rw [M.bind_assoc]
  congr 1
  funext v
  have := run_always h v
  cases hr : Gleam.Pattern.run p v with
  | no => exact absurd hr this
  | yes b => rfl
  | bad => rfl

/-- The pattern of the first clause if nothing follows. -/
theorem chain_match (s : State) {p : Pattern} (hp : p.Parts) (hv : Vars p.vars) {n : Text} (hu : n ≠ ['_'])
    (hn : n ∉ namesOf s p.now) {v : Gleam.Value} {v' : Erlang.Value} (hr : VRel v v') :
    match Gleam.Pattern.run p v with
    | .bad => True
    | .no => Erlang.pattern (chain ((tPattern s [] p).1.ast false) (.var n)) v' = .no
    | .yes _ => ∃ b', Erlang.pattern (chain ((tPattern s [] p).1.ast false) (.var n)) v' = .yes b' ∧
        (Erlang.keys b').Perm (n :: namesOf s p.now) ∧ b'.lookup n = some v' := by
  have hbn : Erlang.bindVar n v' = .yes [(n, v')] := by unfold Erlang.bindVar; rw [if_neg hu]
  by_cases ha : p.isAssign = true
  · cases p with
    | assign q x l =>
      simp only [Pattern.Parts] at hp
      simp only [Pattern.vars] at hv
      have hx : VariableName x := hv.2 x (by simp)
      have hnow : Vars (q.now ++ [(x, l)]) := by
        have : Vars ((Pattern.assign q x l).now) := Vars.now (p := .assign q x l) hv
        exact this
      have hchain : chain ((tPattern s [] (.assign q x l)).1.ast false) (.var n) =
          .binary .bind ((tPattern s [] q).1.ast false) (.binary .bind (.var (((tPattern s [] q).2.1).newVar x l).1) (.var n)) := by
        simp only [tPattern, Term.ast]
        rw [chain_simple s [] hp.1]
        rfl
      rw [hchain]
      have hsim := tPattern_sim s [] q hp.2 hv.left hr
      simp only [Gleam.Pattern.run]
      have hXs : nameOf x ((defineAll s q.now).count x) ∈ namesOf s (q.now ++ [(x, l)]) := by
        have := (bound_one [] (defineAll s q.now) x l hr).1
        rw [namesOf_defineAll s hnow] at this
        rw [namesOf_append]
        apply List.mem_append_right
        apply this.mem_iff.1
        simp [Erlang.keys]
      have hne : nameOf x ((defineAll s q.now).count x) ≠ n := by
        rintro rfl
        exact hn hXs
      have hin : Erlang.pattern (.binary .bind (.var (((tPattern s [] q).2.1).newVar x l).1) (.var n)) v' =
          .yes [(n, v'), (nameOf x ((defineAll s q.now).count x), v')] := by
        simp only [Erlang.pattern, tPattern_now, bindVar_new hx, hbn, Erlang.both]
        rw [join_disjoint (by simpa [Erlang.keys] using hne.symm)]
        rfl
      have hall : Erlang.pattern (.binary .bind ((tPattern s [] q).1.ast false)
          (.binary .bind (.var (((tPattern s [] q).2.1).newVar x l).1) (.var n))) v' =
          Erlang.both (.yes [(n, v'), (nameOf x ((defineAll s q.now).count x), v')])
            (Erlang.pattern ((tPattern s [] q).1.ast false) v') := by
        rw [Erlang.pattern, hin]
      rw [hall]
      cases hq : Gleam.Pattern.run q v with
      | bad => trivial
      | no =>
        rw [hq] at hsim
        simp only [MatchRel] at hsim
        simp [hsim, Erlang.both]
      | yes b =>
        rw [hq] at hsim
        obtain ⟨b', h1, h2⟩ := hsim
        obtain ⟨-, h4⟩ := h2.join (as2 := []) hnow (bound_one [] (defineAll s q.now) x l hr)
        have hN := h4.1.nodup_iff.2 (namesOf_nodup s hnow)
        rw [keys_append] at hN
        have hNd := (List.nodup_append.1 hN).2.2
        refine ⟨[(n, v'), (nameOf x ((defineAll s q.now).count x), v')] ++ b', ?_, ?_, ?_⟩
        · rw [h1]
          simp only [Erlang.both]
          rw [join_disjoint]
          intro m hm hc
          simp only [Erlang.keys, List.map_cons, List.map_nil, List.mem_cons, List.not_mem_nil, or_false] at hm
          rcases hm with rfl | rfl
          · apply hn
            show m ∈ namesOf s (q.now ++ [(x, l)])
            rw [namesOf_append]
            exact List.mem_append_left _ (h2.1.mem_iff.1 hc)
          · exact hNd _ hc _ (by simp [Erlang.keys]) rfl
        · have hp1 := h4.1
          rw [keys_append] at hp1
          rw [keys_append]
          show (n :: (_ :: _)).Perm _
          refine List.Perm.cons _ ?_
          refine List.Perm.trans ?_ hp1
          exact List.perm_append_comm (l₁ := [nameOf x ((defineAll s q.now).count x)])
        · simp
    | _ => simp [Pattern.isAssign] at ha
  · simp only [Bool.not_eq_true] at ha
    rw [chain_simple s [] ha]
    have hsim := tPattern_sim s [] p hp hv hr
    simp only [Erlang.pattern, hbn]
    cases hq : Gleam.Pattern.run p v with
    | bad => trivial
    | no =>
      rw [hq] at hsim
      simp only [MatchRel] at hsim
      simp [hsim, Erlang.both]
    | yes b =>
      rw [hq] at hsim
      obtain ⟨b', h1, h2⟩ := hsim
      refine ⟨(n, v') :: b', ?_, ?_, by simp⟩
      · rw [h1]
        simp only [Erlang.both]
        rw [join_disjoint]
        · rfl
        · intro m hm hc
          simp only [Erlang.keys, List.map_cons, List.map_nil, List.mem_singleton] at hm
          subst hm
          exact hn (h2.1.mem_iff.1 hc)
      · exact List.Perm.cons _ h2.1

end

end Verif.ErlGen
