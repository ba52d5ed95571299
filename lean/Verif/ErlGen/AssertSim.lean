import Verif.ErlGen.LetSim

/-!
# `let assert`
-/

namespace Verif.ErlGen

open Verif.ErlText (Text Term astAll chain)
open Verif.Strings.Spec (Piece text UpperCamel)

section

variable {W W' : Type} {RW : W → W' → Prop} {ap : Gleam.Value → List Gleam.Value → Gleam.Run W Gleam.Value}
  {ap' : Erlang.Value → List Erlang.Value → Erlang.Run W' Erlang.Value} {c : Context}

/-- The error of a `let assert`. -/
def tAssertError (c : Context) (info : AssertInfo) (message : Option Expr) (value : Text × State) : Term × State :=
  match message with
  | none => tError c .letAssert info.line none (tAssertFields value.1 info) value.2
  | some m => tError c .letAssert info.line (some (tOne c m)) (tAssertFields value.1 info) value.2

theorem tStmts_letAssert (c : Context) (s : State) (p : Pattern) (e : Expr) (i : AssertInfo) (m : Option Expr) (ss : List Stmt) :
    tStmts c s (.letAssert p e i m :: ss) =
      if p.alwaysMatches then
        (.bind (tPattern s [] p).1 (tOne c e (tPattern s [] p).2.1).1 :: (tStmts c (tOne c e (tPattern s [] p).2.1).2 ss).1,
          (tStmts c (tOne c e (tPattern s [] p).2.1).2 ss).2)
      else
        let r := tOne c e s
        let first := tAsserted p (if ss.isEmpty then none else some fun s => tStmts c s ss) r.2
        let error := tAssertError c i m first.2.newGenerated
        ([.case_ r.1 [first.1, .mk (.var first.2.newGenerated.1) none [error.1]]], error.2) := by
  cases m <;> rw [tStmts] <;> rfl

/-- What is known of a `let assert`. -/
theorem wf_letAssert {Γ : Scope} {p : Pattern} {e : Expr} {i : AssertInfo} {m : Option Expr} {ss : List Stmt}
    (h : stmtsWf c.purity Γ (.letAssert p e i m :: ss)) :
    PatternsWf [p] ∧ e.Wf c.purity Γ ∧ (∀ m' ∈ m, m'.Wf c.purity Γ) ∧ stmtsWf c.purity (p.vars ++ Γ) ss := by
  cases m with
  | none => simp only [stmtsWf] at h; simpa using h
  | some m => simp only [stmtsWf] at h; simpa using h

/-- The places of the message. -/
def messageLocs : Option Expr → List Loc
  | none => []
  | some m => m.locs

theorem locs_letAssert (p : Pattern) (e : Expr) (i : AssertInfo) (m : Option Expr) (ss : List Stmt) :
    stmtsLocs (.letAssert p e i m :: ss) = p.vars.map Prod.snd ++ (e.locs ++ (stmtsLocs ss ++ messageLocs m)) := by
  cases m <;> simp [stmtsLocs, messageLocs]

theorem assertFields_eval (env' : Erlang.Env) {n : Text} {v' : Erlang.Value} (hn : env'.lookup n = some v') (i : AssertInfo) :
    ∃ m, Erlang.fields ap' env' (ErlText.fieldAst (tAssertFields n i)) = M.pure (m, []) ∧ (∀ k ∈ Erlang.keys m, k ∈ otherKeys) ∧
      ∀ v, VRel v v' → AssertRel m (some (v, i)) := by
  have h0 : Erlang.fields ap' env' (ErlText.fieldAst []) = M.pure ([], []) := by simp [ErlText.fieldAst, Erlang.fields]
  have hi : ∀ x : Int, Erlang.expr ap' env' (Term.ast false (.int x)) = M.pure (.int x, []) := fun x => expr_int ap' env' false x
  have hv : Erlang.expr ap' env' (Term.ast false (.var n)) = M.pure (v', []) := by
    simp only [Term.ast, Erlang.expr, hn]
    rfl
  unfold tAssertFields
  have h1 := fields_cons (k := "pattern_end".toList) h0 (hi i.patternStop) (by decide)
  have h2 := fields_cons (k := "pattern_start".toList) h1 (hi i.patternStart) (by simp only [Erlang.keys, List.map_cons, List.map_nil]; decide)
  have h3 := fields_cons (k := "end".toList) h2 (hi i.stop) (by simp only [Erlang.keys, List.map_cons, List.map_nil]; decide)
  have h4 := fields_cons (k := "start".toList) h3 (hi i.start) (by simp only [Erlang.keys, List.map_cons, List.map_nil]; decide)
  have h5 := fields_cons (k := "value".toList) h4 hv (by simp only [Erlang.keys, List.map_cons, List.map_nil]; decide)
  refine ⟨_, h5, ?_, ?_⟩
  · intro k hk
    exact hk
  · intro v hv
    exact ⟨⟨v', hv, rfl⟩, rfl, rfl, rfl, rfl⟩

/-- The clause of the error. -/
theorem assert_error {R : Gleam.Value → Erlang.Result → Prop} (hc : ContextOk c) {m : Option Expr}
    (h : ∀ m' ∈ m, ExprSim RW ap ap' c m') {Γ : Scope} {q : State} {env : Gleam.Env} {env' : Erlang.Env}
    (hw : ∀ m' ∈ m, m'.Wf c.purity Γ) (hp : Places Γ (messageLocs m)) (hs : Sit Γ q env env') (i : AssertInfo) {v : Gleam.Value} {v' : Erlang.Value}
    (hv : VRel v v') :
    MRel RW R (assertError ap env v i m)
      (Erlang.clauses ap' env' v' (ErlText.clauseAst
        [.mk (.var q.newGenerated.1) none [(tAssertError c i m q.newGenerated).1]])) := by
  have hb := newGenerated_between q
  have hst := newGenerated_step q
  generalize q.newGenerated = n at *
  have hn := hb n.1 (by simp)
  have hu : n.1 ≠ ['_'] := by
    intro he
    rw [he] at hn
    exact State.taken_underscore _ hn.2
  have hs1 : Sit Γ n.2 env ([(n.1, v')] ++ env') := hs.step hst (by simp) (by simpa [Erlang.keys] using hb)
  have hpat : Erlang.fresh env' (Erlang.pattern (.var n.1) v') = .yes [(n.1, v')] := by
    simp only [Erlang.pattern, Erlang.bindVar, if_neg hu]
    apply fresh_disjoint
    intro k hk
    simp only [Erlang.keys, List.map_cons, List.map_nil, List.mem_singleton] at hk
    rw [hk]
    exact fun hc => hn.1 (hs.bounded _ hc)
  obtain ⟨fs, hf1, hf2, hf3⟩ := assertFields_eval (ap' := ap') ([(n.1, v')] ++ env') (n := n.1) (v' := v') (by simp) i
  simp only [ErlText.clauseAst, Term.ast, Erlang.clauses, hpat, ErlText.astAll, seq_one]
  cases m with
  | none =>
    exact error_none hc _ _ _ _ hf1 hf2 (hf3 v hv)
  | some m =>
    exact error_some (h m rfl) hc (hw m rfl) hp hs1 _ _ hf1 hf2 (hf3 v hv)

theorem assertError_step {m : Option Expr} {Γ : Scope} (hw : ∀ m' ∈ m, m'.Wf c.purity Γ) (i : AssertInfo) (n : Text × State) :
    ∀ k, n.2.Taken k → (tAssertError c i m n).2.Taken k := by
  intro k hk
  cases m with
  | none => exact hk
  | some m => exact (tOne_step (hw m rfl) n.2).mono hk

/-- What follows the match of a `let assert`. -/
def assertThen (ap : Gleam.Value → List Gleam.Value → Gleam.Run W Gleam.Value) (env : Gleam.Env) (i : AssertInfo)
    (m : Option Expr) (ss : List Stmt) (v : Gleam.Value) : Match Gleam.Value → Gleam.Run W Gleam.Value
  | .yes b => if ss.isEmpty then M.pure v else Gleam.stmts ap (b ++ env) ss
  | .no => assertError ap env v i m
  | .bad => M.stuck

theorem stmts_assertThen (env : Gleam.Env) (p : Pattern) (e : Expr) (i : AssertInfo) (m : Option Expr) (ss : List Stmt) :
    Gleam.stmts ap env (.letAssert p e i m :: ss) = (Gleam.expr ap env e).bind fun v =>
      assertThen ap env i m ss v (Gleam.Pattern.run p v) := by
  rw [stmts_letAssert]
  rfl

/-- The clauses of a `let assert`. -/
theorem assert_clauses (hc : ContextOk c) {p : Pattern} {i : AssertInfo} {m : Option Expr} {ss : List Stmt}
    (hm : ∀ m' ∈ m, ExprSim RW ap ap' c m') (hr : StmtsSim RW ap ap' c ss)
    {Γ : Scope} {s : State} {env : Gleam.Env} {env' : Erlang.Env} (hpw : PatternsWf [p])
    (hwm : ∀ m' ∈ m, m'.Wf c.purity Γ) (hws : stmtsWf c.purity (p.vars ++ Γ) ss)
    (hp : Places Γ (p.vars.map Prod.snd ++ (stmtsLocs ss ++ messageLocs m))) (hs : Sit Γ s env env')
    {v : Gleam.Value} {v' : Erlang.Value} (hv : VRel v v') :
    let first := tAsserted p (if ss.isEmpty then none else some fun s => tStmts c s ss) s
    MRel RW (RRel s (tAssertError c i m first.2.newGenerated).2)
      (assertThen ap env i m ss v (Gleam.Pattern.run p v))
      (Erlang.clauses ap' env' v' (ErlText.clauseAst
        [first.1, .mk (.var first.2.newGenerated.1) none [(tAssertError c i m first.2.newGenerated).1]])) := by
  intro first
  have hstep : Step s first.2 _ _ := tAsserted_step p hpw ss (fun s => tStmts c s ss) _ _
    (fun s => tStmts_step c _ ss hws s) (by rintro rfl; simp [stmtsBinders]) s
  have hs1 : Sit Γ first.2 env env' := hs.step' hstep fun l hl => hp.2 l (by
    simp only [List.mem_append] at hl ⊢; tauto)
  have herr : ∀ {R : Gleam.Value → Erlang.Result → Prop}, MRel RW R (assertError ap env v i m) (Erlang.clauses ap' env' v'
      (ErlText.clauseAst [.mk (.var first.2.newGenerated.1) none [(tAssertError c i m first.2.newGenerated).1]])) :=
    assert_error hc hm hwm hp.right.right hs1 i hv
  have htf : ∀ n, first.2.Taken n → (tAssertError c i m first.2.newGenerated).2.Taken n := fun n hn =>
    assertError_step hwm i _ n ((newGenerated_step first.2).mono hn)
  obtain ⟨hparts, hvars⟩ := hpw.single
  by_cases hne : ss = []
  · subst hne
    have hfirst : first = (.mk (.bind (tPattern s.newGenerated.2 [] p).1 (.var s.newGenerated.1)) none [.var s.newGenerated.1],
        (tPattern s.newGenerated.2 [] p).2.1) := rfl
    clear_value first
    have hb := newGenerated_between s
    have hst := newGenerated_step s
    generalize s.newGenerated = n at *
    have hn := hb n.1 (by simp)
    have hu : n.1 ≠ ['_'] := by
      intro he
      rw [he] at hn
      exact State.taken_underscore _ hn.2
    have hbt := defineAll_between n.2 p.now hvars.now.2
    have hmatch := chain_match n.2 hparts hvars hu (fun hc => (hbt _ hc).1 hn.2) hv
    have h1 : first.1 = .mk (.bind (tPattern n.2 [] p).1 (.var n.1)) none [.var n.1] := by rw [hfirst]
    have h2 : first.2 = defineAll n.2 p.now := by rw [hfirst]; exact tPattern_now _ _ _
    generalize first.2 = f2 at *
    rw [h1]
    rw [show ∀ (a b : ErlText.Clause), ErlText.clauseAst [a, b] = ErlText.clauseAst [a] ++ ErlText.clauseAst [b] from
      fun a b => clauseAst_append [a] [b]]
    generalize ErlText.clauseAst [ErlText.Clause.mk (.var f2.newGenerated.1) none [(tAssertError c i m f2.newGenerated).1]] =
      cs at *
    simp only [ErlText.clauseAst, List.cons_append, List.nil_append, Erlang.clauses, Term.ast]
    cases hrun : Gleam.Pattern.run p v with
    | bad => exact MRel.stuck
    | no =>
      rw [hrun] at hmatch
      dsimp only at hmatch
      simp only [hmatch, Erlang.fresh]
      exact herr
    | yes b =>
      rw [hrun] at hmatch
      obtain ⟨b', h3, h4, h5⟩ := hmatch
      have hbk : Between s f2 (Erlang.keys b') := by
        intro k hk
        rcases List.mem_cons.1 (h4.mem_iff.1 hk) with rfl | hk
        · refine ⟨hn.1, ?_⟩
          rw [h2]
          exact (defineAll_step n.2 p.now).mono hn.2
        · refine ⟨fun hc => (hbt k hk).1 (hst.mono hc), ?_⟩
          rw [h2]
          exact (hbt k hk).2
      rw [h3, fresh_between hs.bounded hbk]
      simp only [ErlText.astAll, seq_one, Term.ast, Erlang.expr, lookup_append_of_lookup h5]
      simp only [assertThen, List.isEmpty_nil, if_true]
      exact MRel.pure ⟨hv, fun k hk => ⟨(hbk k hk).1, htf k (hbk k hk).2⟩⟩
  · have hemp : ss.isEmpty = false := by
      cases ss with
      | nil => exact absurd rfl hne
      | cons _ _ => rfl
    have hlocs := List.nodup_append.1 hp.1
    have hfirst : first = ((tAsserted p (some fun s => tStmts c s ss) s)) := by
      show tAsserted p (if ss.isEmpty = true then _ else _) s = _
      rw [hemp]
      rfl
    clear_value first
    have hone : ([first.1, .mk (.var first.2.newGenerated.1) none [(tAssertError c i m first.2.newGenerated).1]] : List ErlText.Clause) =
        (tBranches s.taken none (fun s => tStmts c s ss) s [[p]]).1 ++
          [.mk (.var first.2.newGenerated.1) none [(tAssertError c i m first.2.newGenerated).1]] := by
      rw [hfirst]
      rfl
    have htwo : first.2 = (tBranches s.taken none (fun s => tStmts c s ss) s [[p]]).2 := by
      rw [hfirst]
      rfl
    have hpv : Places (varsAll [p] ++ Γ) (stmtsLocs ss) := by
      rw [varsAll_one]
      apply Places.under
      exact hp.sub (List.Sublist.append (List.Sublist.refl _) (List.sublist_append_left _ _))
    have hB := branches_sim (RW := RW) (ap := ap) (ap' := ap') (s0 := s) (tf := (tAssertError c i m first.2.newGenerated).2)
      (g := none) (body := fun s => tStmts c s ss) (e := .block ss) (ps := [p]) (values := [v]) (v' := v')
      (next := assertError ap env v i m)
      (cs := [.mk (.var first.2.newGenerated.1) none [(tAssertError c i m first.2.newGenerated).1]])
      (fun s => tStmts_step c _ ss hws s) (fun s => tStmts_ne s hne)
      (by
        intro l hl
        refine ⟨hp.2 l (by simp [hl]), fun hc => ?_⟩
        rw [varsAll_one] at hc
        exact hlocs.2.2 l hc l (List.mem_append_left _ hl) rfl)
      (by
        intro t env env' h
        rw [Gleam.expr]
        refine hr _ t env env' ?_ hpv h
        rw [varsAll_one]
        exact hws)
      ⟨[v'], .cons hv .nil, rfl⟩ herr [] hs
      (by
        intro qs hqs
        simp only [List.mem_singleton] at hqs
        subst hqs
        exact ⟨hpw, List.Perm.refl _, by simp⟩)
      (by rw [varsAll_one]; exact hlocs.1)
      (by
        intro l hl
        rw [varsAll_one] at hl
        exact hp.2 l (List.mem_append_left _ hl))
      (by simp) (fun n hn => hn) (by rw [← htwo]; exact htf)
    rw [← hone] at hB
    have hleft : otherwise ap env (.block ss) (assertError ap env v i m) (Gleam.choose env none [[p]] [v]) =
        assertThen ap env i m ss v (Gleam.Pattern.run p v) := by
      simp only [Gleam.choose, Gleam.Pattern.runAll, List.length_singleton, if_true]
      cases Gleam.Pattern.run p v with
      | yes b => simp [otherwise, assertThen, Gleam.holds, Gleam.expr, hne]
      | no => rfl
      | bad => rfl
    rw [← hleft]
    exact hB

theorem sim_stmts_letAssert (hc : ContextOk c) {p : Pattern} {e : Expr} {i : AssertInfo} {m : Option Expr} {ss : List Stmt}
    (h : ExprSim RW ap ap' c e) (hm : ∀ m' ∈ m, ExprSim RW ap ap' c m') (hr : StmtsSim RW ap ap' c ss) :
    StmtsSim RW ap ap' c (.letAssert p e i m :: ss) := by
  intro Γ s env env' hw hp hs
  obtain ⟨hpw, hwe, hwm, hws⟩ := wf_letAssert hw
  rw [locs_letAssert] at hp
  rw [tStmts_letAssert]
  by_cases ha : p.alwaysMatches = true
  · rw [if_pos ha, stmts_always env ha]
    refine let_sim h hr hpw (alwaysMatches_aliases ha) hwe hws ?_ hs
    refine hp.sub (List.Sublist.append (List.Sublist.refl _) ?_)
    exact List.Sublist.append (List.Sublist.refl _) (List.sublist_append_left _ _)
  · rw [if_neg ha, stmts_assertThen]
    simp only [ErlText.astAll, seq_one, Term.ast, Erlang.expr, M.bind_assoc, M.pure_bind]
    apply (h.one hwe hp.right.left hs).bind
    rintro v ⟨v', a⟩ ⟨h1, h2⟩
    have hst := tOne_step hwe s
    have hs1 := hs.step hst hp.right.left.2 h2
    have hp' : Places Γ (p.vars.map Prod.snd ++ (stmtsLocs ss ++ messageLocs m)) :=
      hp.sub (List.Sublist.append (List.Sublist.refl _) (List.sublist_append_right _ _))
    have hB := assert_clauses (i := i) hc hm hr hpw hwm hws hp' hs1 h1
    have hfirst : Step (tOne c e s).2 (tAsserted p (if ss.isEmpty then none else some fun s => tStmts c s ss) (tOne c e s).2).2 _ _ :=
      tAsserted_step p hpw ss (fun s => tStmts c s ss) _ _
        (fun s => tStmts_step c _ ss hws s) (by rintro rfl; simp [stmtsBinders]) _
    dsimp only at hB h1 h2 ⊢
    rw [← M.bind_pure (assertThen ap env i m ss v (Gleam.Pattern.run p v))]
    apply hB.bind
    rintro w ⟨w', b⟩ ⟨h3, h4⟩
    refine MRel.pure ⟨h3, ?_⟩
    rw [keys_append]
    exact h2.append' h4 (fun n hn => hst.mono hn)
      fun n hn => assertError_step hwm i _ n ((newGenerated_step _).mono (hfirst.mono hn))

end

end Verif.ErlGen
