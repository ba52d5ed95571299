import Verif.ErlGen.BranchSim

/-!
# Clauses, blocks and assignments
-/

namespace Verif.ErlGen

open Verif.ErlText (Text Term astAll chain)
open Verif.Strings.Spec (Piece text UpperCamel)

section

variable {W W' : Type} {RW : W → W' → Prop} {ap : Gleam.Value → List Gleam.Value → Gleam.Run W Gleam.Value}
  {ap' : Erlang.Value → List Erlang.Value → Erlang.Run W' Erlang.Value} {c : Context}

/-! ### Clauses -/

/-- The terms of the body of a clause do the same as the body. -/
def BodySim (RW : W → W' → Prop) (ap : Gleam.Value → List Gleam.Value → Gleam.Run W Gleam.Value)
    (ap' : Erlang.Value → List Erlang.Value → Erlang.Run W' Erlang.Value) (c : Context) (e : Expr) : Prop :=
  ∀ Γ s env env', e.Wf c.purity Γ → Places Γ e.locs → Sit Γ s env env' →
    MRel RW (RRel s (tBody c e s).2) (Gleam.expr ap env e) (Erlang.seq ap' env' (astAll (tBody c e s).1))

theorem body_block {ss : List Stmt} (h : StmtsSim RW ap ap' c ss) : BodySim RW ap ap' c (.block ss) := by
  intro Γ s env env' hw hp hs
  simp only [Expr.Wf] at hw
  simp only [Expr.locs] at hp
  rw [Gleam.expr]
  exact h Γ s env env' hw.2 hp hs

theorem body_expr {e : Expr} (hb : ∀ ss, e ≠ .block ss) (h : ExprSim RW ap ap' c e) : BodySim RW ap ap' c e := by
  have he : tBody c e = fun s => tExpr c s e := by
    cases e <;> first | rfl | exact absurd rfl (hb _)
  unfold BodySim
  rw [he]
  exact h

theorem tBody_step {Γ : Scope} {e : Expr} (hw : e.Wf c.purity Γ) (s : State) : Step s (tBody c e s).2 e.binders e.locs := by
  cases e with
  | block ss =>
    simp only [Expr.Wf] at hw
    simp only [Expr.binders, Expr.locs]
    exact tStmts_step c Γ ss hw.2 s
  | _ => exact tExpr_step c Γ _ hw s

theorem tStmts_ne (s : State) {ss : List Stmt} (h : ss ≠ []) : (tStmts c s ss).1 ≠ [] := by
  match ss with
  | [] => exact absurd rfl h
  | .expr e :: ss =>
    rw [tStmts]
    simp [tExpr_ne]
  | .let_ p e :: ss => rw [tStmts]; simp
  | .letAssert p e i m :: ss =>
    rw [tStmts]
    split <;> simp

theorem tBody_ne {Γ : Scope} {e : Expr} (hw : e.Wf c.purity Γ) (s : State) : (tBody c e s).1 ≠ [] := by
  cases e with
  | block ss =>
    simp only [Expr.Wf] at hw
    exact tStmts_ne s hw.1
  | _ => exact tExpr_ne s _

theorem clauses_cons (env : Gleam.Env) (vs : List Gleam.Value) (ps : List Pattern) (alternatives : List (List Pattern))
    (g : Option Guard) (body : Expr) (cs : List Clause) :
    Gleam.clauses ap env vs (.mk ps alternatives g body :: cs) =
      otherwise ap env body (Gleam.clauses ap env vs cs) (Gleam.choose env g (ps :: alternatives) vs) := by
  rw [Gleam.clauses]
  cases Gleam.choose env g (ps :: alternatives) vs <;> rfl

theorem sim_clauses_nil : ClausesSim RW ap ap' c [] := by
  intro Γ s env env' vs v' _ _ _ _
  rw [Gleam.clauses]
  exact MRel.stuck

theorem sim_clauses_cons {ps : List Pattern} {alternatives : List (List Pattern)} {g : Option Guard} {body : Expr}
    {cs : List Clause} (hb : BodySim RW ap ap' c body) (h : ClausesSim RW ap ap' c cs) :
    ClausesSim RW ap ap' c (.mk ps alternatives g body :: cs) := by
  intro Γ s env env' vs v' hw hp hs hsub
  simp only [clausesWf] at hw
  simp only [clausesLocs] at hp
  rw [clauses_cons, tClauses_cons]
  dsimp only
  have hstep : Step s (tBranches s.taken g (tBody c body) s (ps :: alternatives)).2 _ _ :=
    tBranches_step s.taken g (tBody c body) body.binders body.locs (tBody_step hw.2.1) ((varsAll ps).map Prod.fst)
      (ps :: alternatives) s (by simp) fun qs hqs => ⟨(hw.1 qs hqs).1, (hw.1 qs hqs).2.1⟩
  have hrest := tClauses_step c Γ cs hw.2.2 (tBranches s.taken g (tBody c body) s (ps :: alternatives)).2
  have hnd := List.nodup_append.1 hp.1
  have hnd1 := List.nodup_append.1 hnd.1
  have hnd2 := List.nodup_append.1 hnd.2.1
  have hbl : ∀ l ∈ body.locs, l ∉ Γ.map Prod.snd ∧ l ∉ (varsAll ps).map Prod.snd := by
    intro l hl
    refine ⟨hp.2 l (by simp [hl]), fun hc => ?_⟩
    exact hnd.2.2 l (List.mem_append_left _ hc) l (List.mem_append_left _ hl) rfl
  have hpb : Places (varsAll ps ++ Γ) body.locs := by
    apply Places.under
    refine hp.sub ?_
    exact List.Sublist.append (List.sublist_append_left _ _) (List.sublist_append_left _ _)
  refine branches_sim (tBody_step hw.2.1) (tBody_ne hw.2.1) hbl (fun t env env' h => hb _ t env env' hw.2.1 hpb h) hsub ?_
    alternatives hs hw.1 hnd1.1 (fun l hl => hp.2 l (by simp [hl])) ?_ (fun n hn => hn) (fun n hn => hrest.mono hn)
  · have hs' : Sit Γ (tBranches s.taken g (tBody c body) s (ps :: alternatives)).2 env env' := by
      refine hs.step' hstep ?_
      intro l hl
      apply hp.2
      simp only [List.flatMap_cons, List.mem_append] at hl ⊢
      tauto
    refine (h Γ _ env env' vs v' hw.2.2 hp.right.right hs' hsub).mono ?_
    rintro v r ⟨h1, h2⟩
    exact ⟨h1, fun n hn => ⟨fun hc => (h2 n hn).1 (hstep.mono hc), (h2 n hn).2⟩⟩
  · intro qs hqs l hl
    have hin : l ∈ alternatives.flatMap fun qs => (varsAll qs).map Prod.snd := List.mem_flatMap.2 ⟨qs, hqs, hl⟩
    refine ⟨hp.2 l (by simp only [List.mem_append]; exact Or.inl (Or.inr hin)), fun hc => ?_⟩
    exact hnd1.2.2 l hc l hin rfl

/-! ### `case` -/

theorem sim_case_one {e : Expr} {cs : List Clause} (h : ExprSim RW ap ap' c e) (hc : ClausesSim RW ap ap' c cs) :
    ExprSim RW ap ap' c (.case_ [e] cs) := by
  intro Γ s env env' hw hp hs
  simp only [Expr.Wf, exprsWf] at hw
  simp only [Expr.locs, exprsLocs, List.append_nil] at hp
  rw [tExpr, Gleam.expr]
  simp only [Gleam.args, ErlText.astAll, seq_one, Term.ast, Erlang.expr, M.bind_assoc, M.pure_bind]
  apply (h.one hw.1.1 hp.left hs).bind
  rintro v ⟨v', a⟩ ⟨h1, h2⟩
  have hst := tOne_step hw.1.1 s
  have hs1 := hs.step hst hp.left.2 h2
  rw [← M.bind_pure (Gleam.clauses ap env [v] cs)]
  apply (hc Γ _ env _ [v] v' hw.2.2 hp.right hs1 ⟨[v'], .cons h1 .nil, rfl⟩).bind
  rintro w ⟨w', b⟩ ⟨h3, h4⟩
  refine MRel.pure ⟨h3, ?_⟩
  rw [keys_append]
  exact h2.append' h4 (fun n hn => hst.mono hn) fun n hn => (tClauses_step c Γ cs hw.2.2 _).mono hn

theorem sim_case_many {es : List Expr} {cs : List Clause} (hne : ∀ e, es ≠ [e]) (h : ArgsSim RW ap ap' c es)
    (hc : ClausesSim RW ap ap' c cs) : ExprSim RW ap ap' c (.case_ es cs) := by
  intro Γ s env env' hw hp hs
  simp only [Expr.Wf] at hw
  simp only [Expr.locs] at hp
  rw [tExpr, Gleam.expr]
  case x_1 => exact fun e he => hne e he
  simp only [ErlText.astAll, seq_one, Term.ast, Erlang.expr, M.bind_assoc, M.pure_bind]
  apply (h.length hw.1 hp.left hs).bind
  rintro vs ⟨vs', a⟩ ⟨⟨h1, h2⟩, h5⟩
  have hst := tArgs_step c Γ es hw.1 s
  have hs1 := hs.step hst hp.left.2 h2
  have hsub : Subject vs (.tuple vs') := by
    refine ⟨vs', h1, ?_⟩
    have := h1.length
    match vs', es with
    | [], _ => rfl
    | [w], [] => simp_all
    | [w], [e] => exact absurd rfl (hne e)
    | [w], _ :: _ :: _ => simp_all
    | _ :: _ :: _, _ => rfl
  rw [← M.bind_pure (Gleam.clauses ap env vs cs)]
  apply (hc Γ _ env _ vs _ hw.2.2 hp.right hs1 hsub).bind
  rintro w ⟨w', b⟩ ⟨h3, h4⟩
  refine MRel.pure ⟨h3, ?_⟩
  rw [keys_append]
  exact h2.append' h4 (fun n hn => hst.mono hn) fun n hn => (tClauses_step c Γ cs hw.2.2 _).mono hn

/-! ### Blocks -/

theorem sim_block {ss : List Stmt} (h : StmtsSim RW ap ap' c ss) : ExprSim RW ap ap' c (.block ss) := by
  intro Γ s env env' hw hp hs
  simp only [Expr.Wf] at hw
  simp only [Expr.locs] at hp
  have h1 := h Γ s env env' hw.2 hp hs
  rw [Gleam.expr]
  by_cases hone : ∃ e, ss = [.expr e]
  · obtain ⟨e, rfl⟩ := hone
    rw [tExpr]
    simp only [ErlText.astAll, seq_one]
    rw [show (tMaybe (needsWrap c.purity e) (fun s => tExpr c s e) s) = tOne c e s from rfl, expr_one]
    rw [tStmts] at h1
    simp only [tStmts, List.append_nil] at h1
    exact h1
  · rw [tExpr]
    · simp only [ErlText.astAll, seq_one, Term.ast, Erlang.expr]
      exact h1
    · intro e he
      exact hone ⟨e, he⟩

/-! ### Statements -/

theorem sim_stmts_nil : StmtsSim RW ap ap' c [] := by
  intro Γ s env env' _ _ _
  rw [Gleam.stmts]
  exact MRel.stuck

theorem sim_stmts_last {e : Expr} (h : ExprSim RW ap ap' c e) : StmtsSim RW ap ap' c [.expr e] := by
  intro Γ s env env' hw hp hs
  simp only [stmtsWf] at hw
  simp only [stmtsLocs, List.append_nil] at hp
  rw [Gleam.stmts, tStmts]
  simp only [tStmts, List.append_nil]
  exact h Γ s env env' hw.1 hp hs

theorem sim_stmts_expr {e : Expr} {ss : List Stmt} (hne : ss ≠ []) (h : ExprSim RW ap ap' c e)
    (hr : StmtsSim RW ap ap' c ss) : StmtsSim RW ap ap' c (.expr e :: ss) := by
  intro Γ s env env' hw hp hs
  simp only [stmtsWf] at hw
  simp only [stmtsLocs] at hp
  have hg : Gleam.stmts ap env (.expr e :: ss) = (Gleam.expr ap env e).bind fun _ => Gleam.stmts ap env ss := by
    cases ss with
    | nil => exact absurd rfl hne
    | cons _ _ => rw [Gleam.stmts]
  rw [hg, tStmts]
  dsimp only
  rw [astAll_append, seq_append ap' env' (astAll_ne (tExpr_ne s e)) (astAll_ne (tStmts_ne _ hne))]
  apply (h Γ s env env' hw.1 hp.left hs).bind
  rintro v ⟨v', a⟩ ⟨h1, h2⟩
  have hst := tExpr_step c Γ e hw.1 s
  have hs1 := hs.step hst hp.left.2 h2
  rw [← M.bind_pure (Gleam.stmts ap env ss)]
  apply (hr Γ _ env _ hw.2 hp.right hs1).bind
  rintro w ⟨w', b⟩ ⟨h3, h4⟩
  refine MRel.pure ⟨h3, ?_⟩
  rw [keys_append]
  exact h2.append' h4 (fun n hn => hst.mono hn) fun n hn => (tStmts_step c Γ ss hw.2 _).mono hn

end

end Verif.ErlGen
