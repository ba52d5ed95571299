import Verif.ErlGen.AssertSim

/-!
# The simulation

Whatever calls of functions do, the terms of an expression do the same as the expression.
-/

namespace Verif.ErlGen

open Verif.ErlText (Text Term astAll chain)
open Verif.Strings.Spec (Piece text UpperCamel)

section

variable {W W' : Type} {RW : W → W' → Prop} {ap : Gleam.Value → List Gleam.Value → Gleam.Run W Gleam.Value}
  {ap' : Erlang.Value → List Erlang.Value → Erlang.Run W' Erlang.Value} {c : Context}

/-- The operators. -/
theorem sim_op {op : Op} {l r : Expr} (hl : ExprSim RW ap ap' c l) (hr : ExprSim RW ap ap' c r) :
    ExprSim RW ap ap' c (.bin op l r) := by
  by_cases h1 : op = .and
  · subst h1; exact sim_and hl hr
  by_cases h2 : op = .or
  · subst h2; exact sim_or hl hr
  by_cases h3 : op = .concat
  · subst h3; exact sim_concat hl hr
  by_cases h4 : op = .div
  · exact sim_division (Or.inl h4) hl hr
  by_cases h5 : op = .rem
  · exact sim_division (Or.inr h5) hl hr
  exact sim_bin hl hr h1 h2 h3 h4 h5

/-- All calls. -/
theorem sim_any_call (hcalls : Calls RW ap ap') {f : Expr} {es : List Expr} (h : ExprSim RW ap ap' c f)
    (ha : ArgsSim RW ap ap' c es) : ExprSim RW ap ap' c (.call f es) := by
  by_cases h1 : ∃ tag n, f = .ctor tag n
  · obtain ⟨tag, n, rfl⟩ := h1
    exact sim_call_ctor ha
  by_cases h2 : ∃ m g n, f = .fnRef m g n
  · obtain ⟨m, g, n, rfl⟩ := h2
    cases m with
    | none => exact sim_call_local hcalls ha
    | some m => exact sim_call_remote hcalls ha
  exact sim_call hcalls (fun tag n he => h1 ⟨tag, n, he⟩) (fun m g n he => h2 ⟨m, g, n, he⟩) h ha

theorem sim_stmt {e : Expr} {ss : List Stmt} (h : ExprSim RW ap ap' c e) (hr : StmtsSim RW ap ap' c ss) :
    StmtsSim RW ap ap' c (.expr e :: ss) := by
  cases ss with
  | nil => exact sim_stmts_last h
  | cons x xs => exact sim_stmts_expr (by simp) h hr

variable (hcalls : Calls RW ap ap') (hc : ContextOk c)

include hcalls hc

mutual

theorem exprSim : ∀ e : Expr, ExprSim RW ap ap' c e
  | .int n => sim_int n
  | .string ps => sim_string ps
  | .var x l => sim_var x l
  | .ctor tag n => sim_ctor tag n
  | .fnRef m f n => sim_fnRef m f n
  | .const k => sim_const k
  | .block ss => sim_block (stmtsSim ss)
  | .not e => sim_not (exprSim e)
  | .neg e => sim_neg (exprSim e)
  | .bin _ l r => sim_op (exprSim l) (exprSim r)
  | .nil => sim_nil
  | .cons l r => sim_cons (exprSim l) (exprSim r)
  | .tuple es => sim_tuple (argsSim es)
  | .index e _ => sim_index _ (exprSim e)
  | .field e _ => sim_field _ (exprSim e)
  | .update (some (_, _)) record _ es => sim_update_some (exprSim record) (argsSim es)
  | .update none _ _ es => sim_update_none (argsSim es)
  | .fn params body => sim_fn hc params body
  | .call f es => sim_any_call hcalls (exprSim f) (argsSim es)
  | .pipe _ _ value rest => sim_pipe (exprSim value) (exprSim rest)
  | .fail kind line none => sim_fail_none hc kind line
  | .fail kind line (some e) => sim_fail_some hc kind line (exprSim e)
  | .case_ [e] cs => sim_case_one (exprSim e) (clausesSim cs)
  | .case_ [] cs => sim_case_many (by simp) sim_noArgs (clausesSim cs)
  | .case_ (e :: f :: es) cs => sim_case_many (by simp) (sim_args (exprSim e) (sim_args (exprSim f) (argsSim es))) (clausesSim cs)

theorem argsSim : ∀ es : List Expr, ArgsSim RW ap ap' c es
  | [] => sim_noArgs
  | e :: es => sim_args (exprSim e) (argsSim es)

theorem stmtsSim : ∀ ss : List Stmt, StmtsSim RW ap ap' c ss
  | [] => sim_stmts_nil
  | .expr e :: ss => sim_stmt (exprSim e) (stmtsSim ss)
  | .let_ _ e :: ss => sim_stmts_let (exprSim e) (stmtsSim ss)
  | .letAssert _ e _ none :: ss => sim_stmts_letAssert hc (exprSim e) (by simp) (stmtsSim ss)
  | .letAssert _ e _ (some m) :: ss =>
    sim_stmts_letAssert hc (exprSim e) (by rintro m' ⟨⟩; exact exprSim m) (stmtsSim ss)

theorem clausesSim : ∀ cs : List Clause, ClausesSim RW ap ap' c cs
  | [] => sim_clauses_nil
  | .mk _ _ _ body :: cs => sim_clauses_cons (bodySim body) (clausesSim cs)

theorem bodySim : ∀ e : Expr, BodySim RW ap ap' c e
  | .block ss => body_block (stmtsSim ss)
  | .int n => body_expr (by simp) (sim_int n)
  | .string ps => body_expr (by simp) (sim_string ps)
  | .var x l => body_expr (by simp) (sim_var x l)
  | .ctor tag n => body_expr (by simp) (sim_ctor tag n)
  | .fnRef m f n => body_expr (by simp) (sim_fnRef m f n)
  | .const k => body_expr (by simp) (sim_const k)
  | .not e => body_expr (by simp) (sim_not (exprSim e))
  | .neg e => body_expr (by simp) (sim_neg (exprSim e))
  | .bin _ l r => body_expr (by simp) (sim_op (exprSim l) (exprSim r))
  | .nil => body_expr (by simp) (sim_nil)
  | .cons l r => body_expr (by simp) (sim_cons (exprSim l) (exprSim r))
  | .tuple es => body_expr (by simp) (sim_tuple (argsSim es))
  | .index e _ => body_expr (by simp) (sim_index _ (exprSim e))
  | .field e _ => body_expr (by simp) (sim_field _ (exprSim e))
  | .update (some (_, _)) record _ es => body_expr (by simp) (sim_update_some (exprSim record) (argsSim es))
  | .update none _ _ es => body_expr (by simp) (sim_update_none (argsSim es))
  | .fn params body => body_expr (by simp) (sim_fn hc params body)
  | .call f es => body_expr (by simp) (sim_any_call hcalls (exprSim f) (argsSim es))
  | .pipe _ _ value rest => body_expr (by simp) (sim_pipe (exprSim value) (exprSim rest))
  | .fail kind line none => body_expr (by simp) (sim_fail_none hc kind line)
  | .fail kind line (some e) => body_expr (by simp) (sim_fail_some hc kind line (exprSim e))
  | .case_ [e] cs => body_expr (by simp) (sim_case_one (exprSim e) (clausesSim cs))
  | .case_ [] cs => body_expr (by simp) (sim_case_many (by simp) sim_noArgs (clausesSim cs))
  | .case_ (e :: f :: es) cs =>
    body_expr (by simp) (sim_case_many (by simp) (sim_args (exprSim e) (sim_args (exprSim f) (argsSim es))) (clausesSim cs))

end

end

end Verif.ErlGen
