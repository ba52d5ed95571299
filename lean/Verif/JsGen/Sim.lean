import Verif.JsGen.CaseSim

/-!
# All expressions and statements
-/

namespace Verif.JsGen

open Verif.ErlGen (Pattern Const Expr Stmt Clause varsAll M Out Match Op)
open Verif.ErlGen.Gleam (Panic)

section

variable {single : Text → Bool} {g : List (Text × Nat)} {W W' : Type} {RW : W → W' → Prop}
variable {ap : GValue → List GValue → GRun W GValue} {ap' : Value → List Value → Run W' Value}

theorem stmts_of_parts (hg : ∀ f ∈ texts g, synthetic f = false) : ∀ {ss : List Stmt}, (∀ s ∈ ss, StmtParts single g RW ap ap' s) →
    StmtsSim single g RW ap ap' ss
  | [], _ => stmts_nil
  | [s], h => stmts_one hg (h s (by simp))
  | s :: t :: ss, h => stmts_cons hg (h s (by simp)) (stmts_of_parts hg fun u hu => h u (List.mem_cons_of_mem s hu))

theorem args_of_all {es : List Expr} (h : ∀ e ∈ es, ExpSim single g RW ap ap' e) : ArgsSim single g RW ap ap' es := by
  induction es with
  | nil => exact args_nil
  | cons e es ih => exact args_cons (h e (by simp)) (ih fun e he => h e (by simp [he]))

variable (hg : ∀ f ∈ texts g, synthetic f = false) (hn : (texts g).Nodup) (hap : ApRel single g RW ap ap')
include hg hn hap

mutual

theorem sim_all : ∀ e : Expr, Both single g RW ap ap' e
  | .int n => both_int n
  | .string ps => both_string ps
  | .var x l => both_var x l
  | .ctor tag a => both_ctor tag a
  | .fnRef m f a => both_fnRef m f a
  | .const k => both_const k
  | .block [.expr e] => both_block_some rfl (sim_all e)
  | .block [.let_ _ e] => both_block_some rfl (sim_all e)
  | .block [] => both_block_none hg rfl stmts_nil
  | .block [.letAssert p e info m] => both_block_none hg rfl (stmts_of_parts hg (sim_stmts [.letAssert p e info m]))
  | .block (s :: t :: ss) => both_block_none hg (by cases s <;> rfl) (stmts_of_parts hg (sim_stmts (s :: t :: ss)))
  | .not e => both_not (sim_all e).1
  | .neg e => both_neg (sim_all e).1
  | .bin _ l r => both_bin (sim_all l).1 (sim_all r).1
  | .nil => both_nil
  | .cons h t => both_cons (sim_all h).1 (sim_all t).1
  | .tuple es => both_tuple (args_of_all (sim_args es))
  | .index e _ => both_index (sim_all e).1
  | .field e _ => both_field (sim_all e).1
  | .update (some (_, _)) record _ es => both_update_some hg (sim_all record).1 (args_of_all (sim_args es))
  | .update none _ _ es => both_update_none (args_of_all (sim_args es))
  | .fn _ _ => both_fn
  | .call f es => both_call hap hn (sim_all f).1 (sim_args es) (args_of_all (sim_args es))
  | .pipe _ _ value rest => both_pipe hg (sim_all value).1 (sim_all rest).2
  | .fail _ _ none => both_fail_none hg
  | .fail _ _ (some e) => both_fail_some hg (sim_all e).1
  | .case_ es cs => both_case hg (sim_args es) (sim_clauses cs)

theorem sim_args : ∀ es : List Expr, ∀ e ∈ es, ExpSim single g RW ap ap' e
  | [], _, h => by simp at h
  | e :: es, e', h => by
    rcases List.mem_cons.1 h with h | h
    · rw [h]
      exact (sim_all e).1
    · exact sim_args es e' h

theorem sim_stmts : ∀ ss : List Stmt, ∀ s ∈ ss, StmtParts single g RW ap ap' s
  | [], _, h => by simp at h
  | .expr e :: ss, s, h => by
    rcases List.mem_cons.1 h with rfl | h
    · exact (sim_all e).2
    · exact sim_stmts ss s h
  | .let_ p e :: ss, s, h => by
    rcases List.mem_cons.1 h with rfl | h
    · exact (sim_all e).1
    · exact sim_stmts ss s h
  | .letAssert p e info none :: ss, s, h => by
    rcases List.mem_cons.1 h with rfl | h
    · exact ⟨(sim_all e).1, fun m hm => by cases hm⟩
    · exact sim_stmts ss s h
  | .letAssert p e info (some m) :: ss, s, h => by
    rcases List.mem_cons.1 h with rfl | h
    · exact ⟨(sim_all e).1, fun m' hm => by cases hm; exact (sim_all m).1⟩
    · exact sim_stmts ss s h

theorem sim_clauses : ∀ cs : List Clause, ∀ cl ∈ cs, BodySim single g RW ap ap' (Clause.body cl)
  | [], _, h => by simp at h
  | .mk ps alts gd (.block ss) :: cs, cl, h => by
    rcases List.mem_cons.1 h with rfl | h
    · exact body_sim (fun ss' e => by cases e; exact stmts_of_parts hg (sim_stmts ss)) (fun h => by simp [Clause.body, isBlock] at h)
    · exact sim_clauses cs cl h
  | .mk ps alts gd body :: cs, cl, h => by
    rcases List.mem_cons.1 h with rfl | h
    · by_cases hb : ∃ ss, body = .block ss
      · obtain ⟨ss, rfl⟩ := hb
        exact body_sim (fun ss' e => by cases e; exact stmts_of_parts hg (sim_stmts ss)) (fun h => by simp [Clause.body, isBlock] at h)
      · exact body_sim (fun ss' e => absurd ⟨ss', e⟩ hb) fun _ => (sim_all body).2
    · exact sim_clauses cs cl h

end

/-- The statements of a body. -/
theorem sim_body (ss : List Stmt) : StmtsSim single g RW ap ap' ss := stmts_of_parts hg (sim_stmts hg hn hap ss)

end

end Verif.JsGen
