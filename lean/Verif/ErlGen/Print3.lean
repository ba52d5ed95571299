import Verif.ErlGen.Print2
import Verif.ErlText.Forms

/-!
# The generated terms can be printed: clauses, statements and modules
-/

namespace Verif.ErlGen

open Verif.ErlText (Text Term OkAll OkClauses OkFields OkSegments VarName AtomText wellQuoted Kind Form FormsOk)
open Verif.Strings.Spec (Piece text UpperCamel)

section

variable {c : Context}

/-! ### Clauses -/

theorem okClauses_append (as bs : List ErlText.Clause) (h : OkClauses as) (h' : OkClauses bs) : OkClauses (as ++ bs) := by
  induction as with
  | nil => exact h'
  | cons a as ih =>
    obtain ⟨p, g, b⟩ := a
    cases g with
    | none =>
      simp only [List.cons_append, OkClauses] at h ⊢
      exact ⟨h.1, h.2.1, h.2.2.1, ih h.2.2.2⟩
    | some g =>
      simp only [List.cons_append, OkClauses] at h ⊢
      exact ⟨h.1, h.2.1, h.2.2.1, h.2.2.2.1, ih h.2.2.2.2⟩

theorem stored_get {as : List (Text × Loc × List Piece)} {x : Text} (h : x ∈ as.map fun a => a.1) :
    (storedAliases as).get x ≠ none := by
  obtain ⟨a, ha, rfl⟩ := List.mem_map.1 h
  unfold Later.get
  rw [ne_eq, Option.map_eq_none_iff, List.find?_eq_none]
  intro hc
  exact hc (a.1, a.2.1, text a.2.2) (List.mem_map.2 ⟨a, ha, rfl⟩) (by simp)

theorem ordered_names {qs : List Pattern} (h : PatternsWf qs) : ∀ x ∈ (ordered qs).map Prod.fst, VariableName x := fun x hx =>
  h.2.2 x (((ordered_perm qs).map Prod.fst).mem_iff.1 hx)

theorem now_names {qs : List Pattern} (h : PatternsWf qs) : ∀ x ∈ (nowAll qs).map Prod.fst, VariableName x := fun x hx =>
  h.2.2 x (((varsAll_perm qs).map Prod.fst).mem_iff.2 (by rw [List.map_append]; exact List.mem_append_left _ hx))

/-- One alternative of a clause. -/
theorem branch_ok {Γ vs : Scope} {s : State} (hs : Ready Γ s) {qs : List Pattern} (hq : PatternsWf qs)
    (hv : ∀ v ∈ vs, s.names v.2 ≠ none ∨ v ∈ varsAll qs) :
    let p := tSubjectPatterns s [] qs
    let a := tAssignments p.2.1 (sortLater p.2.2)
    p.1.Ok .pattern ∧ (∀ g : Guard, g.Wf ((aliasesAll qs).map fun a => a.1) (vs ++ Γ) → (tGuard p.2.1 p.2.2 g).Ok .expression) ∧
      OkAll .expression a.1 ∧ Ext s a.2 ∧ Ready (vs ++ Γ) a.2 := by
  intro p a
  have hp : p.2 = (defineAll s (nowAll qs), storedAliases (aliasesAll qs)) := tSubjectPatterns_state s [] qs hq.aliases
  have ha : a.2 = defineAll s (ordered qs) := branch_state s hq
  obtain ⟨h1, h2⟩ := defineAll_ext s (nowAll qs) (now_names hq)
  obtain ⟨h3, h4⟩ := defineAll_ext s (ordered qs) (ordered_names hq)
  refine ⟨subject_ok s hq, ?_, ?_, ?_, ?_⟩
  · intro g hg
    rw [hp]
    refine guard_ok (Γ := vs ++ Γ) ⟨h1.good hs.good, ?_⟩ (stored_ok hq) (fun x hx => stored_get hx) g hg
    intro x l hx hn
    have hm := mem_of_lookup hx
    rcases List.mem_append.1 hm with hm | hm
    · rcases hv _ hm with h5 | h5
      · exact h1.keep _ h5
      · have h6 := (varsAll_perm qs).mem_iff.1 h5
        rcases List.mem_append.1 h6 with h6 | h6
        · exact h2 _ h6
        · exfalso
          apply hn
          obtain ⟨b, hb, he⟩ := List.mem_map.1 h6
          exact List.mem_map.2 ⟨b, hb, by cases he; rfl⟩
    · exact h1.keep _ (hs.has x l hm)
  · refine assignments_ok _ (sortLater_ok ?_)
    rw [hp]
    exact stored_ok hq
  · rw [ha]; exact h3
  · rw [ha]
    refine (hs.ext h3).append ?_
    intro v hv1
    rcases hv v hv1 with h5 | h5
    · exact h3.keep _ h5
    · exact h4 v ((ordered_perm qs).mem_iff.2 h5)

theorem clause_ok {p : Term} {g : Option Term} {as bs : List Term} (hp : p.Ok .pattern) (hg : ∀ g' ∈ g, g'.Ok .expression)
    (ha : OkAll .expression as) (hb : OkAll .expression bs) (hn : bs ≠ []) {cs : List ErlText.Clause} (hc : OkClauses cs) :
    OkClauses (.mk p g (as ++ bs) :: cs) := by
  have h1 : as ++ bs ≠ [] := by simp [hn]
  have h2 := (okAll_append .expression as bs).2 ⟨ha, hb⟩
  cases g with
  | none => simp only [OkClauses]; exact ⟨hp, h1, h2, hc⟩
  | some g => simp only [OkClauses]; exact ⟨hp, hg g rfl, h1, h2, hc⟩

/-- The alternatives of a clause. -/
theorem branches_ok {Γ vs : Scope} {g : Option Guard} {body : TGens} (before : Text → Option Nat)
    (hb : ∀ t, Ready (vs ++ Γ) t → OkAll .expression (body t).1 ∧ (body t).1 ≠ [] ∧ Ext t (body t).2) :
    ∀ (qss : List (List Pattern)) (s : State), Ready Γ s →
      (∀ qs ∈ qss, PatternsWf qs ∧ ∀ g' ∈ g, g'.Wf ((aliasesAll qs).map fun a => a.1) (vs ++ Γ)) →
      (∀ v ∈ vs, s.names v.2 ≠ none ∨ ∀ qs ∈ qss.head?, v ∈ varsAll qs) →
      OkClauses (tBranches before g body s qss).1 ∧ Ext s (tBranches before g body s qss).2
  | [], s, hs, _, _ => by rw [tBranches]; exact ⟨trivial, Ext.refl s⟩
  | qs :: rest, s, hs, hq, hv => by
    have hs' : Ready Γ { s with taken := before } := hs.ext (ext_reset s before)
    obtain ⟨h1, h2⟩ := hq qs (by simp)
    obtain ⟨h3, h4, h5, h6, h7⟩ := branch_ok (vs := vs) hs' h1 (fun v hv1 => by
      rcases hv v hv1 with h | h
      · exact Or.inl h
      · exact Or.inr (h qs (by simp)))
    obtain ⟨h8, h9, h10⟩ := hb _ h7
    have hr : Ready (vs ++ Γ) (body (tAssignments (tSubjectPatterns { s with taken := before } [] qs).2.1
      (sortLater (tSubjectPatterns { s with taken := before } [] qs).2.2)).2).2 := h7.ext h10
    obtain ⟨h11, h12⟩ := branches_ok before hb rest _
      ⟨hr.good, fun x l hx => hr.has x l (List.mem_append_right _ hx)⟩
      (fun qs' hqs => hq qs' (List.mem_cons_of_mem _ hqs)) (fun v hv1 => Or.inl (hr.has v.1 v.2 (List.mem_append_left _ hv1)))
    rw [tBranches]
    refine ⟨clause_ok h3 ?_ h5 h8 h9 h11, (ext_reset s before).trans (h6.trans (h10.trans h12))⟩
    intro g' hg
    obtain ⟨g0, hg0, rfl⟩ := Option.map_eq_some_iff.1 hg
    exact h4 g0 (h2 g0 hg0)

theorem ok_clauses_nil : ClausesOk c [] := fun Γ s hw hs => by rw [tClauses]; exact ⟨trivial, Ext.refl s⟩

theorem ok_clauses_cons {ps : List Pattern} {alternatives : List (List Pattern)} {g : Option Guard} {body : Expr} {cs : List Clause}
    (hb : BodyOk c body) (hcs : ClausesOk c cs) : ClausesOk c (.mk ps alternatives g body :: cs) := fun Γ s hw hs => by
  simp only [clausesWf] at hw
  rw [tClauses_cons]
  obtain ⟨h1, h2⟩ := branches_ok (Γ := Γ) (vs := varsAll ps) (g := g) (body := tBody c body) s.taken
    (fun t ht => ⟨(hb _ t hw.2.1 ht).1, tBody_ne hw.2.1 t, (hb _ t hw.2.1 ht).2⟩) (ps :: alternatives) s hs
    (fun qs hqs => ⟨(hw.1 qs hqs).1, (hw.1 qs hqs).2.2⟩) (fun v hv => Or.inr (by simpa using hv))
  obtain ⟨h3, h4⟩ := hcs _ _ hw.2.2 (hs.ext h2)
  exact ⟨okClauses_append _ _ h1 h3, h2.trans h4⟩

theorem tClauses_ne (s : State) (Γ : Scope) (cs : List Clause) (_ : clausesWf c.purity Γ cs) (h : cs ≠ []) :
    (tClauses c s cs).1 ≠ [] := by
  match cs with
  | [] => exact absurd rfl h
  | .mk ps alternatives g body :: rest =>
    rw [tClauses_cons, tBranches]
    simp

theorem body_ok_block {ss : List Stmt} (h : StmtsOk c ss) : BodyOk c (.block ss) := fun Γ s hw hs => by
  simp only [Expr.Wf] at hw
  exact h Γ s hw.2 hs

theorem body_ok_expr {e : Expr} (hb : ∀ ss, e ≠ .block ss) (h : ExprOk c e) : BodyOk c e := by
  have he : tBody c e = fun s => tExpr c s e := by
    cases e <;> first | rfl | exact absurd rfl (hb _)
  unfold BodyOk
  rw [he]
  exact h

/-! ### Statements -/

theorem ok_stmts_nil : StmtsOk c [] := fun Γ s hw hs => by rw [tStmts]; exact ⟨trivial, Ext.refl s⟩

theorem ok_stmts_expr {e : Expr} {ss : List Stmt} (h : ExprOk c e) (hss : StmtsOk c ss) : StmtsOk c (.expr e :: ss) :=
  fun Γ s hw hs => by
  simp only [stmtsWf] at hw
  obtain ⟨h1, h2⟩ := h _ _ hw.1 hs
  obtain ⟨h3, h4⟩ := hss _ _ hw.2 (hs.ext h2)
  rw [tStmts]
  exact ⟨(okAll_append _ _ _).2 ⟨h1, h3⟩, h2.trans h4⟩

theorem one_pattern {p : Pattern} (h : PatternsWf [p]) : ∀ x ∈ p.vars.map Prod.fst, VariableName x := by
  have := h.2.2
  rwa [varsAll_one] at this

/-- A pattern, a value and what follows. -/
theorem bind_ok {p : Pattern} (hp : PatternsWf [p]) (ha : p.aliases = []) {e : Expr} {ss : List Stmt} (h : ExprOk c e)
    (hss : StmtsOk c ss) {Γ : Scope} {s : State} (hwe : e.Wf c.purity Γ) (hws : stmtsWf c.purity (p.vars ++ Γ) ss) (hs : Ready Γ s) :
    OkAll .expression (.bind (tPattern s [] p).1 (tOne c e (tPattern s [] p).2.1).1 ::
      (tStmts c (tOne c e (tPattern s [] p).2.1).2 ss).1) ∧ Ext s (tStmts c (tOne c e (tPattern s [] p).2.1).2 ss).2 := by
  have hperm : p.vars.Perm p.now := by
    have := vars_perm p
    rw [ha] at this
    simpa [aliasVars] using this
  have hst := tPattern_now s [] p
  obtain ⟨h1, h2⟩ := defineAll_ext s p.now fun x hx => one_pattern hp x ((hperm.map Prod.fst).mem_iff.2 hx)
  rw [← hst] at h1 h2
  obtain ⟨h3, h4⟩ := h.one hwe (hs.ext h1)
  obtain ⟨h5, h6⟩ := hss _ _ hws ((hs.ext (h1.trans h4)).append fun v hv => h4.keep _ (h2 v (hperm.mem_iff.1 hv)))
  refine ⟨?_, h1.trans (h4.trans h6)⟩
  simp only [OkAll, Term.Ok]
  exact ⟨⟨pattern_ok s [] p hp.1.1 (one_pattern hp), h3⟩, h5⟩

theorem ok_stmts_let {p : Pattern} {e : Expr} {ss : List Stmt} (h : ExprOk c e) (hss : StmtsOk c ss) :
    StmtsOk c (.let_ p e :: ss) := fun Γ s hw hs => by
  simp only [stmtsWf] at hw
  rw [tStmts]
  exact bind_ok hw.1 hw.2.1 h hss hw.2.2.1 hw.2.2.2 hs

theorem fields_ok {value : Text} (h : VarName value) (info : AssertInfo) : OkFields (tAssertFields value info) := by
  simp only [tAssertFields, OkFields, Term.Ok]
  exact ⟨by unfold AtomText; decide, h, by unfold AtomText; decide, trivial, by unfold AtomText; decide, trivial,
    by unfold AtomText; decide, trivial, by unfold AtomText; decide, trivial, trivial⟩

theorem assertError_ok (hc : ContextOk c) {m : Option Expr} (hm : ∀ m' ∈ m, ExprOk c m') {Γ : Scope} {s : State} (hs : Ready Γ s)
    (hw : ∀ m' ∈ m, m'.Wf c.purity Γ) (info : AssertInfo) {value : Text} (hv : VarName value) :
    (tAssertError c info m (value, s)).1.Ok .expression ∧ Ext s (tAssertError c info m (value, s)).2 := by
  cases m with
  | none => exact error_ok hc hs _ _ (by simp) (fields_ok hv info)
  | some m =>
    exact error_ok hc hs _ _ (by rintro g ⟨⟩; exact (hm m rfl).single (hw m rfl)) (fields_ok hv info)

theorem asserted_ok {p : Pattern} (hp : PatternsWf [p]) {ss : List Stmt} (hss : StmtsOk c ss) {Γ : Scope} {s : State}
    (hws : stmtsWf c.purity (p.vars ++ Γ) ss) (hs : Ready Γ s) :
    let first := tAsserted p (if ss.isEmpty then none else some fun s => tStmts c s ss) s
    (∀ cs, OkClauses cs → OkClauses (first.1 :: cs)) ∧ Ext s first.2 := by
  intro first
  by_cases he : ss = []
  · subst he
    have hf : first = tAsserted p none s := by simp [first]
    rw [hf]
    have hn := newGenerated_ext s
    obtain ⟨h1, h2⟩ := defineAll_ext s.newGenerated.2 p.now fun x hx => one_pattern hp x
      (((vars_perm p).map Prod.fst).mem_iff.2 (by rw [List.map_append]; exact List.mem_append_left _ hx))
    rw [← tPattern_now _ [] p] at h1
    refine ⟨?_, hn.trans h1⟩
    intro cs hcs
    simp only [tAsserted, OkClauses, Term.Ok, OkAll]
    exact ⟨⟨pattern_ok _ [] p hp.1.1 (one_pattern hp), generated_var s⟩, by simp, ⟨generated_var s, trivial⟩, hcs⟩
  · have hf : first = tAsserted p (some fun s => tStmts c s ss) s := by simp [first, he]
    rw [hf]
    obtain ⟨h3, h4, h5, h6, h7⟩ := branch_ok (vs := p.vars) hs hp (fun v hv1 => by
      right
      rw [varsAll_one]
      exact hv1)
    obtain ⟨h8, h9⟩ := hss _ _ hws h7
    refine ⟨?_, h6.trans h9⟩
    intro cs hcs
    exact clause_ok h3 (g := none) (by simp) h5 h8 (tStmts_ne _ he) hcs

theorem ok_stmts_letAssert (hc : ContextOk c) {p : Pattern} {e : Expr} {i : AssertInfo} {m : Option Expr} {ss : List Stmt}
    (h : ExprOk c e) (hm : ∀ m' ∈ m, ExprOk c m') (hss : StmtsOk c ss) : StmtsOk c (.letAssert p e i m :: ss) := fun Γ s hw hs => by
  obtain ⟨hp, hwe, hwm, hws⟩ := wf_letAssert hw
  rw [tStmts_letAssert]
  by_cases ha : p.alwaysMatches = true
  · rw [if_pos ha]
    exact bind_ok hp (alwaysMatches_aliases ha) h hss hwe hws hs
  · rw [if_neg ha]
    obtain ⟨h1, h2⟩ := h.one hwe hs
    obtain ⟨h3, h4⟩ := asserted_ok hp hss hws (hs.ext h2)
    have h5 := newGenerated_ext (tAsserted p (if ss.isEmpty then none else some fun s => tStmts c s ss) (tOne c e s).2).2
    obtain ⟨h6, h7⟩ := assertError_ok hc hm (hs.ext (h2.trans (h4.trans h5))) hwm i
      (generated_var (tAsserted p (if ss.isEmpty then none else some fun s => tStmts c s ss) (tOne c e s).2).2)
    refine ⟨okAll_one ?_, h2.trans (h4.trans (h5.trans h7))⟩
    simp only [Term.Ok]
    refine ⟨trivial, h1, by simp, h3 _ ?_⟩
    simp only [OkClauses, Term.Ok, OkAll]
    exact ⟨generated_var _, by simp, ⟨h6, trivial⟩, trivial⟩

/-! ### All -/

variable (hc : ContextOk c)

include hc

mutual

theorem exprOk : ∀ e : Expr, ExprOk c e
  | .int n => ok_int n
  | .string ps => ok_string ps
  | .var x l => ok_var x l
  | .ctor tag n => ok_ctor tag n
  | .fnRef m f n => ok_fnRef m f n
  | .const k => ok_const k
  | .block [] => ok_block ok_stmts_nil (by simp)
  | .block [.expr e] => ok_block (stmtsOk [.expr e]) (by rintro e' ⟨⟩; exact exprOk e)
  | .block (.let_ p e :: ss) => ok_block (stmtsOk (.let_ p e :: ss)) (by simp)
  | .block (.letAssert p e i m :: ss) => ok_block (stmtsOk (.letAssert p e i m :: ss)) (by simp)
  | .block (.expr e :: a :: ss) => ok_block (stmtsOk (.expr e :: a :: ss)) (by simp)
  | .not e => ok_not (exprOk e)
  | .neg e => ok_neg (exprOk e)
  | .bin _ l r => ok_bin (exprOk l) (exprOk r)
  | .nil => ok_nil
  | .cons l r => ok_cons (exprOk l) (exprOk r)
  | .tuple es => ok_tuple (argsOk es)
  | .index e _ => ok_index _ (exprOk e)
  | .field e _ => ok_field _ (exprOk e)
  | .update (some (_, _)) record _ es => ok_update_some (exprOk record) (argsOk es)
  | .update none _ _ es => ok_update_none (argsOk es)
  | .fn _ body => ok_fn (stmtsOk body)
  | .call f es => ok_call (exprOk f) (argsOk es)
  | .pipe _ _ value rest => ok_pipe (exprOk value) (exprOk rest)
  | .fail kind line none => ok_fail_none hc kind line
  | .fail kind line (some e) => ok_fail_some hc kind line (exprOk e)
  | .case_ [e] cs => ok_case_one (exprOk e) (clausesOk cs) (fun s Γ => tClauses_ne s Γ cs)
  | .case_ [] cs => ok_case_many (by simp) ok_noArgs (clausesOk cs) (fun s Γ => tClauses_ne s Γ cs)
  | .case_ (e :: f :: es) cs =>
    ok_case_many (by simp) (ok_args (exprOk e) (ok_args (exprOk f) (argsOk es))) (clausesOk cs) (fun s Γ => tClauses_ne s Γ cs)

theorem argsOk : ∀ es : List Expr, ArgsOk c es
  | [] => ok_noArgs
  | e :: es => ok_args (exprOk e) (argsOk es)

theorem stmtsOk : ∀ ss : List Stmt, StmtsOk c ss
  | [] => ok_stmts_nil
  | .expr e :: ss => ok_stmts_expr (exprOk e) (stmtsOk ss)
  | .let_ _ e :: ss => ok_stmts_let (exprOk e) (stmtsOk ss)
  | .letAssert _ e _ none :: ss => ok_stmts_letAssert hc (exprOk e) (by simp) (stmtsOk ss)
  | .letAssert _ e _ (some m) :: ss =>
    ok_stmts_letAssert hc (exprOk e) (by rintro m' ⟨⟩; exact exprOk m) (stmtsOk ss)

theorem clausesOk : ∀ cs : List Clause, ClausesOk c cs
  | [] => ok_clauses_nil
  | .mk _ _ _ (.block ss) :: cs => ok_clauses_cons (body_ok_block (stmtsOk ss)) (clausesOk cs)
  | .mk _ _ _ body :: cs => ok_clauses_cons (bodyOk body) (clausesOk cs)

theorem bodyOk : ∀ e : Expr, BodyOk c e
  | .block ss => body_ok_block (stmtsOk ss)
  | .int n => body_ok_expr (by simp) (ok_int n)
  | .string ps => body_ok_expr (by simp) (ok_string ps)
  | .var x l => body_ok_expr (by simp) (ok_var x l)
  | .ctor tag n => body_ok_expr (by simp) (ok_ctor tag n)
  | .fnRef m f n => body_ok_expr (by simp) (ok_fnRef m f n)
  | .const k => body_ok_expr (by simp) (ok_const k)
  | .not e => body_ok_expr (by simp) (ok_not (exprOk e))
  | .neg e => body_ok_expr (by simp) (ok_neg (exprOk e))
  | .bin _ l r => body_ok_expr (by simp) (ok_bin (exprOk l) (exprOk r))
  | .nil => body_ok_expr (by simp) ok_nil
  | .cons l r => body_ok_expr (by simp) (ok_cons (exprOk l) (exprOk r))
  | .tuple es => body_ok_expr (by simp) (ok_tuple (argsOk es))
  | .index e _ => body_ok_expr (by simp) (ok_index _ (exprOk e))
  | .field e _ => body_ok_expr (by simp) (ok_field _ (exprOk e))
  | .update (some (_, _)) record _ es => body_ok_expr (by simp) (ok_update_some (exprOk record) (argsOk es))
  | .update none _ _ es => body_ok_expr (by simp) (ok_update_none (argsOk es))
  | .fn _ body => body_ok_expr (by simp) (ok_fn (stmtsOk body))
  | .call f es => body_ok_expr (by simp) (ok_call (exprOk f) (argsOk es))
  | .pipe _ _ value rest => body_ok_expr (by simp) (ok_pipe (exprOk value) (exprOk rest))
  | .fail kind line none => body_ok_expr (by simp) (ok_fail_none hc kind line)
  | .fail kind line (some e) => body_ok_expr (by simp) (ok_fail_some hc kind line (exprOk e))
  | .case_ [e] cs => body_ok_expr (by simp) (ok_case_one (exprOk e) (clausesOk cs) (fun s Γ => tClauses_ne s Γ cs))
  | .case_ [] cs => body_ok_expr (by simp) (ok_case_many (by simp) ok_noArgs (clausesOk cs) (fun s Γ => tClauses_ne s Γ cs))
  | .case_ (e :: f :: es) cs =>
    body_ok_expr (by simp) (ok_case_many (by simp) (ok_args (exprOk e) (ok_args (exprOk f) (argsOk es))) (clausesOk cs)
      (fun s Γ => tClauses_ne s Γ cs))

end

end

/-! ### Modules -/

theorem new_ready : Ready [] State.new := ⟨by intro l n h; simp [State.new] at h, by simp⟩

theorem function_ok {m : Module} (hm : m.Wf) {f : Fun} (hf : f.Wf m.purity) : (tFunction (m.context f) f).Ok := by
  obtain ⟨h1, h2⟩ := arguments_ready new_ready hf.2.1
  rw [List.append_nil] at h1
  simp only [tFunction, Form.Ok]
  exact ⟨function_atom hf.1, arguments_var _ hf.2.1.2, tStmts_ne _ hf.2.2.1,
    (stmtsOk (context_ok hm hf.1) f.body _ _ hf.2.2.2.1 h1).1⟩

theorem definitions_ok {m : Module} (hm : m.Wf) (ds : List Definition) (h : ∀ d ∈ ds, d.function.Wf m.purity) :
    FormsOk (ds.flatMap (tDefinition m)) := by
  induction ds with
  | nil => trivial
  | cons d ds ih =>
    have h1 := function_ok hm (h d (by simp))
    have h2 := ih fun d' hd => h d' (List.mem_cons_of_mem _ hd)
    have h3 : (Form.file m.path d.line).Ok := by
      obtain ⟨ps, h4, h5⟩ := hm.path
      simp only [Form.Ok]
      rw [h5]
      exact literal_quoted h4
    have h4 : FormsOk (tFunction (m.context d.function) d.function :: ds.flatMap (tDefinition m)) := by
      cases ds with
      | nil => exact h1
      | cons d' ds =>
        simp only [List.flatMap_cons, tDefinition, List.cons_append, FormsOk] at h2 ⊢
        exact ⟨h1, by simp [tFunction, Form.unfinished], h2⟩
    simp only [List.flatMap_cons, tDefinition, List.cons_append, List.nil_append, FormsOk]
    exact ⟨h3, fun _ => rfl, h4⟩

/-- All that is printed for a module can be printed. -/
theorem module_ok {m : Module} (hm : m.Wf) : FormsOk (tModule m) := by
  have h1 := definitions_ok hm m.definitions hm.functions
  have h2 : (Form.compile compileOptions).Ok := by
    simp only [Form.Ok]
    decide
  have h3 : (Form.export_ (exports m.definitions)).Ok := by
    simp only [Form.Ok, exports]
    intro n hn
    obtain ⟨d, hd, rfl⟩ := List.mem_map.1 hn
    exact function_atom (hm.functions d (List.mem_filter.1 hd |>.1)).1
  have h4 : (Form.exportType []).Ok := by simp [Form.Ok]
  unfold tModule
  cases hds : m.definitions.flatMap (tDefinition m) with
  | nil => exact ⟨h2, by simp [Form.unfinished], h3, by simp [Form.unfinished], h4⟩
  | cons f fs =>
    rw [hds] at h1
    exact ⟨h2, by simp [Form.unfinished], h3, by simp [Form.unfinished], h4, by simp [Form.unfinished], h1⟩

end Verif.ErlGen
