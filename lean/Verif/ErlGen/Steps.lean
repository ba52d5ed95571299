import Verif.ErlGen.States

/-!
# What generating an expression does to the state of the generator, for all expressions
-/

namespace Verif.ErlGen

open Verif.ErlText (Text Term)

theorem PatternsWf.aliases {ps : List Pattern} (h : PatternsWf ps) :
    (([] : Later).map (fun e => e.1) ++ (aliasesAll ps).map fun a => a.1).Nodup := by
  simpa using aliases_nodup h.2.1

theorem PatternsWf.one {p : Pattern} (h : PatternsWf [p]) :
    (([] : Later).map (fun e => e.1) ++ p.aliases.map fun a => a.1).Nodup := by
  have := h.aliases
  simpa [aliasesAll] using this

theorem PatternsWf.names {ps : List Pattern} (h : PatternsWf ps) :
    ∀ x ∈ (ordered ps).map Prod.fst, VariableName x := fun x hx =>
  h.2.2 x (((ordered_perm ps).map Prod.fst).mem_iff.1 hx)

/-- The state after the patterns and the aliases. -/
theorem branch_state (s : State) {ps : List Pattern} (h : PatternsWf ps) :
    (tAssignments (tSubjectPatterns s [] ps).2.1 (sortLater (tSubjectPatterns s [] ps).2.2)).2 =
      defineAll s (ordered ps) := by
  rw [tSubjectPatterns_state s [] ps h.aliases, tAssignments_state]
  simp only [List.nil_append, ordered, defineAll_append]

theorem one_state (s : State) {p : Pattern} (h : PatternsWf [p]) :
    (tAssignments (tPattern s [] p).2.1 (sortLater (tPattern s [] p).2.2)).2 = defineAll s (ordered [p]) := by
  have := branch_state s h
  simpa [tSubjectPatterns] using this

theorem mem_map_snd {ps : List Pattern} {l : Loc} (h : l ∈ (ordered ps).map Prod.snd) : l ∈ (varsAll ps).map Prod.snd :=
  ((ordered_perm ps).map Prod.snd).mem_iff.1 h

theorem varsAll_one (p : Pattern) : varsAll [p] = p.vars := by simp [varsAll]

theorem tBranches_step (before : Text → Option Nat) (g : Option Guard) (body : TGens) (bs : List Text) (ls : List Loc)
    (hb : ∀ s, Step s (body s).2 bs ls) (N : List Text) (pss : List (List Pattern)) (s : State) (hne : pss ≠ [])
    (hp : ∀ qs ∈ pss, PatternsWf qs ∧ ((varsAll qs).map Prod.fst).Perm N) :
    Step { s with taken := before } (tBranches before g body s pss).2 (N ++ bs)
      ((pss.flatMap fun qs => (varsAll qs).map Prod.snd) ++ ls) := by
  induction pss generalizing s with
  | nil => exact absurd rfl hne
  | cons ps rest ih =>
    obtain ⟨hw, hperm⟩ := hp ps (by simp)
    have h1 := (defineAll_step { s with taken := before } (ordered ps)).trans
      (hb (defineAll { s with taken := before } (ordered ps)))
    have h2 : Step { s with taken := before } (body (defineAll { s with taken := before } (ordered ps))).2 (N ++ bs)
        (((ps :: rest).flatMap fun qs => (varsAll qs).map Prod.snd) ++ ls) := by
      apply h1.perm
      · exact (((ordered_perm ps).map Prod.fst).trans hperm).append_right _
      · intro l hl
        simp only [List.mem_append, List.flatMap_cons] at hl ⊢
        rcases hl with hl | hl
        · left; left; exact mem_map_snd hl
        · right; exact hl
    simp only [tBranches, branch_state _ hw]
    cases rest with
    | nil => simpa [tBranches] using h2
    | cons qs rest =>
      have h3 := ih (body (defineAll { s with taken := before } (ordered ps))).2 (by simp)
        (fun q hq => hp q (by simp [List.mem_cons.1 hq]))
      refine ⟨h3.taken, Nat.le_trans h2.generated h3.generated, ?_⟩
      intro l hl
      rw [h3.names l (by
        intro hc
        apply hl
        simp only [List.flatMap_cons, List.mem_append] at hc ⊢
        rcases hc with (hc | hc) | hc
        · left; right; left; exact hc
        · left; right; right; exact hc
        · right; exact hc)]
      exact h2.names l hl

theorem Simple_none : ∀ {e : Expr}, e.Simple → e.binders = [] ∧ e.locs = []
  | .int _, _ => by simp [Expr.binders, Expr.locs]
  | .string _, _ => by simp [Expr.binders, Expr.locs]
  | .var _ _, _ => by simp [Expr.binders, Expr.locs]
  | .const _, _ => by simp [Expr.binders, Expr.locs]
  | .neg e, h => by
    simp only [Expr.Simple] at h
    simpa [Expr.binders, Expr.locs] using Simple_none h
  | .index e _, h => by
    simp only [Expr.Simple] at h
    simpa [Expr.binders, Expr.locs] using Simple_none h
  | .field e _, h => by
    simp only [Expr.Simple] at h
    simpa [Expr.binders, Expr.locs] using Simple_none h
  | .bin op l r, h => by
    simp only [Expr.Simple] at h
    have h1 := Simple_none h.2.1
    have h2 := Simple_none h.2.2
    simp [Expr.binders, Expr.locs, h1, h2]

theorem isZero_none {r : Expr} (h : r.isZero = true) : r = .int 0 := by
  cases r <;> simp_all [Expr.isZero]

theorem tDivision_step (how : HowToDivide) (op : ErlText.BinOp) (left right : TGen) (lb rb : List Text) (ll rl : List Loc)
    (hl : ∀ s, Step s (left s).2 lb ll) (hr : ∀ s, Step s (right s).2 rb rl)
    (h0 : how = .zero → lb = [] ∧ rb = []) (h1 : how = .leftThenZero → rb = []) (s : State) :
    Step s (tDivision how op left right s).2 (lb ++ rb) (ll ++ rl) := by
  match how with
  | .zero =>
    obtain ⟨rfl, rfl⟩ := h0 rfl
    exact (Step.refl s).perm (by simp) (by simp)
  | .leftThenZero =>
    have := h1 rfl
    subst this
    exact (hl s).perm (by simp) (by simp +contextual)
  | .plain => exact (hl s).trans (hr _)
  | .matchRight false =>
    have := ((newGenerated_step s).trans ((hl _).trans ((hr _).trans (newGenerated_step _))))
    exact this.perm (by simp) (by simp)
  | .matchRight true =>
    have := (hr s).trans ((newGenerated_step _).trans (hl _))
    exact this.perm (by simpa using List.perm_append_comm) (by simp +contextual [or_comm])

theorem tMaybe_step {g : TGens} {bs : List Text} {ls : List Loc} (wrap : Bool) (h : ∀ s, Step s (g s).2 bs ls) (s : State) :
    Step s (tMaybe wrap g s).2 bs ls := h s

theorem newGenerated_steps (s : State) (n : Nat) : Step s (newGenerated s n).2 [] [] := by
  induction n generalizing s with
  | zero => exact Step.refl s
  | succ n ih => exact (newGenerated_step s).trans (ih _)

theorem argumentNames_state (s : State) (ps : List (Option (Text × Loc))) :
    (argumentNames s ps).2 = defineAll s (paramVars ps) := by
  induction ps generalizing s with
  | nil => rfl
  | cons p ps ih =>
    cases p with
    | none => simp [argumentNames, paramVars, ih]
    | some v => obtain ⟨x, l⟩ := v; simp [argumentNames, paramVars, ih, defineAll]

theorem tAsserted_step (p : Pattern) (hp : PatternsWf [p]) (ss : List Stmt) (f : TGens) (bs : List Text) (ls : List Loc)
    (hf : ∀ s, Step s (f s).2 bs ls) (h0 : ss = [] → bs = []) (s : State) :
    Step s (tAsserted p (if ss.isEmpty then none else some f) s).2 ((asserted p ss).map Prod.fst ++ bs)
      (p.vars.map Prod.snd ++ ls) := by
  cases ss with
  | nil =>
    have := h0 rfl
    subst this
    simp only [List.isEmpty_nil, if_true, tAsserted, asserted, tPattern_state _ _ _ hp.one]
    have := (newGenerated_step s).trans (defineAll_step s.newGenerated.2 p.now)
    refine this.perm (by simp) ?_
    intro l hl
    simp only [List.nil_append, List.mem_append] at hl ⊢
    left
    rw [((vars_perm p).map Prod.snd).mem_iff, List.map_append, List.mem_append]
    exact Or.inl hl
  | cons a ss =>
    simp only [List.isEmpty_cons, Bool.false_eq_true, if_false, tAsserted, one_state s hp, asserted]
    have := (defineAll_step s (ordered [p])).trans (hf _)
    refine this.perm ?_ ?_
    · rw [← varsAll_one]
      exact ((ordered_perm [p]).map Prod.fst).append_right _
    · intro l hl
      simp only [List.mem_append] at hl ⊢
      rw [← varsAll_one]
      exact hl.imp mem_map_snd id

variable (c : Context)

theorem tError_step_none (kind : ErrorKind) (line : Nat) (fs : List ErlText.Field) (s : State) :
    Step s (tError c kind line none fs s).2 [] [] := Step.refl s

theorem tError_step_some (kind : ErrorKind) (line : Nat) (m : TGen) (bs : List Text) (ls : List Loc)
    (hm : ∀ s, Step s (m s).2 bs ls) (fs : List ErlText.Field) (s : State) :
    Step s (tError c kind line (some m) fs s).2 bs ls := hm s

theorem let_step (s : State) {p : Pattern} (hp : PatternsWf [p]) (ha : p.aliases = []) :
    Step s (tPattern s [] p).2.1 (p.vars.map Prod.fst) (p.vars.map Prod.snd) := by
  rw [tPattern_state _ _ _ hp.one]
  have hv := vars_perm p
  rw [ha] at hv
  simp only [aliasVars, List.map_nil, List.append_nil] at hv
  exact (defineAll_step s p.now).perm (hv.symm.map _) fun l hl => (hv.map _).mem_iff.2 hl

mutual

theorem alwaysMatches_aliases : ∀ {p : Pattern}, p.alwaysMatches = true → p.aliases = []
  | .discard, _ => rfl
  | .var _ _, _ => rfl
  | .assign p x l, h => by
    simp only [Pattern.alwaysMatches] at h
    simpa [Pattern.aliases] using alwaysMatches_aliases h
  | .tuple ps, h => by
    simp only [Pattern.alwaysMatches] at h
    simpa [Pattern.aliases] using allAlwaysMatch_aliases h
  | .int _, h => by simp [Pattern.alwaysMatches] at h
  | .string _, h => by simp [Pattern.alwaysMatches] at h
  | .nil, h => by simp [Pattern.alwaysMatches] at h
  | .cons _ _, h => by simp [Pattern.alwaysMatches] at h
  | .ctor _ _, h => by simp [Pattern.alwaysMatches] at h
  | .prefix _ _ _, h => by simp [Pattern.alwaysMatches] at h

theorem allAlwaysMatch_aliases : ∀ {ps : List Pattern}, Pattern.alwaysMatches.allAlwaysMatch ps = true → aliasesAll ps = []
  | [], _ => rfl
  | p :: ps, h => by
    simp only [Pattern.alwaysMatches.allAlwaysMatch, Bool.and_eq_true] at h
    simp [aliasesAll, alwaysMatches_aliases h.1, allAlwaysMatch_aliases h.2]

end

theorem division_zero {l r : Expr} (h : howToDivide c.purity l r = .zero)
    (hw : r.nonZero = true ∨ l.pureValue c.purity = false ∨ l.Simple) : l.Simple ∧ r = .int 0 := by
  unfold howToDivide at h
  by_cases h1 : r.nonZero = true
  · simp [h1] at h
  · by_cases h2 : l.pureValue c.purity = true
    · by_cases h3 : r.isZero = true
      · refine ⟨?_, isZero_none h3⟩
        rcases hw with hw | hw | hw
        · exact absurd hw h1
        · rw [h2] at hw; cases hw
        · exact hw
      · simp [h1, h2, h3] at h
    · rw [if_neg h1, if_neg h2] at h
      split at h <;> cases h

theorem division_pure {l r : Expr} (h : howToDivide c.purity l r = .matchRight true)
    (hw : r.nonZero = true ∨ l.pureValue c.purity = false ∨ l.Simple) : l.Simple := by
  unfold howToDivide at h
  by_cases h1 : r.nonZero = true
  · simp [h1] at h
  · by_cases h2 : l.pureValue c.purity = true
    · rcases hw with hw | hw | hw
      · exact absurd hw h1
      · rw [h2] at hw; cases hw
      · exact hw
    · rw [if_neg h1, if_neg h2] at h
      split at h <;> cases h

theorem division_leftThenZero {l r : Expr} (h : howToDivide c.purity l r = .leftThenZero) : r = .int 0 := by
  unfold howToDivide at h
  by_cases h3 : r.isZero = true
  · exact isZero_none h3
  · split at h
    · cases h
    · split at h <;> simp [h3] at h

theorem division_plain {l r : Expr} (h : howToDivide c.purity l r = .plain) : ∃ n, n ≠ 0 ∧ r = .int n := by
  unfold howToDivide at h
  by_cases h1 : r.nonZero = true
  · cases r <;> simp_all [Expr.nonZero]
  · rw [if_neg h1] at h
    split at h <;> split at h <;> cases h

/-- The body of a clause. -/
def tBody : Expr → TGens
  | .block ss => fun s => tStmts c s ss
  | e => fun s => tExpr c s e

theorem tClauses_cons (s : State) (ps : List Pattern) (alternatives : List (List Pattern)) (g : Option Guard) (body : Expr)
    (rest : List Clause) :
    tClauses c s (.mk ps alternatives g body :: rest) =
      ((tBranches s.taken g (tBody c body) s (ps :: alternatives)).1 ++
        (tClauses c (tBranches s.taken g (tBody c body) s (ps :: alternatives)).2 rest).1,
       (tClauses c (tBranches s.taken g (tBody c body) s (ps :: alternatives)).2 rest).2) := by
  cases body <;> rw [tClauses] <;> rfl

mutual

theorem tExpr_step (Γ : Scope) : ∀ (e : Expr), e.Wf c.purity Γ → ∀ s, Step s (tExpr c s e).2 e.binders e.locs
  | .int n, _, s => by simp only [tExpr, Expr.binders, Expr.locs]; exact Step.refl s
  | .string ps, _, s => by simp only [tExpr, Expr.binders, Expr.locs]; exact Step.refl s
  | .var x l, _, s => by simp only [tExpr, Expr.binders, Expr.locs]; exact Step.refl s
  | .ctor tag 0, _, s => by simp only [tExpr, Expr.binders, Expr.locs]; exact Step.refl s
  | .ctor tag (n + 1), _, s => by
    simp only [tExpr, Expr.binders, Expr.locs, tRecordBuilder]; exact newGenerated_steps s (n + 1)
  | .fnRef m f n, _, s => by simp only [tExpr, Expr.binders, Expr.locs]; exact Step.refl s
  | .const k, _, s => by simp only [tExpr, Expr.binders, Expr.locs]; exact Step.refl s
  | .block [], h, s => by simp only [Expr.Wf] at h; exact absurd rfl h.1
  | .block [.expr e], h, s => by
    simp only [Expr.Wf, stmtsWf] at h
    simp only [tExpr, Expr.binders, Expr.locs, stmtsBinders, stmtsLocs, List.append_nil]
    exact tExpr_step Γ e h.2.1 s
  | .block [.let_ p e], h, s => by
    simp only [Expr.Wf] at h
    simp only [tExpr, Expr.binders, Expr.locs]
    exact tStmts_step Γ [.let_ p e] h.2 s
  | .block [.letAssert p e i m], h, s => by
    simp only [Expr.Wf] at h
    simp only [tExpr, Expr.binders, Expr.locs]
    exact tStmts_step Γ [.letAssert p e i m] h.2 s
  | .block (a :: b :: ss), h, s => by
    rw [Expr.Wf] at h
    rw [tExpr, Expr.binders, Expr.locs]
    · exact tStmts_step Γ (a :: b :: ss) h.2 s
    · simp
  | .not e, h, s => by
    simp only [Expr.Wf] at h
    simp only [tExpr, Expr.binders, Expr.locs]
    exact tExpr_step Γ e h s
  | .neg e, h, s => by
    simp only [Expr.Wf] at h
    simp only [tExpr, Expr.binders, Expr.locs]
    exact tExpr_step Γ e h s
  | .bin op l r, h, s => by
    simp only [Expr.Wf] at h
    obtain ⟨hl, hr, _, hd⟩ := h
    have h1 : ∀ s, Step s (tMaybe (needsWrap c.purity l) (fun s => tExpr c s l) s).2 l.binders l.locs :=
      fun s => tExpr_step Γ l hl s
    have h2 : ∀ s, Step s (tMaybe (needsWrap c.purity r) (fun s => tExpr c s r) s).2 r.binders r.locs :=
      fun s => tExpr_step Γ r hr s
    have h3 : ∀ op', (op = .div ∨ op = .rem) → Step s (tDivision (howToDivide c.purity l r) op'
        (tMaybe (needsWrap c.purity l) fun s => tExpr c s l) (tMaybe (needsWrap c.purity r) fun s => tExpr c s r) s).2
        (l.binders ++ r.binders) (l.locs ++ r.locs) := by
      intro op' ho
      apply tDivision_step _ _ _ _ _ _ _ _ h1 h2
      · intro hh
        obtain ⟨h4, rfl⟩ := division_zero c hh (hd ho)
        exact ⟨(Simple_none h4).1, by simp [Expr.binders]⟩
      · intro hh
        rw [division_leftThenZero c hh]
        simp [Expr.binders]
    cases op with
    | div => rw [tExpr, Expr.binders, Expr.locs]; exact h3 _ (Or.inl rfl)
    | rem => rw [tExpr, Expr.binders, Expr.locs]; exact h3 _ (Or.inr rfl)
    | _ => simp only [tExpr, Expr.binders, Expr.locs]; exact (h1 s).trans (h2 _)
  | .nil, _, s => by simp only [tExpr, Expr.binders, Expr.locs]; exact Step.refl s
  | .cons a b, h, s => by
    simp only [Expr.Wf] at h
    simp only [tExpr, Expr.binders, Expr.locs]
    exact (tMaybe_step _ (fun s => tExpr_step Γ a h.1 s) s).trans (tMaybe_step _ (fun s => tExpr_step Γ b h.2 s) _)
  | .tuple es, h, s => by
    simp only [Expr.Wf] at h
    simp only [tExpr, Expr.binders, Expr.locs]
    exact tArgs_step Γ es h s
  | .index e i, h, s => by
    simp only [Expr.Wf] at h
    simp only [tExpr, Expr.binders, Expr.locs]
    exact tExpr_step Γ e h s
  | .field e i, h, s => by
    simp only [Expr.Wf] at h
    simp only [tExpr, Expr.binders, Expr.locs]
    exact tExpr_step Γ e h s
  | .update (some (x, l)) record tag es, h, s => by
    simp only [Expr.Wf] at h
    simp only [tExpr, Expr.binders, Expr.locs]
    exact (newVar_step s x l).trans ((tMaybe_step _ (fun s => tExpr_step Γ record h.2.2.1 s) _).trans
      (tArgs_step _ es h.2.2.2 _))
  | .update none record tag es, h, s => by
    simp only [Expr.Wf] at h
    simp only [tExpr, Expr.binders, Expr.locs]
    exact tArgs_step Γ es h.2 s
  | .fn params body, h, s => by
    simp only [Expr.Wf] at h
    simp only [tExpr, Expr.binders, Expr.locs, argumentNames_state]
    have h1 := (defineAll_step s (paramVars params)).trans (tStmts_step _ body h.2.2 _)
    refine ⟨fun x => by simp, h1.generated, h1.names⟩
  | .call f es, h, s => by
    simp only [Expr.Wf] at h
    have hf : ∀ s, Step s (tMaybe (needsWrap c.purity f) (fun s => tExpr c s f) s).2 f.binders f.locs :=
      fun s => tExpr_step Γ f h.2.1 s
    have ha := fun s => tArgs_step Γ es h.2.2 s
    have h1 := (hf s).trans (ha _)
    cases f with
    | ctor tag n => simpa only [tExpr, Expr.binders, Expr.locs, List.nil_append] using ha s
    | fnRef m f n => cases m <;> simpa only [tExpr, Expr.binders, Expr.locs, List.nil_append] using ha s
    | _ => rw [tExpr, Expr.binders, Expr.locs] <;> first | exact h1 | simp
  | .pipe x l value rest, h, s => by
    simp only [Expr.Wf] at h
    simp only [tExpr, Expr.binders, Expr.locs]
    exact (newVar_step s x l).trans ((tMaybe_step _ (fun s => tExpr_step Γ value h.2.1 s) _).trans
      (tExpr_step _ rest h.2.2 _))
  | .fail kind line none, h, s => by
    simp only [tExpr, Expr.binders, Expr.locs]
    exact Step.refl s
  | .fail kind line (some e), h, s => by
    simp only [Expr.Wf] at h
    simp only [tExpr, Expr.binders, Expr.locs]
    exact tExpr_step Γ e h s
  | .case_ [] cs, h, s => by
    simp only [Expr.Wf] at h
    simp only [tExpr, Expr.binders, Expr.locs, exprsBinders, exprsLocs, List.nil_append, tArgs]
    exact tClauses_step Γ cs h.2.2 s
  | .case_ [e] cs, h, s => by
    simp only [Expr.Wf, exprsWf] at h
    simp only [tExpr, Expr.binders, Expr.locs, exprsBinders, exprsLocs, List.append_nil]
    exact (tMaybe_step _ (fun s => tExpr_step Γ e h.1.1 s) s).trans (tClauses_step Γ cs h.2.2 _)
  | .case_ (e :: e' :: es) cs, h, s => by
    rw [Expr.Wf] at h
    rw [tExpr, Expr.binders, Expr.locs]
    · exact (tArgs_step Γ (e :: e' :: es) h.1 s).trans (tClauses_step Γ cs h.2.2 _)
    · simp

theorem tArgs_step (Γ : Scope) : ∀ (es : List Expr), exprsWf c.purity Γ es → ∀ s,
    Step s (tArgs c s es).2 (exprsBinders es) (exprsLocs es)
  | [], _, s => by simp only [tArgs, exprsBinders, exprsLocs]; exact Step.refl s
  | e :: es, h, s => by
    simp only [exprsWf] at h
    simp only [tArgs, exprsBinders, exprsLocs]
    exact (tMaybe_step _ (fun s => tExpr_step Γ e h.1 s) s).trans (tArgs_step Γ es h.2 _)

theorem tStmts_step (Γ : Scope) : ∀ (ss : List Stmt), stmtsWf c.purity Γ ss → ∀ s,
    Step s (tStmts c s ss).2 (stmtsBinders ss) (stmtsLocs ss)
  | [], _, s => by simp only [tStmts, stmtsBinders, stmtsLocs]; exact Step.refl s
  | .expr e :: ss, h, s => by
    simp only [stmtsWf] at h
    simp only [tStmts, stmtsBinders, stmtsLocs]
    exact (tExpr_step Γ e h.1 s).trans (tStmts_step Γ ss h.2 _)
  | .let_ p e :: ss, h, s => by
    simp only [stmtsWf] at h
    simp only [tStmts, stmtsBinders, stmtsLocs]
    exact (let_step s h.1 h.2.1).trans ((tMaybe_step _ (fun s => tExpr_step Γ e h.2.2.1 s) _).trans
      (tStmts_step _ ss h.2.2.2 _))
  | .letAssert p e info none :: ss, h, s => by
    simp only [stmtsWf] at h
    rw [tStmts]
    by_cases hp : p.alwaysMatches = true
    · rw [if_pos hp]
      simp only [stmtsBinders, stmtsLocs]
      have ha := alwaysMatches_aliases hp
      have h1 := (let_step s h.1 ha).trans ((tMaybe_step (needsWrap c.purity e) (fun s => tExpr_step Γ e h.2.1 s) _).trans
        (tStmts_step _ ss h.2.2 _))
      refine h1.perm (List.Perm.append_right _ (List.Perm.map _ ?_)) (fun l hl => hl)
      unfold asserted
      split
      · have hv := vars_perm p
        rw [ha] at hv
        simpa [aliasVars] using hv
      · exact List.Perm.refl _
    · rw [if_neg hp]
      simp only [stmtsBinders, stmtsLocs]
      have h1 := (tMaybe_step (needsWrap c.purity e) (fun s => tExpr_step Γ e h.2.1 s) s)
      have h2 := tAsserted_step p h.1 ss (fun s => tStmts c s ss) _ _ (fun s => tStmts_step _ ss h.2.2 s)
        (by rintro rfl; simp [stmtsBinders])
      have h3 := h1.trans ((h2 _).trans ((newGenerated_step _).trans (tError_step_none c .letAssert info.line
        [] _)))
      refine h3.perm ?_ ?_
      · simp only [List.append_nil]
        rw [← List.append_assoc, ← List.append_assoc]
        exact List.perm_append_comm.append_right _
      · intro l hl
        simp only [List.mem_append, List.not_mem_nil, or_false] at hl ⊢
        rcases hl with hl | hl | hl
        · exact Or.inr (Or.inl hl)
        · exact Or.inl hl
        · exact Or.inr (Or.inr hl)
  | .letAssert p e info (some m) :: ss, h, s => by
    simp only [stmtsWf] at h
    rw [tStmts]
    by_cases hp : p.alwaysMatches = true
    · rw [if_pos hp]
      simp only [stmtsBinders, stmtsLocs, if_pos hp, List.append_nil]
      have ha := alwaysMatches_aliases hp
      have h1 := (let_step s h.1 ha).trans ((tMaybe_step (needsWrap c.purity e) (fun s => tExpr_step Γ e h.2.1 s) _).trans
        (tStmts_step _ ss h.2.2.2 _))
      refine h1.perm (List.Perm.append_right _ (List.Perm.map _ ?_)) ?_
      · unfold asserted
        split
        · have hv := vars_perm p
          rw [ha] at hv
          simpa [aliasVars] using hv
        · exact List.Perm.refl _
      · intro l hl
        simp only [List.mem_append] at hl ⊢
        rcases hl with hl | hl | hl
        · exact Or.inl hl
        · exact Or.inr (Or.inl hl)
        · exact Or.inr (Or.inr (Or.inl hl))
    · rw [if_neg hp]
      simp only [stmtsBinders, stmtsLocs, if_neg hp]
      have h1 := (tMaybe_step (needsWrap c.purity e) (fun s => tExpr_step Γ e h.2.1 s) s)
      have h2 := tAsserted_step p h.1 ss (fun s => tStmts c s ss) _ _ (fun s => tStmts_step _ ss h.2.2.2 s)
        (by rintro rfl; simp [stmtsBinders])
      have h3 := h1.trans ((h2 _).trans ((newGenerated_step _).trans (tError_step_some c .letAssert info.line _ _ _
        (tMaybe_step (needsWrap c.purity m) (fun s => tExpr_step Γ m h.2.2.1 s)) [] _)))
      refine h3.perm ?_ ?_
      · simp only [List.nil_append]
        simp only [List.append_assoc]
        rw [← List.append_assoc, ← List.append_assoc (List.map Prod.fst (asserted p ss))]
        exact List.perm_append_comm.append_right _
      · intro l hl
        simp only [List.mem_append, List.not_mem_nil, false_or] at hl ⊢
        rcases hl with hl | (hl | hl) | hl
        · exact Or.inr (Or.inl hl)
        · exact Or.inl hl
        · exact Or.inr (Or.inr (Or.inl hl))
        · exact Or.inr (Or.inr (Or.inr hl))

theorem tClauses_step (Γ : Scope) : ∀ (cs : List Clause), clausesWf c.purity Γ cs → ∀ s,
    Step s (tClauses c s cs).2 (clausesBinders cs) (clausesLocs cs)
  | [], _, s => by simp only [tClauses, clausesBinders, clausesLocs]; exact Step.refl s
  | .mk ps alternatives g body :: cs, h, s => by
    simp only [clausesWf] at h
    have hbody : ∀ s, Step s (tBody c body s).2 body.binders body.locs := by
      intro s
      cases body with
      | block ss =>
        have := h.2.1
        rw [Expr.Wf] at this
        rw [Expr.binders, Expr.locs]
        exact tStmts_step _ ss this.2 s
      | _ => exact tExpr_step _ _ h.2.1 s
    have h1 := tBranches_step s.taken g _ _ _ hbody ((varsAll ps).map Prod.fst) (ps :: alternatives) s (by simp)
      (fun qs hq => ⟨(h.1 qs hq).1, (h.1 qs hq).2.1⟩)
    have h2 := h1.trans (tClauses_step Γ cs h.2.2 _)
    rw [tClauses_cons, clausesBinders, clausesLocs]
    refine h2.perm (List.Perm.refl _) ?_
    intro l hl
    simpa only [List.flatMap_cons, List.append_assoc] using hl

end

end Verif.ErlGen
