import Verif.Infer.GroupSound

/-!
Whatever is inferred, the heap stays in order and the variables only get types.
-/

namespace Verif.Infer

open Verif.Unify

theorem Ok.far {s s' : St} {ρ ρ' : Cell → Tree} (h : Ok s ρ) (ht : Far ρ ρ') (hg : Good s'.heap ρ') (hh : s'.hydrator = s.hydrator) : Ok s' ρ' := by
  refine ⟨hg, fun x t hx => ?_⟩
  rw [hh] at hx ⊢
  obtain ⟨id, h1, h2⟩ := h.created x t hx
  refine ⟨id, h1, ?_⟩
  rw [ht.closed (by rw [h2]; intro i hi; cases hi), h2]

structure Keeps {α : Type} (x : I α) : Prop where
  run : ∀ s a s' ρ, Ok s ρ → x s = .ok (a, s') → ∃ ρ', Ok s' ρ' ∧ Far ρ ρ'

namespace Keeps

theorem of_after {α : Type} {x : I α} (h : ∀ s a s' ρ, Ok s ρ → x s = .ok (a, s') → ∃ R ρ', After R s ρ s' ρ') : Keeps x where
  run := fun s a s' ρ ho hx => by
      obtain ⟨R, ρ', h1⟩ := h s a s' ρ ho hx
      exact ⟨ρ', h1.ok, h1.step.far⟩

theorem pure {α : Type} (a : α) : Keeps (Pure.pure a : I α) where
  run := fun s b s' ρ ho h => by
    obtain ⟨_, rfl⟩ := pure_ok.1 h
    exact ⟨ρ, ho, .refl ρ⟩

theorem bind {α β : Type} {x : I α} {f : α → I β} (hx : Keeps x) (hf : ∀ a, Keeps (f a)) : Keeps (x >>= f) where
  run := fun s b s' ρ ho h => by
    obtain ⟨a, s₁, h1, h2⟩ := bind_ok.1 h
    obtain ⟨ρ₁, o1, f1⟩ := hx.run s a s₁ ρ ho h1
    obtain ⟨ρ₂, o2, f2⟩ := (hf a).run s₁ b s' ρ₁ o1 h2
    exact ⟨ρ₂, o2, f1.trans f2⟩

theorem reject {α : Type} : Keeps (Infer.reject : I α) := ⟨fun s b s' ρ ho h => (reject_ok.1 h).elim⟩

theorem outOfFuel {α : Type} : Keeps (Infer.outOfFuel : I α) := ⟨fun s b s' ρ ho h => (outOfFuel_ok.1 h).elim⟩

theorem expect {α : Type} (o : Option α) : Keeps (Infer.expect o) where
  run := fun s b s' ρ ho h => by
    obtain ⟨_, rfl⟩ := expect_ok.1 h
    exact ⟨ρ, ho, .refl ρ⟩

theorem ofFuel {α : Type} (o : Option α) : Keeps (Infer.ofFuel o) where
  run := fun s b s' ρ ho h => by
    obtain ⟨_, rfl⟩ := ofFuel_ok.1 h
    exact ⟨ρ, ho, .refl ρ⟩

theorem check (b : Bool) : Keeps (Infer.check b) where
  run := fun s a s' ρ ho h => by
    obtain ⟨_, rfl⟩ := check_ok.1 h
    exact ⟨ρ, ho, .refl ρ⟩

theorem fresh : Keeps Infer.fresh := of_after fun _ _ _ ρ ho h => ⟨[], ρ, (fresh_right ho h).1⟩

theorem freshes (k : Nat) : Keeps (Infer.freshes k) := of_after fun _ _ _ ρ ho h => ⟨[], ρ, (freshes_right k ho h).1⟩

theorem collapseI (n : Nat) (t : Ty Cell) : Keeps (Infer.collapseI n t) where
  run := fun s a s' ρ ho h => by
    obtain ⟨rfl, _⟩ := collapseI_right ho h
    exact ⟨ρ, ho, .refl ρ⟩

theorem unifyI (n : Nat) (t u : Ty Cell) : Keeps (Infer.unifyI n t u) where
  run := fun s a s' ρ ho h => by
    unfold Infer.unifyI at h
    split at h
    · next h' hh =>
      cases h
      obtain ⟨σ, h1, _⟩ := unify_sound n [] s.heap t u .ok h' ρ hh ho.good (by simp)
      have hf : Far ρ fun c => σ.on (ρ c) := ⟨σ, rfl⟩
      exact ⟨_, ho.far (s' := { s with heap := h' }) hf h1.good rfl, hf⟩
    all_goals simp at h

theorem inScope {α : Type} {x : I α} (hx : Keeps x) : Keeps (Infer.inScope x) where
  run := fun s a s' ρ ho h => by
    unfold Infer.inScope at h
    split at h
    · next b s₁ h1 =>
      cases h
      obtain ⟨ρ₁, o1, f1⟩ := hx.run s _ s₁ ρ ho h1
      exact ⟨ρ₁, ho.far (s' := { s₁ with hydrator := s.hydrator }) f1 o1.good rfl, f1⟩
    · cases h

theorem instantiate (n : Nat) (t : Ty Cell) : Keeps (Infer.instantiate n t []) := of_after fun s a s' ρ ho h => by
  obtain ⟨u, ids⟩ := a
  exact ⟨_, ρ, (instantiate_nil ho rfl h).1⟩

theorem instScheme (t : Ty Nat) : Keeps (Infer.instScheme t []) := of_after fun s a s' ρ ho h => by
  obtain ⟨u, ids⟩ := a
  exact ⟨[], ρ, (instScheme_nil ho h).1⟩

theorem hydrate (types : List CustomType) (a : TypeAst) : Keeps (Infer.hydrate types a) where
  run := fun s t s' ρ ho h => by
    obtain ⟨ρ', h1, _⟩ := hydrate_right types a s ρ t s' ho h
    exact ⟨ρ', h1.ok, h1.step.far⟩

theorem listElement (n : Nat) (t : Ty Cell) : Keeps (Infer.listElement n t) := of_after fun s a s' ρ ho h => by
  obtain ⟨ρ', h1, _⟩ := listElement_right (R := []) ho h
  exact ⟨[], ρ', h1⟩

theorem matchFunction (n : Nat) (t : Ty Cell) (k : Nat) : Keeps (Infer.matchFunction n t k) := of_after fun s a s' ρ ho h => by
  obtain ⟨u, r⟩ := a
  obtain ⟨ρ', h1, _⟩ := matchFunction_right (R := []) ho h
  exact ⟨[], ρ', h1⟩

end Keeps

macro "keeps" : tactic => `(tactic| repeat' (first
  | assumption
  | exact Keeps.pure _ | exact Keeps.reject | exact Keeps.outOfFuel | exact Keeps.expect _ | exact Keeps.check _ | exact Keeps.fresh
  | exact Keeps.freshes _ | exact Keeps.collapseI _ _ | exact Keeps.unifyI _ _ _ | exact Keeps.instantiate _ _ | exact Keeps.instScheme _
  | exact Keeps.hydrate _ _ | exact Keeps.listElement _ _ | exact Keeps.matchFunction _ _ _
  | refine Keeps.bind ?_ (fun _ => ?_) | refine Keeps.inScope ?_ | split))

section
variable (n : Nat) (g : Globals)

theorem inferVar_keeps (locals : Locals) (x : String) : Keeps (inferVar n g locals x) := by
  unfold inferVar
  keeps

theorem insertVariable_keeps (mode : PMode) (x : String) (t : Ty Cell) (vars : Locals) : Keeps (insertVariable n mode x t vars) := by
  unfold insertVariable
  keeps

theorem insertOption_keeps (mode : PMode) (x : Option String) (t : Ty Cell) (vars : Locals) : Keeps (insertOption n mode x t vars) := by
  unfold insertOption
  have := fun x => insertVariable_keeps n mode x t vars
  split
  · exact this _
  · keeps

mutual

theorem inferPattern_keeps (mode : PMode) : ∀ (p : Pattern) (t : Ty Cell) (vars : Locals), Keeps (inferPattern n g mode p t vars)
  | .discard, t, vars => by simp only [inferPattern]; keeps
  | .var x, t, vars => by simp only [inferPattern]; exact .bind (insertVariable_keeps ..) fun _ => .pure _
  | .int _, t, vars => by simp only [inferPattern]; keeps
  | .float _, t, vars => by simp only [inferPattern]; keeps
  | .string _, t, vars => by simp only [inferPattern]; keeps
  | .prefix _ l r, t, vars => by
    simp only [inferPattern]
    exact .bind (.unifyI ..) fun _ => .bind (insertOption_keeps ..) fun _ => .bind (insertOption_keeps ..) fun _ => .pure _
  | .assign p x, t, vars => by
    simp only [inferPattern]
    exact .bind (inferPattern_keeps mode p t vars) fun _ => .bind (insertVariable_keeps ..) fun _ => .pure _
  | .list ps none, t, vars => by
    simp only [inferPattern]
    exact .bind (.listElement ..) fun _ => .bind (inferPatternsAt_keeps mode ps _ _) fun _ => .pure _
  | .list ps (some q), t, vars => by
    simp only [inferPattern]
    exact .bind (.listElement ..) fun _ => .bind (inferPatternsAt_keeps mode ps _ _) fun _ => .bind (inferPattern_keeps mode q _ _) fun _ => .pure _
  | .tuple ps, t, vars => by
    have h := inferPatterns_keeps mode ps
    simp only [inferPattern]
    refine .bind (.collapseI ..) fun u => ?_
    cases u with
    | tuple ts => simp only; split; exact .bind (h _ _) fun _ => .pure _; exact .reject
    | var c => exact .bind (.freshes _) fun _ => .bind (.unifyI ..) fun _ => .bind (h _ _) fun _ => .pure _
    | named => exact .reject
    | fn => exact .reject
  | .ctor name ps, t, vars => by
    have h := inferPatterns_keeps mode ps
    simp only [inferPattern]
    split
    · exact .reject
    · refine .bind (.instScheme _) fun c => ?_
      obtain ⟨c, ids⟩ := c
      cases c with
      | fn ts u => exact .bind (.unifyI ..) fun _ => .bind (.check _) fun _ => .bind (h _ _) fun _ => .pure _
      | named => exact .bind (.unifyI ..) fun _ => .bind (.check _) fun _ => .pure _
      | var => exact .outOfFuel
      | tuple => exact .outOfFuel

theorem inferPatterns_keeps (mode : PMode) : ∀ (ps : List Pattern) (ts : Tys Cell) (vars : Locals), Keeps (inferPatterns n g mode ps ts vars)
  | [], .nil, vars => by simp only [inferPatterns]; keeps
  | [], .cons _ _, vars => by simp only [inferPatterns]; keeps
  | _ :: _, .nil, vars => by simp only [inferPatterns]; keeps
  | p :: ps, .cons t ts, vars => by
    simp only [inferPatterns]
    exact .bind (inferPattern_keeps mode p t vars) fun _ => .bind (inferPatterns_keeps mode ps ts _) fun _ => .pure _

theorem inferPatternsAt_keeps (mode : PMode) : ∀ (ps : List Pattern) (t : Ty Cell) (vars : Locals), Keeps (inferPatternsAt n g mode ps t vars)
  | [], t, vars => by simp only [inferPatternsAt]; keeps
  | p :: ps, t, vars => by
    simp only [inferPatternsAt]
    exact .bind (inferPattern_keeps mode p t vars) fun _ => inferPatternsAt_keeps mode ps t _

end

theorem inferAlternatives_keeps (initial : Locals) (ts : Tys Cell) : ∀ pss, Keeps (inferAlternatives n g initial ts pss)
  | [] => by simp only [inferAlternatives]; keeps
  | ps :: rest => by
    simp only [inferAlternatives]
    exact .bind (inferPatterns_keeps ..) fun _ => .bind (.check _) fun _ => inferAlternatives_keeps initial ts rest

theorem inferOperator_keeps (op : Op) (l r : Ty Cell) : Keeps (inferOperator n op l r) := by
  unfold inferOperator
  keeps

theorem inferGuard_keeps (locals : Locals) : ∀ gd : Guard, Keeps (inferGuard n locals gd)
  | .var x => by simp only [inferGuard]; keeps
  | .int _ => by simp only [inferGuard]; keeps
  | .float _ => by simp only [inferGuard]; keeps
  | .string _ => by simp only [inferGuard]; keeps
  | .block gd => by simp only [inferGuard]; exact inferGuard_keeps locals gd
  | .not gd => by
    have := inferGuard_keeps locals gd
    simp only [inferGuard]; keeps
  | .bin op l r => by
    have h1 := inferGuard_keeps locals l
    have h2 := inferGuard_keeps locals r
    simp only [inferGuard]
    exact .bind h1 fun _ => .bind h2 fun _ => inferOperator_keeps ..
  | .index gd i => by
    have := inferGuard_keeps locals gd
    simp only [inferGuard]; keeps

theorem inferOptionalGuard_keeps (locals : Locals) (gd : Option Guard) : Keeps (inferOptionalGuard n locals gd) := by
  unfold inferOptionalGuard
  have := fun gd => inferGuard_keeps n locals gd
  split
  · keeps
  · exact .bind (this _) fun _ => .unifyI ..

theorem hydrateOption_keeps (types : List CustomType) (a : Option TypeAst) : Keeps (hydrateOption types a) := by
  unfold hydrateOption
  keeps

theorem inferParameters_keeps (types : List CustomType) : ∀ (ps : List Param) (ts : Tys Cell), Keeps (inferParameters n types ps ts)
  | [], ts => by simp only [inferParameters]; keeps
  | p :: ps, ts => by
    have := fun us => inferParameters_keeps types ps us
    cases ts <;> simp only [inferParameters] <;> (repeat' (first | exact this _ | exact hydrateOption_keeps .. | keeps))

theorem hydrateReturn_keeps (types : List CustomType) (a : Option TypeAst) : Keeps (hydrateReturn types a) := by
  unfold hydrateReturn
  keeps

theorem inferBody_keeps (locals : Locals) (ps : List Param) (ts : Tys Cell) (r : Option (Ty Cell)) {body : Locals → I (Ty Cell)}
    (h : ∀ ls, Keeps (body ls)) : Keeps (inferBody n locals ps ts r body) := by
  unfold inferBody
  refine .inScope (.bind (.expect _) fun _ => .bind (h _) fun _ => ?_)
  keeps

theorem inferField_keeps (t : Ty Cell) (label : String) : Keeps (inferField n g t label) := by
  unfold inferField
  refine .bind (.collapseI ..) fun u => ?_
  split
  · split
    · exact .reject
    · split
      · exact .reject
      · refine ⟨fun s a s' ρ ho h => ?_⟩
        simp only [bind_ok, pure_ok, Prod.exists] at h
        obtain ⟨record, ids, s₁, h1, f, ids₂, s₂, h2, _, s₃, h3, _, rfl⟩ := h
        obtain ⟨i1, c1, _⟩ := instScheme_right (R := []) _ [] s record ids s₁ ho (fun _ _ h => nomatch h) h1
        obtain ⟨i2, c2, _⟩ := instScheme_right (R := []) _ ids s₁ f ids₂ s₂ i1.1.ok i1.2.2 h2
        exact (Keeps.unifyI _ _ _).run _ _ _ _ i2.1.ok h3
  · exact .reject

theorem inferAnnotation_keeps (a : Option TypeAst) (t : Ty Cell) : Keeps (inferAnnotation n g a t) := by
  unfold inferAnnotation
  keeps

mutual

theorem infer_keeps : ∀ (e : Expr) (locals : Locals) (expected : Tys Cell), Keeps (infer n g locals expected e)
  | .int _, _, _ => by simp only [infer]; keeps
  | .float _, _, _ => by simp only [infer]; keeps
  | .string _, _, _ => by simp only [infer]; keeps
  | .var x, ls, _ => by simp only [infer]; exact inferVar_keeps ..
  | .fn ps ret body, ls, _ => by
    have h := inferStmts_keeps body
    simp only [infer]
    exact .bind (inferParameters_keeps ..) fun _ => .bind (hydrateReturn_keeps ..) fun _ => .bind (inferBody_keeps _ _ _ _ _ fun _ => h _) fun _ => .pure _
  | .call f es, ls, _ => by
    have h1 := infer_keeps f
    have h2 := inferAll_keeps es
    have h3 := inferArguments_keeps es
    simp only [infer]
    refine .bind ?_ fun _ => .bind (h1 _ _) fun _ => .bind (.matchFunction ..) fun _ => .bind (h3 _ _) fun _ => .pure _
    split
    · exact h2 _
    · exact .pure _
  | .bin op l r, ls, _ => by
    have h1 := infer_keeps l
    have h2 := infer_keeps r
    simp only [infer]
    exact .bind (h1 _ _) fun _ => .bind (h2 _ _) fun _ => inferOperator_keeps ..
  | .not e, ls, _ => by
    have h1 := infer_keeps e ls .nil
    simp only [infer]; keeps
  | .neg e, ls, _ => by
    have h1 := infer_keeps e ls .nil
    simp only [infer]; keeps
  | .block body, ls, _ => by
    have h1 := inferStmts_keeps body ls
    simp only [infer]; keeps
  | .tuple es, ls, _ => by
    have h1 := inferAll_keeps es ls
    simp only [infer]; keeps
  | .index e i, ls, _ => by
    have h1 := infer_keeps e ls .nil
    simp only [infer]; keeps
  | .list es none, ls, _ => by
    have h1 := inferItems_keeps es ls
    simp only [infer]
    exact .bind .fresh fun _ => .bind (h1 _) fun _ => .pure _
  | .list es (some e), ls, _ => by
    have h1 := inferItems_keeps es ls
    have h2 := infer_keeps e ls .nil
    simp only [infer]
    exact .bind .fresh fun _ => .bind (h1 _) fun _ => .bind h2 fun _ => .bind (.unifyI ..) fun _ => .pure _
  | .field e label, ls, _ => by
    have h1 := infer_keeps e ls .nil
    simp only [infer]
    exact .bind h1 fun _ => inferField_keeps ..
  | .case_ subjects cs, ls, _ => by
    have h1 := inferSubjects_keeps subjects ls
    have h2 := inferClauses_keeps cs ls
    simp only [infer]
    exact .bind .fresh fun _ => .bind h1 fun _ => .bind (h2 _ _) fun _ => .pure _
  | .fail none, _, _ => by simp only [infer]; keeps
  | .fail (some e), ls, _ => by
    have h1 := infer_keeps e ls .nil
    simp only [infer]; keeps

theorem inferAll_keeps : ∀ (es : List Expr) (locals : Locals), Keeps (inferAll n g locals es)
  | [], _ => by simp only [inferAll]; keeps
  | e :: es, ls => by
    have h1 := infer_keeps e ls .nil
    have h2 := inferAll_keeps es ls
    simp only [inferAll]; keeps

theorem inferSubjects_keeps : ∀ (es : List Expr) (locals : Locals), Keeps (inferSubjects n g locals es)
  | [], _ => by simp only [inferSubjects]; keeps
  | e :: es, ls => by
    have h1 := infer_keeps e ls .nil
    have h2 := inferSubjects_keeps es ls
    simp only [inferSubjects]; keeps

theorem inferItems_keeps : ∀ (es : List Expr) (locals : Locals) (a : Ty Cell), Keeps (inferItems n g locals a es)
  | [], _, _ => by simp only [inferItems]; keeps
  | e :: es, ls, a => by
    have h1 := infer_keeps e ls .nil
    have h2 := inferItems_keeps es ls a
    simp only [inferItems]; keeps

theorem inferArguments_keeps : ∀ (es : List Expr) (locals : Locals) (ts : Tys Cell), Keeps (inferArguments n g locals es ts)
  | [], _, .nil => by simp only [inferArguments]; keeps
  | [], _, .cons _ _ => by simp only [inferArguments]; keeps
  | _ :: _, _, .nil => by simp only [inferArguments]; keeps
  | e :: es, ls, .cons t ts => by
    have h1 := infer_keeps e ls
    have h2 := inferArguments_keeps es ls ts
    simp only [inferArguments]
    exact .bind (.collapseI ..) fun _ => .bind (h1 _) fun _ => .bind (.unifyI ..) fun _ => h2

theorem inferStmts_keeps : ∀ (ss : List Stmt) (locals : Locals), Keeps (inferStmts n g locals ss)
  | [], _ => by simp only [inferStmts]; keeps
  | [s], ls => by
    have h1 := inferStmt_keeps s ls
    simp only [inferStmts]; keeps
  | s :: s' :: ss, ls => by
    have h1 := inferStmt_keeps s ls
    have h2 := inferStmts_keeps (s' :: ss)
    simp only [inferStmts]
    exact .bind h1 fun _ => h2 _

theorem inferStmt_keeps : ∀ (s : Stmt) (locals : Locals), Keeps (inferStmt n g locals s)
  | .expr e, ls => by
    have h1 := infer_keeps e ls .nil
    simp only [inferStmt]; keeps
  | .let_ p a e, ls => by
    have h1 := infer_keeps e ls .nil
    simp only [inferStmt]
    exact .bind (.inScope h1) fun _ => .bind (inferPattern_keeps ..) fun _ => .bind (inferAnnotation_keeps ..) fun _ => .pure _
  | .letAssert p a e m, ls => by
    have h1 := infer_keeps e ls .nil
    have h2 := inferMessage_keeps m ls
    simp only [inferStmt]
    exact .bind (.inScope h1) fun _ => .bind h2 fun _ => .bind (inferPattern_keeps ..) fun _ => .bind (inferAnnotation_keeps ..) fun _ => .pure _
  | .assert e m, ls => by
    have h1 := infer_keeps e ls .nil
    have h2 := inferMessage_keeps m ls
    simp only [inferStmt]; keeps

theorem inferMessage_keeps : ∀ (m : Option Expr) (locals : Locals), Keeps (inferMessage n g locals m)
  | none, _ => by simp only [inferMessage]; keeps
  | some e, ls => by
    have h1 := infer_keeps e ls .nil
    simp only [inferMessage]; keeps

theorem inferClauses_keeps : ∀ (cs : List Clause) (locals : Locals) (ts : Tys Cell) (r : Ty Cell), Keeps (inferClauses n g locals ts r cs)
  | [], _, _, _ => by simp only [inferClauses]; keeps
  | .mk ps alts gd body :: cs, ls, ts, r => by
    have h1 := infer_keeps body
    have h2 := inferClauses_keeps cs ls ts r
    simp only [inferClauses]
    exact .bind (.inScope (.bind (inferPatterns_keeps ..) fun _ => .bind (inferAlternatives_keeps ..) fun _ =>
      .bind (inferOptionalGuard_keeps ..) fun _ => h1 _ _)) fun _ => .bind (.unifyI ..) fun _ => h2

end

end
end Verif.Infer
