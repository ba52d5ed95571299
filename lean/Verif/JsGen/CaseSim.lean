import Verif.JsGen.GuardSim

/-!
# `case`
-/

namespace Verif.JsGen

open Verif.ErlGen (Pattern Const Expr Stmt Clause Guard varsAll M Out Match Op)
open Verif.ErlGen.Gleam (Panic)

section

variable {single : Text → Bool} {g : List (Text × Nat)} {W W' : Type} {RW : W → W' → Prop}
variable {ap : GValue → List GValue → GRun W GValue} {ap' : Value → List Value → Run W' Value}
variable {c : Context} {last : Bool} {pos : Pos} {σ : Scope} {Γ : List Text} {env : GEnv} {env' : Env} {S : Store}

/-! ### Bodies -/

theorem body_sim {body : Expr} (h1 : ∀ ss, body = .block ss → StmtsSim single g RW ap ap' ss)
    (h2 : isBlock body = false → StmSim single g RW ap ap' body) : BodySim single g RW ap ap' body := by
  intro c last pos σ Γ env env' S hc hok hl hr
  cases hb : isBlock body with
  | true =>
    cases body with
    | block ss =>
      rw [genBody_block]
      simp only [inBlock, ErlGen.Gleam.expr]
      simp only [okE] at hok
      exact h1 ss rfl c last pos σ Γ env env' S hc hok hr
    | _ => simp [isBlock] at hb
  | false =>
    simp only [hb, Bool.false_or, Bool.not_eq_true'] at hl
    have h3 := ((stat_all single g body Γ hok c σ hc).2 last pos).level hl
    have h4 := h2 hb c last pos σ Γ env env' S hc hok hr
    rw [h3, List.nil_append] at h4
    rw [genBody_other hb]
    exact h4

/-! ### Subjects -/

theorem subjects_sim (hg : ∀ f ∈ texts g, synthetic f = false) {es : List Expr} (hes : ∀ e ∈ es, ExpSim single g RW ap ap' e) :
    ∀ {σ : Scope} {S : Store}, c.single = single → okArgs single g Γ es = true → EnvRel single g S c σ Γ env env' →
    Ready S env' (declared (genSubjects c σ es).1) →
    Sim RW (Cells env' (declared (genSubjects c σ es).1)) S
      (fun S1 vs c' => c' = .normal ∧ List.Forall₂ (Holds single g S1 env') (genSubjects c σ es).2.1 vs) (ErlGen.Gleam.args ap env es)
      (exec (texts g) ap' env' (genSubjects c σ es).1) := by
  induction es with
  | nil =>
    intro σ S hc hok hr hd
    simp only [genSubjects, ErlGen.Gleam.args]
    rw [exec_nil]
    exact Sim.pure ⟨rfl, .nil⟩
  | cons e es ih =>
    intro σ S hc hok hr hd
    simp only [okArgs, Bool.and_eq_true] at hok
    have ih := fun {σ S} => ih (fun e he => hes e (by simp [he])) (σ := σ) (S := S) hc hok.2
    rcases isVar_or e with ⟨x, l, rfl⟩ | hv
    · rw [genSubjects_var] at hd ⊢
      simp only at hd ⊢
      have hx := hok.1
      simp only [okE, decide_eq_true_eq] at hx
      obtain ⟨v, l', v', h1, h2, h3, h4⟩ := hr.read hx
      simp only [ErlGen.Gleam.args]
      rw [expr_var h1, pure_bind]
      have h5 := (ih hr hd).bind (f := fun vs => M.pure (v :: vs)) (f' := M.pure)
        (Q := fun S1 vs c' => c' = .normal ∧ List.Forall₂ (Holds single g S1 env') (σ.name x :: (genSubjects c σ es).2.1) vs)
        fun S1 vs c' hfr h => Sim.pure ⟨h.1, .cons (Holds.keep ⟨l', v', h2, h3, h4⟩ hfr.keep) h.2⟩
      rw [bind_pure] at h5
      exact h5
    · have hst := (stat_subjects c σ (e :: es)).1.nodup
      rw [genSubjects_cons hv] at hd hst ⊢
      simp only [declared] at hd hst ⊢
      rw [exec_cons, ← exec_one]
      simp only [ErlGen.Gleam.args]
      have hn : (declared [] ++ [Name.var subjectText (σ.fresh subjectText)]).Nodup := by simp [declared]
      refine Sim.bindL (let_sim (P := []) (x := (gen c (.exp .strict) ⟨σ.next subjectText, []⟩ e).exp) (RW := RW)
          (ap' := ap') (single := single) (g := g) (m := ErlGen.Gleam.expr ap env e) hn (hd.sub (by simp +contextual [declared])) fun _ => ?_)
        (fun l hl => hl.mono (by simp +contextual [declared])) fun S1 v c' hfr h => ?_
      · rw [valueOf_nil]
        exact ((hes e (by simp)).strict hc hok.1 (hr.next_subject hg)).toInl.mono (fun _ _ h => h.elim) fun _ _ _ _ h => h
      · obtain ⟨rfl, hh⟩ := h
        simp only [Completion.elim]
        have hd1 : Ready S1 env' (declared (genSubjects c (σ.next subjectText) es).1) :=
          Ready.after (D := [Name.var subjectText (σ.fresh subjectText)]) hd hst hfr fun _ _ h => h
        have h5 := (ih ((hr.keep hfr.keep).next_subject hg) hd1).bind (f := fun vs => M.pure (v :: vs)) (f' := M.pure)
          (Q := fun S1 vs c' => c' = .normal ∧ List.Forall₂ (Holds single g S1 env')
            (.var subjectText (σ.fresh subjectText) :: (genSubjects c (σ.next subjectText) es).2.1) vs)
          fun S1 vs c' hfr h => Sim.pure ⟨h.1, .cons (hh.keep hfr.keep) h.2⟩
        rw [bind_pure] at h5
        exact h5.mono (fun l _ hl => hl.mono (by simp +contextual)) fun _ _ _ _ h => h

theorem subjects_old (hg : ∀ f ∈ texts g, synthetic f = false) {es : List Expr} : ∀ {σ : Scope},
    okArgs single g Γ es = true → EnvRel single g S c σ Γ env env' → ∀ n ∈ (genSubjects c σ es).2.1, Old (genSubjects c σ es).2.2 n := by
  induction es with
  | nil => simp [genSubjects]
  | cons e es ih =>
    intro σ hok hr n hn
    simp only [okArgs, Bool.and_eq_true] at hok
    rcases isVar_or e with ⟨x, l, rfl⟩ | hv
    · rw [genSubjects_var] at hn ⊢
      simp only at hn ⊢
      rcases List.mem_cons.1 hn with rfl | hn
      · have hx := hok.1
        simp only [okE, decide_eq_true_eq] at hx
        obtain ⟨v, k, l, v', h1, h2, h3⟩ := hr.vars x hx
        refine Old.mono (stat_subjects c σ es).1.fresh ?_
        simp only [Scope.name, h2, Option.getD_some]
        exact old_counter h2
      · exact ih hok.2 hr n hn
    · rw [genSubjects_cons hv] at hn ⊢
      simp only at hn ⊢
      rcases List.mem_cons.1 hn with rfl | hn
      · refine Old.mono (stat_subjects c (σ.next subjectText) es).1.fresh ?_
        exact ((Grow.next σ subjectText).new _ (by simp)).2
      · exact ih hok.2 (hr.next_subject hg) n hn

/-! ### Clauses -/

theorem choose_yes {alts : List (List Pattern)} {vs : List GValue} {b : List (Text × GValue)}
    (h : ErlGen.Gleam.choose env none alts vs = .yes b) : ∃ qs ∈ alts, ErlGen.Gleam.Pattern.runAll qs vs = .yes b := by
  induction alts with
  | nil => simp [ErlGen.Gleam.choose] at h
  | cons ps alts ih =>
    simp only [ErlGen.Gleam.choose] at h
    split at h
    · cases hr : ErlGen.Gleam.Pattern.runAll ps vs with
      | bad => simp [hr] at h
      | no =>
        simp only [hr] at h
        obtain ⟨qs, h1, h2⟩ := ih h
        exact ⟨qs, by simp [h1], h2⟩
      | yes b' =>
        simp only [hr, ErlGen.Gleam.holds, Match.yes.injEq] at h
        subst h
        exact ⟨ps, by simp, hr⟩
    · cases h

theorem runAll_keys_iff {ps : List Pattern} {vs : List GValue} {b : List (Text × GValue)}
    (h : ErlGen.Gleam.Pattern.runAll ps vs = .yes b) : b.map Prod.fst = texts (varsAll ps) := by
  rw [ErlGen.runAll_keys ps h]
  rfl

theorem returned_some {ps : List Pattern} {alternatives : List (List Pattern)} {body : Expr} {names : List Name} {n : Name}
    (h : returned ps alternatives body names = some n) : alternatives = [] ∧ findSame body ps names = some n := by
  unfold returned at h
  split at h
  · rename_i h1
    exact ⟨List.isEmpty_iff.1 h1, h⟩
  · cases h

theorem Calls.looped {l l' : Bool} (h : l = true → l' = true) (w : W) (S : Store) (o : Out Panic GValue × W)
    (hC : Calls single g ap c last env' l w S o) : Calls single g ap c last env' l' w S o := by
  obtain ⟨h1, h2, h3⟩ := hC
  exact ⟨h1, h h2, h3⟩

/-- A clause that matches and declares the variables of its pattern. -/
theorem branch_tsim {body : Expr} {vars : List (Text × Nat)} {b : List (Text × GValue)} {b' : List (Text × Value)}
    (hbody : BodySim single g RW ap ap' body) (hst : StatBody single g body) (hc : c.single = single) (hok : okVars vars = true)
    {Γ2 : List Text} {env2 : GEnv} (hΓ2 : ∀ x, x ∈ Γ2 ↔ x ∈ texts vars ++ Γ)
    (henv2 : ∀ x ∈ texts vars ++ Γ, env2.lookup x = (b ++ env).lookup x)
    (hokb : okE single g Γ2 body = true) (hl : (isBlock body || !lifts body) = true)
    (hr : EnvRel single g S c σ Γ env env') (hb : BRel single g S b b') (hkeys : ∀ x, x ∈ b.map Prod.fst ↔ x ∈ texts vars)
    (ht : Target S env' σ pos) (hloop : last = true → (genBody c last pos (σ.binds vars).2 body).looped = true → LoopReady S env' c) :
    TSim RW (Calls single g ap c last env' (genBody c last pos (σ.binds vars).2 body).looped) (Writes c last pos env' []) S
      (Give single g pos env') (ErlGen.Gleam.expr ap env2 body)
      ((declare .uninit ((σ.binds vars).1.map (·.2) ++ declared (genBody c last pos (σ.binds vars).2 body).stms) env').bind fun env =>
        (initialiseAll env b' (σ.binds vars).1).bind fun _ =>
          exec (texts g) ap' env (genBody c last pos (σ.binds vars).2 body).stms) := by
  have hgb := (hst _ hokb hl c last pos (σ.binds vars).2 hc).grow
  have hgr := (Grow.binds σ vars).trans hgb
  have hn := hgr.nodup
  have hD : ∀ d ∈ (σ.binds vars).1.map (·.2) ++ declared (genBody c last pos (σ.binds vars).2 body).stms, ¬Old σ d :=
    fun d hd => (hgr.new d hd).1
  refine declare_tsim (k := fun env => (initialiseAll env b' (σ.binds vars).1).bind fun _ =>
    exec (texts g) ap' env (genBody c last pos (σ.binds vars).2 body).stms) ht hn hD ?_
  have hd := ready_declare hn env' S
  have hr1 := hr.declare hD S.length
  have ht1 := ht.declare hD
  have hl1 := fun h1 h2 => (hloop h1 h2).declare hD
  have hk : Keep S (S ++ ((σ.binds vars).1.map (·.2) ++ declared (genBody c last pos (σ.binds vars).2 body).stms).map fun _ => Cell.uninit) :=
    (Frame.append NoCells S _).keep
  revert hd hr1 ht1 hl1
  generalize bindNames ((σ.binds vars).1.map (·.2) ++ declared (genBody c last pos (σ.binds vars).2 body).stms) S.length env' = env1
  revert hk
  generalize S ++ ((σ.binds vars).1.map (·.2) ++ declared (genBody c last pos (σ.binds vars).2 body).stms).map (fun _ => Cell.uninit) = S1
  intro hk hd hr1 ht1 hl1
  have hr1 := hr1.keep hk
  have hdv : Ready S1 env1 ((σ.binds vars).1.map (·.2)) := hd.sub (by simp +contextual)
  obtain ⟨S2, h1, h2, h3⟩ := write_binds (W' := W') (write := fun n v => initialise env1 n (.val v)) (cell := .uninit) (fun v h => by cases h)
    (fun n l v S w hl _ => initialise_eq hl _ S w) (σ := σ) (vs := vars) hdv.alike (hb.keep hk) hkeys
  refine TSim.step (S' := S2) (L' := Writes c last pos env1 (declared (genBody c last pos (σ.binds vars).2 body).stms))
    (k := exec (texts g) ap' env1 (genBody c last pos (σ.binds vars).2 body).stms) (fun w' => ?_)
    (h2.mono fun l _ hl => (hl.mono (by simp +contextual)).writes) (fun l _ hl => hl.mono (by simp +contextual)) ?_
  · rw [initialiseAll_eq]
    simp only [M.bind]
    rw [h1]
  · exact hbody c last pos (σ.binds vars).2 _ _ env1 S2 hc hokb hl (((hr1.keep h2.keep).binds hok hkeys h3).congr hΓ2 henv2)
      (hd.after hn h2 fun _ _ h => h) (ht1.after h2 hdv.not_declared (Grow.binds σ vars).fresh)
      fun h4 h5 => (hl1 h4 h5).after h2 hdv.not_param

theorem sameNames_iff {vs ws : List (Text × Nat)} (h : sameNames vs ws = true) (x : Text) : x ∈ texts ws ↔ x ∈ texts vs := by
  simp only [sameNames, Bool.and_eq_true, List.all_eq_true, decide_eq_true_eq] at h
  exact ⟨h.2 x, h.1 x⟩

theorem guarded_context {gd : Guard} {vars : List (Text × Nat)} (x : Text) :
    x ∈ texts vars ++ Γ ↔ x ∈ texts (otherVars gd vars) ++ (texts (guardVars gd vars) ++ Γ) := by
  have h1 := mem_texts_filter (p := fun x => !decide (x ∈ guardTexts gd)) (vs := vars) (x := x)
  have h2 := mem_texts_filter (p := fun x => decide (x ∈ guardTexts gd)) (vs := vars) (x := x)
  simp only [List.mem_append, otherVars, guardVars, h1, h2]
  by_cases h : x ∈ guardTexts gd <;> simp [h]

theorem guarded_env {gd : Guard} {vars : List (Text × Nat)} {b : List (Text × GValue)} (x : Text)
    (_ : x ∈ texts (otherVars gd vars) ++ (texts (guardVars gd vars) ++ Γ)) : (b ++ env).lookup x =
      (keepKeys (fun x => !decide (x ∈ guardTexts gd)) b ++ (keepKeys (fun x => decide (x ∈ guardTexts gd)) b ++ env)).lookup x := by
  rw [List.lookup_append, List.lookup_append, List.lookup_append, lookup_keepKeys, lookup_keepKeys]
  by_cases h : x ∈ guardTexts gd <;> cases b.lookup x <;> simp [h]

theorem forall₂_of_mem {α β : Type} {R R' : α → β → Prop} {xs : List α} {ys : List β} (h : List.Forall₂ R xs ys)
    (hr : ∀ x y, x ∈ xs → R x y → R' x y) : List.Forall₂ R' xs ys := by
  induction h with
  | nil => exact .nil
  | cons h _ ih => exact .cons (hr _ _ (by simp) h) (ih fun x y hx => hr x y (by simp [hx]))

theorem clauses_tsim {cs : List Clause} (hbody : ∀ cl ∈ cs, BodySim single g RW ap ap' (Clause.body cl))
    (hst : ∀ cl ∈ cs, StatBody single g (Clause.body cl)) (hc : c.single = single) (hok : okClauses single g Γ cs = true)
    (hr : EnvRel single g S c σ Γ env env') {names : List Name} {vs : List GValue} {vs' : List Value}
    (hnames : ∀ n ∈ names, Old σ n) (hvs : List.Forall₂ (Holds single g S env') names vs) (hv : VsRel single g S vs vs') (ht : Target S env' σ pos)
    (hloop : last = true → (genClauses c last pos names σ [] cs).2.2 = true → LoopReady S env' c) :
    TSim RW (Calls single g ap c last env' (genClauses c last pos names σ [] cs).2.2) (Writes c last pos env' []) S (Give single g pos env')
      (ErlGen.Gleam.clauses ap env vs cs) (branches (texts g) ap' env' vs' (genClauses c last pos names σ [] cs).1) := by
  induction cs generalizing S with
  | nil =>
    simp only [ErlGen.Gleam.clauses]
    exact TSim.stuck
  | cons cl cs ih =>
    obtain ⟨ps, alternatives, guard, body⟩ := cl
    simp only [okClauses, Bool.and_eq_true] at hok
    obtain ⟨⟨⟨⟨⟨hguard, hvars⟩, halts⟩, hokb⟩, hlift⟩, hrest⟩ := hok
    have hst1 := hst (.mk ps alternatives guard body) (by simp)
    have hb1 := hbody (.mk ps alternatives guard body) (by simp)
    simp only [Clause.body] at hst1 hb1
    have ih := fun {S} => ih (S := S) (fun cl hcl => hbody cl (by simp [hcl])) (fun cl hcl => hst cl (by simp [hcl])) hrest
    have hnd : (texts (varsAll ps)).Nodup := by
      simp only [okVars, distinct, Bool.and_eq_true, decide_eq_true_eq] at hvars
      exact hvars.1
    cases guard with
    | none =>
      have hch := choose_rel (env := env) (alts := ps :: alternatives) hv
      rw [genClauses_cons] at hloop ⊢
      simp only [ErlGen.Gleam.clauses]
      cases hret : returned ps alternatives body names with
      | some n =>
        simp only [hret] at hloop ⊢
        rw [branches]
        cases hrun : ErlGen.Gleam.choose env none (ps :: alternatives) vs with
        | bad => exact TSim.stuck
        | no =>
          rw [hrun] at hch
          have hch : checkAny (ps :: alternatives) vs' = .no := hch
          rw [hch]
          exact ih hr hvs hv ht hloop
        | yes b =>
          rw [hrun] at hch
          obtain ⟨b', h1, h2⟩ := hch
          rw [h1]
          obtain ⟨ha, hf⟩ := returned_some hret
          subst ha
          obtain ⟨qs, hq, hall⟩ := choose_yes hrun
          simp only [List.mem_singleton] at hq
          subst hq
          have hk := runAll_keys_iff hall
          obtain ⟨v, hh, he⟩ := findSame_expr (ap := ap) (env := b ++ env) hf hvs hall (given_of_nodup (by rw [hk]; exact hnd))
          simp only [List.map_nil, List.nil_append, declared_give, declare, pure_bind, initialiseAll]
          simp only [he]
          have := giveVar_res (RW := RW) (ap := ap) (ap' := ap') (c := c) (last := last) (pos := pos) (σ := σ)
            (looped := (genClauses c last pos names σ [] cs).2.2) hh
          have := this (by rw [declared_give]; exact .nil _ _) ht hloop
          rw [declared_give] at this
          exact this
      | none =>
        have hlev := (hst1 _ hokb hlift c last pos (σ.binds (varsAll ps)).2 hc).level
        simp only [hret, hlev] at hloop ⊢
        rw [branches]
        cases hrun : ErlGen.Gleam.choose env none (ps :: alternatives) vs with
        | bad => exact TSim.stuck
        | no =>
          rw [hrun] at hch
          have hch : checkAny (ps :: alternatives) vs' = .no := hch
          rw [hch]
          exact (ih hr hvs hv ht fun h1 h2 => hloop h1 (by simp [h2])).mono (fun _ _ h => h) (fun _ _ _ _ h => h) (Calls.looped (by simp +contextual))
        | yes b =>
          rw [hrun] at hch
          obtain ⟨b', h1, h2⟩ := hch
          rw [h1]
          obtain ⟨qs, hq, hall⟩ := choose_yes hrun
          have hk := runAll_keys_iff hall
          have hkeys : ∀ x, x ∈ b.map Prod.fst ↔ x ∈ texts (varsAll ps) := by
            intro x
            rw [hk]
            rcases List.mem_cons.1 hq with rfl | hq
            · rfl
            · rw [List.all_eq_true] at halts
              exact sameNames_iff (halts qs hq) x
          exact (branch_tsim hb1 hst1 hc hvars (fun _ => .rfl) (fun _ _ => rfl) hokb hlift hr h2 hkeys ht fun h3 h4 => hloop h3 (by simp [h4])).mono
            (fun _ _ h => h) (fun _ _ _ _ h => h) (Calls.looped (by simp +contextual))
    | some gd =>
      have hnames' : ∀ qs ∈ ps :: alternatives, ∀ x, x ∈ texts (varsAll qs) ↔ x ∈ texts (varsAll ps) := by
        intro qs hq x
        rcases List.mem_cons.1 hq with rfl | hq
        · rfl
        · rw [List.all_eq_true] at halts
          exact sameNames_iff (halts qs hq) x
      have hspec := tryEach_spec (W' := W') (ap' := ap') (vs := vs) (vs' := vs') hguard hvars (ps :: alternatives) hnames' hr hv
      rw [genClauses_guard] at hloop ⊢
      simp only [ErlGen.Gleam.clauses]
      cases hret : returned ps alternatives body names with
      | some n =>
        simp only [hret] at hloop ⊢
        rw [branches]
        cases hrun : ErlGen.Gleam.choose env (some gd) (ps :: alternatives) vs with
        | bad => exact TSim.stuck
        | no =>
          rw [hrun] at hspec
          obtain ⟨S', h1, h2⟩ := hspec
          refine TSim.step (S' := S') (k := branches (texts g) ap' env' vs' (genClauses c last pos names σ [] cs).1)
            (L' := Writes c last pos env' []) (fun w' => ?_) (h2.mono fun _ _ h => h.elim) (fun _ _ h => h)
            (ih (hr.keep h2.keep) (forall₂_of_mem hvs fun _ _ _ h => h.keep h2.keep) (hv.keep h2.keep)
              (ht.move h2 (fun _ _ => rfl) fun _ => Nat.le_refl _) fun h3 h4 => (hloop h3 h4).move (σ := σ) h2 fun _ _ => rfl)
          simp only [M.bind]
          erw [h1]
        | yes b =>
          rw [hrun] at hspec
          obtain ⟨S', b', env1, h1, h2, qs, hq, hall⟩ := hspec
          obtain ⟨ha, hf⟩ := returned_some hret
          subst ha
          simp only [List.mem_singleton] at hq
          subst hq
          have hk := runAll_keys_iff hall
          have hvs1 : List.Forall₂ (Holds single g S' env1) names vs :=
            forall₂_of_mem hvs fun n v hn h => h.move h2.frame.keep (h2.old n (hnames n hn))
          obtain ⟨v, hh, he⟩ := findSame_expr (ap := ap) (env := b ++ env) hf hvs1 hall (given_of_nodup (by rw [hk]; exact hnd))
          have ht1 : Target S' env1 σ pos := ht.move h2.frame h2.old fun _ => Nat.le_refl _
          simp only [he]
          have := giveVar_res (RW := RW) (ap := ap) (ap' := ap') (c := c) (last := last) (pos := pos) (σ := σ)
            (looped := (genClauses c last pos names σ [] cs).2.2) hh
          have := this (by rw [declared_give]; exact .nil _ _) ht1 fun h3 h4 => (hloop h3 h4).move h2.frame h2.old
          rw [declared_give] at this
          refine leave_tsim ht h2.old h2.frame (fun w' => ?_) this
          simp only [M.bind]
          erw [h1]
          simp only [List.map_nil, List.nil_append, declared_give, declare, initialiseAll, pure_bind]
      | none =>
        have hlev := (hst1 _ hokb hlift c last pos (σ.guarded gd (varsAll ps)) hc).level
        simp only [hret, hlev] at hloop ⊢
        rw [branches]
        cases hrun : ErlGen.Gleam.choose env (some gd) (ps :: alternatives) vs with
        | bad => exact TSim.stuck
        | no =>
          rw [hrun] at hspec
          obtain ⟨S', h1, h2⟩ := hspec
          refine TSim.step (S' := S') (k := branches (texts g) ap' env' vs' (genClauses c last pos names σ [] cs).1)
            (L' := Writes c last pos env' []) (fun w' => ?_) (h2.mono fun _ _ h => h.elim) (fun _ _ h => h)
            ((ih (hr.keep h2.keep) (forall₂_of_mem hvs fun _ _ _ h => h.keep h2.keep) (hv.keep h2.keep)
              (ht.move h2 (fun _ _ => rfl) fun _ => Nat.le_refl _) fun h3 h4 => (hloop h3 (by simp [h4])).move (σ := σ) h2 fun _ _ => rfl).mono
              (fun _ _ h => h) (fun _ _ _ _ h => h) (Calls.looped (by simp +contextual)))
          simp only [M.bind]
          erw [h1]
        | yes b =>
          rw [hrun] at hspec
          obtain ⟨S', b', env1, h1, h2, qs, hq, hall⟩ := hspec
          have hgr := Grow.binds σ (guardVars gd (varsAll ps))
          have ht1 : Target S' env1 (σ.binds (guardVars gd (varsAll ps))).2 pos := ht.move h2.frame h2.old hgr.fresh
          have hb := branch_tsim (c := c) (last := last) (pos := pos) (vars := otherVars gd (varsAll ps))
            (b := keepKeys (fun x => !decide (x ∈ guardTexts gd)) b) (b' := keepKeys (fun x => !decide (x ∈ guardTexts gd)) b')
            (Γ2 := texts (varsAll ps) ++ Γ) (env2 := b ++ env)
            hb1 hst1 hc (okVars_filter hvars _) guarded_context guarded_env hokb hlift h2.vars (h2.rel.keepKeys _)
            (keys_keepKeys (p := fun x => !decide (x ∈ guardTexts gd)) h2.keys) ht1
            fun h3 h4 => (hloop h3 (by simp only [Scope.guarded]; simp [h4])).move h2.frame h2.old
          refine (leave_tsim ht h2.old h2.frame (fun w' => ?_) hb).mono
            (fun _ _ h => h) (fun _ _ _ _ h => h) (Calls.looped (by simp +contextual [Scope.guarded]))
          simp only [M.bind]
          erw [h1]
          simp only [Scope.guarded]
          have hkeep : ∀ env2 : Env, (initialiseAll env2 b' ((σ.binds (guardVars gd (varsAll ps))).2.binds (otherVars gd (varsAll ps))).1 : Run W' Unit) =
              initialiseAll env2 (keepKeys (fun x => !decide (x ∈ guardTexts gd)) b')
                ((σ.binds (guardVars gd (varsAll ps))).2.binds (otherVars gd (varsAll ps))).1 := by
            intro env2
            refine initialiseAll_congr fun p hp => ?_
            have hm := List.mem_map_of_mem (f := (·.1)) hp
            rw [Scope.binds_texts] at hm
            have hm := (mem_texts_filter (p := fun x => !decide (x ∈ guardTexts gd)).1 hm).2
            rw [lookup_keepKeys, if_pos hm]
          simp only [hkeep]
          rfl

/-! ### The first clause -/

theorem bare_run : ∀ (p : Pattern), bare p = true → ∀ v : GValue, ErlGen.Gleam.Pattern.run p v ≠ .no
  | .discard, _, v => by simp [ErlGen.Gleam.Pattern.run]
  | .var _ _, _, v => by simp [ErlGen.Gleam.Pattern.run]
  | .assign p x l, h, v => by
    simp only [bare] at h
    have := bare_run p h v
    simp only [ErlGen.Gleam.Pattern.run]
    cases hr : ErlGen.Gleam.Pattern.run p v with
    | no => exact absurd hr this
    | bad => simp
    | yes b => simp
  | .int _, h, _ => by simp [bare] at h
  | .string _, h, _ => by simp [bare] at h
  | .prefix _ _ _, h, _ => by simp [bare] at h
  | .tuple _, h, _ => by simp [bare] at h
  | .nil, h, _ => by simp [bare] at h
  | .cons _ _, h, _ => by simp [bare] at h
  | .ctor _ _, h, _ => by simp [bare] at h

theorem bare_runAll {ps : List Pattern} (h : ps.all bare = true) (vs : List GValue) : ErlGen.Gleam.Pattern.runAll ps vs ≠ .no := by
  induction ps generalizing vs with
  | nil => cases vs <;> simp [ErlGen.Gleam.Pattern.runAll]
  | cons p ps ih =>
    simp only [List.all_cons, Bool.and_eq_true] at h
    cases vs with
    | nil => simp [ErlGen.Gleam.Pattern.runAll]
    | cons v vs =>
      rw [runAll_cons]
      have h1 := bare_run p h.1 v
      have h2 := ih h.2 vs
      cases hr : ErlGen.Gleam.Pattern.run p v with
      | no => exact absurd hr h1
      | bad => simp [seqMatch]
      | yes b =>
        cases hs : ErlGen.Gleam.Pattern.runAll ps vs with
        | no => exact absurd hs h2
        | bad => simp [seqMatch]
        | yes b => simp [seqMatch]

/-- The variables of patterns that match. -/
def matched (ps : List Pattern) (vs : List GValue) : GRun W (List (Text × GValue)) :=
  match ErlGen.Gleam.Pattern.runAll ps vs with
  | .yes b => M.pure b
  | _ => M.stuck

theorem first_refines {ps : List Pattern} {alternatives : List (List Pattern)} {body : Expr} {cs : List Clause} {vs : List GValue}
    (ht : tree single (.mk ps alternatives none body :: cs) ≠ .switch)
    (hok : okTree single (tree single (.mk ps alternatives none body :: cs)) (.mk ps alternatives none body :: cs) = true) :
    Refines (ErlGen.Gleam.clauses ap env vs (.mk ps alternatives none body :: cs))
      ((matched ps vs).bind fun b => ErlGen.Gleam.expr ap (b ++ env) body) := by
  intro w
  simp only [ErlGen.Gleam.clauses, ErlGen.Gleam.choose, matched, ErlGen.Gleam.holds]
  by_cases hlen : ps.length = vs.length
  · rw [if_pos hlen]
    cases hrun : ErlGen.Gleam.Pattern.runAll ps vs with
    | yes b => right; rfl
    | bad => left; exact ⟨w, rfl⟩
    | no =>
      left
      simp only
      revert ht hok
      rw [tree]
      split
      · rename_i hb
        exact absurd hrun (bare_runAll hb vs)
      · split
        · intro _ hok
          cases cs with
          | nil =>
            simp only [okTree, List.isEmpty_iff] at hok
            subst hok
            exact ⟨w, by simp only [ErlGen.Gleam.choose, ErlGen.Gleam.clauses]; rfl⟩
          | cons _ _ => simp [okTree] at hok
        · intro h
          exact absurd rfl h
  · rw [if_neg hlen]
    left
    exact ⟨w, rfl⟩

theorem ResSim.refine {m n : GRun W GValue} {stms : List Stm} {looped : Bool}
    (h : ResSim single g RW ap ap' c last pos σ env' S m stms looped) (hr : Refines n m) :
    ResSim single g RW ap ap' c last pos σ env' S n stms looped := fun h1 h2 h3 => (h h1 h2 h3).refine hr

theorem first_res {cs : List Clause} (hbody : ∀ cl ∈ cs, BodySim single g RW ap ap' (Clause.body cl))
    (hst : ∀ cl ∈ cs, StatBody single g (Clause.body cl)) (hc : c.single = single) (hok : okClauses single g Γ cs = true)
    (htree : tree single cs ≠ .switch) (hokt : okTree single (tree single cs) cs = true)
    (hr : EnvRel single g S c σ Γ env env') {names : List Name} {vs : List GValue}
    (hvs : List.Forall₂ (Holds single g S env') names vs) :
    ResSim single g RW ap ap' c last pos σ env' S (ErlGen.Gleam.clauses ap env vs cs) (genFirst c last pos names ⟨σ, []⟩ cs).stms
      (genFirst c last pos names ⟨σ, []⟩ cs).looped := by
  cases cs with
  | nil => exact absurd rfl htree
  | cons cl cs =>
    obtain ⟨ps, alternatives, guard, body⟩ := cl
    simp only [okClauses, Bool.and_eq_true] at hok
    obtain ⟨⟨⟨⟨⟨hguard, hvars⟩, halts⟩, hokb⟩, hlift⟩, hrest⟩ := hok
    obtain rfl : guard = none := by
      cases guard with
      | none => rfl
      | some gd => exact absurd rfl htree
    have hst1 := hst (.mk ps alternatives none body) (by simp)
    have hb1 := hbody (.mk ps alternatives none body) (by simp)
    simp only [Clause.body] at hst1 hb1
    refine ResSim.refine ?_ (first_refines htree hokt)
    rw [genFirst_cons]
    cases hret : returned ps alternatives body names with
    | some n =>
      simp only
      obtain ⟨ha, hf⟩ := returned_some hret
      rw [matched]
      cases hrun : ErlGen.Gleam.Pattern.runAll ps vs with
      | yes b =>
        simp only [pure_bind]
        have hk := runAll_keys_iff hrun
        have hnd : (texts (varsAll ps)).Nodup := by
          simp only [okVars, distinct, Bool.and_eq_true, decide_eq_true_eq] at hvars
          exact hvars.1
        obtain ⟨v, hh, he⟩ := findSame_expr (ap := ap) (env := b ++ env) hf hvs hrun (given_of_nodup (by rw [hk]; exact hnd))
        rw [he]
        exact giveVar_res hh
      | no => exact fun _ _ _ => TSim.stuck
      | bad => exact fun _ _ _ => TSim.stuck
    | none =>
      simp only
      have hgb := (hst1 _ hokb hlift c last pos (σ.binds (varsAll ps)).2 hc).grow
      have hn := ((Grow.binds σ (varsAll ps)).trans hgb).nodup
      have hdecl : declared [Stm.destructure names ps (σ.binds (varsAll ps)).1] = (σ.binds (varsAll ps)).1.map (·.2) := by simp [declared]
      have h := seq_res (A := [.destructure names ps (σ.binds (varsAll ps)).1]) (K := (genBody c last pos (σ.binds (varsAll ps)).2 body).stms)
        (m := matched ps vs) (f := fun b => ErlGen.Gleam.expr ap (b ++ env) body) (single := single) (g := g) (RW := RW) (ap := ap) (ap' := ap')
        (c := c) (last := last) (pos := pos) (σ := σ) (env' := env') (S := S) (looped := (genBody c last pos (σ.binds (varsAll ps)).2 body).looped)
        (R := fun S1 b => EnvRel single g S1 c (σ.binds (varsAll ps)).2 (texts (varsAll ps) ++ Γ) (b ++ env) env')
        (σ' := (σ.binds (varsAll ps)).2) (fun hd => ?_) (by rw [declared_append, hdecl]; exact hn) (Grow.binds σ (varsAll ps)).fresh
        fun S1 b hfr hr1 => hb1 c last pos _ _ _ env' S1 hc hokb hlift hr1
      · exact h
      · rw [hdecl] at hd ⊢
        rw [matched]
        cases hrun : ErlGen.Gleam.Pattern.runAll ps vs with
        | no => exact Sim.stuck
        | bad => exact Sim.stuck
        | yes b =>
          have hk := runAll_keys_iff hrun
          obtain ⟨S2, h1, h2, h3⟩ := destructure_spec (ap' := ap') (ps := ps) (vars := varsAll ps) (b := b) hvs (fun vs' hvs => by
            have h6 := checkAll_rel ps hvs
            rw [hrun] at h6
            exact h6) (fun x => by rw [hk]) hd hr hvars
          rw [exec_one]
          exact Sim.step (k := M.pure .normal) h1 h2 (fun _ _ h => h) (Sim.pure ⟨rfl, h3⟩)

/-! ### The whole -/

theorem stm_case (hg : ∀ f ∈ texts g, synthetic f = false) {es : List Expr} {cs : List Clause}
    (hes : ∀ e ∈ es, ExpSim single g RW ap ap' e) (hbody : ∀ cl ∈ cs, BodySim single g RW ap ap' (Clause.body cl)) :
    StmSim single g RW ap ap' (.case_ es cs) := by
  intro c last pos σ Γ env env' S hc hok hr
  have hst := ((stat_all single g _ Γ hok c σ hc).2 last pos).grow.nodup
  simp only [okE, Bool.and_eq_true] at hok
  obtain ⟨⟨hok1, hok2⟩, hok3⟩ := hok
  have hsc := stat_allClauses single g cs
  obtain ⟨hc1, hc2⟩ := stat_clauses hsc _ hok3 c last pos (genSubjects c σ es).2.1 (genSubjects c σ es).2.2 hc
  have hgs := (stat_subjects c σ es).1
  have hr1 : ∀ S1, Keep S S1 → EnvRel single g S1 c (genSubjects c σ es).2.2 (Verif.JsGen.users Γ) env env' := fun S1 hk =>
    (hr.keep hk).users (same_subjects c σ es) hg
  simp only [gen, place, hc] at hst ⊢
  simp only [ErlGen.Gleam.expr]
  cases htree : tree single cs with
  | switch =>
    simp only [htree, hc1, List.nil_append] at hst ⊢
    refine seq_res (R := fun S1 vs => List.Forall₂ (Holds single g S1 env') (genSubjects c σ es).2.1 vs)
      (fun hd => subjects_sim hg hes hc hok1 hr hd) hst hgs.fresh fun S1 vs hfr hvs => ?_
    intro hd ht hl
    obtain ⟨vs', h1, h2⟩ := readAll_spec (W' := W') hvs
    rw [exec_one]
    refine TSim.step (S' := S1) (k := branches (texts g) ap' env' vs' _) (L' := Writes c last pos env' []) (fun w' => ?_) (.refl _ _)
      (fun _ _ h => h.mono (by simp)) (clauses_tsim hbody hsc hc hok3 (hr1 S1 hfr.keep) (subjects_old hg hok1 hr) hvs h1 ht hl)
    rw [step]
    simp only [M.bind]
    rw [h2]
  | direct =>
    have h3 := hc2 (by rw [htree]; exact fun h => by cases h)
    simp only [htree, h3.level, List.nil_append] at hst ⊢
    exact seq_res (R := fun S1 vs => List.Forall₂ (Holds single g S1 env') (genSubjects c σ es).2.1 vs)
      (fun hd => subjects_sim hg hes hc hok1 hr hd) hst hgs.fresh fun S1 vs hfr hvs =>
      first_res hbody hsc hc hok3 (by rw [htree]; exact fun h => by cases h) hok2 (hr1 S1 hfr.keep) hvs
  | run =>
    have h3 := hc2 (by rw [htree]; exact fun h => by cases h)
    simp only [htree, h3.level, List.nil_append] at hst ⊢
    exact seq_res (R := fun S1 vs => List.Forall₂ (Holds single g S1 env') (genSubjects c σ es).2.1 vs)
      (fun hd => subjects_sim hg hes hc hok1 hr hd) hst hgs.fresh fun S1 vs hfr hvs =>
      first_res hbody hsc hc hok3 (by rw [htree]; exact fun h => by cases h) hok2 (hr1 S1 hfr.keep) hvs

theorem both_case (hg : ∀ f ∈ texts g, synthetic f = false) {es : List Expr} {cs : List Clause}
    (hes : ∀ e ∈ es, ExpSim single g RW ap ap' e) (hbody : ∀ cl ∈ cs, BodySim single g RW ap ap' (Clause.body cl)) :
    Both single g RW ap ap' (.case_ es cs) := by
  have h := stm_case hg hes hbody
  refine ⟨exp_place hg (fun c m σ => ?_) (fun hk => ?_) h, h⟩
  · cases m with
    | exp o => cases o <;> simp only [gen, place]
    | stm last pos => simp only [gen, place]
  · simp [lifts]

end

end Verif.JsGen
