import Verif.JsGen.Sim

/-!
# Calls
-/

namespace Verif.JsGen

open Verif.ErlGen (Pattern Const Expr Stmt Clause varsAll M Out Match Op Fun)
open Verif.ErlGen.Gleam (Panic)

/-! ### Parameters -/

/-- The cells of parameters. -/
def PCells (mk : Text → Name) (cell : Value → Cell) (env : Env) (S : Store) : List (Option (Text × Nat)) → List Value → Prop
  | [], [] => True
  | some (x, _) :: ps, v :: vs => (∃ l, env.lookup (mk x) = some l ∧ S[l]? = some (cell v)) ∧ PCells mk cell env S ps vs
  | none :: ps, _ :: vs => PCells mk cell env S ps vs
  | _, _ => False

theorem parameterTexts_some (x : Text) (i : Nat) (ps : List (Option (Text × Nat))) :
    parameterTexts (some (x, i) :: ps) = x :: parameterTexts ps := rfl

theorem parameterTexts_none (ps : List (Option (Text × Nat))) : parameterTexts (none :: ps) = parameterTexts ps := rfl

theorem PCells.mono {mk : Text → Name} {cell : Value → Cell} {env env1 : Env} {S S1 : Store} : ∀ {ps : List (Option (Text × Nat))}
    {vs : List Value}, PCells mk cell env S ps vs → (∀ x ∈ parameterTexts ps, ∀ l v, env.lookup (mk x) = some l → S[l]? = some (cell v) →
      env1.lookup (mk x) = some l ∧ S1[l]? = some (cell v)) → PCells mk cell env1 S1 ps vs
  | [], [], _, _ => trivial
  | some (x, i) :: ps, v :: vs, h, hm => by
    obtain ⟨⟨l, h1, h2⟩, h3⟩ := h
    have h4 := hm x (by simp [parameterTexts_some]) l v h1 h2
    exact ⟨⟨l, h4.1, h4.2⟩, h3.mono fun y hy => hm y (by simp [parameterTexts_some, hy])⟩
  | none :: ps, v :: vs, h, hm => by
    simp only [PCells] at h ⊢
    exact h.mono fun y hy => hm y (by simpa [parameterTexts_none] using hy)
  | [], _ :: _, h, _ => h.elim
  | some _ :: _, [], h, _ => h.elim
  | none :: _, [], h, _ => h.elim

theorem LoopCells.cells {env : Env} {S : Store} {ps : List (Option (Text × Nat))} {vs : List Value} (h : LoopCells env S ps vs) :
    PCells .loop .param env S ps vs := by
  induction h with
  | nil => trivial
  | some h1 h2 _ ih => exact ⟨⟨_, h1, h2⟩, ih⟩
  | none _ ih => exact ih

theorem PCells.loop {env : Env} {S : Store} : ∀ {ps : List (Option (Text × Nat))} {vs : List Value},
    PCells .loop .param env S ps vs → LoopCells env S ps vs
  | [], [], _ => .nil
  | some (x, i) :: ps, v :: vs, h => by
    obtain ⟨⟨l, h1, h2⟩, h3⟩ := h
    exact .some h1 h2 h3.loop
  | none :: ps, v :: vs, h => .none (PCells.loop (ps := ps) h)
  | [], _ :: _, h => h.elim
  | some _ :: _, [], h => h.elim
  | none :: _, [], h => h.elim

theorem loop_cell {env : Env} {S : Store} {ps : List (Option (Text × Nat))} {vs : List Value} {x : Text} (h : LoopCells env S ps vs)
    (hx : x ∈ parameterTexts ps) : ∃ l v, env.lookup (.loop x) = some l ∧ S[l]? = some (.param v) := by
  induction h with
  | nil => simp [parameterTexts, texts] at hx
  | some h1 h2 _ ih =>
    rcases List.mem_cons.1 hx with rfl | hx
    · exact ⟨_, _, h1, h2⟩
    · exact ih hx
  | none _ ih => exact ih hx

/-- What binding parameters does. -/
structure Bound (mk : Text → Name) (cell : Value → Cell) (ps : List (Option (Text × Nat))) (vs : List Value) (env env1 : Env)
    (S S1 : Store) : Prop where
  frame : Frame NoCells S S1
  other : ∀ n, (∀ x ∈ parameterTexts ps, n ≠ mk x) → env1.lookup n = env.lookup n
  cells : PCells mk cell env1 S1 ps vs
  new : ∀ x ∈ parameterTexts ps, ∀ l, env1.lookup (mk x) = some l → S.length ≤ l
  inj : ∀ x ∈ parameterTexts ps, ∀ y ∈ parameterTexts ps, ∀ l, env1.lookup (mk x) = some l → env1.lookup (mk y) = some l → x = y

theorem bind_spec {W : Type} {mk : Text → Name} (hmk : ∀ x y, mk x = mk y → x = y) (cell : Value → Cell) :
    ∀ (ps : List (Option (Text × Nat))) (vs : List Value) (env : Env) (S : Store), ps.length = vs.length → (parameterTexts ps).Nodup →
    ∃ env1 S1, Bound mk cell ps vs env env1 S S1 ∧
      ∀ w : W, bindParameters cell (ps.map fun p => p.map fun (x, _) => mk x) vs env (S, w) = (.val env1, S1, w)
  | [], [], env, S, _, _ => ⟨env, S, ⟨.refl _ _, fun _ _ => rfl, trivial, fun x hx => by simp [parameterTexts, texts] at hx,
      fun x hx => by simp [parameterTexts, texts] at hx⟩, fun _ => rfl⟩
  | some (x, i) :: ps, v :: vs, env, S, hl, hn => by
    rw [parameterTexts_some, List.nodup_cons] at hn
    obtain ⟨env1, S1, h, hb⟩ := bind_spec hmk cell ps vs ((mk x, S.length) :: env) (S ++ [cell v]) (by simpa using hl) hn.2
    have hx : env1.lookup (mk x) = some S.length := by
      rw [h.other (mk x) fun y hy e => hn.1 (by rw [hmk x y e]; exact hy), List.lookup_cons]
      simp
    have hS : S1[S.length]? = some (cell v) := by
      rw [h.frame.same _ (by simp) (fun h => h)]
      simp
    refine ⟨env1, S1, ⟨(Frame.append NoCells S _).trans h.frame fun _ _ h => h, fun n hne => ?_, ⟨⟨_, hx, hS⟩, h.cells⟩, fun y hy l he => ?_,
      fun y hy z hz l h1 h2 => ?_⟩, fun w => ?_⟩
    · rw [h.other n fun y hy => hne y (by simp [parameterTexts_some, hy]), List.lookup_cons]
      have : (n == mk x) = false := by simp [hne x (by simp [parameterTexts_some])]
      rw [this]
    · rcases List.mem_cons.1 hy with rfl | hy
      · rw [hx] at he
        cases he
        exact Nat.le_refl _
      · have := h.new y hy l he
        simp at this
        omega
    · have hcross : ∀ y ∈ parameterTexts ps, env1.lookup (mk y) ≠ some S.length := by
        intro y hy e
        have := h.new y hy _ e
        simp at this
        omega
      rcases List.mem_cons.1 hy with ey | hy' <;> rcases List.mem_cons.1 hz with ez | hz'
      · rw [ey, ez]
      · rw [ey, hx] at h1
        cases h1
        exact absurd h2 (hcross z hz')
      · rw [ez, hx] at h2
        cases h2
        exact absurd h1 (hcross y hy')
      · exact h.inj y hy' z hz' l h1 h2
    · simp only [List.map_cons, Option.map_some, bindParameters, M.bind, alloc]
      exact hb w
  | none :: ps, v :: vs, env, S, hl, hn => by
    obtain ⟨env1, S1, h, hb⟩ := bind_spec hmk cell ps vs env S (by simpa using hl) hn
    exact ⟨env1, S1, ⟨h.frame, h.other, h.cells, h.new, h.inj⟩, fun w => hb w⟩
  | [], _ :: _, _, _, hl, _ => by simp at hl
  | _ :: _, [], _, _, hl, _ => by simp at hl

theorem counter_parameters {x : Text} : ∀ {ps : List (Option (Text × Nat))} {σ : Scope},
    (x ∈ parameterTexts ps → (σ.parameters ps).counter x = some 0) ∧ (x ∉ parameterTexts ps → (σ.parameters ps).counter x = σ.counter x)
  | [], σ => ⟨fun h => by simp [parameterTexts, texts] at h, fun _ => rfl⟩
  | none :: ps, σ => counter_parameters (ps := ps) (σ := σ)
  | some (y, i) :: ps, σ => by
    have h := counter_parameters (x := x) (ps := ps) (σ := ⟨setAt σ.counter y 0, σ.high⟩)
    rw [parameterTexts_some]
    simp only [Scope.parameters]
    constructor
    · intro hx
      by_cases hp : x ∈ parameterTexts ps
      · exact h.1 hp
      · rw [h.2 hp]
        rcases List.mem_cons.1 hx with rfl | hx
        · simp [setAt]
        · exact absurd hx hp
    · intro hx
      simp only [List.mem_cons, not_or] at hx
      rw [h.2 hx.2]
      simp [setAt, hx.1]

section

variable {single : Text → Bool} {g : List (Text × Nat)}

theorem bindParameters_lookup {S : Store} {env1 : Env} : ∀ {ps : List (Option (Text × Nat))} {vs : List GValue} {vs' : List Value}
    {b : List (Text × GValue)}, ErlGen.Gleam.bindParameters ps vs = some b → VsRel single g S vs vs' →
    PCells (fun x => .var x 0) .val env1 S ps vs' →
    (∀ x ∈ parameterTexts ps, ∃ v, b.lookup x = some v ∧ Holds single g S env1 (.var x 0) v) ∧ ∀ x, x ∉ parameterTexts ps → b.lookup x = none
  | [], [], _, b, hb, _, _ => by
    simp only [ErlGen.Gleam.bindParameters, Option.some.injEq] at hb
    subst hb
    exact ⟨fun x hx => by simp [parameterTexts, texts] at hx, fun _ _ => rfl⟩
  | some (y, i) :: ps, v :: vs, _, b, hb, .cons (v' := v') (vs' := vs') hv hvs, hp => by
    simp only [ErlGen.Gleam.bindParameters, Option.map_eq_some_iff] at hb
    obtain ⟨b1, hb1, rfl⟩ := hb
    obtain ⟨⟨l, h1, h2⟩, h3⟩ := hp
    obtain ⟨h4, h5⟩ := bindParameters_lookup hb1 hvs h3
    simp only [ErlGen.Gleam.bindOption, List.singleton_append, parameterTexts_some, List.mem_cons, not_or]
    refine ⟨fun x hx => ?_, fun x hx => ?_⟩
    · by_cases hxy : x = y
      · subst hxy
        exact ⟨v, by simp, l, v', h1, h2, hv⟩
      · obtain ⟨u, h6, h7⟩ := h4 x (hx.resolve_left hxy)
        have : (x == y) = false := by simp [hxy]
        exact ⟨u, by rw [List.lookup_cons, this, h6], h7⟩
    · have : (x == y) = false := by simp [hx.1]
      rw [List.lookup_cons, this]
      exact h5 x hx.2
  | none :: ps, v :: vs, _, b, hb, .cons (v' := v') (vs' := vs') hv hvs, hp => by
    simp only [ErlGen.Gleam.bindParameters, Option.map_eq_some_iff] at hb
    obtain ⟨b1, hb1, rfl⟩ := hb
    exact bindParameters_lookup (ps := ps) hb1 hvs hp
  | [], _ :: _, _, _, hb, _, _ => by simp [ErlGen.Gleam.bindParameters] at hb
  | some _ :: _, [], _, _, hb, _, _ => by simp [ErlGen.Gleam.bindParameters] at hb
  | none :: _, [], _, _, hb, _, _ => by simp [ErlGen.Gleam.bindParameters] at hb

theorem bindParameters_length : ∀ {ps : List (Option (Text × Nat))} {vs : List GValue} {b : List (Text × GValue)},
    ErlGen.Gleam.bindParameters ps vs = some b → ps.length = vs.length
  | [], [], _, _ => rfl
  | p :: ps, v :: vs, b, hb => by
    simp only [ErlGen.Gleam.bindParameters, Option.map_eq_some_iff] at hb
    obtain ⟨b1, hb1, rfl⟩ := hb
    simp [bindParameters_length hb1]
  | [], _ :: _, _, hb => by simp [ErlGen.Gleam.bindParameters] at hb
  | _ :: _, [], _, hb => by simp [ErlGen.Gleam.bindParameters] at hb

/-- The scope of a function. -/
theorem EnvRel.parameters {S : Store} {c : Context} {σ : Scope} {Γ : List Text} {env : GEnv} {env' env1 : Env}
    {ps : List (Option (Text × Nat))} {vs : List GValue} {vs' : List Value} {b : List (Text × GValue)}
    (hr : EnvRel single g S c σ Γ env env') (hp : okParameters ps = true) (hb : ErlGen.Gleam.bindParameters ps vs = some b)
    (hvs : VsRel single g S vs vs') (hcells : PCells (fun x => .var x 0) .val env1 S ps vs')
    (hother : ∀ x k, x ∉ parameterTexts ps → σ.counter x = some k → env1.lookup (.var x k) = env'.lookup (.var x k))
    (hself : ∀ f qs, c.self = some (f, qs) → f ∉ parameterTexts ps) :
    EnvRel single g S c (σ.parameters ps) (parameterTexts ps ++ Γ) (b ++ env) env1 := by
  obtain ⟨h1, h2⟩ := bindParameters_lookup hb hvs hcells
  simp only [okParameters, Bool.and_eq_true, List.all_eq_true, Bool.not_eq_true', decide_eq_false_iff_not] at hp
  refine ⟨fun x hx => ?_, fun f hf hn => ?_, ?_, fun f qs hfq => ⟨fun hm => ?_, (hr.self f qs hfq).2⟩⟩
  · by_cases hxp : x ∈ parameterTexts ps
    · obtain ⟨v, h3, l, v', h4, h5, h6⟩ := h1 x hxp
      exact ⟨v, 0, l, v', by rw [List.lookup_append, h3]; rfl, counter_parameters.1 hxp, h4, h5, h6⟩
    · obtain ⟨v, k, l, v', h3, h4, h5, h6⟩ := hr.vars x ((List.mem_append.1 hx).resolve_left hxp)
      exact ⟨v, k, l, v', by rw [List.lookup_append, h2 x hxp, h3]; rfl, by rw [counter_parameters.2 hxp, h4], by rw [hother x k hxp h4, h5], h6⟩
  · simp only [List.mem_append, not_or] at hn
    obtain ⟨h3, h4⟩ := hr.globals f hf hn.2
    exact ⟨by rw [counter_parameters.2 hn.1, h3], by rw [hother f 0 hn.1 h3, h4]⟩
  · simp only [List.mem_append, not_or]
    exact ⟨⟨fun h => (hp.2 _ h).1 rfl, hr.clean.1⟩, ⟨fun h => (hp.2 _ h).2 rfl, hr.clean.2⟩⟩
  · have hnp := hself f qs hfq
    rw [counter_parameters.2 hnp]
    exact (hr.self f qs hfq).1 ((List.mem_append.1 hm).resolve_left hnp)

/-! ### The variables of a loop -/

variable {W W' : Type} {RW : W → W' → Prop} {ap : GValue → List GValue → GRun W GValue} {ap' : Value → List Value → Run W' Value}

theorem declared_loopLets (ps : List (Option (Text × Nat))) : declared (loopLets ps) = (parameterTexts ps).map fun x => .var x 0 := by
  induction ps with
  | nil => rfl
  | cons p ps ih =>
    cases p with
    | none => exact ih
    | some p =>
      obtain ⟨x, i⟩ := p
      simp only [loopLets, declared, parameterTexts_some, List.map_cons, ih]

theorem exec_loopLets {globals : List Text} {env : Env} : ∀ (ps : List (Option (Text × Nat))) (vs : List Value) (S : Store),
    (parameterTexts ps).Nodup → Ready S env (declared (loopLets ps)) → LoopCells env S ps vs →
    ∃ S1, Frame (Cells env (declared (loopLets ps))) S S1 ∧ PCells (fun x => .var x 0) .val env S1 ps vs ∧
      ∀ w : W', exec globals ap' env (loopLets ps) (S, w) = (.val .normal, S1, w)
  | [], _, S, _, _, h => by
    cases h
    exact ⟨S, .refl _ _, trivial, fun w => rfl⟩
  | some (x, i) :: ps, _, S, hn, hd, h => by
    cases h with
    | @some _ _ _ lp v vs h1 h2 h3 =>
      obtain ⟨l, h4, h5⟩ := hd.cells (.var x 0) (by simp [loopLets, declared])
      have hf : Frame (Cells env [.var x 0]) S (S.set l (.val v)) :=
        .set ⟨_, by simp, h4⟩ (by rw [h5]; simp)
      have hnd : ([Name.var x 0] ++ declared (loopLets ps)).Nodup := by
        have : ([Name.var x 0] ++ declared (loopLets ps)) = (parameterTexts (some (x, i) :: ps)).map fun x => Name.var x 0 := by
          rw [declared_loopLets, parameterTexts_some]
          rfl
        rw [this]
        exact List.Pairwise.map _ (fun a b e h => e (by simpa using h)) hn
      have hd' : Ready S env ([.var x 0] ++ declared (loopLets ps)) := hd
      have h6 : LoopCells env (S.set l (.val v)) ps vs := by
        refine (h3.cells.mono fun y _ l' u h7 h8 => ⟨h7, ?_⟩).loop
        rw [List.getElem?_set_ne]
        · exact h8
        · rintro rfl
          rw [h5] at h8
          cases h8
      rw [parameterTexts_some, List.nodup_cons] at hn
      obtain ⟨S1, h7, h8, h9⟩ := exec_loopLets (globals := globals) ps vs (S.set l (.val v)) hn.2 (hd'.after hnd hf fun _ _ h => h) h6
      refine ⟨S1, ?_, ⟨⟨l, h4, ?_⟩, h8⟩, fun w => ?_⟩
      · refine Frame.trans (hf.mono ?_) h7 ?_
        · rintro l' _ ⟨d, hd, h⟩
          exact ⟨d, by simp at hd; simp [loopLets, declared, hd], h⟩
        · rintro l' _ ⟨d, hd, h⟩
          exact ⟨d, by simp [loopLets, declared, hd], h⟩
      · refine h7.keep l v ?_
        rw [List.getElem?_set_self (lt_of_cell h5)]
      · simp only [loopLets, exec_cons]
        simp only [M.bind, step, eval, read_param h1 h2, initialise_eq h4, M.pure, Completion.elim]
        exact h9 w
  | none :: ps, _, S, hn, hd, h => by
    cases h with
    | none h3 => exact exec_loopLets ps _ S hn hd h3

/-! ### Bodies of functions -/

theorem OutRel.ret {L : Loc → Prop} {S : Store} {env : Env} {o : Out Panic GValue × W} {m : Run W' Completion} {s : Store × W'}
    {k : Completion → Run W' Value} (h : OutRel RW L S (Give single g .tail env) o (m s)) (hk : ∀ v, k (.ret v) = M.pure v) :
    OutRel RW L S (VRel single g) o (m.bind k s) := by
  obtain ⟨o, w⟩ := o
  cases o with
  | val a =>
    obtain ⟨b, S', w', e, hf, ⟨v', rfl, h1⟩, hw⟩ := h
    refine ⟨v', S', w', ?_, hf, h1, hw⟩
    simp only [M.bind, e, hk, M.pure]
  | error p =>
    obtain ⟨b, S', w', e, h1, hw⟩ := h
    refine ⟨b, S', w', ?_, h1, hw⟩
    simp only [M.bind, e]
  | timeout =>
    obtain ⟨S', w', e, hw⟩ := h
    refine ⟨S', w', ?_, hw⟩
    simp only [M.bind, e]
  | stuck => trivial

/-- A function that is not a loop. -/
theorem body_run (hg : ∀ f ∈ texts g, synthetic f = false) (hn : (texts g).Nodup) (hap : ApRel single g RW ap ap') {S : Store} {c : Context}
    {σ : Scope} {Γ : List Text} {env : GEnv} {env' : Env} {body : List Stmt} (hc : c.single = single)
    (hok : okStmts single g Γ body = true) (hr : EnvRel single g S c σ Γ env env')
    (hloop : (genStmts c true .tail σ body).looped = false ∨ c.self = none)
    (hcells : c.self.isSome = true → ∀ x, env'.lookup (.loop x) = none) :
    Sim RW NoCells S (VRel single g) (ErlGen.Gleam.stmts ap env body)
      ((declare .uninit (declared (genStmts c true .tail σ body).stms) env').bind fun env =>
        (exec (texts g) ap' env (genStmts c true .tail σ body).stms).bind fun c => M.pure c.value) := by
  have hgr := (stat_stmts (stat_allStmts single g body) Γ hok c true .tail σ hc).grow
  have hD : ∀ d ∈ declared (genStmts c true .tail σ body).stms, ¬Old σ d := fun d hd => (hgr.new d hd).1
  have hS := Frame.append NoCells S ((declared (genStmts c true .tail σ body).stms).map fun _ => Cell.uninit)
  have h := sim_body hg hn hap body c true .tail σ Γ env _ _ hc hok ((hr.declare hD S.length).keep hS.keep)
    (ready_declare hgr.nodup env' S) trivial (fun _ h => by
      intro f ps hfp
      rcases hloop with h1 | h1
      · rw [h] at h1
        cases h1
      · rw [hfp] at h1
        cases h1)
  intro w w' hw
  simp only [M.bind, declare_eq]
  rcases h w w' hw with h | ⟨w1, S1, w1', _, _, _, hcall⟩
  · refine ((h.mono (L' := fun l => S.length ≤ l) ?_ fun _ _ _ _ h => h).ret fun _ => rfl).frame hS fun l h1 h2 => ?_
    · rintro l _ (h1 | ⟨b, h1, _⟩ | ⟨_, h1, x, h2⟩)
      · exact cells_declare hgr.nodup h1
      · cases h1
      · rw [lookup_bindNames_of_not_mem (x := .loop x) (fun hd => hD (.loop x) hd trivial), hcells h1 x] at h2
        cases h2
    · exact absurd h1 (Nat.not_lt.2 h2)
  · obtain ⟨_, h1, f, ps, _, _, _, h2, _⟩ := hcall
    rcases hloop with h3 | h3
    · rw [h1] at h3
      cases h3
    · rw [h2] at h3
      cases h3

/-- An iteration of a loop. -/
theorem loop_run (hg : ∀ f ∈ texts g, synthetic f = false) (hn : (texts g).Nodup) (hap : ApRel single g RW ap ap') {S : Store} {c : Context}
    {σ : Scope} {f : Text} {ps : List (Option (Text × Nat))} {outer : Env} {body : List Stmt} {vs : List GValue} {vs' : List Value}
    {b : List (Text × GValue)} {again : Run W' Value} (hc : c.single = single) (hps : okParameters ps = true)
    (hself : ∀ f' ps', c.self = some (f', ps') → f' = f ∧ ps' = ps ∧ f ∉ parameterTexts ps)
    (hok : okStmts single g (parameterTexts ps) body = true) (hr : EnvRel single g S c σ [] [] outer)
    (hb : ErlGen.Gleam.bindParameters ps vs = some b) (hvs : VsRel single g S vs vs') (hcells : LoopCells outer S ps vs')
    (hinj : ∀ x ∈ parameterTexts ps, ∀ y ∈ parameterTexts ps, ∀ l, outer.lookup (.loop x) = some l → outer.lookup (.loop y) = some l → x = y)
    (hagain : ∀ S' n ws ws', VsRel single g S' ws ws' → LoopCells outer S' ps ws' →
      Sim RW (fun l => ∃ x, outer.lookup (.loop x) = some l) S' (VRel single g) (ap (.fn none f n) ws) again)
    {k : Completion → Run W' Value} (hk : ∀ v, k (.ret v) = M.pure v) (hk' : k .normal = again) :
    Sim RW (fun l => ∃ x, outer.lookup (.loop x) = some l) S (VRel single g) (ErlGen.Gleam.stmts ap b body)
      ((declare .uninit (declared (loopLets ps ++ (genStmts c true .tail (σ.parameters ps) body).stms)) outer).bind fun env =>
        (exec (texts g) ap' env (loopLets ps ++ (genStmts c true .tail (σ.parameters ps) body).stms)).bind k) := by
  have hgr := (stat_stmts (stat_allStmts single g body) _ hok c true .tail (σ.parameters ps) hc).grow
  have hpn : (parameterTexts ps).Nodup := by
    simp only [okParameters, distinct, Bool.and_eq_true, decide_eq_true_eq] at hps
    exact hps.1
  rw [declared_append]
  generalize hr0 : genStmts c true .tail (σ.parameters ps) body = r at hgr ⊢
  have hold : ∀ d ∈ declared (loopLets ps), ∃ x ∈ parameterTexts ps, d = .var x 0 := by
    intro d hd
    rw [declared_loopLets, List.mem_map] at hd
    obtain ⟨x, hx, rfl⟩ := hd
    exact ⟨x, hx, rfl⟩
  have hnd : (declared (loopLets ps) ++ declared r.stms).Nodup := by
    rw [List.nodup_append]
    refine ⟨?_, hgr.nodup, ?_⟩
    · rw [declared_loopLets]
      exact List.Pairwise.map _ (fun a b e h => e (by simpa using h)) hpn
    · rintro d hd d' hd' rfl
      obtain ⟨x, hx, rfl⟩ := hold d hd
      exact (hgr.new _ hd').1 (old_counter (counter_parameters.1 hx))
  have hother : ∀ n, Old (σ.parameters ps) n → (∀ x ∈ parameterTexts ps, n ≠ .var x 0) →
      (bindNames (declared (loopLets ps) ++ declared r.stms) S.length outer).lookup n = outer.lookup n := by
    intro n hn hne
    refine lookup_bindNames_of_not_mem fun hd => ?_
    rcases List.mem_append.1 hd with h | h
    · obtain ⟨x, hx, rfl⟩ := hold n h
      exact hne x hx rfl
    · exact (hgr.new _ h).1 hn
  have hlk : ∀ x, (bindNames (declared (loopLets ps) ++ declared r.stms) S.length outer).lookup (.loop x) = outer.lookup (.loop x) :=
    fun x => hother _ trivial fun y _ h => by cases h
  have hS := Frame.append (fun l => ∃ x, outer.lookup (.loop x) = some l) S ((declared (loopLets ps) ++ declared r.stms).map fun _ => Cell.uninit)
  have hd := ready_declare hnd outer S
  have hnew := fun l => cells_declare hnd (env := outer) (n := S.length) (l := l)
  have hcells1 : LoopCells (bindNames (declared (loopLets ps) ++ declared r.stms) S.length outer)
      (S ++ (declared (loopLets ps) ++ declared r.stms).map fun _ => Cell.uninit) ps vs' :=
    (hcells.cells.mono fun x _ l v h1 h2 => ⟨by rw [hlk, h1], by rw [List.getElem?_append_left (lt_of_cell h2), h2]⟩).loop
  refine Sim.step (fun w' => ?_) hS (L' := fun l => S.length ≤ l ∨ ∃ x, outer.lookup (.loop x) = some l)
    (k := (exec (texts g) ap' (bindNames (declared (loopLets ps) ++ declared r.stms) S.length outer) (loopLets ps ++ r.stms)).bind k)
    (fun l h1 h2 => h2.resolve_left (Nat.not_le.2 h1)) ?_
  · simp only [M.bind, declare_eq]
  revert hother hlk hS hd hnew hcells1
  generalize bindNames (declared (loopLets ps) ++ declared r.stms) S.length outer = env1
  generalize S ++ (declared (loopLets ps) ++ declared r.stms).map (fun _ => Cell.uninit) = S1
  intro hother hlk hS hd hnew hcells1
  have hdl : Ready S1 env1 (declared (loopLets ps)) := hd.sub (by simp +contextual)
  obtain ⟨S2, h1, h2, h3⟩ := exec_loopLets (globals := texts g) (ap' := ap') ps vs' S1 hpn hdl hcells1
  refine Sim.step (S' := S2) (k := (exec (texts g) ap' env1 r.stms).bind k) (fun w' => ?_)
    (h1.mono fun l _ hl => .inl (hnew l (by obtain ⟨d, hd, h⟩ := hl; exact ⟨d, by simp [hd], h⟩))) (fun _ _ h => h) ?_
  · simp only [exec_append, M.bind, h3]
    rfl
  have hcells2 : LoopCells env1 S2 ps vs' :=
    (hcells1.cells.mono fun x _ l v h4 h5 => ⟨h4, by rw [h1.same l (lt_of_cell h5) (hdl.not_param l v h5), h5]⟩).loop
  have hr1 : EnvRel single g S2 c (σ.parameters ps) (parameterTexts ps ++ []) (b ++ []) env1 :=
    (hr.keep (hS.keep.trans h1.keep)).parameters hps hb (hvs.keep (hS.keep.trans h1.keep)) h2
      (fun x m hx hm => hother _ (old_counter ((counter_parameters.2 hx).trans hm)) fun y hy h => by cases h; exact hx hy)
      (fun f' qs h => by
        obtain ⟨rfl, rfl, h⟩ := hself f' qs h
        exact h)
  rw [List.append_nil, List.append_nil] at hr1
  have h := sim_body hg hn hap body c true .tail (σ.parameters ps) _ _ env1 S2 hc hok hr1
  rw [hr0] at h
  have h := h (hd.after hnd h1 fun _ _ h => h) trivial (fun _ _ f' qs h4 => by
    obtain ⟨rfl, rfl, _⟩ := hself f' qs h4
    refine ⟨hpn, fun x hx => ?_, fun x hx y hy l => ?_⟩
    · exact loop_cell hcells2 hx
    · rw [hlk, hlk]
      exact hinj x hx y hy l)
  have hW : ∀ l, l < S2.length → Writes c true .tail env1 (declared r.stms) l → S.length ≤ l ∨ ∃ x, outer.lookup (.loop x) = some l := by
    rintro l _ (⟨d, hd, h4⟩ | ⟨_, h4, _⟩ | ⟨_, _, x, h5⟩)
    · exact .inl (hnew l ⟨d, by simp [hd], h4⟩)
    · cases h4
    · exact .inr ⟨x, by rw [← hlk, h5]⟩
  intro w w' hw
  rcases h w w' hw with h | ⟨w1, S3, w1', h4, h5, h6, _, _, f', qs, n, ws, ws', h7, h8, h9, h10⟩
  · exact (h.mono hW fun _ _ _ _ h => h).ret hk
  · obtain ⟨rfl, rfl, _⟩ := hself f' qs h7
    have h11 := hagain S3 n ws ws' h9 (h10.rename hlk) w1 w1' h6
    rw [h8]
    have h12 : (exec (texts g) ap' env1 r.stms).bind k (S2, w') = again (S3, w1') := by
      simp only [M.bind, h4, hk']
    rw [h12]
    exact h11.frame (h5.mono hW) fun l _ h => .inr h

/-! ### Constructors -/

theorem bind_names {W : Type} : ∀ (names : List Name) (vs : List Value) (env : Env) (S : Store), names.length = vs.length → names.Nodup →
    ∃ env1 S1, Frame NoCells S S1 ∧ (∀ n, n ∉ names → env1.lookup n = env.lookup n) ∧
      List.Forall₂ (fun n v => ∃ l, env1.lookup n = some l ∧ S1[l]? = some (.val v)) names vs ∧
      ∀ w : W, bindParameters .val (names.map some) vs env (S, w) = (.val env1, S1, w)
  | [], [], env, S, _, _ => ⟨env, S, .refl _ _, fun _ _ => rfl, .nil, fun _ => rfl⟩
  | x :: xs, v :: vs, env, S, hl, hn => by
    rw [List.nodup_cons] at hn
    obtain ⟨env1, S1, h1, h2, h3, h4⟩ := bind_names (W := W) xs vs ((x, S.length) :: env) (S ++ [.val v]) (by simpa using hl) hn.2
    refine ⟨env1, S1, (Frame.append NoCells S _).trans h1 fun _ _ h => h, fun n hne => ?_, .cons ⟨S.length, ?_, ?_⟩ h3, fun w => ?_⟩
    · simp only [List.mem_cons, not_or] at hne
      have : (n == x) = false := by simp [hne.1]
      rw [h2 n hne.2, List.lookup_cons, this]
    · rw [h2 x hn.1]
      simp
    · exact h1.keep _ _ (by simp)
    · simp only [List.map_cons, bindParameters, M.bind, alloc]
      exact h4 w
  | [], _ :: _, _, _, hl, _ => by simp at hl
  | _ :: _, [], _, _, hl, _ => by simp at hl

theorem evalAll_names {globals : List Text} {env : Env} {S : Store} {names : List Name} {vs : List Value}
    (h : List.Forall₂ (fun n v => ∃ l, env.lookup n = some l ∧ S[l]? = some (.val v)) names vs) (w : W') :
    evalAll globals ap' env (names.map .var) (S, w) = (.val vs, S, w) := by
  induction h with
  | nil => rfl
  | cons h1 _ ih =>
    obtain ⟨l, h1, h2⟩ := h1
    simp only [List.map_cons, evalAll, eval, M.bind, read_eq h1 h2, ih, M.pure]

theorem ctor_run {S : Store} {tag : Text} {n : Nat} {names : List Name} {env : Env} {vs : List GValue} {vs' : List Value}
    (hn : names.Nodup) (hl : names.length = n) (hvs : VsRel single g S vs vs') {globals : List Text} :
    Sim RW NoCells S (VRel single g) (if vs.length = n then M.pure (.record tag vs) else M.stuck)
      ((bindParameters .val (names.map some) vs' env).bind fun env =>
        (declare .uninit (declared [.ret (.construct tag (names.map .var))]) env).bind fun env =>
          (exec globals ap' env [.ret (.construct tag (names.map .var))]).bind fun c => M.pure c.value) := by
  by_cases h : vs.length = n
  · rw [if_pos h]
    obtain ⟨env1, S1, h1, _, h3, h4⟩ := bind_names (W := W') names vs' env S (by rw [hl, ← h, hvs.length]) hn
    refine Sim.step (S' := S1) (L' := NoCells) (k := M.pure (construct tag vs')) (fun w' => ?_) h1 (fun _ _ h => h)
      (Sim.pure (.record (hvs.keep h1.keep)))
    simp only [declared, declare, exec_one, step, eval, M.bind, h4, M.pure, evalAll_names h3]
    rfl
  · rw [if_neg h]
    exact Sim.stuck

/-! ### Calls -/

theorem texts_signatures (funs : List Fun) : texts (signatures funs) = funs.map (·.name) := by
  simp [texts, signatures, Function.comp_def]

theorem genFunction_name (single : Text → Bool) (names : List Text) (f : Fun) : (genFunction single names f).name = f.name := by
  unfold genFunction
  simp only
  generalize genStmts _ true .tail _ f.body = r
  cases r.looped <;> rfl

theorem genModule_names (single : Text → Bool) (funs : List Fun) : (genModule single funs).map (·.name) = texts (signatures funs) := by
  simp [genModule, texts_signatures, Function.comp_def, genFunction_name]

theorem genModule_find (single : Text → Bool) (funs : List Fun) (f : Text) :
    ((genModule single funs).find? fun g => decide (g.name = f)) =
      (funs.find? fun g => decide (g.name = f)).map (genFunction single (funs.map (·.name))) := by
  simp [genModule, List.find?_map, Function.comp_def, genFunction_name]

/-- The context of a function of a module. -/
def functionContext (single : Text → Bool) (f : Fun) : Context :=
  ⟨single, if (f.parameters.any fun p => p.any fun (x, _) => decide (x = f.name)) then none else some (f.name, f.parameters)⟩

theorem mem_parameterTexts {x : Text} {ps : List (Option (Text × Nat))} :
    x ∈ parameterTexts ps ↔ (ps.any fun p => p.any fun (y, _) => decide (y = x)) = true := by
  induction ps with
  | nil => simp [parameterTexts, texts]
  | cons p ps ih =>
    cases p with
    | none => rw [parameterTexts_none, ih]; simp
    | some p =>
      obtain ⟨y, i⟩ := p
      rw [parameterTexts_some, List.mem_cons, ih, List.any_cons]
      simp only [Option.any_some, Bool.or_eq_true, decide_eq_true_eq]
      rw [eq_comm]

theorem functionContext_self {single : Text → Bool} {f : Fun} {f' : Text} {ps : List (Option (Text × Nat))}
    (h : (functionContext single f).self = some (f', ps)) : f' = f.name ∧ ps = f.parameters ∧ f.name ∉ parameterTexts f.parameters := by
  simp only [functionContext] at h
  split at h
  · cases h
  · rename_i h1
    cases h
    refine ⟨rfl, rfl, fun h => h1 (mem_parameterTexts.1 h)⟩

theorem EnvRel.module {single : Text → Bool} {funs : List Fun} {f : Fun} (hf : f ∈ funs) {S : Store} {env : Env}
    (h : ∀ x k, env.lookup (.var x k) = none) :
    EnvRel single (signatures funs) S (functionContext single f) (moduleScope (funs.map (·.name))) [] [] env where
  vars x hx := by simp at hx
  globals x hx _ := by
    rw [texts_signatures] at hx
    exact ⟨by simp only [moduleScope, if_pos hx], h x 0⟩
  clean := by simp
  self f' ps hs := by
    obtain ⟨rfl, rfl, _⟩ := functionContext_self hs
    refine ⟨fun h => by simp at h, ?_⟩
    simp only [signatures, List.mem_map]
    exact ⟨f, hf, rfl⟩

end

section

variable {single : Text → Bool} {W W' : Type} {RW : W → W' → Prop} {funs : List Fun}
variable {outside : (GValue → List GValue → GRun W GValue) → Text → Text → List GValue → GRun W GValue}
variable {outside' : (Value → List Value → Run W' Value) → Text → Text → List Value → Run W' Value}

/-- Functions of other modules are simulated. -/
def OutsideRel (single : Text → Bool) (g : List (Text × Nat)) (RW : W → W' → Prop)
    (outside : (GValue → List GValue → GRun W GValue) → Text → Text → List GValue → GRun W GValue)
    (outside' : (Value → List Value → Run W' Value) → Text → Text → List Value → Run W' Value) : Prop :=
  ∀ ap ap', ApRel single g RW ap ap' → ∀ S m f vs vs', VsRel single g S vs vs' →
    Sim RW NoCells S (VRel single g) (outside ap m f vs) (outside' ap' m f vs')

/-- The next iteration of a function is simulated. -/
def AgainRel (single : Text → Bool) (funs : List Fun) (RW : W → W' → Prop)
    (ap : GValue → List GValue → GRun W GValue) (again : List Stm → Env → Run W' Value) : Prop :=
  ∀ f ∈ funs, (funs.find? fun g => decide (g.name = f.name)) = some f → ∀ outer S n vs vs', (∀ x k, outer.lookup (.var x k) = none) →
    (∀ x ∈ parameterTexts f.parameters, ∀ y ∈ parameterTexts f.parameters, ∀ l, outer.lookup (.loop x) = some l →
      outer.lookup (.loop y) = some l → x = y) →
    VsRel single (signatures funs) S vs vs' → LoopCells outer S f.parameters vs' →
    Sim RW (fun l => ∃ x, outer.lookup (.loop x) = some l) S (VRel single (signatures funs)) (ap (.fn none f.name n) vs)
      (again (loopLets f.parameters ++ (genStmts (functionContext single f) true .tail
        ((moduleScope (funs.map (·.name))).parameters f.parameters) f.body).stms) outer)

theorem okModule_parts (hok : okModule single funs = true) : (∀ f ∈ texts (signatures funs), synthetic f = false) ∧
    (texts (signatures funs)).Nodup ∧ ∀ f ∈ funs, okParameters f.parameters = true ∧
      okStmts single (signatures funs) (parameterTexts f.parameters) f.body = true := by
  simp only [okModule, distinct, Bool.and_eq_true, decide_eq_true_eq, List.all_eq_true, Bool.not_eq_true'] at hok
  exact ⟨hok.1.2, hok.1.1, hok.2⟩

/-- Calls and iterations, for every depth. -/
theorem apply_sim (hok : okModule single funs = true) (hout : OutsideRel single (signatures funs) RW outside outside') (n : Nat) :
    ApRel single (signatures funs) RW (ErlGen.Gleam.apply funs outside n)
      (fun f vs => run (genModule single funs) outside' n (.call f vs)) ∧
    AgainRel single funs RW (ErlGen.Gleam.apply funs outside n)
      (fun body env => run (genModule single funs) outside' n (.again body env)) := by
  obtain ⟨hg, hn, hfuns⟩ := okModule_parts hok
  have hmn := genModule_names single funs
  induction n with
  | zero =>
    refine ⟨fun S v v' vs vs' _ _ w w' hw => ?_, fun f _ _ outer S n vs vs' _ _ _ _ w w' hw => ?_⟩ <;>
    · simp only [ErlGen.Gleam.apply, run]
      exact ⟨S, w', rfl, hw⟩
  | succ n ih =>
    obtain ⟨hap, hagain⟩ := ih
    have hagain1 : AgainRel single funs RW (ErlGen.Gleam.apply funs outside (n + 1))
        (fun body env => run (genModule single funs) outside' (n + 1) (.again body env)) := by
      intro f hf hfind outer S k vs vs' hvar hinj hvs hcells
      simp only [ErlGen.Gleam.apply, run, hfind, hmn]
      cases hb : ErlGen.Gleam.bindParameters f.parameters vs with
      | none => exact Sim.stuck
      | some b =>
        exact loop_run hg hn hap (f := f.name) rfl (hfuns f hf).1 (fun f' ps h => functionContext_self h) (hfuns f hf).2
          (EnvRel.module hf hvar) hb hvs hcells hinj (fun S' n ws ws' h1 h2 => hagain f hf hfind outer S' n ws ws' hvar hinj h1 h2)
          (fun _ => rfl) rfl
    refine ⟨fun S v v' vs vs' hv hvs => ?_, hagain1⟩
    cases hv with
    | int | str | tuple | nil | cons | record => exact Sim.stuck
    | ctor h1 h2 =>
      simp only [ErlGen.Gleam.apply, run]
      exact ctor_run h1 h2 hvs
    | ext m f k =>
      simp only [ErlGen.Gleam.apply, run]
      exact hout _ _ hap S m f vs vs' hvs
    | closure c σ Γ value number loc value' h1 h2 h3 h4 h5 h6 h7 h8 h9 h10 h11 =>
      rename_i ps body env env'
      simp only [ErlGen.Gleam.apply, run, hmn]
      cases hb : ErlGen.Gleam.bindParameters ps vs with
      | none => exact Sim.stuck
      | some b =>
        have hpn : (parameterTexts ps).Nodup := by
          simp only [okParameters, distinct, Bool.and_eq_true, decide_eq_true_eq] at h3
          exact h3.1
        obtain ⟨env1, S1, hB, h12⟩ := bind_spec (W := W') (mk := fun x => .var x 0) (fun x y h => by simpa using h) .val ps vs' env' S
          ((bindParameters_length hb).trans hvs.length) hpn
        refine Sim.step (S' := S1) (L' := NoCells) (fun w' => ?_) hB.frame (fun _ _ h => h) (body_run hg hn hap h1 h4
          (EnvRel.parameters (env' := env') (vs' := vs') (⟨fun x hx => ⟨value x, number x, loc x, value' x, h5 x hx, h6 x hx, h7 x hx, hB.frame.keep _ _ (h8 x hx),
            (h9 x hx).keep hB.frame.keep⟩, h10, h11, fun f qs h => by rw [h2] at h; cases h⟩) h3 hb (hvs.keep hB.frame.keep) hB.cells
            (fun x k hx _ => hB.other _ fun y hy h => by cases h; exact hx hy) (fun f qs h => by rw [h2] at h; cases h))
          (.inr h2) (fun h => by rw [h2] at h; cases h))
        have h12 := h12 w'
        simp only [M.bind, parameterNames] at h12 ⊢
        rw [h12]
    | fn f k =>
      simp only [ErlGen.Gleam.apply, run, hmn, genModule_find]
      cases hfind : funs.find? fun g => decide (g.name = f) with
      | none => exact Sim.stuck
      | some F =>
        have hf := List.mem_of_find?_eq_some hfind
        have hname : F.name = f := by simpa using List.find?_some hfind
        subst hname
        simp only [Option.map_some]
        cases hb : ErlGen.Gleam.bindParameters F.parameters vs with
        | none => exact Sim.stuck
        | some b =>
          have hlen := (bindParameters_length hb).trans hvs.length
          have hpn : (parameterTexts F.parameters).Nodup := by
            have := (hfuns F hf).1
            simp only [okParameters, distinct, Bool.and_eq_true, decide_eq_true_eq] at this
            exact this.1
          have hgen : genFunction single (funs.map (·.name)) F =
            let r := genStmts (functionContext single F) true .tail ((moduleScope (funs.map (·.name))).parameters F.parameters) F.body
            if r.looped then ⟨F.name, loopNames F.parameters, true, loopLets F.parameters ++ r.stms⟩
              else ⟨F.name, parameterNames F.parameters, false, r.stms⟩ := rfl
          rw [hgen]
          simp only
          by_cases hlooped : (genStmts (functionContext single F) true .tail
              ((moduleScope (funs.map (·.name))).parameters F.parameters) F.body).looped = true
          · rw [if_pos hlooped]
            simp only [if_true]
            obtain ⟨outer, S1, hB, h12⟩ := bind_spec (W := W') (mk := .loop) (fun x y h => by simpa using h) .param F.parameters vs' [] S
              hlen hpn
            have hvar : ∀ x k, outer.lookup (.var x k) = none := fun x k => by
              rw [hB.other _ fun y _ h => by cases h]
              rfl
            refine Sim.step (S' := S1) (L' := fun l => ∃ x, outer.lookup (.loop x) = some l) (fun w' => ?_) hB.frame ?_
              (loop_run hg hn hap (f := F.name) rfl (hfuns F hf).1 (fun f' ps h => functionContext_self h) (hfuns F hf).2
                (EnvRel.module hf hvar) hb (hvs.keep hB.frame.keep) hB.cells.loop hB.inj
                (fun S' n ws ws' h1 h2 => hagain F hf hfind outer S' n ws ws' hvar hB.inj h1 h2)
                (k := fun c => match c with
                  | .normal => run (genModule single funs) outside' n (.again (loopLets F.parameters ++ (genStmts (functionContext single F) true .tail
                      ((moduleScope (funs.map (·.name))).parameters F.parameters) F.body).stms) outer)
                  | .ret v => M.pure v)
                (fun _ => rfl) rfl)
            · have h12 := h12 w'
              simp only [M.bind, loopNames] at h12 ⊢
              rw [h12]
              rfl
            · rintro l hl ⟨x, hx⟩
              by_cases hxp : x ∈ parameterTexts F.parameters
              · exact absurd hl (Nat.not_lt.2 (hB.new x hxp l hx))
              · rw [hB.other _ fun y hy h => by cases h; exact hxp hy] at hx
                cases hx
          · rw [if_neg hlooped]
            obtain ⟨env1, S1, hB, h12⟩ := bind_spec (W := W') (mk := fun x => .var x 0) (fun x y h => by simpa using h) .val F.parameters vs' [] S
              hlen hpn
            have hr := EnvRel.parameters (EnvRel.module (single := single) (S := S1) (env := []) hf fun _ _ => rfl) (hfuns F hf).1 hb
              (hvs.keep hB.frame.keep) hB.cells (fun x k hx _ => hB.other _ fun y hy h => by cases h; exact hx hy) (fun f' qs h => by
                obtain ⟨rfl, _, h⟩ := functionContext_self h
                exact h)
            rw [List.append_nil, List.append_nil] at hr
            refine Sim.step (S' := S1) (L' := NoCells) (fun w' => ?_) hB.frame (fun _ _ h => h) (body_run hg hn hap rfl (hfuns F hf).2 hr
              (.inl (by simpa using hlooped)) (fun _ x => by
                rw [hB.other _ fun y hy h => by cases h]
                rfl))
            have h12 := h12 w'
            simp only [M.bind, parameterNames, Bool.false_eq_true, if_false] at h12 ⊢
            rw [h12]

end

end Verif.JsGen
