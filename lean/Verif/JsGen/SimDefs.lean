import Verif.JsGen.Steps

/-!
# What is simulated
-/

namespace Verif.JsGen

open Verif.ErlGen (Pattern Const Expr Stmt Clause varsAll M Out Match Op)
open Verif.ErlGen.Gleam (Panic)

section

variable (single : Text → Bool) (g : List (Text × Nat)) {W W' : Type} (RW : W → W' → Prop)
variable (ap : GValue → List GValue → GRun W GValue) (ap' : Value → List Value → Run W' Value)

/-- Calls are simulated. -/
def ApRel : Prop :=
  ∀ S v v' vs vs', VRel single g S v v' → VsRel single g S vs vs' → Sim RW NoCells S (VRel single g) (ap v vs) (ap' v' vs')

/-- The cells of the variables of a loop. -/
inductive LoopCells (env : Env) (S : Store) : List (Option (Text × Nat)) → List Value → Prop
  | nil : LoopCells env S [] []
  | some {x n ps l v vs} : env.lookup (.loop x) = some l → S[l]? = some (.param v) → LoopCells env S ps vs →
    LoopCells env S (some (x, n) :: ps) (v :: vs)
  | none {ps v vs} : LoopCells env S ps vs → LoopCells env S (none :: ps) (v :: vs)

/-- The function is called again with values that are in the cells of the loop. -/
def Calls (c : Context) (last : Bool) (env : Env) (looped : Bool) : Tails W := fun w S o =>
  last = true ∧ looped = true ∧ ∃ f ps n vs vs', c.self = some (f, ps) ∧ o = ap (.fn none f n) vs w ∧ VsRel single g S vs vs' ∧
    LoopCells env S ps vs'

/-- What a statement leaves behind, by its position. -/
def Give : Pos → Env → Store → GValue → Completion → Prop
  | .tail, _, S, v, c => ∃ v', c = .ret v' ∧ VRel single g S v v'
  | .stmt, _, _, _, c => c = .normal
  | .assign b, env, S, v, c => c = .normal ∧ ∃ l v', env.lookup b = some l ∧ S[l]? = some (.val v') ∧ VRel single g S v v'

end

/-- The variable that is to be assigned. -/
def Target (S : Store) (env : Env) (σ : Scope) : Pos → Prop
  | .assign b => Old σ b ∧ ∃ l, env.lookup b = some l ∧ S[l]? = some .declared
  | _ => True

/-- The variables of a loop have cells. -/
def LoopReady (S : Store) (env : Env) (c : Context) : Prop :=
  ∀ f ps, c.self = some (f, ps) → (parameterTexts ps).Nodup ∧
    (∀ x ∈ parameterTexts ps, ∃ l v, env.lookup (.loop x) = some l ∧ S[l]? = some (.param v)) ∧
    ∀ x ∈ parameterTexts ps, ∀ y ∈ parameterTexts ps, ∀ l, env.lookup (.loop x) = some l → env.lookup (.loop y) = some l → x = y

/-- The cells that statements write to. -/
def Writes (c : Context) (last : Bool) (pos : Pos) (env : Env) (D : List Name) : Loc → Prop := fun l =>
  Cells env D l ∨ (∃ b, pos = .assign b ∧ env.lookup b = some l) ∨
    (last = true ∧ c.self.isSome = true ∧ ∃ x, env.lookup (.loop x) = some l)

section

variable (single : Text → Bool) (g : List (Text × Nat)) {W W' : Type} (RW : W → W' → Prop)
variable (ap : GValue → List GValue → GRun W GValue) (ap' : Value → List Value → Run W' Value)

/-- An expression inside another one. -/
def ExpSim (e : Expr) : Prop :=
  ∀ o c σ Γ env env' S, c.single = single → okE single g Γ e = true → (o = .loose → keeps single e = true) →
    EnvRel single g S c σ Γ env env' → Ready S env' (declared (gen c (.exp o) ⟨σ, []⟩ e).state.level) →
    Sim RW (Cells env' (declared (gen c (.exp o) ⟨σ, []⟩ e).state.level)) S (VOk single g) (ErlGen.Gleam.expr ap env e)
      (valueOf (texts g) ap' env' (gen c (.exp o) ⟨σ, []⟩ e).state.level (gen c (.exp o) ⟨σ, []⟩ e).exp)

/-- Statements that were generated for something. -/
def ResSim (c : Context) (last : Bool) (pos : Pos) (σ : Scope) (env' : Env) (S : Store) (m : GRun W GValue) (stms : List Stm)
    (looped : Bool) : Prop :=
  Ready S env' (declared stms) → Target S env' σ pos → (last = true → looped = true → LoopReady S env' c) →
    TSim RW (Calls single g ap c last env' looped) (Writes c last pos env' (declared stms)) S (Give single g pos env') m
      (exec (texts g) ap' env' stms)

/-- An expression that is a statement. -/
def StmSim (e : Expr) : Prop :=
  ∀ c last pos σ Γ env env' S, c.single = single → okE single g Γ e = true → EnvRel single g S c σ Γ env env' →
    ResSim single g RW ap ap' c last pos σ env' S (ErlGen.Gleam.expr ap env e)
      ((gen c (.stm last pos) ⟨σ, []⟩ e).state.level ++ (gen c (.stm last pos) ⟨σ, []⟩ e).stms) (gen c (.stm last pos) ⟨σ, []⟩ e).looped

/-- Arguments. -/
def ArgsSim (es : List Expr) : Prop :=
  ∀ c σ Γ env env' S, c.single = single → okArgs single g Γ es = true → EnvRel single g S c σ Γ env env' →
    Sim RW NoCells S (VsRel single g) (ErlGen.Gleam.args ap env es) (evalAll (texts g) ap' env' (genArgs c σ es))

/-- Statements of a body. -/
def StmtsSim (ss : List Stmt) : Prop :=
  ∀ c last pos σ Γ env env' S, c.single = single → okStmts single g Γ ss = true → EnvRel single g S c σ Γ env env' →
    ResSim single g RW ap ap' c last pos σ env' S (ErlGen.Gleam.stmts ap env ss) (genStmts c last pos σ ss).stms
      (genStmts c last pos σ ss).looped

/-- The body of a clause. -/
def BodySim (body : Expr) : Prop :=
  ∀ c last pos σ Γ env env' S, c.single = single → okE single g Γ body = true → (isBlock body || !lifts body) = true →
    EnvRel single g S c σ Γ env env' →
    ResSim single g RW ap ap' c last pos σ env' S (ErlGen.Gleam.expr ap env body) (genBody c last pos σ body).stms
      (genBody c last pos σ body).looped

end

/-! ### Environments -/

section

variable {single : Text → Bool} {g : List (Text × Nat)} {S : Store} {c : Context} {σ : Scope} {Γ : List Text} {env : GEnv} {env' : Env}

theorem old_counter {x : Text} {k : Nat} (h : σ.counter x = some k) : Old σ (.var x k) := by
  simp only [Old, Scope.fresh, h, succ]
  omega

/-- More variables of JavaScript, with other names. -/
theorem EnvRel.declare (h : EnvRel single g S c σ Γ env env') {D : List Name} (hD : ∀ d ∈ D, ¬Old σ d) (n : Nat) :
    EnvRel single g S c σ Γ env (bindNames D n env') where
  vars x hx := by
    obtain ⟨v, k, l, v', h1, h2, h3, h4, h5⟩ := h.vars x hx
    refine ⟨v, k, l, v', h1, h2, ?_, h4, h5⟩
    rw [lookup_bindNames_of_not_mem fun hd => hD _ hd (old_counter h2), h3]
  globals f hf hn := by
    obtain ⟨h1, h2⟩ := h.globals f hf hn
    refine ⟨h1, ?_⟩
    rw [lookup_bindNames_of_not_mem fun hd => hD _ hd (old_counter h1), h2]
  clean := h.clean
  self := h.self

theorem mem_users {x : Text} : x ∈ users Γ ↔ x ∈ Γ ∧ synthetic x = false := by simp [users]

/-- After code that keeps the numbers of the variables in scope. -/
theorem EnvRel.users (h : EnvRel single g S c σ Γ env env') {σ' : Scope} (hs : Same σ σ')
    (hg : ∀ f ∈ texts g, synthetic f = false) : EnvRel single g S c σ' (users Γ) env env' where
  vars x hx := by
    obtain ⟨hx1, hx2⟩ := mem_users.1 hx
    obtain ⟨v, k, l, v', h1, h2, h3, h4, h5⟩ := h.vars x hx1
    exact ⟨v, k, l, v', h1, by rw [hs x hx2 (by rw [h2]; rfl), h2], h3, h4, h5⟩
  globals f hf hn := by
    have hn' : f ∉ Γ := fun hm => hn (mem_users.2 ⟨hm, hg f hf⟩)
    obtain ⟨h1, h2⟩ := h.globals f hf hn'
    exact ⟨by rw [hs f (hg f hf) (by rw [h1]; rfl), h1], h2⟩
  clean := ⟨fun hm => h.clean.1 (mem_users.1 hm).1, fun hm => h.clean.2 (mem_users.1 hm).1⟩
  self f ps hfp := by
    obtain ⟨h1, h2⟩ := h.self f ps hfp
    refine ⟨fun hm => ?_, h2⟩
    obtain ⟨hm1, hm2⟩ := mem_users.1 hm
    obtain ⟨v, k, l, v', _, e, _⟩ := h.vars f hm1
    rw [hs f hm2 (by rw [e]; rfl)]
    exact h1 hm1

/-- A new variable. -/
theorem EnvRel.bind (h : EnvRel single g S c σ Γ env env') {x : Text} {l : Loc} {v : GValue} {v' : Value}
    (hx : x ≠ subjectText ∧ x ≠ blockText) (hl : env'.lookup (.var x (σ.fresh x)) = some l) (hS : S[l]? = some (.val v'))
    (hv : VRel single g S v v') : EnvRel single g S c (σ.next x) (x :: Γ) ((x, v) :: env) env' where
  vars y hy := by
    by_cases hxy : y = x
    · subst hxy
      exact ⟨v, σ.fresh y, l, v', by simp [List.lookup_cons], σ.counter_next_self y, hl, hS, hv⟩
    · have hy' : y ∈ Γ := by
        rcases List.mem_cons.1 hy with h1 | h1
        · exact absurd h1 hxy
        · exact h1
      obtain ⟨u, k, l, u', h1, h2, h3, h4, h5⟩ := h.vars y hy'
      refine ⟨u, k, l, u', ?_, ?_, h3, h4, h5⟩
      · have : (y == x) = false := by simp [hxy]
        rw [List.lookup_cons, this, h1]
      · rw [σ.counter_next_of_ne hxy, h2]
  globals f hf hn := by
    simp only [List.mem_cons, not_or] at hn
    obtain ⟨h1, h2⟩ := h.globals f hf hn.2
    exact ⟨by rw [σ.counter_next_of_ne hn.1, h1], h2⟩
  clean := by
    simp only [List.mem_cons, not_or]
    exact ⟨⟨Ne.symm hx.1, h.clean.1⟩, ⟨Ne.symm hx.2, h.clean.2⟩⟩
  self f ps hfp := by
    obtain ⟨h1, h2⟩ := h.self f ps hfp
    refine ⟨fun hm => ?_, h2⟩
    by_cases hfx : f = x
    · subst hfx
      rw [σ.counter_next_self]
      intro h3
      have h3 : σ.fresh f = 0 := by simpa using h3
      have hmem : f ∈ texts g := by
        unfold texts
        exact List.mem_map_of_mem (f := (·.1)) h2
      by_cases hfΓ : f ∈ Γ
      · obtain ⟨_, k, _, _, _, e, _⟩ := h.vars f hfΓ
        simp only [Scope.fresh, e, succ] at h3
        omega
      · have := (h.globals f hmem hfΓ).1
        simp only [Scope.fresh, this, succ] at h3
        omega
    · rw [σ.counter_next_of_ne hfx]
      refine h1 ?_
      rcases List.mem_cons.1 hm with h3 | h3
      · exact absurd h3 hfx
      · exact h3

/-! ### What stays -/

theorem Target.after {L : Loc → Prop} {S' : Store} {pos : Pos} (h : Target S env' σ pos) (hf : Frame L S S')
    (hL : ∀ l, S[l]? = some .declared → ¬L l) {σ' : Scope} (hσ : ∀ x, σ.fresh x ≤ σ'.fresh x) : Target S' env' σ' pos := by
  cases pos with
  | assign b =>
    obtain ⟨h1, l, h2, h3⟩ := h
    exact ⟨h1.mono hσ, l, h2, by rw [hf.same l (lt_of_cell h3) (hL l h3), h3]⟩
  | _ => trivial

theorem LoopReady.after {L : Loc → Prop} {S' : Store} (h : LoopReady S env' c) (hf : Frame L S S')
    (hL : ∀ l v, S[l]? = some (.param v) → ¬L l) : LoopReady S' env' c := by
  intro f ps hfp
  obtain ⟨h1, h2, h3⟩ := h f ps hfp
  refine ⟨h1, fun x hx => ?_, h3⟩
  obtain ⟨l, v, h4, h5⟩ := h2 x hx
  exact ⟨l, v, h4, by rw [hf.same l (lt_of_cell h5) (hL l v h5), h5]⟩

theorem Ready.cell_uninit {D : List Name} (h : Ready S env' D) {l : Loc} (hl : Cells env' D l) : S[l]? = some .uninit := by
  obtain ⟨d, hd, h1⟩ := hl
  obtain ⟨l', h2, h3⟩ := h.cells d hd
  rw [h1] at h2
  cases h2
  exact h3

theorem Ready.not_declared {D : List Name} (h : Ready S env' D) (l : Loc) (hS : S[l]? = some .declared) : ¬Cells env' D l := by
  intro hl
  rw [h.cell_uninit hl] at hS
  cases hS

theorem Ready.not_param {D : List Name} (h : Ready S env' D) (l : Loc) (v : Value) (hS : S[l]? = some (.param v)) : ¬Cells env' D l := by
  intro hl
  rw [h.cell_uninit hl] at hS
  cases hS

end

end Verif.JsGen
