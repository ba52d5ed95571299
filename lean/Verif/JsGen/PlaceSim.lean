import Verif.JsGen.SimDefs

/-!
# Expressions in the places where they are put
-/

namespace Verif.JsGen

open Verif.ErlGen (Pattern Const Expr Stmt Clause varsAll M Out Match Op)
open Verif.ErlGen.Gleam (Panic)

/-! ### The state after expressions whose order matters -/

theorem strict_state (c : Context) (st : State) : ∀ e : Expr, (gen c (.exp .strict) st e).state = st
  | .int _ => by simp only [gen, plain]
  | .string _ => by simp only [gen, plain]
  | .var _ _ => by simp only [gen, plain]
  | .ctor _ 0 => by simp only [gen, plain]
  | .ctor _ (_ + 1) => by simp only [gen, plain]
  | .fnRef none _ _ => by simp only [gen, plain]
  | .fnRef (some _) _ _ => by simp only [gen, plain]
  | .const _ => by simp only [gen, plain]
  | .block [.expr e] => by simp only [gen]; exact strict_state c st e
  | .block [.let_ _ e] => by simp only [gen]; exact strict_state c st e
  | .block [] => by rw [gen_block_none rfl]; rfl
  | .block [.letAssert _ _ _ _] => by rw [gen_block_none rfl]; rfl
  | .block (s :: t :: ss) => by rw [gen_block_none (by cases s <;> rfl)]; rfl
  | .not e => by simp only [gen, plain, Mode.inner]; exact strict_state c st e
  | .neg e => by simp only [gen, plain, Mode.inner]; exact strict_state c st e
  | .bin _ _ _ => by simp only [gen, plain]
  | .nil => by simp only [gen, plain]
  | .cons _ _ => by simp only [gen, plain]
  | .tuple _ => by simp only [gen, plain]
  | .index e _ => by simp only [gen, plain, Mode.inner]; exact strict_state c st e
  | .field e _ => by simp only [gen, plain, Mode.inner]; exact strict_state c st e
  | .update (some (_, _)) _ _ _ => by simp only [gen, place]
  | .update none _ _ _ => by simp only [gen, plain]
  | .fn _ _ => by simp only [gen, plain]
  | .call f es => by
    by_cases h : ∃ tag a, f = .ctor tag a
    · obtain ⟨tag, a, rfl⟩ := h
      simp only [gen, plain]
    · rw [gen_call_exp fun tag a e => h ⟨tag, a, e⟩]
      exact strict_state c st f
  | .pipe _ _ _ _ => by simp only [gen, place]
  | .fail _ _ none => by simp only [gen, place]
  | .fail _ _ (some _) => by simp only [gen, place]
  | .case_ _ _ => by simp only [gen, place]

section

variable {W W' : Type} {RW : W → W' → Prop} {α β γ δ : Type}

/-! ### Simulations of one another -/

theorem Sim.ofTSim {C : Tails W} {L : Loc → Prop} {S : Store} {R : Store → GValue → Completion → Prop} {m : GRun W GValue}
    {m' : Run W' Completion} (h : TSim RW C L S R m m') (hC : ∀ w S o, ¬C w S o) : Sim RW L S R m m' := by
  intro w w' hw
  rcases h w w' hw with h1 | ⟨w1, S1, w1', _, _, _, h2⟩
  · exact h1
  · exact absurd h2 (hC _ _ _)

/-- A computation of Gleam that does the same as another or has no meaning. -/
def Refines (n m : GRun W α) : Prop := ∀ w, (∃ w1, n w = (.stuck, w1)) ∨ n w = m w

theorem Sim.refine {L : Loc → Prop} {S : Store} {R : Store → α → β → Prop} {n m : GRun W α} {m' : Run W' β}
    (h : Sim RW L S R m m') (hr : Refines n m) : Sim RW L S R n m' := by
  intro w w' hw
  rcases hr w with ⟨w1, h1⟩ | h1
  · rw [h1]; trivial
  · rw [h1]; exact h w w' hw

theorem TSim.refine {C : Tails W} {L : Loc → Prop} {S : Store} {R : Store → GValue → Completion → Prop} {n m : GRun W GValue}
    {m' : Run W' Completion} (h : TSim RW C L S R m m') (hr : Refines n m) : TSim RW C L S R n m' := by
  intro w w' hw
  rcases hr w with ⟨w1, h1⟩ | h1
  · rw [h1]; exact .inl trivial
  · rw [h1]; exact h w w' hw

theorem refines_bind {m : GRun W α} {f : α → GRun W α} (h : ∀ a, f a = M.pure a ∨ f a = M.stuck) : Refines (m.bind f) m := by
  intro w
  simp only [M.bind]
  cases m w with
  | mk o w1 =>
    cases o with
    | val a =>
      rcases h a with h1 | h1
      · right; simp only [h1]; rfl
      · left; exact ⟨w1, by simp only [h1]; rfl⟩
    | error p => right; rfl
    | timeout => right; rfl
    | stuck => right; rfl

/-- Computations that write to fewer cells than what follows. -/
theorem Sim.bindL {L L1 : Loc → Prop} {S : Store} {R : Store → α → β → Prop} {Q : Store → γ → δ → Prop} {m : GRun W α} {m' : Run W' β}
    {f : α → GRun W γ} {f' : β → Run W' δ} (h : Sim RW L1 S R m m') (hl : ∀ l, L1 l → L l)
    (hf : ∀ S' a b, Frame L1 S S' → R S' a b → Sim RW L S' Q (f a) (f' b)) : Sim RW L S Q (m.bind f) (m'.bind f') :=
  Sim.bind (R := fun S' a b => Frame L1 S S' ∧ R S' a b) (h.mono (fun l _ h => hl l h) fun _ _ _ h1 h2 => ⟨h1, h2⟩)
    fun S' a b _ hr => hf S' a b hr.1 hr.2

theorem TSim.bindL {C : Tails W} {L L1 : Loc → Prop} {S : Store} {R : Store → α → β → Prop} {Q : Store → GValue → Completion → Prop}
    {m : GRun W α} {m' : Run W' β} {f : α → GRun W GValue} {f' : β → Run W' Completion} (h : Sim RW L1 S R m m')
    (hl : ∀ l, L1 l → L l) (hf : ∀ S' a b, Frame L1 S S' → R S' a b → TSim RW C L S' Q (f a) (f' b)) :
    TSim RW C L S Q (m.bind f) (m'.bind f') :=
  TSim.bind (R := fun S' a b => Frame L1 S S' ∧ R S' a b) (h.mono (fun l _ h => hl l h) fun _ _ _ h1 h2 => ⟨h1, h2⟩)
    fun S' a b _ hr => hf S' a b hr.1 hr.2

variable {single : Text → Bool} {g : List (Text × Nat)}

theorem Sim.valueL {L L1 : Loc → Prop} {S : Store} {Q : Store → γ → δ → Prop} {m : GRun W GValue} {m' : Run W' (Value ⊕ Value)}
    {f : GValue → GRun W γ} {k kr : Value → Run W' δ} (h : Sim RW L1 S (VOk single g) m m') (hl : ∀ l, L1 l → L l)
    (hf : ∀ S' v v', Frame L1 S S' → VRel single g S' v v' → Sim RW L S' Q (f v) (k v')) :
    Sim RW L S Q (m.bind f) (m'.bind (Sum.elim k kr)) :=
  h.bindL hl fun S' v r hfr hr => by
    obtain ⟨v', rfl, hv⟩ := hr
    exact hf S' v v' hfr hv

theorem TSim.valueL {C : Tails W} {L L1 : Loc → Prop} {S : Store} {Q : Store → GValue → Completion → Prop} {m : GRun W GValue}
    {m' : Run W' (Value ⊕ Value)} {f : GValue → GRun W GValue} {k kr : Value → Run W' Completion}
    (h : Sim RW L1 S (VOk single g) m m') (hl : ∀ l, L1 l → L l)
    (hf : ∀ S' v v', Frame L1 S S' → VRel single g S' v v' → TSim RW C L S' Q (f v) (k v')) :
    TSim RW C L S Q (m.bind f) (m'.bind (Sum.elim k kr)) :=
  TSim.bindL h hl fun S' v r hfr hr => by
    obtain ⟨v', rfl, hv⟩ := hr
    exact hf S' v v' hfr hv

theorem Sim.toInl {L : Loc → Prop} {S : Store} {m : GRun W GValue} {m' : Run W' Value} (h : Sim RW L S (VRel single g) m m') :
    Sim RW L S (VOk single g) m (m'.bind fun v => M.pure (.inl v)) := by
  have := h.bind (f := M.pure) (f' := fun v => M.pure (Sum.inl (β := Value) v)) (Q := VOk single g) fun S' v v' _ hv => Sim.pure ⟨v', rfl, hv⟩
  rwa [bind_pure] at this

theorem Sim.ofInl {L : Loc → Prop} {S : Store} {m : GRun W GValue} {m' : Run W' Value}
    (h : Sim RW L S (VOk single g) m (m'.bind fun v => M.pure (.inl v))) : Sim RW L S (VRel single g) m m' := by
  intro w w' hw
  have h1 := h w w' hw
  revert h1
  simp only [M.bind]
  cases hm : m' (S, w') with
  | mk o' s' =>
    cases m w with
    | mk o w1 =>
      cases o with
      | val a =>
        rintro ⟨r, S', w1', e, hf, ⟨v', rfl, hv⟩, hw1⟩
        cases o' with
        | val b =>
          simp only [M.pure, Prod.mk.injEq, Out.val.injEq, Sum.inl.injEq] at e
          exact ⟨b, S', w1', by rw [e.2], hf, by rw [e.1]; exact hv, hw1⟩
        | error _ => simp at e
        | timeout => simp at e
        | stuck => simp at e
      | error p =>
        rintro ⟨r, S', w1', e, h2⟩
        cases o' with
        | val b => simp [M.pure] at e
        | error q =>
          simp only [Prod.mk.injEq, Out.error.injEq] at e
          exact ⟨r, S', w1', by rw [e.1, e.2], h2⟩
        | timeout => simp at e
        | stuck => simp at e
      | timeout =>
        rintro ⟨S', w1', e, h2⟩
        cases o' with
        | val b => simp [M.pure] at e
        | error q => simp at e
        | timeout =>
          simp only [Prod.mk.injEq, true_and] at e
          exact ⟨S', w1', by rw [e], h2⟩
        | stuck => simp at e
      | stuck => intro _; trivial

end

/-! ### Writes -/

theorem Writes.mono {c : Context} {last : Bool} {pos : Pos} {env : Env} {D E : List Name} (h : ∀ d ∈ D, d ∈ E) {l : Loc}
    (hl : Writes c last pos env D l) : Writes c last pos env E l := by
  rcases hl with ⟨d, hd, h1⟩ | h1
  · exact .inl ⟨d, h d hd, h1⟩
  · exact .inr h1

theorem Cells.writes {c : Context} {last : Bool} {pos : Pos} {env : Env} {D : List Name} {l : Loc} (h : Cells env D l) :
    Writes c last pos env D l := .inl h

theorem Cells.mono {env : Env} {D E : List Name} (h : ∀ d ∈ D, d ∈ E) {l : Loc} (hl : Cells env D l) : Cells env E l := by
  obtain ⟨d, hd, h1⟩ := hl
  exact ⟨d, h d hd, h1⟩

theorem not_cells_nil {env : Env} {l : Loc} : ¬Cells env [] l := by
  rintro ⟨d, hd, _⟩
  simp at hd

section

variable {single : Text → Bool} {g : List (Text × Nat)} {W W' : Type} {RW : W → W' → Prop}
variable {ap : GValue → List GValue → GRun W GValue} {ap' : Value → List Value → Run W' Value}
variable {c : Context} {last : Bool} {pos : Pos} {σ : Scope} {Γ : List Text} {env : GEnv} {env' : Env} {S : Store}

theorem not_calls {looped : Bool} {w : W} {S : Store} {o : Out Panic GValue × W} :
    ¬Calls single g ap c false env' looped w S o := fun h => by cases h.1

/-! ### Giving a value to a position -/

/-- What a statement does with a value. -/
def giveK (env : Env) : Pos → Value → Run W' Completion
  | .tail, v => M.pure (.ret v)
  | .stmt, _ => M.pure .normal
  | .assign b, v => (assign env b v).bind fun _ => M.pure .normal

theorem exec_give (globals : List Text) (pos : Pos) (x : Exp) :
    exec globals ap' env' (pos.give x) = (eval globals ap' env' x).bind (giveK env' pos) := by
  cases pos <;> simp only [Pos.give] <;> rw [exec_one, step] <;> rfl

theorem giveK_sim (ht : Target S env' σ pos) {v : GValue} {v' : Value} (hv : VRel single g S v v') :
    Sim RW (fun l => ∃ b, pos = .assign b ∧ env'.lookup b = some l) S (Give single g pos env') (M.pure v) (giveK env' pos v') := by
  cases pos with
  | tail => exact Sim.pure ⟨v', rfl, hv⟩
  | stmt => exact Sim.pure rfl
  | assign b =>
    obtain ⟨_, l, h2, h3⟩ := ht
    have hfr : Frame (fun l => ∃ b', Pos.assign b = .assign b' ∧ env'.lookup b' = some l) S (S.set l (.val v')) :=
      Frame.set ⟨b, rfl, h2⟩ (fun u hu => by rw [h3] at hu; cases hu)
    have hset : (S.set l (.val v'))[l]? = some (.val v') := by
      rw [List.getElem?_set_self (lt_of_cell h3)]
    refine Sim.step (S' := S.set l (.val v')) (k := M.pure .normal) (fun w' => ?_) hfr (fun _ _ h => h)
      (Sim.pure ⟨rfl, l, v', h2, hset, hv.keep hfr.keep⟩)
    simp only [giveK, M.bind]
    rw [assign_eq h2 h3]

theorem give_tsim {C : Tails W} {L : Loc → Prop} {m : GRun W GValue} {P : List Stm} {x : Exp}
    (h : Sim RW L S (VOk single g) m (valueOf (texts g) ap' env' P x)) (ht : Target S env' σ pos)
    (hL : ∀ l, S[l]? = some .declared → ¬L l) :
    TSim RW C (fun l => L l ∨ ∃ b, pos = .assign b ∧ env'.lookup b = some l) S (Give single g pos env') m
      (exec (texts g) ap' env' (P ++ pos.give x)) := by
  rw [exec_use (texts g) ap' (exec_give (texts g) pos x), ← bind_pure m]
  refine TSim.valueL h (fun _ h => .inl h) fun S' v v' hfr hv => ?_
  exact ((giveK_sim (ht.after hfr hL fun _ => Nat.le_refl _) hv).mono (fun _ _ h => .inr h) fun _ _ _ _ h => h).toTSim

/-- A value for the position of a statement. -/
theorem give_res {m : GRun W GValue} {P : List Stm} {x : Exp} {looped : Bool}
    (h : Ready S env' (declared P) → Sim RW (Cells env' (declared P)) S (VOk single g) m (valueOf (texts g) ap' env' P x)) :
    ResSim single g RW ap ap' c last pos σ env' S m (P ++ pos.give x) looped := by
  intro hr ht _
  rw [declared_append, declared_give, List.append_nil] at hr ⊢
  refine (give_tsim (h hr) ht hr.not_declared).mono (fun l _ hl => ?_) (fun _ _ _ _ h => h) fun _ _ _ h => h
  rcases hl with hl | hl
  · exact .inl hl
  · exact .inr (.inl hl)

/-! ### Expressions of JavaScript -/

variable (single g RW ap ap')

/-- In all places. -/
def Both (e : Expr) : Prop := ExpSim single g RW ap ap' e ∧ StmSim single g RW ap ap' e

variable {single g RW ap ap'}

theorem ExpSim.strict {e : Expr} (h : ExpSim single g RW ap ap' e) (hc : c.single = single) (hok : okE single g Γ e = true)
    (hr : EnvRel single g S c σ Γ env env') :
    Sim RW NoCells S (VRel single g) (ErlGen.Gleam.expr ap env e) (eval (texts g) ap' env' (gen c (.exp .strict) ⟨σ, []⟩ e).exp) := by
  have h1 := h .strict c σ Γ env env' S hc hok (fun h => by cases h) hr
  rw [strict_state] at h1
  have h2 := h1 (.nil _ _)
  rw [valueOf_nil] at h2
  exact h2.ofInl.mono (fun l _ hl => absurd hl not_cells_nil) fun _ _ _ _ h => h

theorem both_plain {e : Expr} (x : Context → Scope → Exp)
    (hgen : ∀ c m σ, gen c m ⟨σ, []⟩ e = plain m ⟨σ, []⟩ (x c σ))
    (h : ∀ c σ Γ env env' S, c.single = single → okE single g Γ e = true → EnvRel single g S c σ Γ env env' →
      Sim RW NoCells S (VRel single g) (ErlGen.Gleam.expr ap env e) (eval (texts g) ap' env' (x c σ))) :
    Both single g RW ap ap' e := by
  constructor
  · intro o c σ Γ env env' S hc hok _ hr _
    rw [hgen]
    simp only [plain]
    rw [valueOf_nil]
    exact (h c σ Γ env env' S hc hok hr).toInl.mono (fun _ _ h => h.elim) fun _ _ _ _ h => h
  · intro c last pos σ Γ env env' S hc hok hr
    rw [hgen]
    simp only [plain]
    refine give_res fun _ => ?_
    rw [valueOf_nil]
    exact (h c σ Γ env env' S hc hok hr).toInl.mono (fun _ _ h => h.elim) fun _ _ _ _ h => h

/-- An expression around another one. -/
theorem inner_sim {L : Loc → Prop} {m : GRun W GValue} {k : GValue → GRun W GValue} {P : List Stm} {x y : Exp} {k' : Value → Run W' Value}
    (h : Sim RW L S (VOk single g) m (valueOf (texts g) ap' env' P x))
    (hy : eval (texts g) ap' env' y = (eval (texts g) ap' env' x).bind k')
    (hk : ∀ S' v v', Frame L S S' → VRel single g S' v v' → Sim RW NoCells S' (VRel single g) (k v) (k' v')) :
    Sim RW L S (VOk single g) (m.bind k) (valueOf (texts g) ap' env' P y) := by
  rw [valueOf_use (texts g) ap' hy]
  exact h.value fun S' v v' hfr hv => (hk S' v v' hfr hv).toInl.mono (fun _ _ h => h.elim) fun _ _ _ _ h => h

theorem both_inner {e a : Expr} (f : Exp → Exp) (k : GValue → GRun W GValue) (k' : Value → Run W' Value)
    (ha : ExpSim single g RW ap ap' a)
    (hok : ∀ Γ, okE single g Γ e = true → okE single g Γ a = true ∧ keeps single a = true)
    (hgen : ∀ c m σ, gen c m ⟨σ, []⟩ e = plain m (gen c m.inner ⟨σ, []⟩ a).state (f (gen c m.inner ⟨σ, []⟩ a).exp))
    (hexpr : ∀ env, ErlGen.Gleam.expr ap env e = (ErlGen.Gleam.expr ap env a).bind k)
    (heval : ∀ env' x, eval (texts g) ap' env' (f x) = (eval (texts g) ap' env' x).bind k')
    (hk : ∀ S v v', VRel single g S v v' → Sim RW NoCells S (VRel single g) (k v) (k' v')) :
    Both single g RW ap ap' e := by
  constructor
  · intro o c σ Γ env env' S hc hoke _ hr hd
    rw [hgen] at hd ⊢
    simp only [plain, Mode.inner] at hd ⊢
    rw [hexpr]
    exact inner_sim (ha o c σ Γ env env' S hc (hok Γ hoke).1 (fun _ => (hok Γ hoke).2) hr hd) (heval _ _) fun S' v v' _ hv => hk S' v v' hv
  · intro c last pos σ Γ env env' S hc hoke hr
    rw [hgen]
    simp only [plain, Mode.inner]
    refine give_res fun hd => ?_
    rw [hexpr]
    exact inner_sim (ha .loose c σ Γ env env' S hc (hok Γ hoke).1 (fun _ => (hok Γ hoke).2) hr hd) (heval _ _) fun S' v v' _ hv => hk S' v v' hv

/-! ### Blocks -/

theorem LoopCells.rename {env'' : Env} (h : ∀ x, env''.lookup (.loop x) = env'.lookup (.loop x)) {ps : List (Option (Text × Nat))}
    {vs : List Value} (hl : LoopCells env'' S ps vs) : LoopCells env' S ps vs := by
  induction hl with
  | nil => exact .nil
  | some h1 h2 _ ih => exact .some ((h _).symm.trans h1) h2 ih
  | none _ ih => exact .none ih

theorem Target.declare (ht : Target S env' σ pos) {D : List Name} (hD : ∀ d ∈ D, ¬Old σ d) :
    Target (S ++ D.map fun _ => Cell.uninit) (bindNames D S.length env') σ pos := by
  cases pos with
  | assign b =>
    obtain ⟨h1, l, h2, h3⟩ := ht
    refine ⟨h1, l, ?_, ?_⟩
    · rw [lookup_bindNames_of_not_mem fun hd => hD _ hd h1, h2]
    · rw [List.getElem?_append_left (lt_of_cell h3), h3]
  | _ => trivial

theorem LoopReady.declare (h : LoopReady S env' c) {D : List Name} (hD : ∀ d ∈ D, ¬Old σ d) :
    LoopReady (S ++ D.map fun _ => Cell.uninit) (bindNames D S.length env') c := by
  intro f ps hfp
  obtain ⟨h1, h2, h3⟩ := h f ps hfp
  have hlk : ∀ x, (bindNames D S.length env').lookup (.loop x) = env'.lookup (.loop x) := fun x =>
    lookup_bindNames_of_not_mem fun hd => hD _ hd trivial
  refine ⟨h1, fun x hx => ?_, fun x hx y hy l => ?_⟩
  · obtain ⟨l, v, h4, h5⟩ := h2 x hx
    exact ⟨l, v, (hlk x).trans h4, by rw [List.getElem?_append_left (lt_of_cell h5), h5]⟩
  · rw [hlk, hlk]
    exact h3 x hx y hy l

/-- Statements with variables of their own. -/
theorem declare_tsim {m : GRun W GValue} {D : List Name} {k : Env → Run W' Completion} {looped : Bool}
    (ht : Target S env' σ pos) (hn : D.Nodup) (hD : ∀ d ∈ D, ¬Old σ d)
    (h : TSim RW (Calls single g ap c last (bindNames D S.length env') looped) (Writes c last pos (bindNames D S.length env') D)
      (S ++ D.map fun _ => Cell.uninit) (Give single g pos (bindNames D S.length env')) m (k (bindNames D S.length env'))) :
    TSim RW (Calls single g ap c last env' looped) (Writes c last pos env' []) S (Give single g pos env') m
      ((declare .uninit D env').bind k) := by
  have hlk : ∀ n, Old σ n → (bindNames D S.length env').lookup n = env'.lookup n := fun n hn =>
    lookup_bindNames_of_not_mem fun hd => hD _ hd hn
  have hpos : ∀ b, pos = .assign b → Old σ b := by
    rintro b rfl
    exact ht.1
  refine TSim.step (L' := Writes c last pos (bindNames D S.length env') D) (S' := S ++ D.map fun _ => Cell.uninit)
    (k := k (bindNames D S.length env')) (fun w' => ?_) (Frame.append _ S _) (fun l hl hw => ?_) ?_
  · simp only [M.bind]
    rw [declare_eq]
  · rcases hw with hw | ⟨b, h1, h2⟩ | ⟨h1, h2, x, h3⟩
    · have := cells_declare hn hw
      omega
    · exact .inr (.inl ⟨b, h1, by rw [← hlk b (hpos b h1), h2]⟩)
    · exact .inr (.inr ⟨h1, h2, x, by rw [← hlk (.loop x) trivial, h3]⟩)
  · refine h.mono (fun _ _ h => h) (fun S' v c' _ hg => ?_) fun w1 S1 o hC => ?_
    · cases pos with
      | tail => exact hg
      | stmt => exact hg
      | assign b =>
        obtain ⟨h1, l, v', h2, h3⟩ := hg
        exact ⟨h1, l, v', by rw [← hlk b (hpos b rfl), h2], h3⟩
    · obtain ⟨h1, h2, f, ps, n, vs, vs', h3, h4, h5, h6⟩ := hC
      exact ⟨h1, h2, f, ps, n, vs, vs', h3, h4, h5, h6.rename fun x => hlk (.loop x) trivial⟩

/-- Statements in a block of their own. -/
theorem block_tsim {m : GRun W GValue} {stms : List Stm} {looped : Bool} (ht : Target S env' σ pos)
    (hl : last = true → looped = true → LoopReady S env' c) (hn : (declared stms).Nodup) (hD : ∀ d ∈ declared stms, ¬Old σ d)
    (h : ResSim single g RW ap ap' c last pos σ (bindNames (declared stms) S.length env') (S ++ (declared stms).map fun _ => Cell.uninit) m
      stms looped) :
    TSim RW (Calls single g ap c last env' looped) (Writes c last pos env' []) S (Give single g pos env') m
      ((declare .uninit (declared stms) env').bind fun env => exec (texts g) ap' env stms) :=
  declare_tsim ht hn hD (h (ready_declare hn env' S) (ht.declare hD) fun h1 h2 => (hl h1 h2).declare hD)

/-- Statements in a function that is called immediately. -/
theorem iife_sim {m : GRun W GValue} {stms : List Stm} {looped : Bool} (hn : (declared stms).Nodup) (hD : ∀ d ∈ declared stms, ¬Old σ d)
    (h : ResSim single g RW ap ap' c false .tail σ (bindNames (declared stms) S.length env')
      (S ++ (declared stms).map fun _ => Cell.uninit) m stms looped) :
    Sim RW NoCells S (VRel single g) m (eval (texts g) ap' env' (.iife stms)) := by
  have h1 := block_tsim (last := false) (pos := .tail) (σ := σ) (S := S) (env' := env') trivial (fun h => by cases h) hn hD h
  have h2 := Sim.ofTSim h1 fun _ _ _ => not_calls
  have h3 := h2.bind (f := M.pure) (f' := fun c => M.pure c.value) (Q := VRel single g) fun S' v c' _ hg => by
    obtain ⟨v', rfl, hv⟩ := hg
    exact Sim.pure hv
  rw [bind_pure, bind_assoc] at h3
  rw [eval]
  refine h3.mono (fun l _ hl => ?_) fun _ _ _ _ h => h
  rcases hl with hl | ⟨b, h1, _⟩ | ⟨h1, _⟩
  · exact not_cells_nil hl
  · cases h1
  · cases h1

/-- With other numbers for names that are never in scope. -/
theorem EnvRel.scope (h : EnvRel single g S c σ Γ env env') (hg : ∀ f ∈ texts g, synthetic f = false) {σ' : Scope}
    (hs : ∀ y, y ≠ subjectText → y ≠ blockText → σ'.counter y = σ.counter y) : EnvRel single g S c σ' Γ env env' := by
  have hne : ∀ y ∈ Γ, y ≠ subjectText ∧ y ≠ blockText := fun y hy =>
    ⟨fun e => h.clean.1 (e ▸ hy), fun e => h.clean.2 (e ▸ hy)⟩
  refine ⟨fun x hx => ?_, fun f hf hn => ?_, h.clean, fun f ps hfp => ?_⟩
  · obtain ⟨v, k, l, v', h1, h2, h3⟩ := h.vars x hx
    exact ⟨v, k, l, v', h1, by rw [hs x (hne x hx).1 (hne x hx).2, h2], h3⟩
  · obtain ⟨h1, h2⟩ := h.globals f hf hn
    refine ⟨?_, h2⟩
    rw [hs f, h1]
    · rintro rfl
      have := hg _ hf
      revert this
      decide
    · rintro rfl
      have := hg _ hf
      revert this
      decide
  · obtain ⟨h1, h2⟩ := h.self f ps hfp
    refine ⟨fun hf => ?_, h2⟩
    rw [hs f (hne f hf).1 (hne f hf).2]
    exact h1 hf

theorem EnvRel.next_block (h : EnvRel single g S c σ Γ env env') (hg : ∀ f ∈ texts g, synthetic f = false) :
    EnvRel single g S c (σ.next blockText) Γ env env' := h.scope hg fun _ _ hy => σ.counter_next_of_ne hy

theorem EnvRel.next_subject (h : EnvRel single g S c σ Γ env env') (hg : ∀ f ∈ texts g, synthetic f = false) :
    EnvRel single g S c (σ.next subjectText) Γ env env' := h.scope hg fun _ hy _ => σ.counter_next_of_ne hy

/-- Statements that assign to a variable, whose value is used then. -/
theorem assigned_sim {m : GRun W GValue} {stms : List Stm} {looped : Bool} {b : Name} (hb : b = .var blockText (σ.fresh blockText))
    (hd : Ready S env' (b :: declared stms)) (hn : (b :: declared stms).Nodup)
    (h : ∀ S', Frame (Cells env' [b]) S S' →
      ResSim single g RW ap ap' c false (.assign b) (σ.next blockText) env' S' m stms looped) :
    Sim RW (Cells env' (b :: declared stms)) S (VOk single g) m (valueOf (texts g) ap' env' (.letUninit b :: stms) (.var b)) := by
  obtain ⟨l, hlk, hS⟩ := hd.cells b (by simp)
  have hfr : Frame (Cells env' [b]) S (S.set l .declared) :=
    Frame.set ⟨b, by simp, hlk⟩ (fun v hv => by rw [hS] at hv; cases hv)
  have hset : (S.set l .declared)[l]? = some .declared := by rw [List.getElem?_set_self (lt_of_cell hS)]
  have hready : Ready (S.set l .declared) env' (declared stms) :=
    Ready.after (D := [b]) (E := declared stms) hd hn hfr fun _ _ h => h
  have hold : Old (σ.next blockText) b := by
    rw [hb]
    simp only [Old, σ.fresh_next_self]
    omega
  have h1 := Sim.ofTSim (h _ hfr hready ⟨hold, l, hlk, hset⟩ fun h => by cases h) fun _ _ _ => not_calls
  have h2 := h1.bind (f := M.pure)
    (f' := fun c => c.elim ((eval (texts g) ap' env' (.var b)).bind fun v => M.pure (.inl v)) fun v => M.pure (Sum.inr (α := Value) v))
    (Q := VOk single g) fun S' v c' _ hg => by
      obtain ⟨rfl, l', v', h3, h4, hv⟩ := hg
      simp only [Completion.elim, eval]
      intro w w' hw
      refine ⟨.inl v', S', w', ?_, .refl _ _, ⟨v', rfl, hv⟩, hw⟩
      simp only [M.bind]
      rw [read_eq h3 h4]
      rfl
  rw [bind_pure] at h2
  refine Sim.step (k := _) (fun w' => ?_) (hfr.mono fun l _ hl => hl.mono (E := b :: declared stms) (by simp)) (fun l' hl' hw => ?_) h2
  · rw [valueOf, exec_cons, step]
    simp only [M.bind]
    rw [initialise_eq hlk]
    rfl
  · rcases hw with hw | ⟨b', h1, h2⟩ | ⟨h1, _⟩
    · exact hw.mono (by simp +contextual)
    · cases h1
      exact ⟨b, by simp, h2⟩
    · cases h1

/-- In a block whose variables are new. -/
theorem EnvRel.block (h : EnvRel single g S c σ Γ env env') {D : List Name} {σ' : Scope} (hgr : Grow σ D σ') :
    EnvRel single g (S ++ D.map fun _ => Cell.uninit) c σ Γ env (bindNames D S.length env') :=
  (h.keep (Frame.append NoCells S _).keep).declare (fun d hd => (hgr.new d hd).1) _

theorem exp_place {e : Expr} (hg : ∀ f ∈ texts g, synthetic f = false)
    (hgen : ∀ c m σ, gen c m ⟨σ, []⟩ e = place m ⟨σ, []⟩ fun last pos st => gen c (.stm last pos) st e)
    (hl : keeps single e = true → lifts e = false) (h : StmSim single g RW ap ap' e) : ExpSim single g RW ap ap' e := by
  intro o c σ Γ env env' S hc hok hk hr hd
  cases o with
  | strict =>
    rw [hgen] at hd ⊢
    simp only [place] at hd ⊢
    rw [valueOf_nil]
    have hst := ((stat_all single g e Γ hok c σ hc).2 false .tail).grow
    have h1 := h c false .tail σ Γ env _ _ hc hok (hr.block hst)
    exact (iife_sim hst.nodup (fun d hd => (hst.new d hd).1) h1).toInl.mono (fun _ _ h => h.elim) fun _ _ _ _ h => h
  | loose =>
    rw [hgen] at hd ⊢
    simp only [place] at hd ⊢
    have hst := (stat_all single g e Γ hok c (σ.next blockText) hc).2 false (.assign (.var blockText (σ.fresh blockText)))
    have hlev := hst.level (hl (hk rfl))
    have hgr := (Grow.next σ blockText).trans hst.grow
    rw [hlev] at hd hgr ⊢
    simp only [List.nil_append, declared, List.singleton_append] at hd hgr ⊢
    refine assigned_sim (ap := ap) (c := c) (looped := (gen c (.stm false (.assign (.var blockText (σ.fresh blockText))))
      ⟨σ.next blockText, []⟩ e).looped) rfl hd hgr.nodup fun S' hfr => ?_
    have := h c false (.assign (.var blockText (σ.fresh blockText))) (σ.next blockText) Γ env env' S' hc hok
      ((hr.keep hfr.keep).next_block hg)
    rw [hlev] at this
    exact this

/-! ### Blocks of statements -/

theorem stmts_declare {ss : List Stmt} (h : StmtsSim single g RW ap ap' ss) (hc : c.single = single)
    (hok : okStmts single g Γ ss = true) (hr : EnvRel single g S c σ Γ env env') (last : Bool) (pos : Pos) :
    ResSim single g RW ap ap' c last pos σ (bindNames (declared (genStmts c last pos σ ss).stms) S.length env')
      (S ++ (declared (genStmts c last pos σ ss).stms).map fun _ => Cell.uninit) (ErlGen.Gleam.stmts ap env ss)
      (genStmts c last pos σ ss).stms (genStmts c last pos σ ss).looped := by
  have hst := (stat_stmts (stat_allStmts single g ss) Γ hok c last pos σ hc).grow
  exact h c last pos σ Γ env _ _ hc hok (hr.block hst)

theorem both_block_none {body : List Stmt} (hg : ∀ f ∈ texts g, synthetic f = false) (hb : single1 body = none)
    (h : StmtsSim single g RW ap ap' body) : Both single g RW ap ap' (.block body) := by
  have hblock : ∀ c σ Γ env env' S, c.single = single → okStmts single g Γ body = true → EnvRel single g S c σ Γ env env' → ∀ last pos,
      ResSim single g RW ap ap' c last pos σ env' S (ErlGen.Gleam.stmts ap env body) [.block (genStmts c last pos σ body).stms]
        (genStmts c last pos σ body).looped := by
    intro c σ Γ env env' S hc hok hr last pos hd ht hl
    have hst := (stat_stmts (stat_allStmts single g body) Γ hok c last pos σ hc).grow
    rw [exec_one, step]
    exact block_tsim ht hl hst.nodup (fun d hd => (hst.new d hd).1) (stmts_declare h hc hok hr last pos)
  constructor
  · intro o c σ Γ env env' S hc hok hk hr hd
    simp only [okE] at hok
    simp only [ErlGen.Gleam.expr]
    cases o with
    | strict =>
      rw [gen_block_none hb] at hd ⊢
      simp only [placeBlock] at hd ⊢
      rw [valueOf_nil]
      have hst := (stat_stmts (stat_allStmts single g body) Γ hok c false .tail σ hc).grow
      exact (iife_sim hst.nodup (fun d hd => (hst.new d hd).1) (stmts_declare h hc hok hr false .tail)).toInl.mono (fun _ _ h => h.elim)
        fun _ _ _ _ h => h
    | loose =>
      rw [gen_block_none hb] at hd ⊢
      simp only [placeBlock, List.nil_append] at hd ⊢
      have := assigned_sim (m := ErlGen.Gleam.stmts ap env body) (ap := ap) (ap' := ap') (RW := RW) (c := c) rfl hd
        (by simp [declared]) fun S' hfr => hblock c (σ.next blockText) Γ env env' S' hc hok ((hr.keep hfr.keep).next_block hg) false
          (.assign (.var blockText (σ.fresh blockText)))
      exact this
  · intro c last pos σ Γ env env' S hc hok hr
    simp only [okE] at hok
    simp only [ErlGen.Gleam.expr]
    rw [gen_block_none hb]
    simp only [placeBlock, List.nil_append]
    exact hblock c σ Γ env env' S hc hok hr last pos

theorem both_block_some {body : List Stmt} {e : Expr} (hb : single1 body = some e) (h : Both single g RW ap ap' e) :
    Both single g RW ap ap' (.block body) := by
  obtain ⟨h1, h2, h3, h4, h5⟩ := block_some (single := single) (g := g) hb
  have href : ∀ env, Refines (ErlGen.Gleam.expr ap env (.block body)) (ErlGen.Gleam.expr ap env e) := by
    intro env
    unfold single1 at hb
    split at hb
    · cases hb
      intro w
      right
      simp only [ErlGen.Gleam.expr, ErlGen.Gleam.stmts]
    · cases hb
      simp only [ErlGen.Gleam.expr, ErlGen.Gleam.stmts]
      refine refines_bind fun v => ?_
      split
      · exact .inl rfl
      · exact .inr rfl
    · cases hb
  constructor
  · intro o c σ Γ env env' S hc hok hk hr hd
    rw [gen_block_some hb] at hd ⊢
    exact (h.1 o c σ Γ env env' S hc (h5 Γ hok) (fun ho => h4 ▸ hk ho) hr hd).refine (href env)
  · intro c last pos σ Γ env env' S hc hok hr hd ht hl
    rw [gen_block_some hb] at hd hl ⊢
    exact (h.2 c last pos σ Γ env env' S hc (h5 Γ hok) hr hd ht hl).refine (href env)

end

end Verif.JsGen
