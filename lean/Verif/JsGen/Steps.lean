import Verif.JsGen.Values

/-!
# Computations of Gleam and of JavaScript
-/

namespace Verif.JsGen

open Verif.ErlGen (Pattern Const Expr Stmt Clause varsAll M Out Match Op)
open Verif.ErlGen.Gleam (Panic)
open Spec (SameError)

/-! ### Sequences -/

section

variable {W ε α β γ : Type}

theorem bind_assoc (m : M W ε α) (f : α → M W ε β) (k : β → M W ε γ) : (m.bind f).bind k = m.bind fun a => (f a).bind k := by
  funext w
  simp only [M.bind]
  cases m w with
  | mk o w1 => cases o <;> rfl

theorem pure_bind (a : α) (f : α → M W ε β) : (M.pure a : M W ε α).bind f = f a := rfl

theorem bind_pure (m : M W ε α) : m.bind M.pure = m := by
  funext w
  simp only [M.bind]
  cases m w with
  | mk o w1 => cases o <;> rfl

theorem stuck_bind (f : α → M W ε β) : (M.stuck : M W ε α).bind f = M.stuck := rfl

end

def Completion.elim {β : Type} (c : Completion) (a : β) (f : Value → β) : β :=
  match c with
  | .normal => a
  | .ret v => f v

section

variable {W : Type} (globals : List Text) (ap : Value → List Value → Run W Value)

theorem exec_cons (env : Env) (s : Stm) (ss : List Stm) :
    exec globals ap env (s :: ss) = (step globals ap env s).bind fun c => c.elim (exec globals ap env ss) fun v => M.pure (.ret v) := by
  simp only [exec]
  rfl

theorem exec_nil (env : Env) : exec globals ap env [] = M.pure .normal := by simp only [exec]

theorem exec_one (env : Env) (s : Stm) : exec globals ap env [s] = step globals ap env s := by
  rw [exec_cons, exec_nil]
  conv => rhs; rw [← bind_pure (step globals ap env s)]
  congr 1
  funext c
  cases c <;> rfl

theorem exec_append (env : Env) (as bs : List Stm) : exec globals ap env (as ++ bs) =
    (exec globals ap env as).bind fun c => c.elim (exec globals ap env bs) fun v => M.pure (.ret v) := by
  induction as with
  | nil => rw [List.nil_append, exec_nil, pure_bind]; rfl
  | cons a as ih =>
    rw [List.cons_append, exec_cons, exec_cons, bind_assoc, ih]
    congr 1
    funext c
    cases c <;> rfl

/-- The value of an expression after some statements, or what the statements return. -/
def valueOf (env : Env) (P : List Stm) (e : Exp) : Run W (Value ⊕ Value) :=
  (exec globals ap env P).bind fun c => c.elim ((eval globals ap env e).bind fun v => M.pure (.inl v)) fun v => M.pure (.inr v)

theorem valueOf_nil (env : Env) (e : Exp) : valueOf globals ap env [] e = (eval globals ap env e).bind fun v => M.pure (.inl v) := by
  rw [valueOf, exec_nil, pure_bind]
  rfl

theorem exec_use {env : Env} {P ss : List Stm} {e : Exp} {k : Value → Run W Completion}
    (h : exec globals ap env ss = (eval globals ap env e).bind k) :
    exec globals ap env (P ++ ss) = (valueOf globals ap env P e).bind (Sum.elim k fun v => M.pure (.ret v)) := by
  rw [exec_append, valueOf, bind_assoc]
  congr 1
  funext c
  cases c with
  | normal =>
    simp only [Completion.elim]
    rw [h, bind_assoc]
    rfl
  | ret v => rfl

theorem valueOf_use {env : Env} {P : List Stm} {e e' : Exp} {k : Value → Run W Value}
    (h : eval globals ap env e' = (eval globals ap env e).bind k) :
    valueOf globals ap env P e' = (valueOf globals ap env P e).bind
      (Sum.elim (fun v => (k v).bind fun r => M.pure (.inl r)) fun v => M.pure (.inr v)) := by
  rw [valueOf, valueOf, bind_assoc]
  congr 1
  funext c
  cases c with
  | normal =>
    simp only [Completion.elim]
    rw [h, bind_assoc, bind_assoc]
    rfl
  | ret v => rfl

end

/-! ### Related outcomes -/

section

variable {W W' : Type} (RW : W → W' → Prop) {α β γ δ : Type}

/-- Outcomes in a store that has grown. -/
def OutRel (L : Loc → Prop) (S : Store) (R : Store → α → β → Prop) : Out Panic α × W → Out Error β × (Store × W') → Prop
  | (.stuck, _), _ => True
  | (.val a, w), o => ∃ b S' w', o = (.val b, S', w') ∧ Frame L S S' ∧ R S' a b ∧ RW w w'
  | (.error p, w), o => ∃ e S' w', o = (.error e, S', w') ∧ SameError p e ∧ RW w w'
  | (.timeout, w), o => ∃ S' w', o = (.timeout, S', w') ∧ RW w w'

def Sim (L : Loc → Prop) (S : Store) (R : Store → α → β → Prop) (m : GRun W α) (m' : Run W' β) : Prop :=
  ∀ w w', RW w w' → OutRel RW L S R (m w) (m' (S, w'))

/-- What is known if the next iteration of a loop is to be run: of the world and the store then, and of the outcome in Gleam. -/
abbrev Tails (W : Type) := W → Store → Out Panic GValue × W → Prop

/-- Statements that may end with the next iteration of a loop. -/
def TSim (C : Tails W) (L : Loc → Prop) (S : Store) (R : Store → GValue → Completion → Prop) (m : GRun W GValue)
    (m' : Run W' Completion) : Prop :=
  ∀ w w', RW w w' → OutRel RW L S R (m w) (m' (S, w')) ∨
    ∃ w1 S1 w1', m' (S, w') = (.val .normal, S1, w1') ∧ Frame L S S1 ∧ RW w1 w1' ∧ C w1 S1 (m w)

variable {RW}

theorem Sim.toTSim {C : Tails W} {L : Loc → Prop} {S : Store} {R : Store → GValue → Completion → Prop} {m : GRun W GValue}
    {m' : Run W' Completion} (h : Sim RW L S R m m') : TSim RW C L S R m m' := fun w w' hw => .inl (h w w' hw)

theorem OutRel.mono {L L' : Loc → Prop} {S : Store} {R R' : Store → α → β → Prop} {o : Out Panic α × W}
    {o' : Out Error β × (Store × W')} (h : OutRel RW L S R o o') (hl : ∀ l, l < S.length → L l → L' l)
    (hr : ∀ S' a b, Frame L S S' → R S' a b → R' S' a b) : OutRel RW L' S R' o o' := by
  obtain ⟨o, w⟩ := o
  cases o with
  | val a =>
    obtain ⟨b, S', w', e, hf, h1, hw⟩ := h
    exact ⟨b, S', w', e, hf.mono hl, hr _ _ _ hf h1, hw⟩
  | error p => exact h
  | timeout => exact h
  | stuck => trivial

theorem Sim.mono {L L' : Loc → Prop} {S : Store} {R R' : Store → α → β → Prop} {m : GRun W α} {m' : Run W' β}
    (h : Sim RW L S R m m') (hl : ∀ l, l < S.length → L l → L' l)
    (hr : ∀ S' a b, Frame L S S' → R S' a b → R' S' a b) : Sim RW L' S R' m m' := fun w w' hw => (h w w' hw).mono hl hr

theorem TSim.mono {C C' : Tails W} {L L' : Loc → Prop} {S : Store} {R R' : Store → GValue → Completion → Prop} {m : GRun W GValue}
    {m' : Run W' Completion} (h : TSim RW C L S R m m') (hl : ∀ l, l < S.length → L l → L' l)
    (hr : ∀ S' a b, Frame L S S' → R S' a b → R' S' a b) (hc : ∀ w S o, C w S o → C' w S o) : TSim RW C' L' S R' m m' := by
  intro w w' hw
  rcases h w w' hw with h1 | ⟨w1, S1, w1', e, hf, h1, h2⟩
  · exact .inl (h1.mono hl hr)
  · exact .inr ⟨w1, S1, w1', e, hf.mono hl, h1, hc _ _ _ h2⟩

theorem Sim.pure {L : Loc → Prop} {S : Store} {R : Store → α → β → Prop} {a : α} {b : β} (h : R S a b) :
    Sim RW L S R (M.pure a) (M.pure b) := fun _ w' hw => ⟨b, S, w', rfl, .refl L S, h, hw⟩

theorem Sim.stuck {L : Loc → Prop} {S : Store} {R : Store → α → β → Prop} {m' : Run W' β} :
    Sim RW L S R (M.stuck : GRun W α) m' := fun _ _ _ => trivial

theorem TSim.stuck {C : Tails W} {L : Loc → Prop} {S : Store} {R : Store → GValue → Completion → Prop} {m' : Run W' Completion} :
    TSim RW C L S R (M.stuck : GRun W GValue) m' := fun _ _ _ => .inl trivial

theorem OutRel.frame {L L' : Loc → Prop} {S S' : Store} {R : Store → α → β → Prop} {o : Out Panic α × W}
    {o' : Out Error β × (Store × W')} (h : OutRel RW L' S' R o o') (hf : Frame L S S') (hl : ∀ l, l < S.length → L' l → L l) :
    OutRel RW L S R o o' := by
  obtain ⟨o, w⟩ := o
  cases o with
  | val a =>
    obtain ⟨b, S2, w', e, hf', h1, hw⟩ := h
    exact ⟨b, S2, w', e, hf.trans hf' hl, h1, hw⟩
  | error p => exact h
  | timeout => exact h
  | stuck => trivial

/-- A step of JavaScript alone. -/
theorem Sim.step {L L' : Loc → Prop} {S S' : Store} {R : Store → α → β → Prop} {m : GRun W α} {m' k : Run W' β}
    (hm : ∀ w', m' (S, w') = k (S', w')) (hf : Frame L S S') (hl : ∀ l, l < S.length → L' l → L l) (h : Sim RW L' S' R m k) :
    Sim RW L S R m m' := by
  intro w w' hw
  rw [hm]
  exact (h w w' hw).frame hf hl

theorem TSim.step {C : Tails W} {L L' : Loc → Prop} {S S' : Store} {R : Store → GValue → Completion → Prop} {m : GRun W GValue}
    {m' k : Run W' Completion} (hm : ∀ w', m' (S, w') = k (S', w')) (hf : Frame L S S') (hl : ∀ l, l < S.length → L' l → L l)
    (h : TSim RW C L' S' R m k) : TSim RW C L S R m m' := by
  intro w w' hw
  rw [hm]
  rcases h w w' hw with h1 | ⟨w1, S1, w1', e, hf', h1, h2⟩
  · exact .inl (h1.frame hf hl)
  · exact .inr ⟨w1, S1, w1', e, hf.trans hf' hl, h1, h2⟩

theorem Sim.bind {L : Loc → Prop} {S : Store} {R : Store → α → β → Prop} {Q : Store → γ → δ → Prop} {m : GRun W α} {m' : Run W' β}
    {f : α → GRun W γ} {f' : β → Run W' δ} (h : Sim RW L S R m m')
    (hf : ∀ S' a b, Frame L S S' → R S' a b → Sim RW L S' Q (f a) (f' b)) : Sim RW L S Q (m.bind f) (m'.bind f') := by
  intro w w' hw
  have h1 := h w w' hw
  unfold M.bind
  revert h1
  cases m w with
  | mk o w1 =>
    cases o with
    | val a =>
      rintro ⟨b, S', w1', e, hfr, hr, hw1⟩
      rw [e]
      exact (hf S' a b hfr hr w1 w1' hw1).frame hfr fun _ _ h => h
    | error p =>
      rintro ⟨e, S', w1', e1, hr, hw1⟩
      rw [e1]
      exact ⟨e, S', w1', rfl, hr, hw1⟩
    | timeout =>
      rintro ⟨S', w1', e1, hw1⟩
      rw [e1]
      exact ⟨S', w1', rfl, hw1⟩
    | stuck =>
      intro _
      trivial

theorem TSim.bind {C : Tails W} {L : Loc → Prop} {S : Store} {R : Store → α → β → Prop} {Q : Store → GValue → Completion → Prop}
    {m : GRun W α} {m' : Run W' β} {f : α → GRun W GValue} {f' : β → Run W' Completion} (h : Sim RW L S R m m')
    (hf : ∀ S' a b, Frame L S S' → R S' a b → TSim RW C L S' Q (f a) (f' b)) : TSim RW C L S Q (m.bind f) (m'.bind f') := by
  intro w w' hw
  have h1 := h w w' hw
  unfold M.bind
  revert h1
  cases m w with
  | mk o w1 =>
    cases o with
    | val a =>
      rintro ⟨b, S', w1', e, hfr, hr, hw1⟩
      rw [e]
      rcases hf S' a b hfr hr w1 w1' hw1 with h2 | ⟨w2, S2, w2', e2, hf2, h2, h3⟩
      · exact .inl (h2.frame hfr fun _ _ h => h)
      · exact .inr ⟨w2, S2, w2', e2, hfr.trans hf2 fun _ _ h => h, h2, h3⟩
    | error p =>
      rintro ⟨e, S', w1', e1, hr, hw1⟩
      rw [e1]
      exact .inl ⟨e, S', w1', rfl, hr, hw1⟩
    | timeout =>
      rintro ⟨S', w1', e1, hw1⟩
      rw [e1]
      exact .inl ⟨S', w1', rfl, hw1⟩
    | stuck =>
      intro _
      exact .inl trivial

/-- What is known about the value of an expression. -/
def VOk (single : Text → Bool) (g : List (Text × Nat)) (S : Store) (v : GValue) (r : Value ⊕ Value) : Prop :=
  ∃ v', r = .inl v' ∧ VRel single g S v v'

variable {single : Text → Bool} {g : List (Text × Nat)}

theorem Sim.value {L : Loc → Prop} {S : Store} {Q : Store → γ → δ → Prop} {m : GRun W GValue} {m' : Run W' (Value ⊕ Value)}
    {f : GValue → GRun W γ} {k kr : Value → Run W' δ} (h : Sim RW L S (VOk single g) m m')
    (hf : ∀ S' v v', Frame L S S' → VRel single g S' v v' → Sim RW L S' Q (f v) (k v')) :
    Sim RW L S Q (m.bind f) (m'.bind (Sum.elim k kr)) :=
  h.bind fun S' v r hfr hr => by
    obtain ⟨v', rfl, hv⟩ := hr
    exact hf S' v v' hfr hv

theorem TSim.value {C : Tails W} {L : Loc → Prop} {S : Store} {Q : Store → GValue → Completion → Prop} {m : GRun W GValue}
    {m' : Run W' (Value ⊕ Value)} {f : GValue → GRun W GValue} {k kr : Value → Run W' Completion} (h : Sim RW L S (VOk single g) m m')
    (hf : ∀ S' v v', Frame L S S' → VRel single g S' v v' → TSim RW C L S' Q (f v) (k v')) :
    TSim RW C L S Q (m.bind f) (m'.bind (Sum.elim k kr)) :=
  TSim.bind h fun S' v r hfr hr => by
    obtain ⟨v', rfl, hv⟩ := hr
    exact hf S' v v' hfr hv

end

/-! ### Cells -/

section

variable {W : Type}

/-- The environment after a declaration. -/
def bindNames : List Name → Nat → Env → Env
  | [], _, env => env
  | x :: xs, n, env => bindNames xs (n + 1) ((x, n) :: env)

theorem declare_eq (c : Cell) (D : List Name) (env : Env) (S : Store) (w : W) :
    declare c D env (S, w) = (.val (bindNames D S.length env), S ++ D.map fun _ => c, w) := by
  induction D generalizing env S with
  | nil => simp [declare, bindNames, M.pure]
  | cons d D ih =>
    simp only [declare, M.bind, alloc]
    rw [ih]
    simp [bindNames]

theorem lookup_bindNames_of_not_mem {D : List Name} {n : Nat} {env : Env} {x : Name} (h : x ∉ D) :
    (bindNames D n env).lookup x = env.lookup x := by
  induction D generalizing n env with
  | nil => rfl
  | cons d D ih =>
    simp only [List.mem_cons, not_or] at h
    rw [bindNames, ih h.2, List.lookup_cons]
    have : (x == d) = false := by simp [h.1]
    rw [this]

theorem lookup_bindNames_of_mem {D : List Name} {n : Nat} {env : Env} (hn : D.Nodup) {i : Nat} {x : Name} (h : D[i]? = some x) :
    (bindNames D n env).lookup x = some (n + i) := by
  induction D generalizing n env i with
  | nil => simp at h
  | cons d D ih =>
    rw [List.nodup_cons] at hn
    cases i with
    | zero =>
      simp only [List.getElem?_cons_zero, Option.some.injEq] at h
      subst h
      rw [bindNames, lookup_bindNames_of_not_mem hn.1, List.lookup_cons]
      simp
    | succ i =>
      simp only [List.getElem?_cons_succ] at h
      rw [bindNames, ih hn.2 h]
      congr 1
      omega

/-- The cells of names. -/
def Cells (env : Env) (D : List Name) : Loc → Prop := fun l => ∃ d ∈ D, env.lookup d = some l

/-- Names that were declared, each with a cell of its own, whose `let`s were not run. -/
structure Ready (S : Store) (env : Env) (D : List Name) : Prop where
  cells : ∀ d ∈ D, ∃ l, env.lookup d = some l ∧ S[l]? = some .uninit
  inj : ∀ d ∈ D, ∀ d' ∈ D, ∀ l, env.lookup d = some l → env.lookup d' = some l → d = d'

theorem Ready.sub {S : Store} {env : Env} {D E : List Name} (h : Ready S env D) (hs : ∀ d ∈ E, d ∈ D) : Ready S env E :=
  ⟨fun d hd => h.cells d (hs d hd), fun d hd d' hd' => h.inj d (hs d hd) d' (hs d' hd')⟩

theorem Ready.nil (S : Store) (env : Env) : Ready S env [] := ⟨fun _ h => by simp at h, fun _ h => by simp at h⟩

/-- After code that wrote to other cells. -/
theorem Ready.after {S S' : Store} {env : Env} {D E : List Name} {L : Loc → Prop} (h : Ready S env (D ++ E)) (hn : (D ++ E).Nodup)
    (hf : Frame L S S') (hl : ∀ l, S[l]? = some .uninit → L l → Cells env D l) : Ready S' env E where
  cells d hd := by
    obtain ⟨l, h1, h2⟩ := h.cells d (by simp [hd])
    refine ⟨l, h1, ?_⟩
    rw [hf.same l (lt_of_cell h2), h2]
    intro h3
    obtain ⟨d', hd', h4⟩ := hl l h2 h3
    have := h.inj d (by simp [hd]) d' (by simp [hd']) l h1 h4
    subst this
    rw [List.nodup_append] at hn
    exact hn.2.2 d hd' d hd rfl
  inj d hd d' hd' := h.inj d (by simp [hd]) d' (by simp [hd'])

theorem ready_declare {D : List Name} (hn : D.Nodup) (env : Env) (S : Store) :
    Ready (S ++ D.map fun _ => Cell.uninit) (bindNames D S.length env) D where
  cells d hd := by
    obtain ⟨i, hi⟩ := List.mem_iff_getElem?.1 hd
    refine ⟨_, lookup_bindNames_of_mem hn hi, ?_⟩
    rw [List.getElem?_append_right (by omega)]
    simp [hi]
  inj d hd d' hd' l h1 h2 := by
    obtain ⟨i, hi⟩ := List.mem_iff_getElem?.1 hd
    obtain ⟨j, hj⟩ := List.mem_iff_getElem?.1 hd'
    rw [lookup_bindNames_of_mem hn hi] at h1
    rw [lookup_bindNames_of_mem hn hj] at h2
    simp only [Option.some.injEq] at h1 h2
    have : i = j := Nat.add_left_cancel (h1.trans h2.symm)
    subst this
    rw [hi] at hj
    cases hj
    rfl

theorem cells_declare {D : List Name} (hn : D.Nodup) {env : Env} {n : Nat} {l : Loc} (h : Cells (bindNames D n env) D l) : n ≤ l := by
  obtain ⟨d, hd, h⟩ := h
  obtain ⟨i, hi⟩ := List.mem_iff_getElem?.1 hd
  rw [lookup_bindNames_of_mem hn hi] at h
  cases h
  omega

/-- Writing to a cell that has no value. -/
theorem Frame.set {L : Loc → Prop} {S : Store} {l : Loc} {c : Cell} (hl : L l) (h : ∀ v, S[l]? ≠ some (.val v)) :
    Frame L S (S.set l c) where
  length := by simp
  same i hi hn := by
    rw [List.getElem?_set_ne]
    rintro rfl
    exact hn hl
  keep i v hi := by
    rw [List.getElem?_set_ne]
    · exact hi
    · rintro rfl
      exact h v hi

theorem initialise_eq {env : Env} {x : Name} {l : Loc} (h : env.lookup x = some l) (c : Cell) (S : Store) (w : W) :
    initialise env x c (S, w) = (.val (), S.set l c, w) := by
  simp [initialise, h, setCell]

theorem assign_eq {env : Env} {x : Name} {l : Loc} (h : env.lookup x = some l) {S : Store} (hS : S[l]? = some .declared) (v : Value)
    (w : W) : assign env x v (S, w) = (.val (), S.set l (.val v), w) := by
  simp [assign, h, setCell, getCell, hS, M.bind]

theorem assign_param {env : Env} {x : Name} {l : Loc} (h : env.lookup x = some l) {S : Store} {u : Value}
    (hS : S[l]? = some (.param u)) (v : Value) (w : W) : assign env x v (S, w) = (.val (), S.set l (.param v), w) := by
  simp [assign, h, setCell, getCell, hS, M.bind]

theorem read_eq {globals : List Text} {env : Env} {x : Name} {l : Loc} (h : env.lookup x = some l) {S : Store} {v : Value}
    (hS : S[l]? = some (.val v)) (w : W) : read globals env x (S, w) = (.val v, S, w) := by
  simp [read, h, getCell, hS, M.bind, M.pure]

theorem read_param {globals : List Text} {env : Env} {x : Name} {l : Loc} (h : env.lookup x = some l) {S : Store} {v : Value}
    (hS : S[l]? = some (.param v)) (w : W) : read globals env x (S, w) = (.val v, S, w) := by
  simp [read, h, getCell, hS, M.bind, M.pure]

theorem read_global {globals : List Text} {env : Env} {f : Text} (h : env.lookup (.var f 0) = none) (hf : f ∈ globals) :
    (read globals env (.var f 0) : Run W Value) = M.pure (.fn f) := by
  simp [read, h, hf]

end

end Verif.JsGen
