import Verif.Sugar.Meaning
import Verif.Sugar.Model

/-!
# Which values of typed programs stand for which values of written programs
-/

namespace Verif.Sugar

open Verif.ErlText (Text)
open Verif.ErlGen (Loc Pattern Op M Match Out)
open Verif.ErlGen.Gleam (Panic)

mutual

/-- Data is the same. Functions are typed, and remember at least the variables of the program. -/
inductive Same : Value → ErlGen.Gleam.Value → Prop
  | int (n) : Same (.int n) (.int n)
  | str (s) : Same (.str s) (.str s)
  | tuple {vs vs'} : SameAll vs vs' → Same (.tuple vs) (.tuple vs')
  | nil : Same .nil .nil
  | cons {v v' w w'} : Same v v' → Same w w' → Same (.cons v w) (.cons v' w')
  | record (tag) {vs vs'} : SameAll vs vs' → Same (.record tag vs) (.record tag vs')
  | ctor (tag n) : Same (.ctor tag n) (.ctor tag n)
  | fn (m f n) : Same (.fn m f n) (.fn m f n)
  | closure {ps body env env'} (g : Text → ErlGen.Gleam.Value) :
      okParameters ps = true → stmtsOk body = true →
      (∀ x v, userName x = true → env.lookup x = some v → env'.lookup x = some (g x)) →
      (∀ x v, userName x = true → env.lookup x = some v → Same v (g x)) →
      Same (.closure ps body env) (.closure ps (typedStmts body) env')
  | capture {f es env env'} (g : Text → ErlGen.Gleam.Value) :
      f.ok = true → argsOk es = true →
      (∀ x v, userName x = true → env.lookup x = some v → env'.lookup x = some (g x)) →
      (∀ x v, userName x = true → env.lookup x = some v → Same v (g x)) →
      Same (.capture f es env)
        (.closure [some (captureVariable, holeLoc es)] [.expr (.call (typed f) (typedArgs es))] env')
  | callback {ps line rest env env'} (g : Text → ErlGen.Gleam.Value) :
      ps.all (fun p => okPattern p.1) = true → (ps.flatMap fun p => p.1.vars.map Prod.fst).Nodup →
      stmtsOk rest = true →
      (∀ x v, userName x = true → env.lookup x = some v → env'.lookup x = some (g x)) →
      (∀ x v, userName x = true → env.lookup x = some v → Same v (g x)) →
      Same (.callback (ps.map Prod.fst) line rest env)
        (.closure (useParameters 0 ps)
          (useAssignments 0 ps ++ if (typedStmts rest).isEmpty then [.expr (.fail .todo line none)] else typedStmts rest)
          env')

inductive SameAll : List Value → List ErlGen.Gleam.Value → Prop
  | nil : SameAll [] []
  | cons {v v' vs vs'} : Same v v' → SameAll vs vs' → SameAll (v :: vs) (v' :: vs')

end

/-- The variables of the program have the same values. -/
def SameEnv (env : Env) (env' : ErlGen.Gleam.Env) : Prop :=
  ∀ x v, userName x = true → env.lookup x = some v → ∃ v', env'.lookup x = some v' ∧ Same v v'

theorem SameEnv.choose {env env'} (h : SameEnv env env') : ∃ g : Text → ErlGen.Gleam.Value,
    (∀ x v, userName x = true → env.lookup x = some v → env'.lookup x = some (g x)) ∧
    (∀ x v, userName x = true → env.lookup x = some v → Same v (g x)) := by
  refine ⟨fun x => (env'.lookup x).getD .nil, fun x v hx hv => ?_, fun x v hx hv => ?_⟩
  · obtain ⟨v', h', -⟩ := h x v hx hv
    simp [h']
  · obtain ⟨v', h', hs⟩ := h x v hx hv
    simpa [h'] using hs

theorem SameEnv.of {env env'} {g : Text → ErlGen.Gleam.Value}
    (h : ∀ x v, userName x = true → env.lookup x = some v → env'.lookup x = some (g x))
    (h' : ∀ x v, userName x = true → env.lookup x = some v → Same v (g x)) : SameEnv env env' :=
  fun x v hx hv => ⟨g x, h x v hx hv, h' x v hx hv⟩

/-- Bindings of the same names to the same values. -/
inductive SameBindings : Env → ErlGen.Gleam.Env → Prop
  | nil : SameBindings [] []
  | cons (x) {v v' b b'} : Same v v' → SameBindings b b' → SameBindings ((x, v) :: b) ((x, v') :: b')

theorem SameBindings.append {a a' b b'} (h : SameBindings a a') (k : SameBindings b b') :
    SameBindings (a ++ b) (a' ++ b') := by
  induction h with
  | nil => exact k
  | cons x hv _ ih => exact .cons x hv ih

theorem SameBindings.env {b b' env env'} (h : SameBindings b b') (he : SameEnv env env') :
    SameEnv (b ++ env) (b' ++ env') := by
  induction h with
  | nil => exact he
  | @cons x v v' b b' hv _ ih =>
    intro y w hy hw
    simp only [List.cons_append, List.lookup_cons] at hw ⊢
    cases hyx : y == x with
    | true => simp only [hyx] at hw ⊢; cases hw; exact ⟨v', rfl, hv⟩
    | false => simp only [hyx] at hw ⊢; exact ih y w hy hw

/-- A variable that the compiler made up is not one of the program. -/
theorem SameEnv.hidden {env env'} (h : SameEnv env env') {x : Text} (hx : userName x = false) (v : ErlGen.Gleam.Value) :
    SameEnv env ((x, v) :: env') := by
  intro y w hy hw
  obtain ⟨w', hw', hs⟩ := h y w hy hw
  refine ⟨w', ?_, hs⟩
  have : (y == x) = false := by
    cases hb : y == x with
    | false => rfl
    | true => have := eq_of_beq hb; subst this; rw [hx] at hy; cases hy
  simp [List.lookup_cons, this, hw']

/-! ### Outcomes -/

/-- The same outcome and the same effects. Nothing is said of programs that have no meaning. -/
def SameOut {W α β : Type} (R : α → β → Prop) : Out Panic α × W → Out Panic β × W → Prop
  | (.val a, w), (.val b, w') => R a b ∧ w = w'
  | (.error e, w), (.error e', w') => e = e' ∧ w = w'
  | (.timeout, w), (.timeout, w') => w = w'
  | (.stuck, _), _ => True
  | _, _ => False

/-- The same outcomes whatever the state of the world is. -/
def Sim {W α β : Type} (R : α → β → Prop) (m : M W Panic α) (m' : M W Panic β) : Prop :=
  ∀ w, SameOut R (m w) (m' w)

theorem Sim.pure {W α β : Type} {R : α → β → Prop} {a : α} {b : β} (h : R a b) :
    Sim (W := W) R (M.pure a) (M.pure b) := fun _ => ⟨h, rfl⟩

theorem Sim.stuck {W α β : Type} {R : α → β → Prop} {m : M W Panic β} : Sim R (M.stuck : M W Panic α) m :=
  fun _ => trivial

theorem Sim.bind {W α β γ δ : Type} {R : α → β → Prop} {S : γ → δ → Prop} {m : M W Panic α} {m' : M W Panic β}
    {f : α → M W Panic γ} {f' : β → M W Panic δ} (h : Sim R m m') (hf : ∀ a b, R a b → Sim S (f a) (f' b)) :
    Sim S (m.bind f) (m'.bind f') := by
  intro w
  have := h w
  unfold M.bind
  revert this
  rcases m w with ⟨o, w1⟩
  rcases m' w with ⟨o', w1'⟩
  cases o <;> cases o' <;> simp only [SameOut] <;> intro h <;> try trivial
  obtain ⟨hr, rfl⟩ := h
  exact hf _ _ hr w1

theorem Sim.ofOption {W α β : Type} {R : α → β → Prop} {o : Option α} {o' : Option β}
    (h : ∀ a, o = some a → ∃ b, o' = some b ∧ R a b) : Sim (W := W) R (M.ofOption o) (M.ofOption o') := by
  cases o with
  | none => exact Sim.stuck
  | some a =>
    obtain ⟨b, rfl, hr⟩ := h a rfl
    exact Sim.pure hr

theorem Sim.error {W α β : Type} {R : α → β → Prop} (e : Panic) :
    Sim R (M.error e : M W Panic α) (M.error e : M W Panic β) := fun _ => ⟨rfl, rfl⟩

theorem Sim.timeout {W α β : Type} {R : α → β → Prop} :
    Sim R (M.timeout : M W Panic α) (M.timeout : M W Panic β) := fun _ => rfl

end Verif.Sugar
