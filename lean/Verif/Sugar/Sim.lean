import Verif.Sugar.Use
import Verif.Sugar.Update

/-! # Typed programs do what written programs do -/

namespace Verif.Sugar

open Verif.ErlText (Text)
open Verif.ErlGen (Loc Pattern Op M Match Out)
open Verif.ErlGen.Gleam (Panic both)

abbrev GValue := ErlGen.Gleam.Value
abbrev GRun (W : Type) := ErlGen.Gleam.Run W GValue

/-! ### Computations -/

theorem pure_bind {W α β : Type} (a : α) (f : α → M W Panic β) : (M.pure a : M W Panic α).bind f = f a := rfl

theorem bind_assoc {W α β γ : Type} (m : M W Panic α) (f : α → M W Panic β) (g : β → M W Panic γ) :
    (m.bind f).bind g = m.bind fun a => (f a).bind g := by
  funext w
  unfold M.bind
  rcases m w with ⟨o, w'⟩
  cases o <;> rfl

theorem bind_pure {W α : Type} (m : M W Panic α) : m.bind M.pure = m := by
  funext w
  unfold M.bind
  rcases m w with ⟨o, w'⟩
  cases o <;> rfl

theorem stuck_bind {W α β : Type} (f : α → M W Panic β) : (M.stuck : M W Panic α).bind f = M.stuck := rfl

theorem ofOption_some {W α : Type} (a : α) : (M.ofOption (some a) : M W Panic α) = M.pure a := rfl

section
variable {W : Type} (ap' : GValue → List GValue → GRun W)

/-- A call in a typed program. -/
def callingTyped (called : ErlGen.Expr) (function : GRun W) (arguments : ErlGen.Gleam.Run W (List GValue)) : GRun W :=
  match called with
  | .ctor tag _ => arguments.bind fun vs => M.pure (.record tag vs)
  | _ => function.bind fun f => arguments.bind fun vs => ap' f vs

theorem gleam_call (env : ErlGen.Gleam.Env) (f : ErlGen.Expr) (es : List ErlGen.Expr) :
    ErlGen.Gleam.expr ap' env (.call f es) =
      callingTyped ap' f (ErlGen.Gleam.expr ap' env f) (ErlGen.Gleam.args ap' env es) := by
  cases f <;> simp only [ErlGen.Gleam.expr, callingTyped]

theorem gleam_args_last (env : ErlGen.Gleam.Env) (es : List ErlGen.Expr) (e : ErlGen.Expr) :
    ErlGen.Gleam.args ap' env (es ++ [e]) =
      (ErlGen.Gleam.args ap' env es).bind fun vs => (ErlGen.Gleam.expr ap' env e).bind fun v => M.pure (vs ++ [v]) := by
  induction es with
  | nil => simp only [List.nil_append, ErlGen.Gleam.args, pure_bind]
  | cons a es ih =>
    simp only [List.cons_append, ErlGen.Gleam.args, ih, bind_assoc, pure_bind]

theorem gleam_args_one (env : ErlGen.Gleam.Env) (e : ErlGen.Expr) :
    ErlGen.Gleam.args ap' env [e] = (ErlGen.Gleam.expr ap' env e).bind fun v => M.pure [v] := by
  simp only [ErlGen.Gleam.args, pure_bind]

end

/-! ### The shapes of typed programs -/

theorem makeCall_not_ctor (es : List Arg) (f : ErlGen.Expr) (es' : List ErlGen.Expr) (t : Text) (a : Nat) :
    makeCall es f es' ≠ .ctor t a := by
  unfold makeCall
  split <;> simp

theorem recordUpdate_shape (loc : Loc) (e : ErlGen.Expr) (tag : Text) (labels given) :
    ∃ a r es, recordUpdate loc e tag labels given = .update a r tag es := by
  unfold recordUpdate
  split <;> exact ⟨_, _, _, rfl⟩

theorem typed_not_ctor {f : Expr} (h : ∀ t a, f ≠ .ctor t a) (t : Text) (a : Nat) : typed f ≠ .ctor t a := by
  cases f <;> simp only [typed, ne_eq, reduceCtorEq, not_false_eq_true]
  · exact fun _ => h _ _ rfl
  · exact makeCall_not_ctor _ _ _ t a
  · intro h
    obtain ⟨_, _, _, hs⟩ := recordUpdate_shape _ _ _ _ _
    rw [hs] at h
    cases h

theorem typed_not_var {f : Expr} (h : ∀ x l, f ≠ .var x l) (x : Text) (l : Loc) : typed f ≠ .var x l := by
  cases f <;> simp only [typed, ne_eq, reduceCtorEq, not_false_eq_true]
  · exact fun _ => h _ _ rfl
  · unfold makeCall; split <;> simp
  · intro h
    obtain ⟨_, _, _, hs⟩ := recordUpdate_shape _ _ _ _ _
    rw [hs] at h
    cases h

theorem typedStmts_cons (s : Stmt) (ss : List Stmt) : ∃ t ts, typedStmts (s :: ss) = t :: ts := by
  cases s with
  | expr e => exact ⟨_, _, rfl⟩
  | let_ p e => exact ⟨_, _, rfl⟩
  | use_ ps e line =>
    cases e <;> simp only [typedStmts] <;> first | exact ⟨_, _, rfl⟩ | skip
    split <;> exact ⟨_, _, rfl⟩

theorem typedGivens_labels (gs : List Given) : (typedGivens gs).map Prod.fst = gs.map Given.label := by
  induction gs with
  | nil => rfl
  | cons g gs ih => cases g; simp [typedGivens, ih, Given.label]

theorem pipe_hidden : userName pipeVariable = false := rfl
theorem capture_hidden : userName captureVariable = false := rfl
theorem record_hidden : userName recordVariable = false := rfl

/-! ### Calls and fields -/

variable {W : Type} {ap : Value → List Value → Run W Value} {ap' : GValue → List GValue → GRun W}

/-- Functions do the same. -/
def SameAp (ap : Value → List Value → Run W Value) (ap' : GValue → List GValue → GRun W) : Prop :=
  ∀ v v' vs vs', Same v v' → SameAll vs vs' → Sim Same (ap v vs) (ap' v' vs')

theorem calling_sim (hap : SameAp ap ap') (f : Expr) {m m' as as'} (hm : Sim Same m m') (has : Sim SameAll as as') :
    Sim Same (calling ap f m as) (callingTyped ap' (typed f) m' as') := by
  by_cases h : ∃ t a, f = .ctor t a
  · obtain ⟨t, a, rfl⟩ := h
    simp only [typed, calling, callingTyped]
    exact has.bind fun vs vs' h => Sim.pure (.record t h)
  · have h' : ∀ t a, f ≠ .ctor t a := fun t a hf => h ⟨t, a, hf⟩
    have e1 : calling ap f m as = m.bind fun f => as.bind fun vs => ap f vs := by
      cases f <;> first | rfl | exact absurd rfl (h' _ _)
    have e2 : callingTyped ap' (typed f) m' as' = m'.bind fun f => as'.bind fun vs => ap' f vs := by
      have h2 := typed_not_ctor h'
      revert h2
      cases typed f <;> intro h2 <;> first | rfl | exact absurd rfl (h2 _ _)
    rw [e1, e2]
    exact hm.bind fun v v' hv => has.bind fun vs vs' hvs => hap v v' vs vs' hv hvs

/-- A function that is not a constructor. -/
theorem callingTyped_fn (ps : List Parameter) (body : List ErlGen.Stmt) (m' : GRun W) (as') :
    callingTyped ap' (.fn ps body) m' as' = m'.bind fun f => as'.bind fun vs => ap' f vs := rfl

theorem inOrder_sim {ms : List (Run W Value)} {es : List ErlGen.Expr} {env' : ErlGen.Gleam.Env}
    (h : List.Forall₂ (fun m e => Sim Same m (ErlGen.Gleam.expr ap' env' e)) ms es) :
    Sim SameAll (inOrder ms) (ErlGen.Gleam.args ap' env' es) := by
  induction h with
  | nil => simp only [inOrder, ErlGen.Gleam.args]; exact Sim.pure .nil
  | cons hm _ ih =>
    simp only [inOrder, ErlGen.Gleam.args]
    exact hm.bind fun v v' hv => ih.bind fun vs vs' hvs => Sim.pure (.cons hv hvs)

theorem forall₂_mapIdx {α β γ : Type} {R : β → γ → Prop} (l : List α) (f : Nat → α → β) (g : Nat → α → γ)
    (h : ∀ i a, R (f i a) (g i a)) : List.Forall₂ R (l.mapIdx f) (l.mapIdx g) := by
  induction l generalizing f g with
  | nil => exact .nil
  | cons a l ih =>
    rw [List.mapIdx_cons, List.mapIdx_cons]
    exact .cons (h 0 a) (ih _ _ fun i a => h (i + 1) a)

/-- The fields of a record update. -/
theorem updated_sim {env2 : ErlGen.Gleam.Env} {x : Text} {l : Loc} {t : Text} {old : List Value} {old' : List GValue}
    (hx : env2.lookup x = some (.record t old')) (hold : SameAll old old') {gs : List (Text × Run W Value)}
    {gs' : List (Text × ErlGen.Expr)}
    (hg : ∀ l, (∀ m, gs.lookup l = some m → ∃ e, gs'.lookup l = some e ∧ Sim Same m (ErlGen.Gleam.expr ap' env2 e)) ∧
      (gs.lookup l = none → gs'.lookup l = none)) (labels : List (Option Text)) :
    Sim SameAll (inOrder (updated old gs labels))
      (ErlGen.Gleam.args ap' env2 (labels.mapIdx (fieldOf gs' (.var x l)))) := by
  apply inOrder_sim
  apply forall₂_mapIdx
  intro i label
  have hold_field : Sim Same (M.ofOption old[i]?) (ErlGen.Gleam.expr ap' env2 (.field (.var x l) i)) := by
    simp only [ErlGen.Gleam.expr, hx, ofOption_some, pure_bind]
    exact Sim.ofOption (hold.get i)
  cases label with
  | none => exact hold_field
  | some lb =>
    simp only [fieldOf, Option.bind_some]
    cases hl : gs.lookup lb with
    | none => rw [(hg lb).2 hl]; exact hold_field
    | some m =>
      obtain ⟨e, he, hs⟩ := (hg lb).1 m hl
      rw [he]
      exact hs

theorem sim_of_bind_pure {α : Type} {R : Value → α → Prop} {m : Run W Value} {m' : M W Panic α} (h : Sim R m m') :
    Sim R (m.bind fun w => M.pure w) m' := by
  rw [show (m.bind fun w => M.pure w) = m from bind_pure m]
  exact h

theorem use_sim {ps : List (Pattern × Loc)} (line : Nat) {rest : List Stmt} {env env'} (he : SameEnv env env')
    (h1 : ps.all (fun p => okPattern p.1) = true) (h2 : (ps.flatMap fun p => p.1.vars.map Prod.fst).Nodup)
    (h3 : stmtsOk rest = true) :
    Sim Same (M.pure (.callback (ps.map Prod.fst) line rest env) : Run W Value)
      (ErlGen.Gleam.expr ap' env' (useCallback ps line (typedStmts rest))) := by
  obtain ⟨g, hg1, hg2⟩ := he.choose
  simp only [useCallback, ErlGen.Gleam.expr]
  exact Sim.pure (.callback g h1 h2 h3 hg1 hg2)

theorem capture_sim {f : Expr} {es : List Arg} (hf : f.ok = true) (hes : argsOk es = true) (hh : holes es ≠ 0)
    {env env'} (he : SameEnv env env') :
    Sim Same (M.pure (.capture f es env) : Run W Value)
      (ErlGen.Gleam.expr ap' env' (makeCall es (typed f) (typedArgs es))) := by
  obtain ⟨g, hg1, hg2⟩ := he.choose
  simp only [makeCall, if_neg hh, ErlGen.Gleam.expr]
  exact Sim.pure (.capture g hf hes hg1 hg2)

/-- A call of a function that is a capture. -/
theorem capture_call_sim (hap : SameAp ap ap') {f : Expr} {es : List Arg} (hf : f.ok = true) (hes : argsOk es = true)
    (hh : holes es ≠ 0) {env env'} (he : SameEnv env env') {v : Value} {e : ErlGen.Expr}
    (hv : Sim Same (M.pure v : Run W Value) (ErlGen.Gleam.expr ap' env' e)) :
    Sim Same (ap (.capture f es env) [v])
      (ErlGen.Gleam.expr ap' env' (.call (makeCall es (typed f) (typedArgs es)) [e])) := by
  rw [gleam_call, gleam_args_one]
  have h1 := capture_sim (ap' := ap') (W := W) hf hes hh he
  have e1 : ∀ m' as', callingTyped ap' (makeCall es (typed f) (typedArgs es)) m' as' =
      m'.bind fun f => as'.bind fun vs => ap' f vs := by
    intro m' as'
    simp only [makeCall, if_neg hh, callingTyped]
  rw [e1]
  have : ap (.capture f es env) [v] =
      (M.pure (.capture f es env) : Run W Value).bind fun c =>
        ((M.pure v : Run W Value).bind fun v => M.pure [v]).bind fun vs => ap c vs := rfl
  rw [this]
  exact h1.bind fun c c' hc => (hv.bind fun v v' hv => Sim.pure (.cons hv .nil)).bind fun vs vs' hvs => hap _ _ _ _ hc hvs

theorem isTrue_bind_sim {v : Value} {v' : GValue} (hv : Same v v') (f : Bool → Bool) :
    Sim (W := W) Same (M.ofOption (v.isTrue.map fun b => Value.bool (f b)))
      (M.ofOption (v'.isTrue.map fun b => ErlGen.Gleam.Value.bool (f b))) := by
  refine Sim.ofOption fun r hr => ?_
  obtain ⟨b, hb, rfl⟩ := Option.map_eq_some_iff.1 hr
  exact ⟨_, by rw [isTrue_same hv hb]; rfl, same_bool _⟩

/-! ### The simulation -/

mutual

theorem expr_sim (hap : SameAp ap ap') : ∀ (e : Expr) {env : Env} {env' : ErlGen.Gleam.Env}, SameEnv env env' → e.ok = true →
    Sim Same (expr ap env e) (ErlGen.Gleam.expr ap' env' (typed e))
  | .int n, _, _, _, _ => by simp only [expr, typed, ErlGen.Gleam.expr]; exact Sim.pure (.int n)
  | .string ps, _, _, _, _ => by
    simp only [expr, typed, ErlGen.Gleam.expr]
    refine Sim.ofOption fun v hv => ?_
    obtain ⟨s, hs, rfl⟩ := Option.map_eq_some_iff.1 hv
    exact ⟨_, by rw [hs]; rfl, .str s⟩
  | .var x l, _, _, he, hok => by
    simp only [expr, typed, ErlGen.Gleam.expr]
    exact Sim.ofOption fun v hv => he x v hok hv
  | .ctor tag 0, _, _, _, _ => by simp only [expr, typed, ErlGen.Gleam.expr]; exact Sim.pure (.record tag .nil)
  | .ctor tag (n + 1), _, _, _, _ => by simp only [expr, typed, ErlGen.Gleam.expr]; exact Sim.pure (.ctor tag _)
  | .fnRef m f n, _, _, _, _ => by simp only [expr, typed, ErlGen.Gleam.expr]; exact Sim.pure (.fn m f n)
  | .block body, _, _, he, hok => by
    simp only [Expr.ok] at hok
    simp only [expr, typed, ErlGen.Gleam.expr]
    exact stmts_sim hap body he hok
  | .not e, _, _, he, hok => by
    simp only [Expr.ok] at hok
    simp only [expr, typed, ErlGen.Gleam.expr]
    exact (expr_sim hap e he hok).bind fun v v' hv => isTrue_bind_sim hv _
  | .neg e, _, _, he, hok => by
    simp only [Expr.ok] at hok
    simp only [expr, typed, ErlGen.Gleam.expr]
    refine (expr_sim hap e he hok).bind fun v v' hv => ?_
    cases hv <;> first | exact Sim.pure (.int _) | exact Sim.stuck
  | .bin op l r, _, _, he, hok => by
    simp only [Expr.ok, Bool.and_eq_true] at hok
    have hl := expr_sim hap l he hok.1
    have hr := expr_sim hap r he hok.2
    cases op
    case and =>
      simp only [expr, typed, ErlGen.Gleam.expr]
      refine hl.bind fun v v' hv => ?_
      cases hb : v.isTrue with
      | none => exact Sim.stuck
      | some b =>
        rw [isTrue_same hv hb]
        cases b with
        | true => exact hr.bind fun w w' hw => isTrue_bind_sim hw id
        | false => exact Sim.pure (same_bool false)
    case or =>
      simp only [expr, typed, ErlGen.Gleam.expr]
      refine hl.bind fun v v' hv => ?_
      cases hb : v.isTrue with
      | none => exact Sim.stuck
      | some b =>
        rw [isTrue_same hv hb]
        cases b with
        | false => exact hr.bind fun w w' hw => isTrue_bind_sim hw id
        | true => exact Sim.pure (same_bool true)
    all_goals
      simp only [expr, typed, ErlGen.Gleam.expr]
      exact hl.bind fun v v' hv => hr.bind fun w w' hw => Sim.ofOption (binary_same _ hv hw)
  | .nil, _, _, _, _ => by simp only [expr, typed, ErlGen.Gleam.expr]; exact Sim.pure .nil
  | .cons h t, _, _, he, hok => by
    simp only [Expr.ok, Bool.and_eq_true] at hok
    simp only [expr, typed, ErlGen.Gleam.expr]
    exact (expr_sim hap h he hok.1).bind fun v v' hv => (expr_sim hap t he hok.2).bind fun w w' hw =>
      Sim.pure (.cons hv hw)
  | .tuple es, _, _, he, hok => by
    simp only [Expr.ok] at hok
    simp only [expr, typed, ErlGen.Gleam.expr]
    exact (exprs_sim hap es he hok).bind fun vs vs' hvs => Sim.pure (.tuple hvs)
  | .index e i, _, _, he, hok => by
    simp only [Expr.ok] at hok
    simp only [expr, typed, ErlGen.Gleam.expr]
    refine (expr_sim hap e he hok).bind fun v v' hv => ?_
    cases hv with
    | tuple hs => exact Sim.ofOption (hs.get i)
    | _ => exact Sim.stuck
  | .field e i, _, _, he, hok => by
    simp only [Expr.ok] at hok
    simp only [expr, typed, ErlGen.Gleam.expr]
    refine (expr_sim hap e he hok).bind fun v v' hv => ?_
    cases hv with
    | record t hs => exact Sim.ofOption (hs.get i)
    | _ => exact Sim.stuck
  | .fn ps body, _, _, he, hok => by
    simp only [Expr.ok, Bool.and_eq_true] at hok
    simp only [expr, typed, ErlGen.Gleam.expr]
    obtain ⟨g, h1, h2⟩ := he.choose
    exact Sim.pure (.closure g hok.1 hok.2 h1 h2)
  | .call f es, _, _, he, hok => by
    simp only [Expr.ok, Bool.and_eq_true] at hok
    simp only [expr, typed]
    by_cases hh : holes es = 0
    · rw [if_pos hh, makeCall, if_pos hh, gleam_call]
      exact calling_sim hap f (expr_sim hap f he hok.1.1) (args_sim hap es none he hok.1.2 (by simp))
    · rw [if_neg hh]
      exact capture_sim hok.1.1 hok.1.2 hh he
  | .pipeline loc e ss, _, _, he, hok => by
    simp only [Expr.ok, Bool.and_eq_true] at hok
    simp only [expr, typed, ErlGen.Gleam.expr]
    refine (expr_sim hap e he hok.1.1).bind fun v v' hv => ?_
    exact steps_sim hap ss loc (he.hidden pipe_hidden v') hok.1.2 hv (by simp)
  | .update loc e tag labels gs, env, env', he, hok => by
    simp only [Expr.ok, Bool.and_eq_true, okLabels, decide_eq_true_eq] at hok
    obtain ⟨⟨hoke, hokg⟩, ⟨hn, hl⟩, -⟩ := hok
    have harg : ∀ r, updateArguments labels (typedGivens gs) r = labels.mapIdx (fieldOf (typedGivens gs) r) := fun r =>
      updateArguments_eq r hl (by rw [typedGivens_labels]; exact hn)
    have hrec := expr_sim hap e he hoke
    by_cases hv : ∃ x l, e = .var x l
    · obtain ⟨x, l, rfl⟩ := hv
      simp only [expr, typed, recordUpdate, ErlGen.Gleam.expr, harg]
      cases hx : env.lookup x with
      | none => exact Sim.stuck
      | some v =>
        obtain ⟨v', hx', hv⟩ := he x v hoke hx
        rw [ofOption_some, pure_bind]
        cases hv with
        | record t hs =>
          exact (updated_sim hx' hs (givens_sim hap gs he hokg) labels).bind fun vs vs' h => Sim.pure (.record tag h)
        | _ => exact Sim.stuck
    · have hnv := typed_not_var fun x l h => hv ⟨x, l, h⟩
      have hshape : typed (.update loc e tag labels gs) = .update (some (recordVariable, loc)) (typed e) tag
          (labels.mapIdx (fieldOf (typedGivens gs) (.var recordVariable loc))) := by
        simp only [typed]
        rw [← harg]
        revert hnv
        cases typed e <;> intro hnv <;> first | rfl | exact absurd rfl (hnv _ _)
      rw [hshape]
      simp only [expr, ErlGen.Gleam.expr]
      refine hrec.bind fun v v' hv => ?_
      cases hv with
      | @record t vs vs' hs =>
        exact (updated_sim (t := t) (old' := vs') (by rw [List.lookup_cons_self]) hs
          (givens_sim hap gs (he.hidden record_hidden (.record t vs')) hokg) labels).bind
          fun vs vs' h => Sim.pure (.record tag h)
      | _ => exact Sim.stuck
  | .fail kind line, _, _, _, _ => by
    simp only [expr, typed, ErlGen.Gleam.expr, failure]
    exact Sim.error _
  | .case_ es cs, _, _, he, hok => by
    simp only [Expr.ok, Bool.and_eq_true] at hok
    simp only [expr, typed, ErlGen.Gleam.expr]
    exact (exprs_sim hap es he hok.1).bind fun vs vs' hvs => clauses_sim hap cs he hok.2 hvs

theorem exprs_sim (hap : SameAp ap ap') : ∀ (es : List Expr) {env : Env} {env' : ErlGen.Gleam.Env}, SameEnv env env' →
    exprsOk es = true → Sim SameAll (exprs ap env es) (ErlGen.Gleam.args ap' env' (typedAll es))
  | [], _, _, _, _ => by simp only [exprs, typedAll, ErlGen.Gleam.args]; exact Sim.pure .nil
  | e :: es, _, _, he, hok => by
    simp only [exprsOk, Bool.and_eq_true] at hok
    simp only [exprs, typedAll, ErlGen.Gleam.args]
    exact (expr_sim hap e he hok.1).bind fun v v' hv => (exprs_sim hap es he hok.2).bind fun vs vs' hvs =>
      Sim.pure (.cons hv hvs)

theorem args_sim (hap : SameAp ap ap') : ∀ (es : List Arg) (hole : Option Value) {env : Env} {env' : ErlGen.Gleam.Env},
    SameEnv env env' → argsOk es = true →
    (∀ v, hole = some v → ∃ v', env'.lookup captureVariable = some v' ∧ Same v v') →
    Sim SameAll (args ap env hole es) (ErlGen.Gleam.args ap' env' (typedArgs es))
  | [], _, _, _, _, _, _ => by simp only [args, typedArgs, ErlGen.Gleam.args]; exact Sim.pure .nil
  | .expr e :: es, hole, _, _, he, hok, hh => by
    simp only [argsOk, Bool.and_eq_true] at hok
    simp only [args, typedArgs, ErlGen.Gleam.args]
    exact (expr_sim hap e he hok.1).bind fun v v' hv => (args_sim hap es hole he hok.2 hh).bind fun vs vs' hvs =>
      Sim.pure (.cons hv hvs)
  | .hole l :: es, hole, _, _, he, hok, hh => by
    simp only [argsOk] at hok
    simp only [args, typedArgs, ErlGen.Gleam.args, ErlGen.Gleam.expr]
    exact (Sim.ofOption hh).bind fun v v' hv => (args_sim hap es hole he hok hh).bind fun vs vs' hvs =>
      Sim.pure (.cons hv hvs)

theorem steps_sim (hap : SameAp ap ap') : ∀ (ss : List Step) (loc : Loc) {env : Env} {env' : ErlGen.Gleam.Env},
    SameEnv env env' → stepsOk ss = true → ∀ {v : Value} {v' : GValue}, Same v v' →
    env'.lookup pipeVariable = some v' →
    Sim Same (steps ap env v ss) (ErlGen.Gleam.expr ap' env' (typedSteps loc ss))
  | [], loc, _, _, _, _, v, v', hv, hp => by
    simp only [steps, typedSteps, left, ErlGen.Gleam.expr, hp]
    exact Sim.pure hv
  | .mk known here e :: ss, loc, env, env', he, hok, v, v', hv, hp => by
    simp only [stepsOk, Bool.and_eq_true] at hok
    have hleft : Sim Same (M.pure v : Run W Value) (ErlGen.Gleam.expr ap' env' (left loc)) := by
      simp only [left, ErlGen.Gleam.expr, hp]
      exact Sim.pure hv
    -- what is done with the value of a step
    have hnext : ∀ {m : Run W Value} {call : ErlGen.Expr}, Sim Same m (ErlGen.Gleam.expr ap' env' call) →
        Sim Same (m.bind fun w => steps ap env w ss)
          (ErlGen.Gleam.expr ap' env' (if ss.isEmpty then call else .pipe pipeVariable here call (typedSteps here ss))) := by
      intro m call hm
      cases ss with
      | nil => simp only [steps]; exact sim_of_bind_pure hm
      | cons s ss =>
        simp only [List.isEmpty_cons, Bool.false_eq_true, if_false, ErlGen.Gleam.expr]
        exact hm.bind fun w w' hw =>
          steps_sim hap (s :: ss) here (he.hidden pipe_hidden w') hok.2 hw (by simp)
    have hplain : ∀ e : Expr, Sim Same (expr ap env e) (ErlGen.Gleam.expr ap' env' (typed e)) →
        Sim Same (calling ap e (expr ap env e) (M.pure [v])) (ErlGen.Gleam.expr ap' env' (.call (typed e) [left loc])) := by
      intro e hs
      rw [gleam_call, gleam_args_one]
      refine calling_sim hap e hs ?_
      exact hleft.bind (f := fun v => M.pure [v]) fun v v' hv => Sim.pure (.cons hv .nil)
    by_cases hc : ∃ f es, e = .call f es
    · obtain ⟨f, es, rfl⟩ := hc
      have hoke := hok.1
      simp only [Expr.ok, Bool.and_eq_true] at hoke
      have hf := expr_sim hap f he hoke.1.1
      have hes := args_sim hap es none he hoke.1.2 (by simp)
      simp only [steps, typedSteps]
      refine hnext ?_
      by_cases hh : holes es = 0
      · rw [if_pos hh, if_pos hh]
        by_cases hk : known = some es.length
        · rw [if_pos hk, if_pos hk, gleam_call]
          have e1 : ∀ m' as', callingTyped ap' (.call (typed f) (typedArgs es)) m' as' =
              m'.bind fun f => as'.bind fun vs => ap' f vs := fun _ _ => rfl
          rw [e1, gleam_call, gleam_args_one]
          refine (calling_sim hap f hf hes).bind fun g g' hg => ?_
          have : ap g [v] = ((M.pure v : Run W Value).bind fun v => M.pure [v]).bind fun vs => ap g vs := rfl
          rw [this]
          exact (hleft.bind fun v v' hv => Sim.pure (.cons hv .nil)).bind fun vs vs' hvs => hap _ _ _ _ hg hvs
        · rw [if_neg hk, if_neg hk, gleam_call]
          refine calling_sim hap f hf ?_
          simp only [ErlGen.Gleam.args]
          have : ((args ap env none es).bind fun vs => M.pure (v :: vs)) =
              (M.pure v : Run W Value).bind fun v => (args ap env none es).bind fun vs => M.pure (v :: vs) := rfl
          rw [this]
          exact hleft.bind fun v v' hv => hes.bind fun vs vs' hvs => Sim.pure (.cons hv hvs)
      · rw [if_neg hh, if_neg hh]
        exact capture_call_sim hap hoke.1.1 hoke.1.2 hh he hleft
    · have hs := expr_sim hap e he hok.1
      have e1 : steps ap env v (.mk known here e :: ss) =
          (calling ap e (expr ap env e) (M.pure [v])).bind fun w => steps ap env w ss := by
        cases e <;> first | (simp only [steps]; done) | exact absurd ⟨_, _, rfl⟩ hc
      have e2 : typedSteps loc (.mk known here e :: ss) =
          if ss.isEmpty then .call (typed e) [left loc] else .pipe pipeVariable here (.call (typed e) [left loc]) (typedSteps here ss) := by
        cases e <;> first | (simp only [typedSteps]; done) | exact absurd ⟨_, _, rfl⟩ hc
      rw [e1, e2]
      exact hnext (hplain e hs)

theorem givens_sim (hap : SameAp ap ap') : ∀ (gs : List Given) {env : Env} {env' : ErlGen.Gleam.Env}, SameEnv env env' →
    givenOk gs = true → ∀ l,
    (∀ m, (givens ap env gs).lookup l = some m →
      ∃ e, (typedGivens gs).lookup l = some e ∧ Sim Same m (ErlGen.Gleam.expr ap' env' e)) ∧
    ((givens ap env gs).lookup l = none → (typedGivens gs).lookup l = none)
  | [], _, _, _, _ => by simp [givens, typedGivens]
  | .mk label e :: gs, _, _, he, hok => by
    simp only [givenOk, Bool.and_eq_true] at hok
    intro l
    simp only [givens, typedGivens, List.lookup_cons]
    cases l == label with
    | true => exact ⟨fun m hm => by cases hm; exact ⟨_, rfl, expr_sim hap e he hok.1⟩, fun h => by cases h⟩
    | false => exact givens_sim hap gs he hok.2 l

theorem clauses_sim (hap : SameAp ap ap') : ∀ (cs : List Clause) {env : Env} {env' : ErlGen.Gleam.Env}, SameEnv env env' →
    clausesOk cs = true → ∀ {vs : List Value} {vs' : List GValue}, SameAll vs vs' →
    Sim Same (clauses ap env vs cs) (ErlGen.Gleam.clauses ap' env' vs' (typedClauses cs))
  | [], _, _, _, _, _, _, _ => by simp only [clauses]; exact Sim.stuck
  | .mk ps body :: cs, env, env', he, hok, vs, vs', hvs => by
    simp only [clausesOk, Bool.and_eq_true] at hok
    simp only [clauses, typedClauses, ErlGen.Gleam.clauses, ErlGen.Gleam.choose]
    by_cases hl : ps.length = vs.length
    · rw [if_pos hl, if_pos (hl.trans hvs.length)]
      rcases (matchAll_same ps hvs).inv with hm | ⟨hm, hm'⟩ | ⟨b, b', hm, hm', hb⟩
      · rw [hm]; exact Sim.stuck
      · rw [hm, hm']; exact clauses_sim hap cs he hok.2 hvs
      · rw [hm, hm']
        simp only [ErlGen.Gleam.holds]
        exact expr_sim hap body (hb.env he) hok.1.2
    · rw [if_neg hl]; exact Sim.stuck

theorem stmts_sim (hap : SameAp ap ap') : ∀ (ss : List Stmt) {env : Env} {env' : ErlGen.Gleam.Env}, SameEnv env env' →
    stmtsOk ss = true → Sim Same (stmts ap env ss) (ErlGen.Gleam.stmts ap' env' (typedStmts ss))
  | [], _, _, _, _ => by simp only [stmts]; exact Sim.stuck
  | .expr e :: ss, _, _, he, hok => by
    simp only [stmtsOk, Bool.and_eq_true] at hok
    have h := expr_sim hap e he hok.1
    cases ss with
    | nil => simpa only [stmts, typedStmts, ErlGen.Gleam.stmts] using h
    | cons s ss =>
      obtain ⟨t, ts, ht⟩ := typedStmts_cons s ss
      have hrest := stmts_sim hap (s :: ss) he hok.2
      rw [ht] at hrest
      have e1 : typedStmts (.expr e :: s :: ss) = .expr (typed e) :: t :: ts := by rw [typedStmts, ht]
      rw [e1]
      simp only [stmts, ErlGen.Gleam.stmts]
      exact h.bind fun _ _ _ => hrest
  | .let_ p e :: ss, env, env', he, hok => by
    simp only [stmtsOk, Bool.and_eq_true] at hok
    have h := expr_sim hap e he hok.1.2
    cases ss with
    | nil =>
      simp only [stmts, typedStmts, ErlGen.Gleam.stmts]
      refine h.bind fun v v' hv => ?_
      rcases (matchOne_same p hv).inv with hm | ⟨hm, hm'⟩ | ⟨b, b', hm, hm', hb⟩
      · rw [hm]; exact Sim.stuck
      · rw [hm]; exact Sim.stuck
      · rw [hm, hm']; exact Sim.pure hv
    | cons s ss =>
      obtain ⟨t, ts, ht⟩ := typedStmts_cons s ss
      have e1 : typedStmts (.let_ p e :: s :: ss) = .let_ p (typed e) :: t :: ts := by rw [typedStmts, ht]
      rw [e1]
      simp only [stmts, ErlGen.Gleam.stmts]
      refine h.bind fun v v' hv => ?_
      rcases (matchOne_same p hv).inv with hm | ⟨hm, hm'⟩ | ⟨b, b', hm, hm', hb⟩
      · rw [hm]; exact Sim.stuck
      · rw [hm]; exact Sim.stuck
      · rw [hm, hm']
        have hrest := stmts_sim hap (s :: ss) (hb.env he) hok.2
        rw [ht] at hrest
        exact hrest
  | .use_ ps e line :: ss, env, env', he, hok => by
    simp only [stmtsOk, Bool.and_eq_true, decide_eq_true_eq] at hok
    obtain ⟨⟨⟨h1, h2⟩, hoke⟩, h3⟩ := hok
    have hcb := use_sim (W := W) (ap' := ap') line he h1 h2 h3
    by_cases hc : ∃ f es, e = .call f es
    · obtain ⟨f, es, rfl⟩ := hc
      simp only [Expr.ok, Bool.and_eq_true] at hoke
      have hf := expr_sim hap f he hoke.1.1
      have hes := args_sim hap es none he hoke.1.2 (by simp)
      simp only [stmts, typedStmts]
      by_cases hh : holes es = 0
      · rw [if_pos hh, if_pos hh]
        simp only [ErlGen.Gleam.stmts]
        rw [gleam_call, gleam_args_last]
        refine calling_sim hap f hf ?_
        have e1 : ((args ap env none es).bind fun vs => M.pure (vs ++ [Value.callback (ps.map Prod.fst) line ss env])) =
            (args ap env none es).bind fun vs =>
              (M.pure (.callback (ps.map Prod.fst) line ss env) : Run W Value).bind fun v => M.pure (vs ++ [v]) := rfl
        rw [e1]
        exact hes.bind fun vs vs' hvs => hcb.bind fun v v' hv => Sim.pure (hvs.append (.cons hv .nil))
      · rw [if_neg hh, if_neg hh]
        simp only [ErlGen.Gleam.stmts]
        exact capture_call_sim hap hoke.1.1 hoke.1.2 hh he hcb
    · have hs := expr_sim hap e he hoke
      have e1 : stmts ap env (.use_ ps e line :: ss) =
          calling ap e (expr ap env e) (M.pure [.callback (ps.map Prod.fst) line ss env]) := by
        cases e <;> first | (simp only [stmts]; done) | exact absurd ⟨_, _, rfl⟩ hc
      have e2 : typedStmts (.use_ ps e line :: ss) =
          [.expr (.call (typed e) [useCallback ps line (typedStmts ss)])] := by
        cases e <;> first | (simp only [typedStmts]; done) | exact absurd ⟨_, _, rfl⟩ hc
      rw [e1, e2]
      simp only [ErlGen.Gleam.stmts]
      rw [gleam_call, gleam_args_one]
      refine calling_sim hap e hs ?_
      exact hcb.bind (f := fun v => M.pure [v]) fun v v' hv => Sim.pure (.cons hv .nil)

end

/-! ### Calls -/

/-- Functions of other modules do the same with the same values. -/
def SameOutside (outside : (Value → List Value → Run W Value) → Text → Text → List Value → Run W Value)
    (outside' : (GValue → List GValue → GRun W) → Text → Text → List GValue → GRun W) : Prop :=
  ∀ ap ap', SameAp ap ap' → ∀ m f vs vs', SameAll vs vs' → Sim Same (outside ap m f vs) (outside' ap' m f vs')

theorem find_typed (funs : List Fun) (f : Text) :
    (funs.map typedFun).find? (fun g => decide (g.name = f)) = (funs.find? fun g => decide (g.name = f)).map typedFun := by
  induction funs with
  | nil => rfl
  | cons g funs ih =>
    simp only [List.map_cons, List.find?_cons]
    rw [show (typedFun g).name = g.name from rfl]
    cases decide (g.name = f) with
    | true => rfl
    | false => exact ih

theorem SameEnv.empty (env' : ErlGen.Gleam.Env) : SameEnv [] env' := fun x v _ h => by simp at h

theorem apply_sim {funs : List Fun} (hfuns : ∀ f ∈ funs, f.ok = true) {outside outside'}
    (ho : SameOutside (W := W) outside outside') :
    ∀ n, SameAp (apply funs outside n) (ErlGen.Gleam.apply (funs.map typedFun) outside' n)
  | 0 => fun v v' vs vs' _ _ => by simp only [apply, ErlGen.Gleam.apply]; exact Sim.timeout
  | n + 1 => fun v v' vs vs' hv hvs => by
    have ih := apply_sim hfuns ho n
    cases hv with
    | closure g hps hbody h1 h2 =>
      simp only [apply, ErlGen.Gleam.apply]
      cases hb : bindParameters _ vs with
      | none => exact Sim.stuck
      | some b =>
        obtain ⟨b', hb', hs⟩ := bindParameters_same _ hvs hb
        rw [hb']
        exact stmts_sim ih _ (hs.env (SameEnv.of h1 h2)) hbody
    | capture g hf hes h1 h2 =>
      cases hvs with
      | nil => simp only [apply]; exact Sim.stuck
      | @cons v v' vs vs' hv hvs =>
        cases hvs with
        | cons _ _ => simp only [apply]; exact Sim.stuck
        | nil =>
          have he := (SameEnv.of h1 h2).hidden capture_hidden v'
          simp only [apply, ErlGen.Gleam.apply, ErlGen.Gleam.bindParameters, ErlGen.Gleam.bindOption, Option.map_some,
            List.append_nil, List.cons_append, List.nil_append, ErlGen.Gleam.stmts]
          rw [gleam_call]
          refine calling_sim ih _ (expr_sim ih _ he hf) (args_sim ih _ _ he hes fun w hw => ?_)
          cases hw
          exact ⟨v', by simp, hv⟩
    | @callback ps line rest env env' g hps hnd hrest h1 h2 =>
      simp only [apply, ErlGen.Gleam.apply]
      cases hm : matchAll (ps.map Prod.fst) vs with
      | bad => exact Sim.stuck
      | no => exact Sim.stuck
      | yes b =>
        obtain ⟨A, B, hB, hrun, hA, hBk, hlook⟩ :=
          use_binds (ErlGen.Gleam.apply (funs.map typedFun) outside' n) ps 0 hvs hm hps hnd
        rw [hB]
        dsimp only
        have hvars : ∀ j v, 0 ≤ j → B.lookup (useVariable j) = some v → (B ++ env').lookup (useVariable j) = some v := by
          intro j v _ h
          rw [List.lookup_append, h, Option.some_or]
        have he : SameEnv (b ++ env) (A ++ (B ++ env')) := by
          intro x v hx hv
          rw [← List.append_assoc]
          rw [List.lookup_append] at hv ⊢
          cases hbx : b.lookup x with
          | some u =>
            rw [hbx, Option.some_or] at hv
            cases hv
            obtain ⟨u', hu', hs⟩ := (hlook x hx).1 _ hbx
            exact ⟨u', by rw [hu', Option.some_or], hs⟩
          | none =>
            rw [hbx, Option.none_or] at hv
            rw [(hlook x hx).2 hbx, Option.none_or]
            exact SameEnv.of h1 h2 x v hx hv
        cases rest with
        | nil =>
          simp only [typedStmts, List.isEmpty_nil, if_true]
          rw [hrun _ hvars]
          simp only [ErlGen.Gleam.stmts, ErlGen.Gleam.expr, failure]
          exact Sim.error _
        | cons s ss =>
          obtain ⟨t, ts, ht⟩ := typedStmts_cons s ss
          rw [ht]
          simp only [List.isEmpty_cons, Bool.false_eq_true, if_false]
          rw [hrun _ hvars, ← ht]
          exact stmts_sim ih _ he hrest
    | ctor tag arity =>
      simp only [apply, ErlGen.Gleam.apply, hvs.length]
      split
      · exact Sim.pure (.record tag hvs)
      · exact Sim.stuck
    | fn m f arity =>
      cases m with
      | some m =>
        simp only [apply, ErlGen.Gleam.apply]
        exact ho _ _ ih m f vs vs' hvs
      | none =>
        simp only [apply, ErlGen.Gleam.apply, find_typed]
        cases hf : funs.find? fun g => decide (g.name = f) with
        | none => exact Sim.stuck
        | some g =>
          simp only [Option.map_some]
          rw [show (typedFun g).parameters = g.parameters from rfl]
          have hok := hfuns g (List.mem_of_find?_eq_some hf)
          simp only [Fun.ok, Bool.and_eq_true] at hok
          cases hb : bindParameters g.parameters vs with
          | none => exact Sim.stuck
          | some b =>
            obtain ⟨b', hb', hs⟩ := bindParameters_same _ hvs hb
            rw [hb']
            have := stmts_sim ih g.body (hs.env (SameEnv.empty [])) hok.2
            rw [List.append_nil, List.append_nil] at this
            exact this
    | _ => simp only [apply]; exact Sim.stuck

end Verif.Sugar
