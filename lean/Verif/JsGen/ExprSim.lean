import Verif.JsGen.PlaceSim

/-!
# Expressions that are expressions in JavaScript
-/

namespace Verif.JsGen

open Verif.ErlGen (Pattern Const Expr Stmt Clause varsAll M Out Match Op)
open Verif.ErlGen.Gleam (Panic)

section

variable {single : Text → Bool} {g : List (Text × Nat)} {W W' : Type} {RW : W → W' → Prop}
variable {ap : GValue → List GValue → GRun W GValue} {ap' : Value → List Value → Run W' Value}
variable {c : Context} {last : Bool} {pos : Pos} {σ : Scope} {Γ : List Text} {env : GEnv} {env' : Env} {S : Store}

theorem both_int (n : Int) : Both single g RW ap ap' (.int n) :=
  both_plain (fun _ _ => .int n) (fun c m σ => by simp only [gen]) fun c σ Γ env env' S _ _ _ => by
    simp only [ErlGen.Gleam.expr, eval]
    exact Sim.pure (.int n)

/-- Values that are there if they are there in Gleam. -/
theorem Sim.ofOption {α β : Type} {L : Loc → Prop} {R : Store → α → β → Prop} {a : Option α} {b : Option β}
    (h : ∀ x, a = some x → ∃ y, b = some y ∧ R S x y) : Sim RW L S R (M.ofOption a) (M.ofOption b) := by
  cases a with
  | none => exact Sim.stuck
  | some x =>
    obtain ⟨y, rfl, hr⟩ := h x rfl
    exact Sim.pure hr

theorem both_string (ps : List Strings.Spec.Piece) : Both single g RW ap ap' (.string ps) :=
  both_plain (fun _ _ => .str ps) (fun c m σ => by simp only [gen]) fun c σ Γ env env' S _ _ _ => by
    simp only [ErlGen.Gleam.expr, eval]
    refine Sim.ofOption fun v hv => ?_
    rw [literal_eq]
    simp only [Option.map_eq_some_iff] at hv
    obtain ⟨s, h1, rfl⟩ := hv
    exact ⟨.str s, by rw [h1]; rfl, .str s⟩

theorem EnvRel.read (h : EnvRel single g S c σ Γ env env') {x : Text} (hx : x ∈ Γ) :
    ∃ v l v', env.lookup x = some v ∧ env'.lookup (σ.name x) = some l ∧ S[l]? = some (.val v') ∧ VRel single g S v v' := by
  obtain ⟨v, k, l, v', h1, h2, h3, h4, h5⟩ := h.vars x hx
  exact ⟨v, l, v', h1, by rw [Scope.name, h2]; exact h3, h4, h5⟩

theorem both_var (x : Text) (i : Nat) : Both single g RW ap ap' (.var x i) :=
  both_plain (fun _ σ => .var (σ.name x)) (fun c m σ => by simp only [gen]) fun c σ Γ env env' S _ hok hr => by
    simp only [okE, decide_eq_true_eq] at hok
    obtain ⟨v, l, v', h1, h2, h3, h4⟩ := hr.read hok
    simp only [ErlGen.Gleam.expr, eval, h1]
    intro w w' hw
    exact ⟨v', S, w', read_eq h2 h3 w', .refl _ _, h4, hw⟩

theorem digits_inj {a b : Nat} (h : Nat.toDigits 10 a = Nat.toDigits 10 b) : a = b := by
  rw [← Nat.ofDigitChars_ten_toDigits (n := a), h, Nat.ofDigitChars_ten_toDigits]

theorem both_ctor (tag : Text) (a : Nat) : Both single g RW ap ap' (.ctor tag a) := by
  cases a with
  | zero =>
    exact both_plain (fun _ _ => .construct tag []) (fun c m σ => by simp only [gen]) fun c σ Γ env env' S _ _ _ => by
      simp only [ErlGen.Gleam.expr, eval, evalAll, pure_bind]
      exact Sim.pure (.record .nil)
  | succ a =>
    exact both_plain (fun _ _ => constructorFunction tag (a + 1)) (fun c m σ => by simp only [gen]) fun c σ Γ env env' S _ _ _ => by
      simp only [ErlGen.Gleam.expr, eval, constructorFunction]
      refine Sim.pure (.ctor ?_ (by simp))
      refine List.Pairwise.map _ (fun i j hne hij => hne ?_) List.nodup_range
      simp only [Name.var.injEq, fieldText, List.append_cancel_left_eq, and_true] at hij
      exact digits_inj hij

theorem both_fnRef (m : Option Text) (f : Text) (a : Nat) : Both single g RW ap ap' (.fnRef m f a) := by
  cases m with
  | none =>
    exact both_plain (fun _ σ => .var (σ.name f)) (fun c m σ => by simp only [gen]) fun c σ Γ env env' S _ hok hr => by
      simp only [okE, Bool.and_eq_true, decide_eq_true_eq, Bool.not_eq_true', decide_eq_false_iff_not] at hok
      obtain ⟨h1, h2⟩ := hr.globals f hok.1 hok.2
      have : σ.name f = .var f 0 := by simp [Scope.name, h1]
      simp only [ErlGen.Gleam.expr, eval, this]
      rw [read_global h2 hok.1]
      exact Sim.pure (.fn f a)
  | some m =>
    exact both_plain (fun _ σ => .ext m f) (fun c m σ => by simp only [gen]) fun c σ Γ env env' S _ hok hr => by
      simp only [ErlGen.Gleam.expr, eval]
      exact Sim.pure (.ext m f a)

theorem both_const (k : Const) : Both single g RW ap ap' (.const k) :=
  both_plain (fun _ _ => .const k) (fun c m σ => by simp only [gen]) fun c σ Γ env env' S _ _ _ => by
    simp only [ErlGen.Gleam.expr, eval]
    exact Sim.ofOption fun v hv => constant_rel k hv

theorem both_nil : Both single g RW ap ap' .nil :=
  both_plain (fun _ _ => .empty) (fun c m σ => by simp only [gen]) fun c σ Γ env env' S _ _ _ => by
    simp only [ErlGen.Gleam.expr, eval]
    exact Sim.pure .nil

theorem both_cons {h t : Expr} (hh : ExpSim single g RW ap ap' h) (ht : ExpSim single g RW ap ap' t) :
    Both single g RW ap ap' (.cons h t) :=
  both_plain (fun c σ => .prepend (gen c (.exp .strict) ⟨σ, []⟩ h).exp (gen c (.exp .strict) ⟨σ, []⟩ t).exp)
    (fun c m σ => by simp only [gen]) fun c σ Γ env env' S hc hok hr => by
    simp only [okE, Bool.and_eq_true] at hok
    simp only [ErlGen.Gleam.expr, eval]
    refine (hh.strict hc hok.1 hr).bind fun S' v v' hfr hv => ?_
    refine (ht.strict hc hok.2 (hr.keep hfr.keep)).bind fun S'' u u' hfr' hu => ?_
    exact Sim.pure (.cons (hv.keep hfr'.keep) hu)

/-! ### Arguments -/

theorem args_nil : ArgsSim single g RW ap ap' [] := by
  intro c σ Γ env env' S _ _ _
  simp only [ErlGen.Gleam.args, genArgs, evalAll]
  exact Sim.pure .nil

theorem args_cons {e : Expr} {es : List Expr} (he : ExpSim single g RW ap ap' e) (hes : ArgsSim single g RW ap ap' es) :
    ArgsSim single g RW ap ap' (e :: es) := by
  intro c σ Γ env env' S hc hok hr
  simp only [okArgs, Bool.and_eq_true] at hok
  simp only [ErlGen.Gleam.args, genArgs, evalAll]
  refine (he.strict hc hok.1 hr).bind fun S' v v' hfr hv => ?_
  refine (hes c σ Γ env env' S' hc hok.2 (hr.keep hfr.keep)).bind fun S'' vs vs' hfr' hvs => ?_
  exact Sim.pure (.cons (hv.keep hfr'.keep) hvs)

theorem both_tuple {es : List Expr} (h : ArgsSim single g RW ap ap' es) : Both single g RW ap ap' (.tuple es) :=
  both_plain (fun c σ => .array (genArgs c σ es)) (fun c m σ => by simp only [gen]) fun c σ Γ env env' S hc hok hr => by
    simp only [okE] at hok
    simp only [ErlGen.Gleam.expr, eval]
    exact (h c σ Γ env env' S hc hok hr).bind fun S' vs vs' _ hvs => Sim.pure (.tuple hvs)

theorem construct_sim {es : List Expr} {tag : Text} (hes : ArgsSim single g RW ap ap' es)
    (hc : c.single = single) (hok : okArgs single g Γ es = true) (hr : EnvRel single g S c σ Γ env env') :
    Sim RW NoCells S (VRel single g) ((ErlGen.Gleam.args ap env es).bind fun vs => M.pure (.record tag vs))
      (eval (texts g) ap' env' (.construct tag (genArgs c σ es))) := by
  simp only [eval]
  exact (hes c σ Γ env env' S hc hok hr).bind fun S' vs vs' _ hvs => Sim.pure (.record hvs)

theorem both_update_none {record : Expr} {tag : Text} {es : List Expr} (h : ArgsSim single g RW ap ap' es) :
    Both single g RW ap ap' (.update none record tag es) :=
  both_plain (fun c σ => .construct tag (genArgs c σ es)) (fun c m σ => by simp only [gen]) fun c σ Γ env env' S hc hok hr => by
    simp only [okE] at hok
    simp only [ErlGen.Gleam.expr]
    exact construct_sim h hc hok hr

theorem both_call_ctor {tag : Text} {a : Nat} {es : List Expr} (h : ArgsSim single g RW ap ap' es) :
    Both single g RW ap ap' (.call (.ctor tag a) es) :=
  both_plain (fun c σ => .construct tag (genArgs c σ es)) (fun c m σ => by simp only [gen]) fun c σ Γ env env' S hc hok hr => by
    simp only [okE, Bool.and_eq_true] at hok
    simp only [ErlGen.Gleam.expr]
    exact construct_sim h hc hok.1.2 hr

theorem both_fn {ps : List (Option (Text × Nat))} {body : List Stmt} : Both single g RW ap ap' (.fn ps body) :=
  both_plain (fun c σ => .arrow (parameterNames ps) (genStmts { c with self := none } true .tail (σ.parameters ps) body).stms)
    (fun c m σ => by simp only [gen]) fun c σ Γ env env' S hc hok hr => by
    simp only [okE, Bool.and_eq_true] at hok
    simp only [ErlGen.Gleam.expr, eval]
    exact Sim.pure (hr.closure hc hok.1 hok.2)

/-! ### Operators -/

theorem eval_bin {o : BinOp} (h1 : o ≠ .and) (h2 : o ≠ .or) {l r : Exp} : eval (texts g) ap' env' (.bin o l r) =
    (eval (texts g) ap' env' l).bind fun v => (eval (texts g) ap' env' r).bind fun w => M.ofOption (o.run v w) := by
  cases o <;> first | exact absurd rfl h1 | exact absurd rfl h2 | simp only [eval]

theorem expr_bin {op : Op} (h1 : op ≠ .and) (h2 : op ≠ .or) {l r : Expr} : ErlGen.Gleam.expr ap env (.bin op l r) =
    (ErlGen.Gleam.expr ap env l).bind fun v => (ErlGen.Gleam.expr ap env r).bind fun w => M.ofOption (ErlGen.Gleam.binary op v w) := by
  cases op <;> first | exact absurd rfl h1 | exact absurd rfl h2 | simp only [ErlGen.Gleam.expr]

theorem bin_sim {op : Op} {o : BinOp} (h1 : op ≠ .and) (h2 : op ≠ .or) (h3 : o ≠ .and) (h4 : o ≠ .or) {l r : Expr}
    (hl : ExpSim single g RW ap ap' l) (hr : ExpSim single g RW ap ap' r) (hc : c.single = single) (hokl : okE single g Γ l = true)
    (hokr : okE single g Γ r = true) (he : EnvRel single g S c σ Γ env env')
    (h : ∀ S v w v' w' x, VRel single g S v v' → VRel single g S w w' → ErlGen.Gleam.binary op v w = some x →
      ∃ x', o.run v' w' = some x' ∧ VRel single g S x x') :
    Sim RW NoCells S (VRel single g) (ErlGen.Gleam.expr ap env (.bin op l r))
      (eval (texts g) ap' env' (.bin o (gen c (.exp .strict) ⟨σ, []⟩ l).exp (gen c (.exp .strict) ⟨σ, []⟩ r).exp)) := by
  rw [expr_bin h1 h2, eval_bin h3 h4]
  refine (hl.strict hc hokl he).bind fun S' v v' hfr hv => ?_
  refine (hr.strict hc hokr (he.keep hfr.keep)).bind fun S'' u u' hfr' hu => ?_
  exact Sim.ofOption fun x hx => h S'' v u v' u' x (hv.keep hfr'.keep) hu hx

/-- With a literal on the right. -/
theorem bin_literal {op : Op} {o : BinOp} (h1 : op ≠ .and) (h2 : op ≠ .or) (h3 : o ≠ .and) (h4 : o ≠ .or) {l : Expr} {n : Int}
    (hl : ExpSim single g RW ap ap' l) (hc : c.single = single) (hokl : okE single g Γ l = true)
    (he : EnvRel single g S c σ Γ env env')
    (h : ∀ S v v' x, VRel single g S v v' → ErlGen.Gleam.binary op v (.int n) = some x →
      ∃ x', o.run v' (.int n) = some x' ∧ VRel single g S x x') :
    Sim RW NoCells S (VRel single g) (ErlGen.Gleam.expr ap env (.bin op l (.int n)))
      (eval (texts g) ap' env' (.bin o (gen c (.exp .strict) ⟨σ, []⟩ l).exp (gen c (.exp .strict) ⟨σ, []⟩ (.int n)).exp)) := by
  rw [expr_bin h1 h2, eval_bin h3 h4]
  refine (hl.strict hc hokl he).bind fun S' v v' hfr hv => ?_
  simp only [ErlGen.Gleam.expr, gen, plain, eval, pure_bind]
  exact Sim.ofOption fun x hx => h S' v v' x hv hx

theorem isInt_or (e : Expr) : (∃ n, e = .int n) ∨ ∀ n, e ≠ .int n := by
  cases e <;> first | exact .inl ⟨_, rfl⟩ | (right; intro n h; cases h)

theorem operator_div_other {left right : Expr} {l r : Exp} (h : ∀ n, right ≠ .int n) :
    operator .div left right l r = .bin .divideInt l r := by
  unfold operator
  cases right <;> first | exact absurd rfl (h _) | (cases left <;> rfl)

theorem operator_div_zero {left : Expr} {l r : Exp} (h : ∀ n, left ≠ .int n) :
    operator .div left (.int 0) l r = .bin .divideInt l r := by
  unfold operator
  cases left <;> first | exact absurd rfl (h _) | simp

theorem operator_div_zero' {m : Int} {l r : Exp} : operator .div (.int m) (.int 0) l r = .int 0 := by simp [operator]

theorem operator_div_int {left : Expr} {n : Int} {l r : Exp} (h : n ≠ 0) : operator .div left (.int n) l r = .bin .truncDiv l r := by
  unfold operator
  cases left <;> simp [h]

theorem operator_rem_other {left right : Expr} {l r : Exp} (h : ∀ n, right ≠ .int n) :
    operator .rem left right l r = .bin .remainderInt l r := by
  unfold operator
  cases right <;> first | exact absurd rfl (h _) | (cases left <;> rfl)

theorem operator_rem_zero {left : Expr} {l r : Exp} (h : ∀ n, left ≠ .int n) :
    operator .rem left (.int 0) l r = .bin .remainderInt l r := by
  unfold operator
  cases left <;> first | exact absurd rfl (h _) | simp

theorem operator_rem_zero' {m : Int} {l r : Exp} : operator .rem (.int m) (.int 0) l r = .int 0 := by simp [operator]

theorem operator_rem_int {left : Expr} {n : Int} {l r : Exp} (h : n ≠ 0) : operator .rem left (.int n) l r = .bin .percent l r := by
  unfold operator
  cases left <;> simp [h]

theorem trunc_rel {n : Int} (hn : n ≠ 0) {v x : GValue} {v' : Value} (hv : VRel single g S v v')
    (h : ErlGen.Gleam.binary .div v (.int n) = some x) : ∃ x', BinOp.run .truncDiv v' (.int n) = some x' ∧ VRel single g S x x' := by
  cases hv <;> simp only [ErlGen.Gleam.binary, Option.some.injEq, reduceCtorEq] at h
  subst h
  simp only [BinOp.run, if_neg hn]
  exact ⟨_, rfl, .int _⟩

theorem percent_rel {n : Int} (hn : n ≠ 0) {v x : GValue} {v' : Value} (hv : VRel single g S v v')
    (h : ErlGen.Gleam.binary .rem v (.int n) = some x) : ∃ x', BinOp.run .percent v' (.int n) = some x' ∧ VRel single g S x x' := by
  cases hv <;> simp only [ErlGen.Gleam.binary, Option.some.injEq, reduceCtorEq] at h
  subst h
  simp only [BinOp.run, if_neg hn]
  exact ⟨_, rfl, .int _⟩

theorem isTrue_sim {m : GRun W GValue} {m' : Run W' Value} (h : Sim RW NoCells S (VRel single g) m m') :
    Sim RW NoCells S (VRel single g) (m.bind fun w => M.ofOption (w.isTrue.map ErlGen.Gleam.Value.bool)) m' := by
  have := h.bind (f := fun w => M.ofOption (w.isTrue.map ErlGen.Gleam.Value.bool)) (f' := M.pure) (Q := VRel single g)
    fun S' v v' _ hv => by
      cases hb : v.isTrue with
      | none => exact Sim.stuck
      | some b =>
        obtain ⟨_, rfl⟩ := hv.isTrue hb
        exact Sim.pure (.bool b)
  rwa [bind_pure] at this

theorem and_sim {l r : Expr} (hl : ExpSim single g RW ap ap' l) (hr : ExpSim single g RW ap ap' r) (hc : c.single = single)
    (hokl : okE single g Γ l = true) (hokr : okE single g Γ r = true) (he : EnvRel single g S c σ Γ env env') :
    Sim RW NoCells S (VRel single g) (ErlGen.Gleam.expr ap env (.bin .and l r))
      (eval (texts g) ap' env' (.bin .and (gen c (.exp .strict) ⟨σ, []⟩ l).exp (gen c (.exp .strict) ⟨σ, []⟩ r).exp)) := by
  simp only [ErlGen.Gleam.expr, eval]
  refine (hl.strict hc hokl he).bind fun S' v v' hfr hv => ?_
  cases hb : v.isTrue with
  | none => exact Sim.stuck
  | some b =>
    obtain ⟨rfl, rfl⟩ := hv.isTrue hb
    cases b with
    | false => exact Sim.pure (.bool false)
    | true => exact isTrue_sim (hr.strict hc hokr (he.keep hfr.keep))

theorem or_sim {l r : Expr} (hl : ExpSim single g RW ap ap' l) (hr : ExpSim single g RW ap ap' r) (hc : c.single = single)
    (hokl : okE single g Γ l = true) (hokr : okE single g Γ r = true) (he : EnvRel single g S c σ Γ env env') :
    Sim RW NoCells S (VRel single g) (ErlGen.Gleam.expr ap env (.bin .or l r))
      (eval (texts g) ap' env' (.bin .or (gen c (.exp .strict) ⟨σ, []⟩ l).exp (gen c (.exp .strict) ⟨σ, []⟩ r).exp)) := by
  simp only [ErlGen.Gleam.expr, eval]
  refine (hl.strict hc hokl he).bind fun S' v v' hfr hv => ?_
  cases hb : v.isTrue with
  | none => exact Sim.stuck
  | some b =>
    obtain ⟨rfl, rfl⟩ := hv.isTrue hb
    cases b with
    | true => exact Sim.pure (.bool true)
    | false => exact isTrue_sim (hr.strict hc hokr (he.keep hfr.keep))

theorem both_bin {op : Op} {l r : Expr} (hl : ExpSim single g RW ap ap' l) (hr : ExpSim single g RW ap ap' r) :
    Both single g RW ap ap' (.bin op l r) := by
  refine both_plain (fun c σ => operator op l r (gen c (.exp .strict) ⟨σ, []⟩ l).exp (gen c (.exp .strict) ⟨σ, []⟩ r).exp)
    (fun c m σ => by simp only [gen]) fun c σ Γ env env' S hc hok he => ?_
  simp only [okE, Bool.and_eq_true] at hok
  have hrel : ∀ S v w v' w' x, VRel single g S v v' → VRel single g S w w' → ErlGen.Gleam.binary op v w = some x →
      ∃ x', (jsOp op).run v' w' = some x' ∧ VRel single g S x x' := fun S v w v' w' x h1 h2 h3 => binary_rel h1 h2 h3
  cases op with
  | and => exact and_sim hl hr hc hok.1 hok.2 he
  | or => exact or_sim hl hr hc hok.1 hok.2 he
  | div =>
    rcases isInt_or r with ⟨n, rfl⟩ | h
    · by_cases hn : n = 0
      · subst hn
        rcases isInt_or l with ⟨m, rfl⟩ | h
        · rw [operator_div_zero']
          simp only [ErlGen.Gleam.expr, eval, pure_bind, ErlGen.Gleam.binary, if_true]
          exact Sim.pure (.int 0)
        · rw [operator_div_zero h]
          exact bin_sim (by decide) (by decide) (by decide) (by decide) hl hr hc hok.1 hok.2 he hrel
      · rw [operator_div_int hn]
        exact bin_literal (by decide) (by decide) (by decide) (by decide) hl hc hok.1 he fun S v v' x hv hx => trunc_rel hn hv hx
    · rw [operator_div_other h]
      exact bin_sim (by decide) (by decide) (by decide) (by decide) hl hr hc hok.1 hok.2 he hrel
  | rem =>
    rcases isInt_or r with ⟨n, rfl⟩ | h
    · by_cases hn : n = 0
      · subst hn
        rcases isInt_or l with ⟨m, rfl⟩ | h
        · rw [operator_rem_zero']
          simp only [ErlGen.Gleam.expr, eval, pure_bind, ErlGen.Gleam.binary, if_true]
          exact Sim.pure (.int 0)
        · rw [operator_rem_zero h]
          exact bin_sim (by decide) (by decide) (by decide) (by decide) hl hr hc hok.1 hok.2 he hrel
      · rw [operator_rem_int hn]
        exact bin_literal (by decide) (by decide) (by decide) (by decide) hl hc hok.1 he fun S v v' x hv hx => percent_rel hn hv hx
    · rw [operator_rem_other h]
      exact bin_sim (by decide) (by decide) (by decide) (by decide) hl hr hc hok.1 hok.2 he hrel
  | _ => exact bin_sim (by decide) (by decide) (by decide) (by decide) hl hr hc hok.1 hok.2 he hrel

/-! ### Expressions around one expression -/

theorem both_not {e : Expr} (he : ExpSim single g RW ap ap' e) : Both single g RW ap ap' (.not e) := by
  refine both_inner .not (fun v => M.ofOption (v.isTrue.map fun b => ErlGen.Gleam.Value.bool !b))
    (fun v => match v with
      | .bool b => M.pure (.bool !b)
      | _ => M.stuck) he (fun Γ h => by simpa [okE] using h)
    (fun c m σ => by simp only [gen]) (fun env => by
      simp only [ErlGen.Gleam.expr]
      first
        | done
        | congr 1)
    (fun env' x => by
      simp only [eval]
      congr 1) fun S v v' hv => ?_
  cases hb : v.isTrue with
  | none => exact Sim.stuck
  | some b =>
    obtain ⟨rfl, rfl⟩ := hv.isTrue hb
    exact Sim.pure (.bool _)

theorem both_neg {e : Expr} (he : ExpSim single g RW ap ap' e) : Both single g RW ap ap' (.neg e) := by
  refine both_inner .neg (fun v => match v with
      | .int n => M.pure (.int (-n))
      | _ => M.stuck)
    (fun v => match v with
      | .int n => M.pure (.int (-n))
      | _ => M.stuck) he (fun Γ h => by simpa [okE] using h)
    (fun c m σ => by simp only [gen]) (fun env => by
      simp only [ErlGen.Gleam.expr]
      first
        | done
        | congr 1)
    (fun env' x => by
      simp only [eval]
      congr 1) fun S v v' hv => ?_
  cases hv <;> first | exact Sim.stuck | exact Sim.pure (.int _)

theorem both_index {e : Expr} {i : Nat} (he : ExpSim single g RW ap ap' e) : Both single g RW ap ap' (.index e i) := by
  refine both_inner (.index · i) (fun v => match v with
      | .tuple vs => M.ofOption vs[i]?
      | _ => M.stuck)
    (fun v => match v with
      | .array vs => M.ofOption vs[i]?
      | _ => M.stuck) he (fun Γ h => by simpa [okE] using h)
    (fun c m σ => by simp only [gen]) (fun env => by
      simp only [ErlGen.Gleam.expr]
      first
        | done
        | congr 1)
    (fun env' x => by
      simp only [eval]
      congr 1) fun S v v' hv => ?_
  cases hv with
  | tuple hvs => exact Sim.ofOption fun x hx => hvs.get i x hx
  | _ => exact Sim.stuck

theorem both_field {e : Expr} {i : Nat} (he : ExpSim single g RW ap ap' e) : Both single g RW ap ap' (.field e i) := by
  refine both_inner (.field · i) (fun v => match v with
      | .record _ vs => M.ofOption vs[i]?
      | _ => M.stuck)
    (fun v => match v with
      | .record _ vs => M.ofOption vs[i]?
      | _ => M.stuck) he (fun Γ h => by simpa [okE] using h)
    (fun c m σ => by simp only [gen]) (fun env => by
      simp only [ErlGen.Gleam.expr]
      first
        | done
        | congr 1)
    (fun env' x => by
      simp only [eval]
      congr 1) fun S v v' hv => ?_
  cases hv with
  | record hvs =>
    cases hvs with
    | nil => exact Sim.stuck
    | cons h1 h2 => exact Sim.ofOption fun x hx => (VsRel.cons h1 h2).get i x hx
  | _ => exact Sim.stuck

/-! ### Calls -/

theorem expr_call {f : Expr} {es : List Expr} (h : ∀ tag a, f ≠ .ctor tag a) : ErlGen.Gleam.expr ap env (.call f es) =
    (ErlGen.Gleam.expr ap env f).bind fun v => (ErlGen.Gleam.args ap env es).bind fun vs => ap v vs := by
  rw [ErlGen.Gleam.expr.eq_def]
  cases f <;> first | exact absurd rfl (h _ _) | rfl

theorem call_sim {f : Expr} {es : List Expr} {o : Ord} (hap : ApRel single g RW ap ap') (hf : ExpSim single g RW ap ap' f)
    (hes : ArgsSim single g RW ap ap' es) (hne : ∀ tag a, f ≠ .ctor tag a) (hc : c.single = single)
    (hok : okE single g Γ (.call f es) = true) (hr : EnvRel single g S c σ Γ env env')
    (hd : Ready S env' (declared (gen c (.exp o) ⟨σ, []⟩ f).state.level)) :
    Sim RW (Cells env' (declared (gen c (.exp o) ⟨σ, []⟩ f).state.level)) S (VOk single g) (ErlGen.Gleam.expr ap env (.call f es))
      (valueOf (texts g) ap' env' (gen c (.exp o) ⟨σ, []⟩ f).state.level
        (.call (gen c (.exp o) ⟨σ, []⟩ f).exp (genArgs c σ es))) := by
  simp only [okE, Bool.and_eq_true] at hok
  rw [expr_call hne]
  refine inner_sim (hf o c σ Γ env env' S hc hok.1.1.1 (fun _ => hok.1.1.2) hr hd)
    (k' := fun v => (evalAll (texts g) ap' env' (genArgs c σ es)).bind fun vs => ap' v vs) (by simp only [eval]) fun S' v v' hfr hv => ?_
  refine (hes c σ Γ env env' S' hc hok.1.2 (hr.keep hfr.keep)).bind fun S'' vs vs' hfr' hvs => ?_
  exact hap S'' v v' vs vs' (hv.keep hfr'.keep) hvs

/-- The cells of some variables of a loop. -/
def LoopLocs (env' : Env) (ps : List (Option (Text × Nat))) : Loc → Prop := fun l =>
  ∃ x ∈ parameterTexts ps, env'.lookup (.loop x) = some l

theorem loop_sim {es : List Expr} (hes : ∀ e ∈ es, ExpSim single g RW ap ap' e) :
    ∀ (ps : List (Option (Text × Nat))) (S : Store), es.length = ps.length → c.single = single → okArgs single g Γ es = true →
    EnvRel single g S c σ Γ env env' → (parameterTexts ps).Nodup →
    (∀ x ∈ parameterTexts ps, ∃ l v, env'.lookup (.loop x) = some l ∧ S[l]? = some (.param v)) →
    (∀ x ∈ parameterTexts ps, ∀ y ∈ parameterTexts ps, ∀ l, env'.lookup (.loop x) = some l → env'.lookup (.loop y) = some l → x = y) →
    Sim RW (LoopLocs env' ps) S (fun S1 vs c' => c' = .normal ∧ ∃ vs', VsRel single g S1 vs vs' ∧ LoopCells env' S1 ps vs')
      (ErlGen.Gleam.args ap env es) (exec (texts g) ap' env' (loopAssignments (genArgs c σ es) ps)) := by
  induction es with
  | nil =>
    intro ps S hlen hc hok hr hn hcells hinj
    cases ps with
    | cons p ps => simp at hlen
    | nil =>
      simp only [ErlGen.Gleam.args, genArgs, loopAssignments]
      rw [exec_nil]
      exact Sim.pure ⟨rfl, [], .nil, .nil⟩
  | cons e es ih =>
    intro ps S hlen hc hok hr hn hcells hinj
    cases ps with
    | nil => simp at hlen
    | cons p ps =>
      simp only [List.length_cons, Nat.add_right_cancel_iff] at hlen
      simp only [okArgs, Bool.and_eq_true] at hok
      have he := (hes e (by simp)).strict hc hok.1 hr
      have ih := ih (fun e he => hes e (by simp [he])) ps
      cases p with
      | none =>
        have hpt : parameterTexts (none :: ps) = parameterTexts ps := rfl
        rw [hpt] at hn hcells hinj
        simp only [ErlGen.Gleam.args, genArgs, loopAssignments]
        rw [exec_cons, step, bind_assoc]
        refine he.bindL (fun _ h => h.elim) fun S' v v' hfr hv => ?_
        rw [pure_bind]
        simp only [Completion.elim]
        have h1 := ih S' hlen hc hok.2 (hr.keep hfr.keep) hn (fun x hx => by
          obtain ⟨l, u, h2, h3⟩ := hcells x hx
          exact ⟨l, u, h2, by rw [hfr.same l (lt_of_cell h3) fun h => h, h3]⟩) hinj
        have h2 := (h1.mono (R' := fun S1 vs c' => Frame (LoopLocs env' ps) S' S1 ∧ c' = .normal ∧ ∃ vs', VsRel single g S1 vs vs' ∧
          LoopCells env' S1 ps vs') (fun _ _ h => h) fun S1 vs c' hf h => ⟨hf, h⟩).bind (f := fun vs => M.pure (v :: vs)) (f' := M.pure)
          (Q := fun S1 vs c' => c' = .normal ∧ ∃ vs', VsRel single g S1 vs vs' ∧ LoopCells env' S1 (none :: ps) vs')
          fun S1 vs c' _ h => by
            obtain ⟨hf, rfl, vs', h3, h4⟩ := h
            exact Sim.pure ⟨rfl, v' :: vs', .cons (hv.keep hf.keep) h3, .none h4⟩
        rw [bind_pure] at h2
        exact h2
      | some p =>
        obtain ⟨x, i⟩ := p
        have hpt : parameterTexts (some (x, i) :: ps) = x :: parameterTexts ps := rfl
        rw [hpt] at hn hcells hinj
        rw [List.nodup_cons] at hn
        simp only [ErlGen.Gleam.args, genArgs, loopAssignments]
        rw [exec_cons, step, bind_assoc]
        refine he.bindL (fun _ h => h.elim) fun S' v v' hfr hv => ?_
        obtain ⟨l, u, hl, hu⟩ := hcells x (by simp)
        have hu' : S'[l]? = some (.param u) := by rw [hfr.same l (lt_of_cell hu) fun h => h, hu]
        have hset : (S'.set l (.param v'))[l]? = some (.param v') := by rw [List.getElem?_set_self (lt_of_cell hu')]
        have hfr2 : Frame (LoopLocs env' (some (x, i) :: ps)) S' (S'.set l (.param v')) :=
          Frame.set ⟨x, by rw [hpt]; simp, hl⟩ (fun w hw => by rw [hu'] at hw; cases hw)
        have hkeep := hfr.keep.trans hfr2.keep
        have hnot : ¬LoopLocs env' ps l := by
          rintro ⟨y, hy, hyl⟩
          have := hinj x (by simp) y (by simp [hy]) l hl hyl
          subst this
          exact hn.1 hy
        have h1 := ih (S'.set l (.param v')) hlen hc hok.2 (hr.keep hkeep) hn.2 (fun y hy => by
          obtain ⟨l2, u2, h2, h3⟩ := hcells y (by simp [hy])
          refine ⟨l2, u2, h2, ?_⟩
          rw [List.getElem?_set_ne, hfr.same l2 (lt_of_cell h3) fun h => h, h3]
          rintro rfl
          exact hnot ⟨y, hy, h2⟩) fun y hy z hz => hinj y (by simp [hy]) z (by simp [hz])
        refine Sim.step (S' := S'.set l (.param v')) (k := exec (texts g) ap' env' (loopAssignments (genArgs c σ es) ps))
          (L' := LoopLocs env' ps) (fun w' => ?_) hfr2 (fun l' _ hl' => ?_) ?_
        · simp only [M.bind]
          rw [assign_param hl hu']
          rfl
        · obtain ⟨y, hy, hyl⟩ := hl'
          exact ⟨y, by rw [hpt]; simp [hy], hyl⟩
        · have h2 := (h1.mono (R' := fun S1 vs c' => Frame (LoopLocs env' ps) (S'.set l (.param v')) S1 ∧ c' = .normal ∧
            ∃ vs', VsRel single g S1 vs vs' ∧ LoopCells env' S1 ps vs') (fun _ _ h => h) fun S1 vs c' hf h => ⟨hf, h⟩).bind
            (f := fun vs => M.pure (v :: vs)) (f' := M.pure)
            (Q := fun S1 vs c' => c' = .normal ∧ ∃ vs', VsRel single g S1 vs vs' ∧ LoopCells env' S1 (some (x, i) :: ps) vs')
            fun S1 vs c' _ h => by
              obtain ⟨hf, rfl, vs', h3, h4⟩ := h
              refine Sim.pure ⟨rfl, v' :: vs', .cons (hv.keep (hfr2.keep.trans hf.keep)) h3, .some hl ?_ h4⟩
              rw [hf.same l (lt_of_cell hset) hnot, hset]
          rw [bind_pure] at h2
          exact h2

theorem texts_unique {f : Text} {a b : Nat} (hn : (texts g).Nodup) (ha : (f, a) ∈ g) (hb : (f, b) ∈ g) : a = b := by
  induction g with
  | nil => simp at ha
  | cons p g ih =>
    simp only [texts, List.map_cons, List.nodup_cons, List.mem_map, not_exists, not_and] at hn
    rcases List.mem_cons.1 ha with h1 | h1 <;> rcases List.mem_cons.1 hb with h2 | h2
    · rw [← h1] at h2
      cases h2
      rfl
    · exact absurd (by rw [← h1]) (hn.1 _ h2)
    · exact absurd (by rw [← h2]) (hn.1 _ h1)
    · exact ih hn.2 h1 h2

theorem self_sim {f : Expr} {es : List Expr} {ps : List (Option (Text × Nat))} (hn : (texts g).Nodup)
    (hes : ∀ e ∈ es, ExpSim single g RW ap ap' e) (hs : selfCall c σ last f = some ps) (hc : c.single = single)
    (hok : okE single g Γ (.call f es) = true) (hr : EnvRel single g S c σ Γ env env') :
    ResSim single g RW ap ap' c last pos σ env' S (ErlGen.Gleam.expr ap env (.call f es)) (loopAssignments (genArgs c σ es) ps) true := by
  intro _ _ hl
  simp only [okE, Bool.and_eq_true] at hok
  obtain ⟨⟨⟨hf, _⟩, hargs⟩, hcall⟩ := hok
  unfold selfCall at hs
  cases hself : c.self with
  | none => simp [hself] at hs
  | some fp =>
    obtain ⟨f0, ps0⟩ := fp
    rw [hself] at hs
    simp only at hs
    cases f with
    | var y i =>
      exfalso
      simp only [okE, decide_eq_true_eq] at hf
      simp only at hs
      split at hs
      · next h =>
        simp only [Bool.and_eq_true, decide_eq_true_eq] at h
        obtain ⟨⟨_, rfl⟩, h2⟩ := h
        exact (hr.self y ps0 hself).1 hf h2
      · cases hs
    | fnRef m y a =>
      cases m with
      | some m => simp at hs
      | none =>
        simp only at hs
        split at hs
        · next h =>
          simp only [Bool.and_eq_true, decide_eq_true_eq] at h
          obtain ⟨⟨hlast, rfl⟩, h2⟩ := h
          cases hs
          subst hlast
          simp only [okCall, decide_eq_true_eq] at hcall
          have hlen : es.length = ps.length := texts_unique hn hcall (hr.self y ps hself).2
          obtain ⟨h3, h4, h5⟩ := hl rfl rfl y ps hself
          have hsim := loop_sim hes ps S hlen hc hargs hr h3 h4 h5
          rw [expr_call fun _ _ h => by cases h]
          simp only [ErlGen.Gleam.expr, pure_bind]
          intro w w' hw
          have h6 := hsim w w' hw
          simp only [M.bind]
          revert h6
          cases ErlGen.Gleam.args ap env es w with
          | mk o w1 =>
            cases o with
            | val vs =>
              rintro ⟨c', S', w1', e, hfr, ⟨rfl, vs', h7, h8⟩, hw1⟩
              right
              refine ⟨w1, S', w1', e, hfr.mono fun l _ hl => ?_, hw1, rfl, rfl, y, ps, a, vs, vs', hself, rfl, h7, h8⟩
              obtain ⟨x, _, hx⟩ := hl
              exact .inr (.inr ⟨rfl, by rw [hself]; rfl, x, hx⟩)
            | error p =>
              rintro ⟨e, S', w1', e1, h7⟩
              exact .inl ⟨e, S', w1', e1, h7⟩
            | timeout =>
              rintro ⟨S', w1', e1, h7⟩
              exact .inl ⟨S', w1', e1, h7⟩
            | stuck =>
              intro _
              exact .inl trivial
        · cases hs
    | _ => simp at hs

theorem both_call {f : Expr} {es : List Expr} (hap : ApRel single g RW ap ap') (hn : (texts g).Nodup)
    (hf : ExpSim single g RW ap ap' f) (hargs : ∀ e ∈ es, ExpSim single g RW ap ap' e) (hes : ArgsSim single g RW ap ap' es) :
    Both single g RW ap ap' (.call f es) := by
  by_cases hctor : ∃ tag a, f = .ctor tag a
  · obtain ⟨tag, a, rfl⟩ := hctor
    exact both_call_ctor hes
  · have hne : ∀ tag a, f ≠ .ctor tag a := fun tag a h => hctor ⟨tag, a, h⟩
    constructor
    · intro o c σ Γ env env' S hc hok hk hr hd
      rw [gen_call_exp hne] at hd ⊢
      exact call_sim hap hf hes hne hc hok hr hd
    · intro c last pos σ Γ env env' S hc hok hr
      cases hs : selfCall c σ last f with
      | some ps =>
        rw [gen_call_self (st := ⟨σ, []⟩) hs]
        exact self_sim hn hargs hs hc hok hr
      | none =>
        rw [gen_call_stm (st := ⟨σ, []⟩) hne hs]
        exact give_res fun hd => call_sim hap hf hes hne hc hok hr hd

end

end Verif.JsGen
