import Verif.ErlGen.GuardSim
import Verif.ErlGen.TreeLemmas

/-!
# Expressions: literals, operators, tuples and calls

For each kind of expression: if the parts are simulated, the expression is.
-/

namespace Verif.ErlGen

open Verif.ErlText (Text Term astAll chain)
open Verif.Strings.Spec (Piece text UpperCamel)

section

variable {W W' : Type} (RW : W → W' → Prop)

/-- Calls of related functions with related arguments. A call of a function by its name does not depend on the number
that is written in a reference to it. -/
structure Calls (ap : Gleam.Value → List Gleam.Value → Gleam.Run W Gleam.Value)
    (ap' : Erlang.Value → List Erlang.Value → Erlang.Run W' Erlang.Value) : Prop where
  value : ∀ v v' vs vs', VRel v v' → VsRel vs vs' → MRel RW VRel (ap v vs) (ap' v' vs')
  name : ∀ m f n vs vs', VsRel vs vs' →
    MRel RW VRel (ap (.fn m f n) vs) (ap' (.ref (m.map ErlText.erlangModuleName) (escapeName f) vs'.length) vs')

variable (ap : Gleam.Value → List Gleam.Value → Gleam.Run W Gleam.Value)
  (ap' : Erlang.Value → List Erlang.Value → Erlang.Run W' Erlang.Value) (c : Context)

/-- The terms of an expression do the same as the expression. -/
def ExprSim (e : Expr) : Prop :=
  ∀ Γ s env env', e.Wf c.purity Γ → Places Γ e.locs → Sit Γ s env env' →
    MRel RW (RRel s (tExpr c s e).2) (Gleam.expr ap env e) (Erlang.seq ap' env' (astAll (tExpr c s e).1))

def ArgsSim (es : List Expr) : Prop :=
  ∀ Γ s env env', exprsWf c.purity Γ es → Places Γ (exprsLocs es) → Sit Γ s env env' →
    MRel RW (RsRel s (tArgs c s es).2) (Gleam.args ap env es) (Erlang.exprs ap' env' (astAll (tArgs c s es).1))

def StmtsSim (ss : List Stmt) : Prop :=
  ∀ Γ s env env', stmtsWf c.purity Γ ss → Places Γ (stmtsLocs ss) → Sit Γ s env env' →
    MRel RW (RRel s (tStmts c s ss).2) (Gleam.stmts ap env ss) (Erlang.seq ap' env' (astAll (tStmts c s ss).1))

def ClausesSim (cs : List Clause) : Prop :=
  ∀ Γ s env env' vs v', clausesWf c.purity Γ cs → Places Γ (clausesLocs cs) → Sit Γ s env env' → Subject vs v' →
    MRel RW (RRel s (tClauses c s cs).2) (Gleam.clauses ap env vs cs)
      (Erlang.clauses ap' env' v' (ErlText.clauseAst (tClauses c s cs).1))

/-- One term for an expression. -/
abbrev tOne (e : Expr) : TGen := tMaybe (needsWrap c.purity e) fun s => tExpr c s e

theorem expr_one (e : Expr) (s : State) (env' : Erlang.Env) :
    Erlang.expr ap' env' ((tOne c e s).1.ast false) = Erlang.seq ap' env' (astAll (tExpr c s e).1) := by
  simp only [tOne, tMaybe, oneTerm]
  by_cases h : needsWrap c.purity e = true
  · rw [if_pos h, Term.ast, Erlang.expr]
  · simp only [Bool.not_eq_true] at h
    obtain ⟨t, ht⟩ := tExpr_single c e h s
    rw [h, ht]
    simp only [Bool.false_eq_true, if_false, List.headD_cons, ErlText.astAll, seq_one]

variable {RW ap ap' c}

theorem ExprSim.one {e : Expr} (h : ExprSim RW ap ap' c e) {Γ : Scope} {s : State} {env : Gleam.Env} {env' : Erlang.Env}
    (hw : e.Wf c.purity Γ) (hp : Places Γ e.locs) (hs : Sit Γ s env env') :
    MRel RW (RRel s (tOne c e s).2) (Gleam.expr ap env e) (Erlang.expr ap' env' ((tOne c e s).1.ast false)) := by
  rw [expr_one]
  exact h Γ s env env' hw hp hs

theorem tOne_step {Γ : Scope} {e : Expr} (hw : e.Wf c.purity Γ) (s : State) : Step s (tOne c e s).2 e.binders e.locs :=
  tExpr_step c Γ e hw s

/-- After an expression. -/
theorem Sit.after {Γ : Scope} {e : Expr} {s : State} {env : Gleam.Env} {env' : Erlang.Env} (hs : Sit Γ s env env')
    (hw : e.Wf c.purity Γ) (hp : Places Γ e.locs) : Sit Γ (tOne c e s).2 env env' :=
  hs.step' (tOne_step hw s) hp.2

theorem Sit.afterArgs {Γ : Scope} {es : List Expr} {s : State} {env : Gleam.Env} {env' : Erlang.Env}
    (hs : Sit Γ s env env') (hw : exprsWf c.purity Γ es) (hp : Places Γ (exprsLocs es)) : Sit Γ (tArgs c s es).2 env env' :=
  hs.step' (tArgs_step c Γ es hw s) hp.2

/-- Expressions that become one term without new variables. -/
theorem sim_pure {e : Expr} {s : State} {t : Term} {s' : State} {env : Gleam.Env} {env' : Erlang.Env}
    {o : Option Gleam.Value} (ht : tExpr c s e = ([t], s')) (ho : Gleam.expr ap env e = M.ofOption o)
    (h : ∀ v, o = some v → ∃ v', Erlang.expr ap' env' (t.ast false) = M.pure (v', []) ∧ VRel v v') :
    MRel RW (RRel s (tExpr c s e).2) (Gleam.expr ap env e) (Erlang.seq ap' env' (astAll (tExpr c s e).1)) := by
  rw [ht, ho]
  simp only [ErlText.astAll, seq_one]
  apply MRel.ofOption
  intro v hv
  obtain ⟨v', h1, h2⟩ := h v hv
  rw [h1]
  exact MRel.pure ⟨h2, Between.nil _ _⟩

theorem sim_int (n : Int) : ExprSim RW ap ap' c (.int n) := by
  intro Γ s env env' _ _ _
  refine sim_pure (t := .int n) (o := some (.int n)) (by rw [tExpr]) (by rw [Gleam.expr]; rfl) ?_
  rintro v ⟨⟩
  exact ⟨_, expr_int ap' env' false n, VRel.int n⟩

theorem sim_string (ps : List Piece) : ExprSim RW ap ap' c (.string ps) := by
  intro Γ s env env' _ _ _
  refine sim_pure (t := .string (text ps)) (by rw [tExpr]) (by rw [Gleam.expr]) ?_
  intro v hv
  rw [Option.map_eq_some_iff] at hv
  obtain ⟨t, h1, rfl⟩ := hv
  exact ⟨_, expr_string ap' env' h1, VRel.str t⟩

theorem sim_var (x : Text) (l : Loc) : ExprSim RW ap ap' c (.var x l) := by
  intro Γ s env env' hw _ hs
  refine sim_pure (t := .var (s.localName l)) (by rw [tExpr]) (by rw [Gleam.expr]) ?_
  intro v hv
  obtain ⟨l', n, v', h1, h2, h3, h4⟩ := hs.env x v hv
  simp only [Expr.Wf] at hw
  rw [hw] at h1
  cases h1
  exact ⟨v', expr_local ap' false h2 h3, h4⟩

theorem sim_const (k : Const) : ExprSim RW ap ap' c (.const k) := by
  intro Γ s env env' hw _ hs
  refine sim_pure (t := tConst k) (by rw [tExpr]) (by rw [Gleam.expr]) ?_
  intro v hv
  simp only [Expr.Wf] at hw
  exact const_sim ap' env' k v hw hv

theorem sim_nil : ExprSim RW ap ap' c .nil := by
  intro Γ s env env' _ _ _
  refine sim_pure (t := .nil) (o := some .nil) (by rw [tExpr]) (by rw [Gleam.expr]; rfl) ?_
  rintro v ⟨⟩
  exact ⟨_, by rw [Term.ast, Erlang.expr], VRel.nil⟩

theorem sim_fnRef (m : Option Text) (f : Text) (n : Nat) : ExprSim RW ap ap' c (.fnRef m f n) := by
  intro Γ s env env' _ _ _
  refine sim_pure (t := .reference (m.map ErlText.erlangModuleName) (escapeName f) n) (o := some (.fn m f n))
    (by rw [tExpr]) (by rw [Gleam.expr]; rfl) ?_
  rintro v ⟨⟩
  exact ⟨_, by rw [Term.ast, Erlang.expr], VRel.fn m f n⟩

theorem newGenerated_list (s : State) (n : Nat) :
    (newGenerated s n).1.Nodup ∧ Between s (newGenerated s n).2 (newGenerated s n).1 ∧ (newGenerated s n).1.length = n := by
  induction n generalizing s with
  | zero => exact ⟨List.nodup_nil, Between.nil _ _, rfl⟩
  | succ n ih =>
    obtain ⟨h1, h2, h3⟩ := ih s.newGenerated.2
    have h4 := newGenerated_between s
    have h5 : (newGenerated s (n + 1)).1 = s.newGenerated.1 :: (newGenerated s.newGenerated.2 n).1 := rfl
    have h6 : (newGenerated s (n + 1)).2 = (newGenerated s.newGenerated.2 n).2 := rfl
    rw [h5, h6]
    refine ⟨List.nodup_cons.2 ⟨fun hc => h4.disjoint h2 _ (by simp) hc, h1⟩, ?_, by simp [h3]⟩
    exact h4.append h2 (fun n hn => (newGenerated_step s).mono hn) fun m hm => (newGenerated_steps _ n).mono hm

theorem astAll_vars (ns : List Text) : astAll (ns.map Term.var) = ns.map .var := by
  induction ns with
  | nil => rfl
  | cons n ns ih => simp [ErlText.astAll, Term.ast, ih]

theorem sim_ctor (tag : Text) (n : Nat) : ExprSim RW ap ap' c (.ctor tag n) := by
  intro Γ s env env' hw _ _
  simp only [Expr.Wf] at hw
  cases n with
  | zero =>
    refine sim_pure (t := .atom (snake tag)) (o := some (.record tag [])) (by rw [tExpr]) (by rw [Gleam.expr]; rfl) ?_
    rintro v ⟨⟩
    exact ⟨_, by rw [Term.ast, Erlang.expr], VRel.enum hw⟩
  | succ n =>
    refine sim_pure (o := some (.ctor tag (n + 1))) (by rw [tExpr]) (by rw [Gleam.expr]; rfl) ?_
    rintro v ⟨⟩
    obtain ⟨h1, h2, h3⟩ := newGenerated_list s (n + 1)
    have h4 : (newGenerated s (n + 1)).1.isEmpty = false := by
      cases h5 : (newGenerated s (n + 1)).1 with
      | nil => rw [h5] at h3; cases h3
      | cons _ _ => rfl
    refine ⟨_, ?_, VRel.ctor (env := env') hw h1 ?_ h3⟩
    · simp only [tRecordBuilder, h4, Bool.false_eq_true, if_false, Term.ast, Erlang.expr, ErlText.astAll, astAll_vars]
    · intro hc
      exact State.taken_underscore _ (h2 _ hc).2

theorem EnvRel.choice {Γ : Scope} {s : State} {env : Gleam.Env} {env' : Erlang.Env} (h : EnvRel Γ s env env') :
    ∃ value : Text → Erlang.Value, (∀ x v, env.lookup x = some v →
      ∃ l n, Γ.lookup x = some l ∧ s.names l = some n ∧ env'.lookup n = some (value x)) ∧
      ∀ x v, env.lookup x = some v → VRel v (value x) := by
  have h1 : ∀ x, ∃ v', ∀ v, env.lookup x = some v →
      (∃ l n, Γ.lookup x = some l ∧ s.names l = some n ∧ env'.lookup n = some v') ∧ VRel v v' := by
    intro x
    cases hx : env.lookup x with
    | none => exact ⟨.nil, by simp⟩
    | some v =>
      obtain ⟨l, n, v', h1, h2, h3, h4⟩ := h x v hx
      refine ⟨v', ?_⟩
      rintro w ⟨⟩
      exact ⟨⟨l, n, h1, h2, h3⟩, h4⟩
  obtain ⟨value, h2⟩ := Classical.skolem.1 h1
  exact ⟨value, fun x v hx => (h2 x v hx).1, fun x v hx => (h2 x v hx).2⟩

theorem sim_fn (hc : ContextOk c) (params : List (Option (Text × Loc))) (body : List Stmt) :
    ExprSim RW ap ap' c (.fn params body) := by
  intro Γ s env env' hw hp hs
  refine sim_pure (o := some (.closure params body env)) (by rw [tExpr]) (by rw [Gleam.expr]; rfl) ?_
  rintro v ⟨⟩
  obtain ⟨value, h1, h2⟩ := hs.env.choice
  exact ⟨_, by rw [Term.ast, Erlang.expr], VRel.closure c Γ s value hc hw hp hs.bounded h1 h2⟩

/-! ### Operators -/

/-- An operation after an expression. -/
theorem sim_unary {e e1 : Expr} (h : ExprSim RW ap ap' c e) {t : Term → Term} {Γ : Scope} {s : State} {env : Gleam.Env}
    {env' : Erlang.Env} (hw : e.Wf c.purity Γ) (hp : Places Γ e.locs) (hs : Sit Γ s env env')
    {f : Gleam.Value → Option Gleam.Value} {f' : Erlang.Value → Erlang.Run W' Erlang.Value}
    (ht : tExpr c s e1 = ([t (tOne c e s).1], (tOne c e s).2))
    (hg : Gleam.expr ap env e1 = (Gleam.expr ap env e).bind fun v => M.ofOption (f v))
    (he : ∀ u : Term, Erlang.expr ap' env' ((t u).ast false) =
      (Erlang.expr ap' env' (u.ast false)).bind fun r => (f' r.1).bind fun w => M.pure (w, r.2))
    (hf : ∀ v v' w, VRel v v' → f v = some w → ∃ w', f' v' = M.pure w' ∧ VRel w w') :
    MRel RW (RRel s (tExpr c s e1).2) (Gleam.expr ap env e1) (Erlang.seq ap' env' (astAll (tExpr c s e1).1)) := by
  rw [ht, hg]
  simp only [ErlText.astAll, seq_one, he]
  apply (h.one hw hp hs).bind
  rintro v ⟨v', a⟩ ⟨h1, h2⟩
  apply MRel.ofOption
  intro w hv
  obtain ⟨w', h3, h4⟩ := hf v v' w h1 hv
  rw [h3, M.pure_bind]
  exact MRel.pure ⟨h4, h2⟩

theorem sim_not {e : Expr} (h : ExprSim RW ap ap' c e) : ExprSim RW ap ap' c (.not e) := by
  intro Γ s env env' hw hp hs
  simp only [Expr.Wf] at hw
  simp only [Expr.locs] at hp
  refine sim_unary h (t := .unary .not) (f' := Erlang.unary .not) hw hp hs (by rw [tExpr]) (by rw [Gleam.expr])
    (fun u => by rw [Term.ast, Erlang.expr]; rfl) ?_
  intro v v' w h1 h2
  rw [Option.map_eq_some_iff] at h2
  obtain ⟨b, h2, rfl⟩ := h2
  rw [h1.isTrue h2]
  refine ⟨.bool !b, ?_, VRel.bool _⟩
  cases b <;> simp [Erlang.unary, Erlang.Value.bool]

theorem sim_neg {e : Expr} (h : ExprSim RW ap ap' c e) : ExprSim RW ap ap' c (.neg e) := by
  intro Γ s env env' hw hp hs
  simp only [Expr.Wf] at hw
  simp only [Expr.locs] at hp
  refine sim_unary h (t := .unary .neg) (f' := Erlang.unary .minus)
    (f := fun v => match v with | .int n => some (.int (-n)) | _ => none) hw hp hs (by rw [tExpr]) ?_
    (fun u => by rw [Term.ast, Erlang.expr]; rfl) ?_
  · rw [Gleam.expr]
    congr 1
    funext v
    cases v <;> rfl
  · intro v v' w h1 h2
    cases h1 <;> simp at h2
    subst h2
    exact ⟨_, rfl, VRel.int _⟩

theorem sim_index {e : Expr} (i : Nat) (h : ExprSim RW ap ap' c e) : ExprSim RW ap ap' c (.index e i) := by
  intro Γ s env env' hw hp hs
  simp only [Expr.Wf] at hw
  simp only [Expr.locs] at hp
  refine sim_unary h (t := fun u => .remote "erlang".toList "element".toList [.int (i + 1), u])
    (f' := fun v => Erlang.element [.int ((i + 1 : Nat) : Int), v])
    (f := fun v => match v with | .tuple vs => vs[i]? | _ => none) hw hp hs (by rw [tExpr]) ?_ ?_ ?_
  · rw [Gleam.expr]
    congr 1
    funext v
    cases v <;> rfl
  · intro u
    simp only [Term.ast, ErlText.astAll]
    rw [show ((i : Int) + 1) = ((i + 1 : Nat) : Int) from rfl, expr_element]
  · intro v v' w h1 h2
    cases h1 <;> simp at h2
    rename_i h1
    obtain ⟨w', h4, h5⟩ := h1.get h2
    exact ⟨w', element_get h4, h5⟩

theorem sim_field {e : Expr} (i : Nat) (h : ExprSim RW ap ap' c e) : ExprSim RW ap ap' c (.field e i) := by
  intro Γ s env env' hw hp hs
  simp only [Expr.Wf] at hw
  simp only [Expr.locs] at hp
  refine sim_unary h (t := fun u => .remote "erlang".toList "element".toList [.int (i + 2), u])
    (f' := fun v => Erlang.element [.int ((i + 1 + 1 : Nat) : Int), v])
    (f := fun v => match v with | .record _ vs => vs[i]? | _ => none) hw hp hs (by rw [tExpr]) ?_ ?_ ?_
  · rw [Gleam.expr]
    congr 1
    funext v
    cases v <;> rfl
  · intro u
    simp only [Term.ast, ErlText.astAll]
    rw [show ((i : Int) + 2) = ((i + 1 + 1 : Nat) : Int) from rfl, expr_element]
  · intro v v' w h1 h2
    cases h1 with
    | enum => simp at h2
    | @record tag a a' as as' u h3 h3' =>
      obtain ⟨w', h4, h5⟩ := (VsRel.cons h3 h3').get h2
      exact ⟨w', element_get (show (Erlang.Value.atom _ :: a' :: as')[i + 1]? = some w' from h4), h5⟩
    | _ => simp at h2

/-- An operation after two expressions. -/
theorem sim_two {l r e1 : Expr} (hl : ExprSim RW ap ap' c l) (hr : ExprSim RW ap ap' c r) {t : Term → Term → Term}
    {Γ : Scope} {s : State} {env : Gleam.Env} {env' : Erlang.Env} (hwl : l.Wf c.purity Γ) (hwr : r.Wf c.purity Γ)
    (hp : Places Γ (l.locs ++ r.locs)) (hs : Sit Γ s env env') {f : Gleam.Value → Gleam.Value → Option Gleam.Value}
    {f' : Erlang.Value → Erlang.Value → Erlang.Run W' Erlang.Value}
    (ht : tExpr c s e1 = ([t (tOne c l s).1 (tOne c r (tOne c l s).2).1], (tOne c r (tOne c l s).2).2))
    (hg : Gleam.expr ap env e1 =
      (Gleam.expr ap env l).bind fun v => (Gleam.expr ap env r).bind fun w => M.ofOption (f v w))
    (he : Erlang.expr ap' env' ((t (tOne c l s).1 (tOne c r (tOne c l s).2).1).ast false) =
      (Erlang.expr ap' env' ((tOne c l s).1.ast false)).bind fun p =>
        (Erlang.expr ap' env' ((tOne c r (tOne c l s).2).1.ast false)).bind fun q =>
        Erlang.joined p.2 q.2 fun c => (f' p.1 q.1).bind fun r => M.pure (r, c))
    (hf : ∀ v v' w w' u, VRel v v' → VRel w w' → f v w = some u → ∃ u', f' v' w' = M.pure u' ∧ VRel u u') :
    MRel RW (RRel s (tExpr c s e1).2) (Gleam.expr ap env e1) (Erlang.seq ap' env' (astAll (tExpr c s e1).1)) := by
  rw [ht, hg]
  simp only [ErlText.astAll, seq_one, he]
  apply (hl.one hwl hp.left hs).bind
  rintro v ⟨v', a⟩ ⟨h1, h2⟩
  apply (hr.one hwr hp.right (hs.after hwl hp.left)).bind
  rintro w ⟨w', b⟩ ⟨h3, h4⟩
  simp only [Erlang.joined, join_between h2 h4, M.ofOption, M.pure_bind]
  apply MRel.ofOption
  intro u hu
  obtain ⟨u', h5, h6⟩ := hf v v' w w' u h1 h3 hu
  rw [h5, M.pure_bind]
  refine MRel.pure ⟨h6, ?_⟩
  rw [keys_append]
  exact h2.append h4 (fun n hn => (tOne_step hwl s).mono hn) fun n hn => (tOne_step hwr _).mono hn

theorem sim_cons {l r : Expr} (hl : ExprSim RW ap ap' c l) (hr : ExprSim RW ap ap' c r) :
    ExprSim RW ap ap' c (.cons l r) := by
  intro Γ s env env' hw hp hs
  simp only [Expr.Wf] at hw
  simp only [Expr.locs] at hp
  refine sim_two hl hr (t := .cons) (f := fun v w => some (.cons v w)) (f' := fun v w => M.pure (.cons v w)) hw.1 hw.2 hp hs
    (by rw [tExpr]) (by rw [Gleam.expr]; rfl) (by rw [Term.ast, Erlang.expr]; rfl) ?_
  intro v v' w w' u h1 h2 h3
  cases h3
  exact ⟨_, rfl, VRel.cons h1 h2⟩

/-- The operators that evaluate both operands, apart from division and concatenation. -/
theorem sim_bin {op : Op} {l r : Expr} (hl : ExprSim RW ap ap' c l) (hr : ExprSim RW ap ap' c r) (h1 : op ≠ .and)
    (h2 : op ≠ .or) (h3 : op ≠ .concat) (h4 : op ≠ .div) (h5 : op ≠ .rem) : ExprSim RW ap ap' c (.bin op l r) := by
  intro Γ s env env' hw hp hs
  simp only [Expr.Wf] at hw
  simp only [Expr.locs] at hp
  refine sim_two hl hr (t := .binary op.erlang) (f := Gleam.binary op) (f' := Erlang.binary op.erlang.op) hw.1 hw.2.1 hp hs
    ?_ ?_ ?_ ?_
  · cases op <;> first | exact absurd rfl h3 | exact absurd rfl h4 | exact absurd rfl h5 | simp [tExpr]
  · cases op <;> first | exact absurd rfl h1 | exact absurd rfl h2 | simp [Gleam.expr]
  · rw [Term.ast, expr_binary]
    · cases op <;> simp [Op.erlang, ErlText.BinOp.op]
    · cases op <;> first | exact absurd rfl h1 | simp [Op.erlang, ErlText.BinOp.op]
    · cases op <;> first | exact absurd rfl h2 | simp [Op.erlang, ErlText.BinOp.op]
  · intro v v' w w' u h6 h7 h8
    exact binary_rel h6 h7 h8 h3 (by simp [h4, h5]) (Or.inl rfl)

theorem sim_and {l r : Expr} (hl : ExprSim RW ap ap' c l) (hr : ExprSim RW ap ap' c r) :
    ExprSim RW ap ap' c (.bin .and l r) := by
  intro Γ s env env' hw hp hs
  simp only [Expr.Wf] at hw
  simp only [Expr.locs] at hp
  have ht : tExpr c s (.bin .and l r) = ([.binary .andalso (tOne c l s).1 (tOne c r (tOne c l s).2).1],
    (tOne c r (tOne c l s).2).2) := by simp [tExpr, Op.erlang]
  rw [ht, Gleam.expr]
  simp only [ErlText.astAll, seq_one, Term.ast, ErlText.BinOp.op, Erlang.expr]
  apply (hl.one hw.1 hp.left hs).bind
  rintro v ⟨v', a⟩ ⟨h1, h2⟩
  dsimp only at h1 h2 ⊢
  cases hv : v.isTrue with
  | none => exact MRel.stuck
  | some b =>
    rw [h1.isTrue hv]
    cases b with
    | false =>
      simp only [Erlang.Value.bool]
      rw [if_neg (by decide), if_pos trivial]
      exact MRel.pure ⟨VRel.bool false, fun n hn => ⟨(h2 n hn).1, (tOne_step hw.2.1 _).mono (h2 n hn).2⟩⟩
    | true =>
      simp only [Erlang.Value.bool, if_true]
      have hs' := hs.step (tOne_step hw.1 s) hp.left.2 h2
      apply (hr.one hw.2.1 hp.right hs').bind
      rintro w ⟨w', b⟩ ⟨h3, h4⟩
      apply MRel.ofOption
      intro u hu
      rw [Option.map_eq_some_iff] at hu
      obtain ⟨b', hu, rfl⟩ := hu
      dsimp only at h3
      rw [h3.isTrue hu]
      refine MRel.pure ⟨VRel.bool _, ?_⟩
      rw [keys_append]
      exact h2.append' h4 (fun n hn => (tOne_step hw.1 s).mono hn) fun n hn => (tOne_step hw.2.1 _).mono hn

theorem sim_or {l r : Expr} (hl : ExprSim RW ap ap' c l) (hr : ExprSim RW ap ap' c r) :
    ExprSim RW ap ap' c (.bin .or l r) := by
  intro Γ s env env' hw hp hs
  simp only [Expr.Wf] at hw
  simp only [Expr.locs] at hp
  have ht : tExpr c s (.bin .or l r) = ([.binary .orelse (tOne c l s).1 (tOne c r (tOne c l s).2).1],
    (tOne c r (tOne c l s).2).2) := by simp [tExpr, Op.erlang]
  rw [ht, Gleam.expr]
  simp only [ErlText.astAll, seq_one, Term.ast, ErlText.BinOp.op, Erlang.expr]
  apply (hl.one hw.1 hp.left hs).bind
  rintro v ⟨v', a⟩ ⟨h1, h2⟩
  dsimp only at h1 h2 ⊢
  cases hv : v.isTrue with
  | none => exact MRel.stuck
  | some b =>
    rw [h1.isTrue hv]
    cases b with
    | true =>
      simp only [Erlang.Value.bool, if_true]
      exact MRel.pure ⟨VRel.bool true, fun n hn => ⟨(h2 n hn).1, (tOne_step hw.2.1 _).mono (h2 n hn).2⟩⟩
    | false =>
      simp only [Erlang.Value.bool]
      rw [if_neg (by decide), if_pos trivial]
      have hs' := hs.step (tOne_step hw.1 s) hp.left.2 h2
      apply (hr.one hw.2.1 hp.right hs').bind
      rintro w ⟨w', b⟩ ⟨h3, h4⟩
      apply MRel.ofOption
      intro u hu
      rw [Option.map_eq_some_iff] at hu
      obtain ⟨b', hu, rfl⟩ := hu
      dsimp only at h3
      rw [h3.isTrue hu]
      refine MRel.pure ⟨VRel.bool _, ?_⟩
      rw [keys_append]
      exact h2.append' h4 (fun n hn => (tOne_step hw.1 s).mono hn) fun n hn => (tOne_step hw.2.1 _).mono hn

end

end Verif.ErlGen
