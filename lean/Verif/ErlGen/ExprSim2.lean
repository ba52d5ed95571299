import Verif.ErlGen.ExprSim

/-!
# Expressions: concatenation, records, calls, errors and division
-/

namespace Verif.ErlGen

open Verif.ErlText (Text Term astAll chain)
open Verif.Strings.Spec (Piece text UpperCamel)

section

variable {W W' : Type} {RW : W → W' → Prop} {ap : Gleam.Value → List Gleam.Value → Gleam.Run W Gleam.Value}
  {ap' : Erlang.Value → List Erlang.Value → Erlang.Run W' Erlang.Value} {c : Context}

/-! ### Concatenation -/

theorem tOne_wrapped {e : Expr} (s : State) (h : needsWrap c.purity e = true) : (tOne c e s).1 = .block (tExpr c s e).1 := by
  simp [tOne, tMaybe, oneTerm, h]

theorem tOne_single {e : Expr} {s : State} {t : Term} {s' : State} (h : needsWrap c.purity e = false)
    (ht : tExpr c s e = ([t], s')) : (tOne c e s).1 = t := by
  simp [tOne, tMaybe, oneTerm, h, ht]

theorem tDivision_plain {l r : Expr} {how : HowToDivide} {op : ErlText.BinOp} {left right : TGen} {s : State} {t : Term}
    (h : (tDivision how op left right s).1 = [t]) : Plain t := by
  match how with
  | .zero => simp only [tDivision, List.cons.injEq, and_true] at h; subst h; simp [Plain]
  | .leftThenZero => simp [tDivision] at h
  | .plain => simp only [tDivision, List.cons.injEq, and_true] at h; subst h; simp [Plain]
  | .matchRight false => simp [tDivision] at h
  | .matchRight true => simp only [tDivision, List.cons.injEq, and_true] at h; subst h; simp [Plain]

theorem tRecord_plain (tag : Text) (es : List Expr) (ts : List Term) : Plain (tRecord tag es ts) := by
  unfold tRecord
  split <;> simp [Plain]

/-- The terms of operands that are not literals. -/
theorem operand_plain : ∀ (e : Expr) (s : State), e.hidden = false → e.literal = false → Plain (tOne c e s).1
  | .block [.expr e], s, hh, hl => by
    have he : tOne c (.block [.expr e]) s = tOne c e s := by
      simp [tOne, tMaybe, oneTerm, tExpr, needsWrap]
    rw [he]
    have h1 : e.hidden = false ∧ e.literal = false := by
      cases e <;> simp_all [Expr.hidden, Expr.literal]
    exact operand_plain e s h1.1 h1.2
  | .block [], s, _, _ => by simp [tOne, tMaybe, oneTerm, tExpr, needsWrap, Plain]
  | .block [.let_ _ _], s, _, _ => by simp [tOne, tMaybe, oneTerm, tExpr, needsWrap, Plain]
  | .block [.letAssert _ _ _ _], s, _, _ => by simp [tOne, tMaybe, oneTerm, tExpr, needsWrap, Plain]
  | .block (_ :: _ :: _), s, _, _ => by simp [tOne, tMaybe, oneTerm, tExpr, needsWrap, Plain]
  | .int _, s, _, _ => by simp [tOne, tMaybe, oneTerm, tExpr, needsWrap, Plain]
  | .string _, s, _, hl => by simp [Expr.literal] at hl
  | .var _ _, s, _, _ => by simp [tOne, tMaybe, oneTerm, tExpr, needsWrap, Plain]
  | .ctor _ 0, s, _, _ => by simp [tOne, tMaybe, oneTerm, tExpr, needsWrap, Plain]
  | .ctor _ (_ + 1), s, _, _ => by simp [tOne, tMaybe, oneTerm, tExpr, needsWrap, Plain, tRecordBuilder]
  | .fnRef _ _ _, s, _, _ => by simp [tOne, tMaybe, oneTerm, tExpr, needsWrap, Plain]
  | .const k, s, _, hl => by
    simp only [Expr.literal] at hl
    simpa [tOne, tMaybe, oneTerm, tExpr, needsWrap] using const_plain hl
  | .not _, s, hh, _ => by simp [Expr.hidden] at hh
  | .neg _, s, hh, _ => by simp [Expr.hidden] at hh
  | .bin op l r, s, _, _ => by
    by_cases hw : needsWrap c.purity (.bin op l r) = true
    · rw [tOne_wrapped s hw]; simp [Plain]
    · simp only [Bool.not_eq_true] at hw
      obtain ⟨t, ht⟩ := tExpr_single c _ hw s
      have h1 : (tOne c (.bin op l r) s).1 = t := by simp [tOne, tMaybe, oneTerm, hw, ht]
      rw [h1]
      cases op with
      | div => rw [tExpr] at ht; exact tDivision_plain (l := l) (r := r) ht
      | rem => rw [tExpr] at ht; exact tDivision_plain (l := l) (r := r) ht
      | _ => simp only [tExpr, List.cons.injEq, and_true] at ht; subst ht; simp [Plain]
  | .nil, s, _, _ => by simp [tOne, tMaybe, oneTerm, tExpr, needsWrap, Plain]
  | .cons _ _, s, _, _ => by simp [tOne, tMaybe, oneTerm, tExpr, needsWrap, Plain]
  | .tuple _, s, _, _ => by simp [tOne, tMaybe, oneTerm, tExpr, needsWrap, Plain]
  | .index _ _, s, _, _ => by simp [tOne, tMaybe, oneTerm, tExpr, needsWrap, Plain]
  | .field _ _, s, _, _ => by simp [tOne, tMaybe, oneTerm, tExpr, needsWrap, Plain]
  | .update none _ _ _, s, _, _ => by
    simp only [tOne, tMaybe, oneTerm, tExpr, needsWrap]
    exact tRecord_plain _ _ _
  | .update (some _) _ _ _, s, _, _ => by simp [tOne, tMaybe, oneTerm, needsWrap, Plain]
  | .fn _ _, s, _, _ => by simp [tOne, tMaybe, oneTerm, tExpr, needsWrap, Plain]
  | .call f es, s, _, _ => by
    cases f with
    | ctor tag n => simp only [tOne, tMaybe, oneTerm, tExpr, needsWrap]; exact tRecord_plain _ _ _
    | fnRef m f n => cases m <;> simp [tOne, tMaybe, oneTerm, tExpr, needsWrap, Plain]
    | _ => simp [tOne, tMaybe, oneTerm, tExpr, needsWrap, Plain]
  | .pipe _ _ _ _, s, _, _ => by simp [tOne, tMaybe, oneTerm, needsWrap, Plain]
  | .fail _ _ none, s, _, _ => by simp [tOne, tMaybe, oneTerm, tExpr, needsWrap, Plain, tError]
  | .fail _ _ (some _), s, _, _ => by simp [tOne, tMaybe, oneTerm, tExpr, needsWrap, Plain, tError]
  | .case_ [] _, s, _, _ => by simp [tOne, tMaybe, oneTerm, tExpr, needsWrap, Plain]
  | .case_ [_] _, s, _, _ => by simp [tOne, tMaybe, oneTerm, tExpr, needsWrap, Plain]
  | .case_ (_ :: _ :: _) _, s, _, _ => by simp [tOne, tMaybe, oneTerm, tExpr, needsWrap, Plain]

/-- A segment of a concatenation: the value of the operand. -/
theorem operand_segment {Γ : Scope} {e : Expr} (s : State) (hw : e.Wf c.purity Γ) (hh : e.hidden = false) (env' : Erlang.Env)
    (ss : List ErlText.Read.AstSegment) :
    Erlang.segments ap' env' (.mk ((tOne c e s).1.ast true) none (ErlText.specTypes (concatSpec e.literal)) :: ss) =
      (Erlang.expr ap' env' ((tOne c e s).1.ast false)).bind fun r => (Erlang.segments ap' env' ss).bind fun q =>
        Erlang.joined r.2 q.2 fun c =>
          match r.1 with
          | .str s => M.pure (s ++ q.1, c)
          | _ => M.error Erlang.badarg := by
  by_cases hl : e.literal = true
  · have h1 : ∃ ps, Literal ps ∧ (tOne c e s).1 = .string (text ps) := by
      cases e with
      | string ps => exact ⟨ps, by simpa [Expr.Wf] using hw, by simp [tOne, tMaybe, oneTerm, tExpr, needsWrap]⟩
      | const k =>
        simp only [Expr.literal] at hl
        cases k with
        | string ps =>
          exact ⟨ps, by simpa [Expr.Wf, Const.Wf] using hw, by simp [tOne, tMaybe, oneTerm, tExpr, needsWrap, tConst]⟩
        | _ => simp [Const.literal] at hl
      | _ => simp [Expr.literal] at hl
    obtain ⟨ps, h2, h3⟩ := h1
    obtain ⟨v, hv⟩ := literal_some h2
    rw [hl, h3, segments_string ap' env' hv, expr_string ap' env' hv, M.pure_bind]
    simp only [nil_joined]
  · simp only [Bool.not_eq_true] at hl
    have hp := operand_plain (c := c) e s hh hl
    rw [hl]
    simp only [concatSpec, Bool.false_eq_true, if_false,
      show ErlText.specTypes [.binary] = [("binary".toList, none)] from rfl]
    rw [segments_cons ap' env' hp.ast.2, hp.ast.1]
    rfl

theorem sim_concat {l r : Expr} (hl : ExprSim RW ap ap' c l) (hr : ExprSim RW ap ap' c r) :
    ExprSim RW ap ap' c (.bin .concat l r) := by
  intro Γ s env env' hw hp hs
  simp only [Expr.Wf] at hw
  simp only [Expr.locs] at hp
  have ht : tExpr c s (.bin .concat l r) = ([.bits [.mk (tOne c l s).1 none (concatSpec l.literal),
      .mk (tOne c r (tOne c l s).2).1 none (concatSpec r.literal)]], (tOne c r (tOne c l s).2).2) := by
    rw [tExpr]
  rw [ht, Gleam.expr]
  · simp only [ErlText.astAll, seq_one, Term.ast, Erlang.expr, ErlText.segmentAst]
    rw [operand_segment s hw.1 (hw.2.2.1 trivial).1, operand_segment (tOne c l s).2 hw.2.1 (hw.2.2.1 trivial).2]
    simp only [M.bind_assoc]
    apply (hl.one hw.1 hp.left hs).bind
    rintro v ⟨v', a⟩ ⟨h1, h2⟩
    apply (hr.one hw.2.1 hp.right (hs.after hw.1 hp.left)).bind
    rintro w ⟨w', b⟩ ⟨h3, h4⟩
    simp only [Erlang.segments, M.pure_bind, joined_nil]
    apply MRel.ofOption
    intro u hu
    dsimp only at h1 h2 h3 h4 ⊢
    cases h1 with
    | str x =>
      cases h3 with
      | str y =>
        simp only [Gleam.binary, Option.some.injEq] at hu
        subst hu
        simp only [M.pure_bind, Erlang.joined, join_between h2 h4, M.ofOption, List.append_nil]
        refine MRel.pure ⟨VRel.str _, ?_⟩
        rw [keys_append]
        exact h2.append h4 (fun n hn => (tOne_step hw.1 s).mono hn) fun n hn => (tOne_step hw.2.1 _).mono hn
      | _ => simp [Gleam.binary] at hu
    | _ => simp [Gleam.binary] at hu
  · simp
  · simp

/-! ### Several expressions -/

theorem sim_noArgs : ArgsSim RW ap ap' c [] := by
  intro Γ s env env' _ _ _
  rw [tArgs, Gleam.args, ErlText.astAll, Erlang.exprs]
  exact MRel.pure ⟨.nil, Between.nil _ _⟩

theorem sim_args {e : Expr} {es : List Expr} (h : ExprSim RW ap ap' c e) (ht : ArgsSim RW ap ap' c es) :
    ArgsSim RW ap ap' c (e :: es) := by
  intro Γ s env env' hw hp hs
  simp only [exprsWf] at hw
  simp only [exprsLocs] at hp
  rw [tArgs, Gleam.args]
  simp only [ErlText.astAll, Erlang.exprs]
  apply (h.one hw.1 hp.left hs).bind
  rintro v ⟨v', a⟩ ⟨h1, h2⟩
  apply (ht Γ _ env env' hw.2 hp.right (hs.after hw.1 hp.left)).bind
  rintro vs ⟨vs', b⟩ ⟨h3, h4⟩
  simp only [Erlang.joined, join_between h2 h4, M.ofOption, M.pure_bind]
  refine MRel.pure ⟨.cons h1 h3, ?_⟩
  rw [keys_append]
  exact h2.append h4 (fun n hn => (tOne_step hw.1 s).mono hn) fun n hn => (tArgs_step c Γ es hw.2 _).mono hn

theorem sim_tuple {es : List Expr} (h : ArgsSim RW ap ap' c es) : ExprSim RW ap ap' c (.tuple es) := by
  intro Γ s env env' hw hp hs
  simp only [Expr.Wf] at hw
  simp only [Expr.locs] at hp
  rw [tExpr, Gleam.expr]
  simp only [ErlText.astAll, seq_one, Term.ast, Erlang.expr]
  apply (h Γ s env env' hw hp hs).bind
  rintro vs ⟨vs', a⟩ ⟨h1, h2⟩
  exact MRel.pure ⟨VRel.tuple h1, h2⟩

theorem M.bind_val {ε α β : Type} {m : M W ε α} {f : α → M W ε β} {w w1 : W} {b : β} (h : m.bind f w = (.val b, w1)) :
    ∃ a w2, m w = (.val a, w2) ∧ f a w2 = (.val b, w1) := by
  unfold M.bind at h
  cases hm : m w with
  | mk o w2 =>
    rw [hm] at h
    cases o with
    | val a => exact ⟨a, w2, rfl, h⟩
    | _ => simp at h

/-- There are as many values as expressions. -/
theorem args_length (env : Gleam.Env) : ∀ (es : List Expr) {w w1 : W} {vs : List Gleam.Value},
    Gleam.args ap env es w = (.val vs, w1) → vs.length = es.length
  | [], w, w1, vs, h => by
    rw [Gleam.args] at h
    simp only [M.pure, Prod.mk.injEq, Out.val.injEq] at h
    rw [← h.1]
    rfl
  | e :: es, w, w1, vs, h => by
    rw [Gleam.args] at h
    obtain ⟨v, w2, -, h2⟩ := M.bind_val h
    obtain ⟨us, w3, h3, h4⟩ := M.bind_val h2
    simp only [M.pure, Prod.mk.injEq, Out.val.injEq] at h4
    rw [← h4.1]
    simp [args_length env es h3]

/-- Something that is known about the values of Gleam. -/
theorem MRel.and {α β : Type} {R : α → β → Prop} {m : Gleam.Run W α} {m' : Erlang.Run W' β} {P : α → Prop}
    (h : MRel RW R m m') (hp : ∀ w a w1, m w = (.val a, w1) → P a) : MRel RW (fun a b => R a b ∧ P a) m m' := by
  intro w w' hw
  have h1 := h w w' hw
  have h2 := hp w
  revert h1 h2
  cases m w with
  | mk o w1 =>
    cases m' w' with
    | mk o' w1' =>
      cases o <;> cases o' <;> intro h1 h2 <;> first | exact h1.elim | trivial | skip
      · exact ⟨⟨h1.1, h2 _ _ rfl⟩, h1.2⟩
      all_goals exact h1

theorem ArgsSim.length {es : List Expr} (h : ArgsSim RW ap ap' c es) {Γ : Scope} {s : State} {env : Gleam.Env}
    {env' : Erlang.Env} (hw : exprsWf c.purity Γ es) (hp : Places Γ (exprsLocs es)) (hs : Sit Γ s env env') :
    MRel RW (fun vs r => RsRel s (tArgs c s es).2 vs r ∧ vs.length = es.length) (Gleam.args ap env es)
      (Erlang.exprs ap' env' (astAll (tArgs c s es).1)) :=
  (h Γ s env env' hw hp hs).and fun _ _ _ hv => args_length env es hv

/-- Records. -/
theorem record_sim {es : List Expr} (h : ArgsSim RW ap ap' c es) {tag : Text} (htag : UpperCamel tag) {Γ : Scope} {s : State}
    {env : Gleam.Env} {env' : Erlang.Env} (hw : exprsWf c.purity Γ es) (hp : Places Γ (exprsLocs es))
    (hs : Sit Γ s env env') :
    MRel RW (RRel s (tArgs c s es).2) ((Gleam.args ap env es).bind fun vs => M.pure (.record tag vs))
      (Erlang.expr ap' env' ((tRecord tag es (tArgs c s es).1).ast false)) := by
  cases es with
  | nil =>
    rw [Gleam.args, M.pure_bind]
    simp only [tRecord, List.isEmpty_nil, if_true, Term.ast, Erlang.expr]
    exact MRel.pure ⟨VRel.enum htag, Between.nil _ _⟩
  | cons e es =>
    simp only [tRecord, List.isEmpty_cons, Bool.false_eq_true, if_false, Term.ast, Erlang.expr, ErlText.astAll, Erlang.exprs]
    simp only [M.pure_bind, nil_joined, M.bind_assoc]
    apply (h.length hw hp hs).bind
    rintro vs ⟨vs', a⟩ ⟨⟨h1, h2⟩, h0⟩
    dsimp only at h1 h2 ⊢
    cases h1 with
    | nil => simp at h0
    | cons h3 h4 => exact MRel.pure ⟨VRel.record htag h3 h4, h2⟩

/-! ### Variables -/

/-- A variable that is bound to the value of an expression. -/
theorem bind_sim {e : Expr} (h : ExprSim RW ap ap' c e) {Γ : Scope} {s t : State} {n : Text} {env : Gleam.Env}
    {env' : Erlang.Env} (hn : Between s t [n]) (hw : e.Wf c.purity Γ) (hp : Places Γ e.locs) (hb : Bounded s env')
    (hs : Sit Γ t env env') :
    MRel RW (fun v r => VRel v r.1 ∧ ∃ a, r.2 = (n, r.1) :: a ∧ Between t (tOne c e t).2 (Erlang.keys a))
      (Gleam.expr ap env e) (Erlang.expr ap' env' (Term.ast false (.bind (.var n) (tOne c e t).1))) := by
  have hn' := hn n (by simp)
  have hu : n ≠ ['_'] := by
    rintro rfl
    exact State.taken_underscore _ hn'.2
  rw [Term.ast, Term.ast, chain, Erlang.expr, ← M.bind_pure (Gleam.expr ap env e)]
  · apply (h.one hw hp hs).bind
    rintro v ⟨v', a⟩ ⟨h1, h2⟩
    have hf : Erlang.fresh (a ++ env') (Erlang.pattern (.var n) v') = .yes [(n, v')] := by
      rw [Erlang.pattern, Erlang.bindVar, if_neg hu]
      unfold Erlang.fresh
      dsimp only
      rw [if_pos]
      have hg : n ∉ Erlang.keys (a ++ env') := by
        intro hc
        rw [keys_append, List.mem_append] at hc
        rcases hc with hc | hc
        · exact (h2 n hc).1 hn'.2
        · exact hn'.1 (hb n hc)
      simp [show Erlang.keys [(n, v')] = [n] from rfl, hg]
    simp only [hf]
    exact MRel.pure ⟨h1, a, rfl, h2⟩
  · simp

/-- The situation after a variable has been bound. -/
theorem Sit.scoped {Γ : Scope} {s : State} {env : Gleam.Env} {env' : Erlang.Env} (hs : Sit Γ s env env') {x : Text} {l : Loc}
    (hx : VariableName x) {e : Expr} {ms : List Loc} (hw : e.Wf c.purity Γ) (hp : Places Γ (l :: (e.locs ++ ms)))
    {v : Gleam.Value} {v' : Erlang.Value} (hv : VRel v v') {a : Erlang.Env}
    (ha : Between (s.newVar x l).2 (tOne c e (s.newVar x l).2).2 (Erlang.keys a)) :
    Sit ((x, l) :: Γ) (tOne c e (s.newVar x l).2).2 ((x, v) :: env) (((s.newVar x l).1, v') :: a ++ env') ∧
      Between s (tOne c e (s.newVar x l).2).2 (Erlang.keys (((s.newVar x l).1, v') :: a)) := by
  have h1 := newVar_step s x l
  have h2 := tOne_step hw (s.newVar x l).2
  have hb : Between s (tOne c e (s.newVar x l).2).2 (Erlang.keys (((s.newVar x l).1, v') :: a)) :=
    (newVar_between s hx l).append ha (fun n hn => h1.mono hn) fun n hn => h2.mono hn
  refine ⟨?_, hb⟩
  have h3 := hs.step (h1.trans h2) (by
    intro m hm
    refine hp.2 m ?_
    simp only [List.cons_append, List.nil_append, List.mem_cons, List.mem_append] at hm ⊢
    exact hm.imp id Or.inl) hb
  refine h3.bind (n := (s.newVar x l).1) (v' := v') ?_ (by simp) hv
  rw [h2.names l, newVar_names]
  intro hc
  exact (List.nodup_cons.1 hp.1).1 (List.mem_append_left _ hc)

theorem Places.one {Γ : Scope} {x : Text} {l : Loc} {ls ms : List Loc} (h : Places Γ (l :: (ls ++ ms))) :
    Places ((x, l) :: Γ) ms := by
  have : Places Γ ([(x, l)].map Prod.snd ++ ms) := h.sub (by simp)
  exact this.under

theorem Places.first {Γ : Scope} {l : Loc} {ls ms : List Loc} (h : Places Γ (l :: (ls ++ ms))) : Places Γ ls :=
  h.sub (List.Sublist.cons _ (List.sublist_append_left _ _))

/-- An expression after a bound variable. -/
theorem scoped_sim {e : Expr} (h : ExprSim RW ap ap' c e) {Γ : Scope} {s : State} {env : Gleam.Env} {env' : Erlang.Env}
    {x : Text} {l : Loc} (hx : VariableName x) (hw : e.Wf c.purity Γ) {ms : List Loc}
    (hp : Places Γ (l :: (e.locs ++ ms))) (hs : Sit Γ s env env') {ts : List Term} (hne : ts ≠ []) {u : State}
    (hu : ∀ n, (tOne c e (s.newVar x l).2).2.Taken n → u.Taken n) {k : Gleam.Value → Gleam.Run W Gleam.Value}
    (hk : ∀ v env1, Sit ((x, l) :: Γ) (tOne c e (s.newVar x l).2).2 ((x, v) :: env) env1 →
      MRel RW (RRel (tOne c e (s.newVar x l).2).2 u) (k v) (Erlang.seq ap' env1 (astAll ts))) :
    MRel RW (RRel s u) ((Gleam.expr ap env e).bind k)
      (Erlang.seq ap' env' (astAll (.bind (.var (s.newVar x l).1) (tOne c e (s.newVar x l).2).1 :: ts))) := by
  rw [ErlText.astAll, seq_cons ap' env' _ (astAll_ne hne)]
  have h1 := newVar_step s x l
  apply (bind_sim h (newVar_between s hx l) hw hp.first hs.bounded (hs.step' h1 (by
    intro m hm
    exact hp.2 m (by simp_all)))).bind
  rintro v ⟨v', b⟩ ⟨h2, a, h3, h4⟩
  dsimp only at h2 h3
  subst h3
  obtain ⟨h5, h6⟩ := hs.scoped hx hw hp h2 h4
  rw [← M.bind_pure (k v)]
  apply (hk v _ h5).bind
  rintro w ⟨w', b⟩ ⟨h7, h8⟩
  refine MRel.pure ⟨h7, ?_⟩
  rw [keys_append]
  exact h6.append' h8 (fun n hn => (h1.trans (tOne_step hw _)).mono hn) hu

theorem sim_update_some {x : Text} {l : Loc} {record : Expr} {tag : Text} {es : List Expr} (h : ExprSim RW ap ap' c record)
    (ha : ArgsSim RW ap ap' c es) : ExprSim RW ap ap' c (.update (some (x, l)) record tag es) := by
  intro Γ s env env' hw hp hs
  simp only [Expr.Wf] at hw
  simp only [Expr.locs] at hp
  rw [tExpr, Gleam.expr]
  refine scoped_sim h hw.1 hw.2.2.1 hp hs (by simp) (fun n hn => (tArgs_step c _ es hw.2.2.2 _).mono hn) ?_
  intro v env1 hs1
  simp only [ErlText.astAll, seq_one]
  exact record_sim ha hw.2.1 hw.2.2.2 hp.one hs1

theorem sim_update_none {record : Expr} {tag : Text} {es : List Expr} (ha : ArgsSim RW ap ap' c es) :
    ExprSim RW ap ap' c (.update none record tag es) := by
  intro Γ s env env' hw hp hs
  simp only [Expr.Wf] at hw
  simp only [Expr.locs] at hp
  rw [tExpr, Gleam.expr]
  simp only [ErlText.astAll, seq_one]
  exact record_sim ha hw.1 hw.2 hp hs

theorem tExpr_ne (s : State) (e : Expr) : (tExpr c s e).1 ≠ [] := by
  by_cases h : needsWrap c.purity e = true
  · cases e with
    | update a r tag es =>
      cases a with
      | none => simp [needsWrap] at h
      | some a => simp [tExpr]
    | pipe x l v r => simp [tExpr]
    | bin op l r =>
      have hd : ∀ how op' left right s, (tDivision how op' left right s).1 ≠ [] := by
        intro how op' left right s
        match how with
        | .zero | .leftThenZero | .plain | .matchRight false | .matchRight true => simp [tDivision]
      cases op <;> first | (rw [tExpr]; exact hd _ _ _ _ _) | simp [needsWrap] at h
    | _ => simp [needsWrap] at h
  · simp only [Bool.not_eq_true] at h
    obtain ⟨t, ht⟩ := tExpr_single c e h s
    simp [ht]

theorem sim_pipe {x : Text} {l : Loc} {value rest : Expr} (h : ExprSim RW ap ap' c value)
    (hr : ExprSim RW ap ap' c rest) : ExprSim RW ap ap' c (.pipe x l value rest) := by
  intro Γ s env env' hw hp hs
  simp only [Expr.Wf] at hw
  simp only [Expr.locs] at hp
  rw [tExpr, Gleam.expr]
  refine scoped_sim h hw.1 hw.2.1 hp hs (tExpr_ne _ _) (fun n hn => (tExpr_step c _ rest hw.2.2 _).mono hn) ?_
  intro v env1 hs1
  exact hr _ _ _ _ hw.2.2 hp.one hs1

/-! ### Calls -/

theorem sim_call_ctor {tag : Text} {n : Nat} {es : List Expr} (ha : ArgsSim RW ap ap' c es) :
    ExprSim RW ap ap' c (.call (.ctor tag n) es) := by
  intro Γ s env env' hw hp hs
  simp only [Expr.Wf] at hw
  simp only [Expr.locs, List.nil_append] at hp
  rw [tExpr, Gleam.expr]
  simp only [ErlText.astAll, seq_one]
  exact record_sim ha hw.2.1 hw.2.2 hp hs

theorem erlangModuleName_erlang {m : Text} (h : ErlText.erlangModuleName m = "erlang".toList) : m = "erlang".toList := by
  have key : ∀ (m t : Text), '@' ∉ t → ErlText.erlangModuleName m = t → m = t := by
    intro m
    induction m with
    | nil => intro t _ h; simpa [ErlText.erlangModuleName] using h
    | cons d m ih =>
      intro t ht h
      cases t with
      | nil => simp [ErlText.erlangModuleName] at h
      | cons e t =>
        simp only [ErlText.erlangModuleName, List.map_cons, List.cons.injEq] at h
        have h1 := ih t (fun hc => ht (List.mem_cons_of_mem _ hc)) h.2
        have h2 : d = e := by
          by_cases hd : d = '/'
          · exfalso
            apply ht
            rw [← h.1, if_pos hd]
            simp
          · rw [if_neg hd] at h
            exact h.1
        rw [h1, h2]
  exact key m _ (by decide) h

theorem escapeName_plain {f t : Text} (ht : t ≠ "moduleInfo".toList) (h : escapeName f = t) : f = t := by
  unfold escapeName at h
  split at h
  · exact absurd h.symm ht
  · exact h

theorem sim_call_remote (hcalls : Calls RW ap ap') {m f : Text} {n : Nat} {es : List Expr} (ha : ArgsSim RW ap ap' c es) :
    ExprSim RW ap ap' c (.call (.fnRef (some m) f n) es) := by
  intro Γ s env env' hw hp hs
  simp only [Expr.Wf] at hw
  simp only [Expr.locs, List.nil_append] at hp
  rw [tExpr, Gleam.expr]
  · simp only [ErlText.astAll, seq_one, Term.ast, Gleam.expr, M.pure_bind]
    rw [expr_remote]
    apply (ha Γ s env env' hw.2.2 hp hs).bind
    rintro vs ⟨vs', a⟩ ⟨h1, h2⟩
    dsimp only at h1 h2 ⊢
    obtain ⟨-, -, hm⟩ := hw.2.1
    rw [if_neg, if_neg, ← M.bind_pure (ap (.fn (some m) f n) vs)]
    · apply (hcalls.name (some m) f n vs vs' h1).bind
      intro v v' hv
      exact MRel.pure ⟨hv, h2⟩
    · rintro ⟨h3, h4⟩
      exact hm ⟨erlangModuleName_erlang h3, Or.inr (escapeName_plain (by decide) h4)⟩
    · rintro ⟨h3, h4⟩
      exact hm ⟨erlangModuleName_erlang h3, Or.inl (escapeName_plain (by decide) h4)⟩
  · simp

theorem sim_call_local (hcalls : Calls RW ap ap') {f : Text} {n : Nat} {es : List Expr} (ha : ArgsSim RW ap ap' c es) :
    ExprSim RW ap ap' c (.call (.fnRef none f n) es) := by
  intro Γ s env env' hw hp hs
  simp only [Expr.Wf] at hw
  simp only [Expr.locs, List.nil_append] at hp
  rw [tExpr, Gleam.expr]
  · simp only [ErlText.astAll, seq_one, Term.ast, Gleam.expr, M.pure_bind, Erlang.expr]
    apply (ha Γ s env env' hw.2.2 hp hs).bind
    rintro vs ⟨vs', a⟩ ⟨h1, h2⟩
    dsimp only at h1 h2 ⊢
    rw [← M.bind_pure (ap (.fn none f n) vs)]
    apply (hcalls.name none f n vs vs' h1).bind
    intro v v' hv
    exact MRel.pure ⟨hv, h2⟩
  · simp

/-- What is called is not written as an atom or as `module:function`. -/
def Called (e : ErlText.Read.Ast) : Prop := (∀ a, e ≠ .atom a) ∧ ∀ m f, e ≠ .remote m f

theorem expr_call (env' : Erlang.Env) {f : ErlText.Read.Ast} (h : Called f) (es : List ErlText.Read.Ast) :
    Erlang.expr ap' env' (.call f es) = (Erlang.expr ap' env' f).bind fun p => (Erlang.exprs ap' env' es).bind fun q =>
      Erlang.joined p.2 q.2 fun c => (ap' p.1 q.1).bind fun r => M.pure (r, c) := by
  rw [Erlang.expr]
  · intro m f' hc; exact h.2 _ _ hc
  · intro a hc; exact h.1 a hc

theorem callee_called : ∀ (f : Expr) (s : State), f.callee = true → (∀ tag n, f ≠ .ctor tag n) →
    Called ((tOne c f s).1.ast false)
  | .block [.expr e], s, h, _ => by
    have he : tOne c (.block [.expr e]) s = tOne c e s := by
      simp [tOne, tMaybe, oneTerm, tExpr, needsWrap]
    simp only [Expr.callee] at h
    rw [he]
    cases e with
    | ctor tag n =>
      cases n with
      | zero => simp [Expr.callee] at h
      | succ n => simp [tOne, tMaybe, oneTerm, tExpr, needsWrap, Called, Term.ast, tRecordBuilder]
    | _ => exact callee_called _ s h (by simp)
  | .block [], s, _, _ => by simp [tOne, tMaybe, oneTerm, tExpr, needsWrap, Called, Term.ast]
  | .block [.let_ _ _], s, _, _ => by simp [tOne, tMaybe, oneTerm, tExpr, needsWrap, Called, Term.ast]
  | .block [.letAssert _ _ _ _], s, _, _ => by simp [tOne, tMaybe, oneTerm, tExpr, needsWrap, Called, Term.ast]
  | .block (_ :: _ :: _), s, _, _ => by simp [tOne, tMaybe, oneTerm, tExpr, needsWrap, Called, Term.ast]
  | .int _, s, h, _ => by simp [Expr.callee] at h
  | .string _, s, h, _ => by simp [Expr.callee] at h
  | .var _ _, s, _, _ => by simp [tOne, tMaybe, oneTerm, tExpr, needsWrap, Called, Term.ast]
  | .ctor tag n, s, _, h => absurd rfl (h tag n)
  | .fnRef _ _ _, s, _, _ => by simp [tOne, tMaybe, oneTerm, tExpr, needsWrap, Called, Term.ast]
  | .const k, s, h, _ => by simp [Expr.callee] at h
  | .not _, s, h, _ => by simp [Expr.callee] at h
  | .neg _, s, h, _ => by simp [Expr.callee] at h
  | .bin op l r, s, h, _ => by simp [Expr.callee] at h
  | .nil, s, h, _ => by simp [Expr.callee] at h
  | .cons _ _, s, h, _ => by simp [Expr.callee] at h
  | .tuple _, s, h, _ => by simp [Expr.callee] at h
  | .index _ _, s, _, _ => by simp [tOne, tMaybe, oneTerm, tExpr, needsWrap, Called, Term.ast]
  | .field _ _, s, _, _ => by simp [tOne, tMaybe, oneTerm, tExpr, needsWrap, Called, Term.ast]
  | .update _ _ _ _, s, h, _ => by simp [Expr.callee] at h
  | .fn _ _, s, _, _ => by simp [tOne, tMaybe, oneTerm, tExpr, needsWrap, Called, Term.ast]
  | .call f es, s, h, _ => by
    cases f with
    | ctor tag n => simp [Expr.callee] at h
    | fnRef m f n => cases m <;> simp [tOne, tMaybe, oneTerm, tExpr, needsWrap, Called, Term.ast]
    | _ => simp [tOne, tMaybe, oneTerm, tExpr, needsWrap, Called, Term.ast]
  | .pipe _ _ _ _, s, _, _ => by simp [tOne, tMaybe, oneTerm, needsWrap, Called, Term.ast]
  | .fail _ _ none, s, _, _ => by simp [tOne, tMaybe, oneTerm, tExpr, needsWrap, Called, Term.ast, tError]
  | .fail _ _ (some _), s, _, _ => by simp [tOne, tMaybe, oneTerm, tExpr, needsWrap, Called, Term.ast, tError]
  | .case_ [] _, s, _, _ => by simp [tOne, tMaybe, oneTerm, tExpr, needsWrap, Called, Term.ast]
  | .case_ [_] _, s, _, _ => by simp [tOne, tMaybe, oneTerm, tExpr, needsWrap, Called, Term.ast]
  | .case_ (_ :: _ :: _) _, s, _, _ => by simp [tOne, tMaybe, oneTerm, tExpr, needsWrap, Called, Term.ast]

theorem sim_call (hcalls : Calls RW ap ap') {f : Expr} {es : List Expr} (h1 : ∀ tag n, f ≠ .ctor tag n)
    (h2 : ∀ m g n, f ≠ .fnRef m g n) (h : ExprSim RW ap ap' c f) (ha : ArgsSim RW ap ap' c es) :
    ExprSim RW ap ap' c (.call f es) := by
  intro Γ s env env' hw hp hs
  simp only [Expr.Wf] at hw
  simp only [Expr.locs] at hp
  have ht : tExpr c s (.call f es) = ([.call (tOne c f s).1 (tArgs c (tOne c f s).2 es).1],
      (tArgs c (tOne c f s).2 es).2) := by
    rw [tExpr]
    · exact h1
    · intro m g n; exact h2 _ _ _
    · intro g n; exact h2 _ _ _
  rw [ht, Gleam.expr]
  · simp only [ErlText.astAll, seq_one, Term.ast]
    rw [expr_call env' (callee_called f s hw.1 h1)]
    apply (h.one hw.2.1 hp.left hs).bind
    rintro v ⟨v', a⟩ ⟨h3, h4⟩
    apply (ha Γ _ env env' hw.2.2 hp.right (hs.after hw.2.1 hp.left)).bind
    rintro vs ⟨vs', b⟩ ⟨h5, h6⟩
    dsimp only at h3 h4 h5 h6 ⊢
    simp only [Erlang.joined, join_between h4 h6, M.ofOption, M.pure_bind]
    rw [← M.bind_pure (ap v vs)]
    apply (hcalls.value v v' vs vs' h3 h5).bind
    intro u u' hu
    refine MRel.pure ⟨hu, ?_⟩
    rw [keys_append]
    exact h4.append h6 (fun n hn => (tOne_step hw.2.1 s).mono hn) fun n hn => (tArgs_step c Γ es hw.2.2 _).mono hn
  · exact h1

end

end Verif.ErlGen
