import Verif.ErlGen.ExprSim2

/-!
# Expressions: errors, division and blocks
-/

namespace Verif.ErlGen

open Verif.ErlText (Text Term astAll chain)
open Verif.Strings.Spec (Piece text UpperCamel)

section

variable {W W' : Type} {RW : W → W' → Prop} {ap : Gleam.Value → List Gleam.Value → Gleam.Run W Gleam.Value}
  {ap' : Erlang.Value → List Erlang.Value → Erlang.Run W' Erlang.Value} {c : Context}

/-! ### Errors -/

theorem fields_cons {env' : Erlang.Env} {fs : List ErlText.Field} {m : List (Text × Erlang.Value)} {k : Text} {t : Term}
    {v : Erlang.Value} (hf : Erlang.fields ap' env' (ErlText.fieldAst fs) = M.pure (m, []))
    (ht : Erlang.expr ap' env' (t.ast false) = M.pure (v, [])) (hk : k ∉ Erlang.keys m) :
    Erlang.fields ap' env' (ErlText.fieldAst (.mk (.atom k) t :: fs)) = M.pure ((k, v) :: m, []) := by
  simp only [ErlText.fieldAst, Term.ast, Erlang.fields, ht, hf, M.pure_bind, joined_nil, if_neg hk]

theorem fields_message {env' : Erlang.Env} {fs : List ErlText.Field} {m : List (Text × Erlang.Value)} {k : Text} {t : Term}
    (hf : Erlang.fields ap' env' (ErlText.fieldAst fs) = M.pure (m, [])) (hk : k ∉ Erlang.keys m) :
    Erlang.fields ap' env' (ErlText.fieldAst (.mk (.atom k) t :: fs)) =
      (Erlang.expr ap' env' (t.ast false)).bind fun r => M.pure ((k, r.1) :: m, r.2) := by
  simp only [ErlText.fieldAst, Term.ast, Erlang.fields, hf, M.pure_bind, joined_nil, if_neg hk]

/-- The other fields of an error. -/
def otherKeys : List Text :=
  ["value".toList, "start".toList, "end".toList, "pattern_start".toList, "pattern_end".toList]

/-- The fields of an error other than its kind and its message. -/
theorem lookup_cons_ne {α : Type} {k k' : Text} (h : k ≠ k') (v : α) (l : List (Text × α)) :
    ((k', v) :: l).lookup k = l.lookup k := by
  rw [List.lookup_cons, beq_eq_false_iff_ne.2 h]

theorem error_rest (hc : ContextOk c) (env' : Erlang.Env) (line : Nat) {fs : List ErlText.Field}
    {m : List (Text × Erlang.Value)} (hf : Erlang.fields ap' env' (ErlText.fieldAst fs) = M.pure (m, []))
    (hk : ∀ k ∈ Erlang.keys m, k ∈ otherKeys) :
    ∃ rest, Erlang.fields ap' env' (ErlText.fieldAst (.mk (.atom "file".toList) (.string c.file) ::
      .mk (.atom "module".toList) (.string c.moduleName) :: .mk (.atom "function".toList) (.string c.function) ::
      .mk (.atom "line".toList) (.int line) :: fs)) = M.pure (rest, []) ∧
      "gleam_error".toList ∉ Erlang.keys rest ∧ "message".toList ∉ Erlang.keys rest ∧
      rest.lookup "line".toList = some (.int line) ∧ ∀ k ∈ otherKeys, rest.lookup k = m.lookup k := by
  obtain ⟨p1, l1, e1⟩ := hc.file
  obtain ⟨p2, l2, e2⟩ := hc.moduleName
  obtain ⟨p3, l3, e3⟩ := hc.function
  obtain ⟨v1, h1⟩ := literal_some l1
  obtain ⟨v2, h2⟩ := literal_some l2
  obtain ⟨v3, h3⟩ := literal_some l3
  have g4 := fields_cons (k := "line".toList) hf (expr_int ap' env' false line)
    (fun h => absurd (hk _ h) (by decide))
  have g3 := fields_cons (k := "function".toList) g4 (expr_string ap' env' h3) (by
    intro h
    simp only [Erlang.keys, List.map_cons, List.mem_cons] at h
    rcases h with h | h
    · exact absurd h (by decide)
    · exact absurd (hk _ h) (by decide))
  have g2 := fields_cons (k := "module".toList) g3 (expr_string ap' env' h2) (by
    intro h
    simp only [Erlang.keys, List.map_cons, List.mem_cons] at h
    rcases h with h | h | h
    · exact absurd h (by decide)
    · exact absurd h (by decide)
    · exact absurd (hk _ h) (by decide))
  have g1 := fields_cons (k := "file".toList) g2 (expr_string ap' env' h1) (by
    intro h
    simp only [Erlang.keys, List.map_cons, List.mem_cons] at h
    rcases h with h | h | h | h
    · exact absurd h (by decide)
    · exact absurd h (by decide)
    · exact absurd h (by decide)
    · exact absurd (hk _ h) (by decide))
  rw [e1, e2, e3]
  refine ⟨_, g1, ?_, ?_, rfl, ?_⟩
  · intro h
    simp only [Erlang.keys, List.map_cons, List.mem_cons] at h
    rcases h with h | h | h | h | h <;> first | exact absurd h (by decide) | exact absurd (hk _ h) (by decide)
  · intro h
    simp only [Erlang.keys, List.map_cons, List.mem_cons] at h
    rcases h with h | h | h | h | h <;> first | exact absurd h (by decide) | exact absurd (hk _ h) (by decide)
  · intro k hk
    have h1 : k ≠ "file".toList ∧ k ≠ "module".toList ∧ k ≠ "function".toList ∧ k ≠ "line".toList := by
      revert k
      decide
    rw [lookup_cons_ne h1.1, lookup_cons_ne h1.2.1, lookup_cons_ne h1.2.2.1, lookup_cons_ne h1.2.2.2]

/-- An error: its message is evaluated first. -/
theorem expr_error (hc : ContextOk c) (env' : Erlang.Env) (kind : ErrorKind) (line : Nat) (message : Option TGen) (s : State)
    {fs : List ErlText.Field} {m : List (Text × Erlang.Value)}
    (hf : Erlang.fields ap' env' (ErlText.fieldAst fs) = M.pure (m, [])) (hk : ∀ k ∈ Erlang.keys m, k ∈ otherKeys) :
    ∃ rest, (Erlang.expr ap' env' ((tError c kind line message fs s).1.ast false) =
      (Erlang.expr ap' env' ((tMessage kind message s).1.ast false)).bind fun r =>
        M.error (.map (("gleam_error".toList, .atom kind.atom) :: ("message".toList, r.1) :: rest))) ∧
      rest.lookup "line".toList = some (.int line) ∧ ∀ k ∈ otherKeys, rest.lookup k = m.lookup k := by
  obtain ⟨rest, h1, h2, h3, hl1, hl2⟩ := error_rest hc env' line hf hk
  refine ⟨rest, ?_, hl1, hl2⟩
  simp only [tError, List.cons_append, List.nil_append, Term.ast]
  rw [expr_remote]
  have h4 := fields_message (t := (tMessage kind message s).1) h1 h3
  have h5 : Erlang.fields ap' env' (ErlText.fieldAst (.mk (.atom "gleam_error".toList) (.atom kind.atom) ::
      .mk (.atom "message".toList) (tMessage kind message s).1 ::
      .mk (.atom "file".toList) (.string c.file) ::
      .mk (.atom "module".toList) (.string c.moduleName) :: .mk (.atom "function".toList) (.string c.function) ::
      .mk (.atom "line".toList) (.int line) :: fs)) =
      (Erlang.expr ap' env' ((tMessage kind message s).1.ast false)).bind fun r =>
        M.pure (("gleam_error".toList, .atom kind.atom) :: ("message".toList, r.1) :: rest, r.2) := by
    rw [ErlText.fieldAst, Term.ast, Term.ast, Erlang.fields, Erlang.expr, M.pure_bind, h4]
    dsimp only
    rw [M.bind_assoc]
    congr 1
    funext r
    rw [M.pure_bind]
    simp only [nil_joined]
    rw [if_neg]
    intro h
    simp only [Erlang.keys, List.map_cons, List.mem_cons] at h
    rcases h with h | h
    · exact absurd h (by decide)
    · exact h2 h
  simp only [ErlText.astAll, Term.ast, Erlang.exprs, Erlang.expr, h5, M.bind_assoc, M.pure_bind, joined_nil]
  simp

theorem default_message (env' : Erlang.Env) (kind : ErrorKind) :
    Erlang.expr ap' env' (Term.ast false (.string kind.defaultMessage)) =
      M.pure (.str (Gleam.ErrorKind.message kind).toList, []) := by
  have h : Erlang.string (Strings.escapeErlang 0 kind.defaultMessage) = some (Gleam.ErrorKind.message kind).toList := by
    cases kind <;> decide +kernel
  simp only [Term.ast, Bool.false_eq_true, if_false, Erlang.expr, h, Option.map_some, M.ofOption]

theorem assertRel_of {m fields : List (Text × Erlang.Value)} {a : Option (Gleam.Value × AssertInfo)} (h : AssertRel m a)
    (hl : ∀ k ∈ otherKeys, fields.lookup k = m.lookup k) : AssertRel fields a := by
  cases a with
  | none => trivial
  | some a =>
    obtain ⟨⟨v', h1, h2⟩, h3, h4, h5, h6⟩ := h
    refine ⟨⟨v', h1, ?_⟩, ?_, ?_, ?_, ?_⟩
    · rw [hl _ (by decide), h2]
    · rw [hl _ (by decide), h3]
    · rw [hl _ (by decide), h4]
    · rw [hl _ (by decide), h5]
    · rw [hl _ (by decide), h6]

theorem errRel_map (kind : ErrorKind) (message : List Char) {line : Nat} {a : Option (Gleam.Value × AssertInfo)}
    {m rest : List (Text × Erlang.Value)} (h1 : rest.lookup "line".toList = some (.int line)) (ha : AssertRel m a)
    (h2 : ∀ k ∈ otherKeys, rest.lookup k = m.lookup k) :
    ErrRel ⟨kind, message, line, a⟩
      (.map (("gleam_error".toList, .atom kind.atom) :: ("message".toList, .str message) :: rest)) := by
  refine ⟨_, rfl, by simp, by rfl, ?_, assertRel_of ha ?_⟩
  · rw [lookup_cons_ne (by decide), lookup_cons_ne (by decide), h1]
  · intro k hk
    have h3 : k ≠ "gleam_error".toList ∧ k ≠ "message".toList := by
      revert k
      decide
    rw [lookup_cons_ne h3.1, lookup_cons_ne h3.2, h2 k hk]

theorem MRel.error {α β : Type} {R : α → β → Prop} {p : Gleam.Panic} {e : Erlang.Value} (h : ErrRel p e) :
    MRel RW R (M.error p : Gleam.Run W α) (M.error e : Erlang.Run W' β) := fun _ _ hw => ⟨h, hw⟩

/-- Errors without a message. -/
theorem error_none {β : Type} {R : Gleam.Value → β → Prop} (hc : ContextOk c) (env' : Erlang.Env) (kind : ErrorKind) (line : Nat)
    (s : State) {fs : List ErlText.Field} {m : List (Text × Erlang.Value)}
    (hf : Erlang.fields ap' env' (ErlText.fieldAst fs) = M.pure (m, [])) (hk : ∀ k ∈ Erlang.keys m, k ∈ otherKeys)
    {a : Option (Gleam.Value × AssertInfo)} (ha : AssertRel m a) {f : Erlang.Result → Erlang.Run W' β} :
    MRel RW R (M.error ⟨kind, (Gleam.ErrorKind.message kind).toList, line, a⟩)
      ((Erlang.expr ap' env' ((tError c kind line none fs s).1.ast false)).bind f) := by
  obtain ⟨rest, h, h1, h2⟩ := expr_error hc env' kind line none s hf hk
  rw [h]
  simp only [tMessage, default_message, M.pure_bind, M.error_bind]
  exact MRel.error (errRel_map _ _ h1 ha h2)

/-- Errors with a message. -/
theorem error_some {β : Type} {R : Gleam.Value → β → Prop} {e : Expr} (h : ExprSim RW ap ap' c e) (hc : ContextOk c)
    {Γ : Scope} {s : State} {env : Gleam.Env} {env' : Erlang.Env} (hw : e.Wf c.purity Γ) (hp : Places Γ e.locs)
    (hs : Sit Γ s env env') (kind : ErrorKind) (line : Nat) {fs : List ErlText.Field} {m : List (Text × Erlang.Value)}
    (hf : Erlang.fields ap' env' (ErlText.fieldAst fs) = M.pure (m, [])) (hk : ∀ k ∈ Erlang.keys m, k ∈ otherKeys)
    {a : Option (Gleam.Value × AssertInfo)} (ha : AssertRel m a) {f : Erlang.Result → Erlang.Run W' β} :
    MRel RW R ((Gleam.expr ap env e).bind fun v => Gleam.panicWith kind line a v)
      ((Erlang.expr ap' env' ((tError c kind line (some (tOne c e)) fs s).1.ast false)).bind f) := by
  obtain ⟨rest, h1, hl1, hl2⟩ := expr_error hc env' kind line (some (tOne c e)) s hf hk
  rw [h1, M.bind_assoc]
  apply (h.one hw hp hs).bind
  rintro v ⟨v', a⟩ ⟨h2, h3⟩
  simp only [M.error_bind]
  cases h2 with
  | str t => exact MRel.error (errRel_map _ _ hl1 ha hl2)
  | _ => exact MRel.stuck

theorem no_fields (env' : Erlang.Env) :
    Erlang.fields ap' env' (ErlText.fieldAst []) = M.pure ([], []) := by rw [ErlText.fieldAst, Erlang.fields]

theorem sim_fail_none (hc : ContextOk c) (kind : ErrorKind) (line : Nat) : ExprSim RW ap ap' c (.fail kind line none) := by
  intro Γ s env env' hw hp hs
  rw [tExpr, Gleam.expr]
  simp only [ErlText.astAll, seq_one]
  rw [← M.bind_pure (Erlang.expr ap' env' _)]
  exact error_none hc env' kind line s (no_fields env') (by simp [Erlang.keys]) (a := none) trivial

theorem sim_fail_some (hc : ContextOk c) (kind : ErrorKind) (line : Nat) {e : Expr} (h : ExprSim RW ap ap' c e) :
    ExprSim RW ap ap' c (.fail kind line (some e)) := by
  intro Γ s env env' hw hp hs
  simp only [Expr.Wf] at hw
  simp only [Expr.locs] at hp
  rw [tExpr, Gleam.expr]
  simp only [ErlText.astAll, seq_one]
  rw [← M.bind_pure (Erlang.expr ap' env' _)]
  exact error_some h hc hw hp hs kind line (no_fields env') (by simp [Erlang.keys]) (a := none) trivial

/-! ### Division -/

theorem simple_pure (env : Gleam.Env) : ∀ {e : Expr}, e.Simple → ∃ o, Gleam.expr ap env e = M.ofOption o
  | .int n, _ => ⟨some (.int n), by rw [Gleam.expr]; rfl⟩
  | .string ps, _ => ⟨_, by rw [Gleam.expr]⟩
  | .var x _, _ => ⟨_, by rw [Gleam.expr]⟩
  | .const k, _ => ⟨_, by rw [Gleam.expr]⟩
  | .neg e, h => by
    simp only [Expr.Simple] at h
    obtain ⟨o, ho⟩ := simple_pure env h
    rw [Gleam.expr, ho]
    match o with
    | some (.int n) => exact ⟨some (.int (-n)), rfl⟩
    | none | some (.str _) | some (.tuple _) | some .nil | some (.cons _ _) | some (.record _ _) | some (.closure _ _ _)
    | some (.ctor _ _) | some (.fn _ _ _) => exact ⟨none, rfl⟩
  | .index e i, h => by
    simp only [Expr.Simple] at h
    obtain ⟨o, ho⟩ := simple_pure env h
    rw [Gleam.expr, ho]
    match o with
    | some (.tuple vs) => exact ⟨vs[i]?, rfl⟩
    | none | some (.str _) | some (.int _) | some .nil | some (.cons _ _) | some (.record _ _) | some (.closure _ _ _)
    | some (.ctor _ _) | some (.fn _ _ _) => exact ⟨none, rfl⟩
  | .field e i, h => by
    simp only [Expr.Simple] at h
    obtain ⟨o, ho⟩ := simple_pure env h
    rw [Gleam.expr, ho]
    match o with
    | some (.record _ vs) => exact ⟨vs[i]?, rfl⟩
    | none | some (.str _) | some (.int _) | some .nil | some (.cons _ _) | some (.tuple _) | some (.closure _ _ _)
    | some (.ctor _ _) | some (.fn _ _ _) => exact ⟨none, rfl⟩
  | .bin op l r, h => by
    simp only [Expr.Simple] at h
    obtain ⟨o, ho⟩ := simple_pure env h.2.1
    obtain ⟨o', ho'⟩ := simple_pure env h.2.2
    have hb : Gleam.expr ap env (.bin op l r) =
        (Gleam.expr ap env l).bind fun v => (Gleam.expr ap env r).bind fun w => M.ofOption (Gleam.binary op v w) := by
      rcases h.1 with h | h | h <;> subst h <;> rw [Gleam.expr] <;> simp
    rw [hb, ho, ho']
    match o, o' with
    | some v, some w => exact ⟨Gleam.binary op v w, rfl⟩
    | some v, none => exact ⟨none, rfl⟩
    | none, _ => exact ⟨none, rfl⟩

theorem division_some {op : Op} (ho : op = .div ∨ op = .rem) {v w u : Gleam.Value} (h : Gleam.binary op v w = some u) :
    ∃ a b, v = .int a ∧ w = .int b ∧ (b = 0 → u = .int 0) := by
  rcases ho with rfl | rfl <;> cases v <;> cases w <;> simp [Gleam.binary] at h <;> subst h <;>
    exact ⟨_, _, rfl, rfl, fun hb => by simp [hb]⟩

theorem division_op {op : Op} (ho : op = .div ∨ op = .rem) : op ≠ .and ∧ op ≠ .or ∧ op ≠ .concat := by
  rcases ho with rfl | rfl <;> simp

/-- The clauses of a division. -/
theorem division_clauses (env' : Erlang.Env) {d : Text} (hd : d ∉ Erlang.keys env') (hu : d ≠ ['_']) (t : Term) (b : Int) :
    Erlang.clauses ap' env' (.int b) (ErlText.clauseAst [.mk (.int 0) none [.int 0], .mk (.var d) none [t]]) =
      if b = 0 then M.pure (.int 0, []) else
        (Erlang.expr ap' ((d, .int b) :: env') (t.ast false)).bind fun r => M.pure (r.1, r.2 ++ [(d, .int b)]) := by
  have h1 : Erlang.pattern (Term.ast false (.int 0)) (.int b) = if b = 0 then .yes [] else .no := by
    show Erlang.pattern (.int 0) (.int b) = _
    rw [Erlang.pattern]
    by_cases hb : b = 0
    · rw [if_pos hb, if_pos (by simp [hb])]
    · rw [if_neg hb, if_neg (by simpa [eq_comm] using hb)]
  have h2 : Erlang.fresh env' (Erlang.pattern (Term.ast false (.var d)) (.int b)) = .yes [(d, .int b)] := by
    rw [Term.ast, Erlang.pattern, Erlang.bindVar, if_neg hu]
    unfold Erlang.fresh
    dsimp only
    rw [if_pos]
    simp [show Erlang.keys [(d, Erlang.Value.int b)] = [d] from rfl, hd]
  simp only [ErlText.clauseAst, ErlText.astAll]
  rw [Erlang.clauses, h1]
  by_cases hb : b = 0
  · rw [if_pos hb, if_pos hb]
    have h3 : Erlang.fresh env' (.yes []) = .yes [] := by simp [Erlang.fresh, Erlang.keys]
    rw [h3]
    simp only [seq_one, expr_int, M.pure_bind, List.append_nil]
  · rw [if_neg hb, if_neg hb]
    simp only [Erlang.fresh]
    rw [Erlang.clauses, h2]
    simp only [seq_one, List.cons_append, List.nil_append]

theorem sim_division {op : Op} (ho : op = .div ∨ op = .rem) {l r : Expr} (hl : ExprSim RW ap ap' c l)
    (hr : ExprSim RW ap ap' c r) : ExprSim RW ap ap' c (.bin op l r) := by
  intro Γ s env env' hw hp hs
  simp only [Expr.Wf] at hw
  simp only [Expr.locs] at hp
  have hop := division_op ho
  have ht : tExpr c s (.bin op l r) = tDivision (howToDivide c.purity l r) op.erlang (tOne c l) (tOne c r) s := by
    rcases ho with rfl | rfl <;> rw [tExpr] <;> rfl
  have hg : Gleam.expr ap env (.bin op l r) =
      (Gleam.expr ap env l).bind fun v => (Gleam.expr ap env r).bind fun w => M.ofOption (Gleam.binary op v w) := by
    rcases ho with rfl | rfl <;> rw [Gleam.expr] <;> simp
  have hopn : op.erlang.op ≠ .bind ∧ op.erlang.op ≠ .andalso ∧ op.erlang.op ≠ .orelse := by
    rcases ho with rfl | rfl <;> simp [Op.erlang, ErlText.BinOp.op]
  rw [ht, hg]
  have hdiv := hw.2.2.2 ho
  match hh : howToDivide c.purity l r with
  | .zero =>
    obtain ⟨h1, rfl⟩ := division_zero c hh hdiv
    obtain ⟨o, h2⟩ := simple_pure (ap := ap) env h1
    rw [h2]
    simp only [tDivision, ErlText.astAll, seq_one, expr_int]
    cases o with
    | none => exact MRel.stuck
    | some v =>
      rw [Gleam.expr]
      simp only [M.ofOption, M.pure_bind]
      apply MRel.ofOption
      intro u hu
      obtain ⟨a, b, -, hb, h3⟩ := division_some ho hu
      cases hb
      rw [h3 rfl]
      exact MRel.pure ⟨VRel.int 0, Between.nil _ _⟩
  | .leftThenZero =>
    have h1 := division_leftThenZero c hh
    subst h1
    simp only [tDivision, ErlText.astAll]
    rw [seq_cons ap' env' _ (by simp)]
    apply (hl.one hw.1 hp.left hs).bind
    rintro v ⟨v', a⟩ ⟨h2, h3⟩
    rw [Gleam.expr]
    simp only [M.pure_bind, seq_one, expr_int, List.nil_append]
    apply MRel.ofOption
    intro u hu
    obtain ⟨a, b, -, hb, h4⟩ := division_some ho hu
    cases hb
    rw [h4 rfl]
    exact MRel.pure ⟨VRel.int 0, h3⟩
  | .plain =>
    obtain ⟨n, hn, rfl⟩ := division_plain c hh
    simp only [tDivision, ErlText.astAll, seq_one, Term.ast]
    rw [expr_binary ap' env' _ _ hopn.1 hopn.2.1 hopn.2.2]
    apply (hl.one hw.1 hp.left hs).bind
    rintro v ⟨v', a⟩ ⟨h2, h3⟩
    have h4 : ∀ s, (tOne c (.int n) s) = (.int n, s) := by
      intro s; simp [tOne, tMaybe, oneTerm, tExpr, needsWrap]
    rw [Gleam.expr]
    simp only [h4, M.pure_bind, expr_int, joined_nil]
    apply MRel.ofOption
    intro u hu
    obtain ⟨u', h5, h6⟩ := binary_rel (W := W') h2 (VRel.int n) hu hop.2.2 (by simp [hn]) (Or.inl rfl)
    rw [h5, M.pure_bind]
    exact MRel.pure ⟨h6, h3⟩
  | .matchRight false =>
    simp only [tDivision, ErlText.astAll]
    rw [seq_cons ap' env' _ (by simp)]
    have hn := newGenerated_between s
    have hns := newGenerated_step s
    generalize s.newGenerated = n at *
    have hsn : Sit Γ n.2 env env' := hs.step' hns (by simp)
    apply (bind_sim hl hn hw.1 hp.left hs.bounded hsn).bind
    rintro v ⟨v', a'⟩ ⟨h1, a, h2, h3⟩
    dsimp only at h1 h2
    subst h2
    have hst := hns.trans (tOne_step hw.1 n.2)
    have hna : Between s (tOne c l n.2).2 (Erlang.keys ((n.1, v') :: a)) :=
      hn.append h3 (fun m hm => hns.mono hm) fun m hm => (tOne_step hw.1 n.2).mono hm
    have hs2 := hs.step hst (by simpa using hp.left.2) hna
    generalize htl : tOne c l n.2 = tl at *
    simp only [Term.ast, Erlang.expr, seq_one]
    simp only [M.bind_assoc]
    apply (hr.one hw.2.1 hp.right hs2).bind
    rintro w ⟨w', b⟩ ⟨h4, h5⟩
    dsimp only at h4 h5 ⊢
    apply MRel.ofOption
    intro u hu
    obtain ⟨x, y, rfl, rfl, h6⟩ := division_some ho hu
    cases h1
    cases h4
    have hd := newGenerated_between (tOne c r tl.2).2
    have hds := newGenerated_step (tOne c r tl.2).2
    have htr := tOne_step hw.2.1 tl.2
    generalize tOne c r tl.2 = tr at *
    generalize tr.2.newGenerated = d at *
    have hdn := hd d.1 (by simp)
    have hall : Bounded tr.2 (b ++ ((n.1, .int x) :: a ++ env')) := hs2.bounded.append h5 fun m hm => htr.mono hm
    rw [division_clauses _ (fun hc => hdn.1 (hall _ hc)) (by
      rintro he
      rw [he] at hdn
      exact State.taken_underscore _ hdn.2)]
    have hk : Between s d.2 (Erlang.keys (b ++ ((n.1, .int x) :: a))) := by
      rw [keys_append]
      refine (hna.append' h5 (fun m hm => hst.mono hm) fun m hm => htr.mono hm).append' (bs := []) (Between.nil _ _)
        (fun m hm => (hst.trans htr).mono hm) fun m hm => hds.mono hm
    by_cases hy : y = 0
    · rw [if_pos hy, h6 hy]
      simp only [M.pure_bind, List.nil_append]
      exact MRel.pure ⟨VRel.int 0, hk⟩
    · rw [if_neg hy]
      simp only [Term.ast, M.bind_assoc]
      rw [expr_binary ap' _ _ _ hopn.1 hopn.2.1 hopn.2.2]
      have hne : n.1 ≠ d.1 := by
        intro he
        have : tr.2.Taken n.1 := htr.mono ((hna n.1 (by simp [Erlang.keys])).2)
        rw [he] at this
        exact hdn.1 this
      have hnb : n.1 ∉ Erlang.keys b := by
        intro hc
        exact (h5 n.1 hc).1 (hna n.1 (by simp [Erlang.keys])).2
      have hlook : List.lookup n.1 ((d.1, Erlang.Value.int y) :: (b ++ ((n.1, .int x) :: a ++ env'))) = some (.int x) := by
        rw [List.lookup_cons]
        have : (n.1 == d.1) = false := by simpa using hne
        rw [this]
        dsimp only
        rw [lookup_append_of_not_mem hnb]
        simp
      have hlook' : List.lookup d.1 ((d.1, Erlang.Value.int y) :: (b ++ ((n.1, .int x) :: a ++ env'))) = some (.int y) := by
        simp
      simp only [Erlang.expr, hlook, hlook', Option.map_some, M.ofOption, M.pure_bind, joined_nil]
      obtain ⟨u', h7, h8⟩ := binary_rel (W := W') (VRel.int x) (VRel.int y) hu hop.2.2 (by simp [hy]) (Or.inl rfl)
      rw [h7]
      simp only [M.pure_bind, List.nil_append]
      refine MRel.pure ⟨h8, ?_⟩
      have hd1 : Between s d.2 [d.1] := by
        intro m hm
        rw [List.mem_singleton] at hm
        subst hm
        exact ⟨fun hc => hdn.1 ((hst.trans htr).mono hc), hdn.2⟩
      intro m hm
      rw [List.append_assoc, keys_append] at hm
      rcases List.mem_append.1 hm with hm | hm
      · exact hd1 m hm
      · exact hk m hm
  | .matchRight true => 
    have hsimple := division_pure c hh hdiv
    obtain ⟨o, h2⟩ := simple_pure (ap := ap) env hsimple
    cases o with
    | none => rw [h2]; exact MRel.stuck
    | some v =>
      have hswap : ((Gleam.expr ap env l).bind fun v => (Gleam.expr ap env r).bind fun w => M.ofOption (Gleam.binary op v w))
          = (Gleam.expr ap env r).bind fun w => (Gleam.expr ap env l).bind fun v => M.ofOption (Gleam.binary op v w) := by
        rw [h2]
        simp only [M.ofOption, M.pure_bind]
      rw [hswap]
      have hlocs := Simple_none hsimple
      rw [hlocs.2, List.nil_append] at hp
      simp only [tDivision, ErlText.astAll, seq_one, Term.ast, Erlang.expr]
      apply (hr.one hw.2.1 hp hs).bind
      rintro w ⟨w', b⟩ ⟨h4, h5⟩
      dsimp only at h4 h5 ⊢
      have htr := tOne_step hw.2.1 s
      generalize tOne c r s = tr at *
      have hd := newGenerated_between tr.2
      have hds := newGenerated_step tr.2
      generalize tr.2.newGenerated = d at *
      have hdn := hd d.1 (by simp)
      have hs2 := hs.step htr hp.2 h5
      have htl := tOne_step hw.1 d.2
      have hk : Between s (tOne c l d.2).2 (Erlang.keys b) := by
        intro m hm
        exact ⟨(h5 m hm).1, htl.mono (hds.mono (h5 m hm).2)⟩
      have hdk : Between s (tOne c l d.2).2 [d.1] := by
        intro m hm
        rw [List.mem_singleton] at hm
        subst hm
        exact ⟨fun hc => hdn.1 (htr.mono hc), htl.mono hdn.2⟩
      cases h4 with
      | int y =>
        rw [division_clauses _ (fun hc => hdn.1 (hs2.bounded _ hc)) (by
          rintro he
          rw [he] at hdn
          exact State.taken_underscore _ hdn.2)]
        by_cases hy : y = 0
        · rw [if_pos hy, h2]
          simp only [M.ofOption, M.pure_bind, List.nil_append]
          apply MRel.ofOption
          intro u hu
          obtain ⟨x, y', rfl, he, h6⟩ := division_some ho hu
          cases he
          rw [h6 hy]
          exact MRel.pure ⟨VRel.int 0, hk⟩
        · rw [if_neg hy]
          simp only [Term.ast, M.bind_assoc]
          rw [expr_binary ap' _ _ _ hopn.1 hopn.2.1 hopn.2.2]
          simp only [M.bind_assoc]
          have hs3 := hs2.step (a := [(d.1, .int y)]) hds (by simp) (by simpa [Erlang.keys] using hd)
          have hpl : Places Γ l.locs := by rw [hlocs.2]; exact ⟨List.nodup_nil, by simp⟩
          apply (hl.one hw.1 hpl hs3).bind
          rintro v1 ⟨v', a⟩ ⟨h7, h8⟩
          dsimp only at h7 h8 ⊢
          have hlook : List.lookup d.1 ((d.1, Erlang.Value.int y) :: (b ++ env')) = some (.int y) := by simp
          simp only [Erlang.expr, hlook, Option.map_some, M.ofOption, M.pure_bind, joined_nil]
          apply MRel.ofOption
          intro u hu
          obtain ⟨u', h9, h10⟩ := binary_rel (W := W') h7 (VRel.int y) hu hop.2.2 (by simp [hy]) (Or.inl rfl)
          rw [h9]
          simp only [M.pure_bind]
          refine MRel.pure ⟨h10, ?_⟩
          intro m hm
          rw [List.append_assoc, keys_append] at hm
          rcases List.mem_append.1 hm with hm | hm
          · exact ⟨fun hc => (h8 m hm).1 (hds.mono (htr.mono hc)), (h8 m hm).2⟩
          · rw [keys_append] at hm
            rcases List.mem_append.1 hm with hm | hm
            · exact hdk m hm
            · exact hk m hm
      | _ =>
        rw [h2]
        simp only [M.ofOption, M.pure_bind]
        apply MRel.ofOption
        intro u hu
        obtain ⟨x, y, -, he, -⟩ := division_some ho hu
        cases he

end

end Verif.ErlGen
