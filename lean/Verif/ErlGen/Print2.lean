import Verif.ErlGen.Print1

/-!
# The generated terms can be printed: expressions, statements and clauses
-/

namespace Verif.ErlGen

open Verif.ErlText (Text Term OkAll OkClauses OkFields OkSegments VarName AtomText wellQuoted Kind)
open Verif.Strings.Spec (Piece text UpperCamel)

section

variable {c : Context}

/-- The terms of an expression can be printed. -/
def ExprOk (c : Context) (e : Expr) : Prop :=
  ∀ Γ s, e.Wf c.purity Γ → Ready Γ s → OkAll .expression (tExpr c s e).1 ∧ Ext s (tExpr c s e).2

def ArgsOk (c : Context) (es : List Expr) : Prop :=
  ∀ Γ s, exprsWf c.purity Γ es → Ready Γ s → OkAll .expression (tArgs c s es).1 ∧ Ext s (tArgs c s es).2

def StmtsOk (c : Context) (ss : List Stmt) : Prop :=
  ∀ Γ s, stmtsWf c.purity Γ ss → Ready Γ s → OkAll .expression (tStmts c s ss).1 ∧ Ext s (tStmts c s ss).2

def BodyOk (c : Context) (e : Expr) : Prop :=
  ∀ Γ s, e.Wf c.purity Γ → Ready Γ s → OkAll .expression (tBody c e s).1 ∧ Ext s (tBody c e s).2

def ClausesOk (c : Context) (cs : List Clause) : Prop :=
  ∀ Γ s, clausesWf c.purity Γ cs → Ready Γ s → OkClauses (tClauses c s cs).1 ∧ Ext s (tClauses c s cs).2

/-! ### Single terms -/

theorem division_operand {how : HowToDivide} {op : ErlText.BinOp} {l r : TGen} {s : State} {t : Term}
    (h : (tDivision how op l r s).1 = [t]) : t.operandLike = true := by
  match how with
  | .zero | .plain | .matchRight true =>
    simp only [tDivision, List.cons.injEq, and_true] at h
    subst h
    rfl
  | .leftThenZero | .matchRight false => simp [tDivision] at h

theorem one_operand : ∀ (e : Expr) (s : State), (tOne c e s).1.operandLike = true
  | .block [.expr e], s => by
    have he : tOne c (.block [.expr e]) s = tOne c e s := by
      simp [tOne, tMaybe, oneTerm, tExpr, needsWrap]
    rw [he]
    exact one_operand e s
  | .block [], s => by simp [tOne, tMaybe, oneTerm, tExpr, needsWrap, Term.operandLike]
  | .block [.let_ _ _], s => by simp [tOne, tMaybe, oneTerm, tExpr, needsWrap, Term.operandLike]
  | .block [.letAssert _ _ _ _], s => by simp [tOne, tMaybe, oneTerm, tExpr, needsWrap, Term.operandLike]
  | .block (_ :: _ :: _), s => by simp [tOne, tMaybe, oneTerm, tExpr, needsWrap, Term.operandLike]
  | .int _, s => by simp [tOne, tMaybe, oneTerm, tExpr, needsWrap, Term.operandLike]
  | .string _, s => by simp [tOne, tMaybe, oneTerm, tExpr, needsWrap, Term.operandLike]
  | .var _ _, s => by simp [tOne, tMaybe, oneTerm, tExpr, needsWrap, Term.operandLike]
  | .ctor _ 0, s => by simp [tOne, tMaybe, oneTerm, tExpr, needsWrap, Term.operandLike]
  | .ctor _ (_ + 1), s => by simp [tOne, tMaybe, oneTerm, tExpr, needsWrap, Term.operandLike, tRecordBuilder]
  | .fnRef _ _ _, s => by simp [tOne, tMaybe, oneTerm, tExpr, needsWrap, Term.operandLike]
  | .const k, s => by simpa [tOne, tMaybe, oneTerm, tExpr, needsWrap] using const_operand k
  | .not _, s => by simp [tOne, tMaybe, oneTerm, tExpr, needsWrap, Term.operandLike]
  | .neg _, s => by simp [tOne, tMaybe, oneTerm, tExpr, needsWrap, Term.operandLike]
  | .bin op l r, s => by
    by_cases hw : needsWrap c.purity (.bin op l r) = true
    · rw [tOne_wrapped s hw]; simp [Term.operandLike]
    · simp only [Bool.not_eq_true] at hw
      obtain ⟨t, ht⟩ := tExpr_single c _ hw s
      have h1 : (tOne c (.bin op l r) s).1 = t := by simp [tOne, tMaybe, oneTerm, hw, ht]
      rw [h1]
      cases op with
      | div => rw [tExpr] at ht; exact division_operand ht
      | rem => rw [tExpr] at ht; exact division_operand ht
      | _ => simp only [tExpr, List.cons.injEq, and_true] at ht; subst ht; simp [Term.operandLike]
  | .nil, s => by simp [tOne, tMaybe, oneTerm, tExpr, needsWrap, Term.operandLike]
  | .cons _ _, s => by simp [tOne, tMaybe, oneTerm, tExpr, needsWrap, Term.operandLike]
  | .tuple _, s => by simp [tOne, tMaybe, oneTerm, tExpr, needsWrap, Term.operandLike]
  | .index _ _, s => by simp [tOne, tMaybe, oneTerm, tExpr, needsWrap, Term.operandLike]
  | .field _ _, s => by simp [tOne, tMaybe, oneTerm, tExpr, needsWrap, Term.operandLike]
  | .update none _ _ es, s => by
    simp only [tOne, tMaybe, oneTerm, tExpr, needsWrap, tRecord]
    cases es <;> simp [Term.operandLike]
  | .update (some _) _ _ _, s => by simp [tOne, tMaybe, oneTerm, needsWrap, Term.operandLike]
  | .fn _ _, s => by simp [tOne, tMaybe, oneTerm, tExpr, needsWrap, Term.operandLike]
  | .call f es, s => by
    cases f with
    | ctor tag n => simp only [tOne, tMaybe, oneTerm, tExpr, needsWrap, tRecord]; cases es <;> simp [Term.operandLike]
    | fnRef m f n => cases m <;> simp [tOne, tMaybe, oneTerm, tExpr, needsWrap, Term.operandLike]
    | _ => simp [tOne, tMaybe, oneTerm, tExpr, needsWrap, Term.operandLike]
  | .pipe _ _ _ _, s => by simp [tOne, tMaybe, oneTerm, needsWrap, Term.operandLike]
  | .fail _ _ none, s => by simp [tOne, tMaybe, oneTerm, tExpr, needsWrap, Term.operandLike, tError]
  | .fail _ _ (some _), s => by simp [tOne, tMaybe, oneTerm, tExpr, needsWrap, Term.operandLike, tError]
  | .case_ [] _, s => by simp [tOne, tMaybe, oneTerm, tExpr, needsWrap, Term.operandLike]
  | .case_ [_] _, s => by simp [tOne, tMaybe, oneTerm, tExpr, needsWrap, Term.operandLike]
  | .case_ (_ :: _ :: _) _, s => by simp [tOne, tMaybe, oneTerm, tExpr, needsWrap, Term.operandLike]

theorem callee_callable : ∀ (e : Expr) (s : State), e.callee = true → (tOne c e s).1.callable = true
  | .block [.expr e], s, h => by
    have he : tOne c (.block [.expr e]) s = tOne c e s := by
      simp [tOne, tMaybe, oneTerm, tExpr, needsWrap]
    rw [he]
    exact callee_callable e s (by simpa [Expr.callee] using h)
  | .block [], s, _ => by simp [tOne, tMaybe, oneTerm, tExpr, needsWrap, Term.callable]
  | .block [.let_ _ _], s, _ => by simp [tOne, tMaybe, oneTerm, tExpr, needsWrap, Term.callable]
  | .block [.letAssert _ _ _ _], s, _ => by simp [tOne, tMaybe, oneTerm, tExpr, needsWrap, Term.callable]
  | .block (_ :: _ :: _), s, _ => by simp [tOne, tMaybe, oneTerm, tExpr, needsWrap, Term.callable]
  | .int _, s, h => by simp [Expr.callee] at h
  | .string _, s, h => by simp [Expr.callee] at h
  | .var _ _, s, _ => by simp [tOne, tMaybe, oneTerm, tExpr, needsWrap, Term.callable]
  | .ctor _ 0, s, h => by simp [Expr.callee] at h
  | .ctor _ (_ + 1), s, _ => by simp [tOne, tMaybe, oneTerm, tExpr, needsWrap, Term.callable, tRecordBuilder]
  | .fnRef _ _ _, s, _ => by simp [tOne, tMaybe, oneTerm, tExpr, needsWrap, Term.callable]
  | .const _, s, h => by simp [Expr.callee] at h
  | .not _, s, h => by simp [Expr.callee] at h
  | .neg _, s, h => by simp [Expr.callee] at h
  | .bin _ _ _, s, h => by simp [Expr.callee] at h
  | .nil, s, h => by simp [Expr.callee] at h
  | .cons _ _, s, h => by simp [Expr.callee] at h
  | .tuple _, s, h => by simp [Expr.callee] at h
  | .index _ _, s, _ => by simp [tOne, tMaybe, oneTerm, tExpr, needsWrap, Term.callable]
  | .field _ _, s, _ => by simp [tOne, tMaybe, oneTerm, tExpr, needsWrap, Term.callable]
  | .update _ _ _ _, s, h => by simp [Expr.callee] at h
  | .fn _ _, s, _ => by simp [tOne, tMaybe, oneTerm, tExpr, needsWrap, Term.callable]
  | .call f es, s, h => by
    cases f with
    | ctor tag n => simp [Expr.callee] at h
    | fnRef m f n => cases m <;> simp [tOne, tMaybe, oneTerm, tExpr, needsWrap, Term.callable]
    | _ => simp [tOne, tMaybe, oneTerm, tExpr, needsWrap, Term.callable]
  | .pipe _ _ _ _, s, _ => by simp [tOne, tMaybe, oneTerm, needsWrap, Term.callable]
  | .fail _ _ none, s, _ => by simp [tOne, tMaybe, oneTerm, tExpr, needsWrap, Term.callable, tError]
  | .fail _ _ (some _), s, _ => by simp [tOne, tMaybe, oneTerm, tExpr, needsWrap, Term.callable, tError]
  | .case_ [] _, s, _ => by simp [tOne, tMaybe, oneTerm, tExpr, needsWrap, Term.callable]
  | .case_ [_] _, s, _ => by simp [tOne, tMaybe, oneTerm, tExpr, needsWrap, Term.callable]
  | .case_ (_ :: _ :: _) _, s, _ => by simp [tOne, tMaybe, oneTerm, tExpr, needsWrap, Term.callable]

theorem ExprOk.one {e : Expr} (h : ExprOk c e) {Γ : Scope} {s : State} (hw : e.Wf c.purity Γ) (hr : Ready Γ s) :
    (tOne c e s).1.Ok .expression ∧ Ext s (tOne c e s).2 := by
  obtain ⟨h1, h2⟩ := h Γ s hw hr
  refine ⟨?_, h2⟩
  by_cases hn : needsWrap c.purity e = true
  · rw [tOne_wrapped s hn]
    simp only [Term.Ok]
    exact ⟨trivial, tExpr_ne s e, h1⟩
  · simp only [Bool.not_eq_true] at hn
    obtain ⟨t, ht⟩ := tExpr_single c e hn s
    have h3 : (tOne c e s).1 = t := by simp [tOne, tMaybe, oneTerm, hn, ht]
    rw [ht] at h1
    rw [h3]
    exact h1.1

theorem okAll_one {t : Term} (h : t.Ok .expression) : OkAll .expression [t] := ⟨h, trivial⟩

/-! ### Expressions -/

theorem ok_int (n : Int) : ExprOk c (.int n) := fun Γ s hw hr => by
  rw [tExpr]; exact ⟨okAll_one (by simp [Term.Ok]), Ext.refl s⟩

theorem ok_string (ps : List Piece) : ExprOk c (.string ps) := fun Γ s hw hr => by
  simp only [Expr.Wf] at hw
  rw [tExpr]; exact ⟨okAll_one (by simp [Term.Ok, literal_quoted hw]), Ext.refl s⟩

theorem ok_var (x : Text) (l : Loc) : ExprOk c (.var x l) := fun Γ s hw hr => by
  simp only [Expr.Wf] at hw
  rw [tExpr]; exact ⟨okAll_one (by simp only [Term.Ok]; exact hr.var hw), Ext.refl s⟩

theorem generated_ok (s : State) (n : Nat) : (∀ x ∈ (newGenerated s n).1, VarName x) ∧ Ext s (newGenerated s n).2 ∧
    (newGenerated s n).1.length = n := by
  induction n generalizing s with
  | zero => exact ⟨by simp [newGenerated], Ext.refl s, rfl⟩
  | succ n ih =>
    obtain ⟨h1, h2, h3⟩ := ih s.newGenerated.2
    simp only [newGenerated]
    refine ⟨?_, (newGenerated_ext s).trans h2, by simp [h3]⟩
    intro x hx
    rcases List.mem_cons.1 hx with rfl | hx
    · exact generated_var s
    · exact h1 x hx

theorem okAll_vars {ns : List Text} (h : ∀ x ∈ ns, VarName x) (k : Kind) : OkAll k (ns.map Term.var) := by
  induction ns with
  | nil => trivial
  | cons n ns ih =>
    simp only [List.map_cons, OkAll, Term.Ok]
    exact ⟨h n (by simp), ih fun x hx => h x (List.mem_cons_of_mem _ hx)⟩

theorem ok_ctor (tag : Text) (n : Nat) : ExprOk c (.ctor tag n) := fun Γ s hw hr => by
  simp only [Expr.Wf] at hw
  cases n with
  | zero => rw [tExpr]; exact ⟨okAll_one (by simp only [Term.Ok]; exact snake_atom hw), Ext.refl s⟩
  | succ n =>
    obtain ⟨h1, h2, h3⟩ := generated_ok s (n + 1)
    rw [tExpr]
    simp only [tRecordBuilder]
    refine ⟨okAll_one ?_, h2⟩
    simp only [Term.Ok]
    refine ⟨trivial, h1, by simp, okAll_one ?_⟩
    rw [if_neg (by simp; intro hc; rw [hc] at h3; simp at h3)]
    simp only [Term.Ok, OkAll]
    exact ⟨snake_atom hw, okAll_vars h1 _⟩

theorem escapeName_atom {f : Text} (h : AtomText f) : AtomText (escapeName f) := by
  unfold escapeName
  split
  · unfold AtomText; decide
  · exact h

theorem function_atom {f : Text} (h : FunctionName f) : AtomText (escapeName f) :=
  escapeName_atom ⟨fun hc => (function_chars h _ hc).2.2.1 rfl, fun hc => (function_chars h _ hc).1 rfl⟩

theorem moduleName_atom {m : Text} (h : AtomText m) : AtomText (ErlText.erlangModuleName m) := by
  unfold ErlText.erlangModuleName
  constructor <;> intro hc <;> obtain ⟨d, hd, he⟩ := List.mem_map.1 hc <;> split at he
  · simp at he
  · exact h.1 (he ▸ hd)
  · simp at he
  · exact h.2 (he ▸ hd)

theorem ok_fnRef (m : Option Text) (f : Text) (n : Nat) : ExprOk c (.fnRef m f n) := fun Γ s hw hr => by
  cases m with
  | none =>
    simp only [Expr.Wf] at hw
    rw [tExpr]
    refine ⟨okAll_one ?_, Ext.refl s⟩
    simp only [Term.Ok]
    exact ⟨trivial, by simp, function_atom hw⟩
  | some m =>
    simp only [Expr.Wf] at hw
    rw [tExpr]
    refine ⟨okAll_one ?_, Ext.refl s⟩
    simp only [Term.Ok, Option.map_some, Option.some.injEq]
    exact ⟨trivial, by rintro _ rfl; exact moduleName_atom hw.1, escapeName_atom hw.2.1⟩

theorem ok_const (k : Const) : ExprOk c (.const k) := fun Γ s hw hr => by
  simp only [Expr.Wf] at hw
  rw [tExpr]; exact ⟨okAll_one (const_ok _ k hw), Ext.refl s⟩

theorem ok_block {ss : List Stmt} (h : StmtsOk c ss) (h1 : ∀ e, ss = [.expr e] → ExprOk c e) : ExprOk c (.block ss) :=
  fun Γ s hw hr => by
  simp only [Expr.Wf] at hw
  by_cases he : ∃ e, ss = [.expr e]
  · obtain ⟨e, rfl⟩ := he
    simp only [stmtsWf] at hw
    rw [tExpr]
    obtain ⟨h2, h3⟩ := (h1 e rfl).one hw.2.1 hr
    exact ⟨okAll_one h2, h3⟩
  · obtain ⟨h2, h3⟩ := h Γ s hw.2 hr
    rw [tExpr]
    · refine ⟨okAll_one ?_, h3⟩
      simp only [Term.Ok]
      exact ⟨trivial, tStmts_ne s hw.1, h2⟩
    · intro e hc; exact he ⟨e, hc⟩

theorem ok_not {e : Expr} (h : ExprOk c e) : ExprOk c (.not e) := fun Γ s hw hr => by
  simp only [Expr.Wf] at hw
  obtain ⟨h1, h2⟩ := h.one hw hr
  rw [tExpr]
  refine ⟨okAll_one ?_, h2⟩
  simp only [Term.Ok]
  exact ⟨trivial, one_operand e s, h1⟩

theorem ok_neg {e : Expr} (h : ExprOk c e) : ExprOk c (.neg e) := fun Γ s hw hr => by
  simp only [Expr.Wf] at hw
  obtain ⟨h1, h2⟩ := h.one hw hr
  rw [tExpr]
  refine ⟨okAll_one ?_, h2⟩
  simp only [Term.Ok]
  exact ⟨trivial, one_operand e s, h1⟩

/-- What a single term needs. -/
def OneOk (g : TGen) (Γ : Scope) : Prop :=
  ∀ s, Ready Γ s → (g s).1.Ok .expression ∧ (g s).1.operandLike = true ∧ Ext s (g s).2

theorem ExprOk.single {e : Expr} (h : ExprOk c e) {Γ : Scope} (hw : e.Wf c.purity Γ) : OneOk (tOne c e) Γ :=
  fun s hr => ⟨(h.one hw hr).1, one_operand e s, (h.one hw hr).2⟩

theorem division_ok {l r : TGen} {Γ : Scope} (hl : OneOk l Γ) (hr : OneOk r Γ) (how : HowToDivide) (op : ErlText.BinOp) {s : State}
    (hs : Ready Γ s) : OkAll .expression (tDivision how op l r s).1 ∧ Ext s (tDivision how op l r s).2 := by
  match how with
  | .zero =>
    simp only [tDivision]
    exact ⟨okAll_one (by simp [Term.Ok]), Ext.refl s⟩
  | .leftThenZero =>
    obtain ⟨h1, -, h2⟩ := hl s hs
    simp only [tDivision, OkAll]
    exact ⟨⟨h1, by simp [Term.Ok], trivial⟩, h2⟩
  | .plain =>
    obtain ⟨h1, h2, h3⟩ := hl s hs
    obtain ⟨h4, h5, h6⟩ := hr _ (hs.ext h3)
    simp only [tDivision, OkAll, Term.Ok]
    exact ⟨⟨⟨trivial, h2, h5, h1, h4⟩, trivial⟩, h3.trans h6⟩
  | .matchRight false =>
    have hn := newGenerated_ext s
    obtain ⟨h1, h2, h3⟩ := hl _ (hs.ext hn)
    obtain ⟨h4, h5, h6⟩ := hr _ (hs.ext (hn.trans h3))
    simp only [tDivision, OkAll, Term.Ok, OkClauses]
    refine ⟨⟨⟨generated_var s, h1⟩, ⟨trivial, h4, by simp, trivial, by simp, ⟨trivial, trivial⟩, generated_var _, by simp,
      ⟨⟨trivial, rfl, rfl, generated_var s, generated_var _⟩, trivial⟩, trivial⟩, trivial⟩, ?_⟩
    exact (hn.trans (h3.trans h6)).trans (newGenerated_ext _)
  | .matchRight true =>
    obtain ⟨h4, h5, h6⟩ := hr s hs
    have hn := newGenerated_ext (r s).2
    obtain ⟨h1, h2, h3⟩ := hl _ (hs.ext (h6.trans hn))
    simp only [tDivision, OkAll, Term.Ok, OkClauses]
    refine ⟨⟨⟨trivial, h4, by simp, trivial, by simp, ⟨trivial, trivial⟩, generated_var _, by simp,
      ⟨⟨trivial, h2, rfl, h1, generated_var _⟩, trivial⟩, trivial⟩, trivial⟩, ?_⟩
    exact h6.trans (hn.trans h3)

theorem ok_bin {op : Op} {l r : Expr} (hl : ExprOk c l) (hr : ExprOk c r) : ExprOk c (.bin op l r) := fun Γ s hw hs => by
  simp only [Expr.Wf] at hw
  have h1 := hl.single hw.1
  have h2 := hr.single hw.2.1
  obtain ⟨h3, h4, h5⟩ := h1 s hs
  obtain ⟨h6, h7, h8⟩ := h2 _ (hs.ext h5)
  cases op with
  | div => rw [tExpr]; exact division_ok h1 h2 _ _ hs
  | rem => rw [tExpr]; exact division_ok h1 h2 _ _ hs
  | concat =>
    simp only [tExpr, OkAll, Term.Ok, OkSegments]
    exact ⟨⟨⟨h3, h6, trivial⟩, trivial⟩, h5.trans h8⟩
  | _ =>
    simp only [tExpr, OkAll, Term.Ok]
    exact ⟨⟨⟨trivial, h4, h7, h3, h6⟩, trivial⟩, h5.trans h8⟩

theorem ok_nil : ExprOk c .nil := fun Γ s hw hr => by
  rw [tExpr]; exact ⟨okAll_one (by simp [Term.Ok]), Ext.refl s⟩

theorem ok_cons {l r : Expr} (hl : ExprOk c l) (hr : ExprOk c r) : ExprOk c (.cons l r) := fun Γ s hw hs => by
  simp only [Expr.Wf] at hw
  obtain ⟨h3, h4, h5⟩ := hl.single hw.1 s hs
  obtain ⟨h6, h7, h8⟩ := hr.single hw.2 _ (hs.ext h5)
  simp only [tExpr, OkAll, Term.Ok]
  exact ⟨⟨⟨h3, h6⟩, trivial⟩, h5.trans h8⟩

theorem ok_tuple {es : List Expr} (h : ArgsOk c es) : ExprOk c (.tuple es) := fun Γ s hw hs => by
  simp only [Expr.Wf] at hw
  obtain ⟨h1, h2⟩ := h Γ s hw hs
  rw [tExpr]
  exact ⟨okAll_one (by simp only [Term.Ok]; exact h1), h2⟩

theorem erlang_atom : AtomText "erlang".toList := by unfold AtomText; decide
theorem element_atom : AtomText "element".toList := by unfold AtomText; decide
theorem error_atom : AtomText "error".toList := by unfold AtomText; decide

theorem ok_index {e : Expr} (i : Nat) (h : ExprOk c e) : ExprOk c (.index e i) := fun Γ s hw hs => by
  simp only [Expr.Wf] at hw
  obtain ⟨h1, h2⟩ := h.one hw hs
  rw [tExpr]
  refine ⟨okAll_one ?_, h2⟩
  simp only [Term.Ok, OkAll]
  exact ⟨trivial, erlang_atom, element_atom, trivial, h1, trivial⟩

theorem ok_field {e : Expr} (i : Nat) (h : ExprOk c e) : ExprOk c (.field e i) := fun Γ s hw hs => by
  simp only [Expr.Wf] at hw
  obtain ⟨h1, h2⟩ := h.one hw hs
  rw [tExpr]
  refine ⟨okAll_one ?_, h2⟩
  simp only [Term.Ok, OkAll]
  exact ⟨trivial, erlang_atom, element_atom, trivial, h1, trivial⟩

theorem record_ok {tag : Text} (ht : UpperCamel tag) (es : List Expr) {ts : List Term} (h : OkAll .expression ts) :
    (tRecord tag es ts).Ok .expression := by
  unfold tRecord
  split
  · simp only [Term.Ok]; exact snake_atom ht
  · simp only [Term.Ok, OkAll]; exact ⟨snake_atom ht, h⟩

theorem Ready.define {Γ : Scope} {s : State} (h : Ready Γ s) {x : Text} (hx : VariableName x) (l : Loc) {t : State}
    (ht : Ext (s.newVar x l).2 t) : Ready ((x, l) :: Γ) t := by
  have h1 := h.ext ((newVar_ext s hx l).trans ht)
  refine ⟨h1.good, ?_⟩
  intro y k hy
  rcases List.mem_cons.1 hy with hy | hy
  · cases hy
    exact ht.keep _ (newVar_has s x l)
  · exact h1.has y k hy

theorem ok_update_some {x : Text} {l : Loc} {record : Expr} {tag : Text} {es : List Expr} (h : ExprOk c record)
    (ha : ArgsOk c es) : ExprOk c (.update (some (x, l)) record tag es) := fun Γ s hw hs => by
  simp only [Expr.Wf] at hw
  have hn := newVar_ext s hw.1 l
  obtain ⟨h1, h2⟩ := h.one hw.2.2.1 (hs.ext hn)
  obtain ⟨h3, h4⟩ := ha _ _ hw.2.2.2 (hs.define hw.1 l h2)
  rw [tExpr]
  refine ⟨?_, hn.trans (h2.trans h4)⟩
  simp only [OkAll, Term.Ok]
  exact ⟨⟨newVar_var s hw.1 l, h1⟩, record_ok hw.2.1 es h3, trivial⟩

theorem ok_update_none {record : Expr} {tag : Text} {es : List Expr} (ha : ArgsOk c es) :
    ExprOk c (.update none record tag es) := fun Γ s hw hs => by
  simp only [Expr.Wf] at hw
  obtain ⟨h3, h4⟩ := ha _ _ hw.2 hs
  rw [tExpr]
  exact ⟨okAll_one (record_ok hw.1 es h3), h4⟩

theorem arguments_var (s : State) {ps : List (Option (Text × Loc))} (h : ∀ x ∈ (paramVars ps).map Prod.fst, VariableName x) :
    ∀ n ∈ (argumentNames s ps).1, VarName n := by
  induction ps generalizing s with
  | nil => simp [argumentNames]
  | cons p ps ih =>
    cases p with
    | none =>
      simp only [argumentNames, List.mem_cons, forall_eq_or_imp]
      exact ⟨⟨'_', [], rfl, by decide, by decide⟩, ih s (by simpa [paramVars] using h)⟩
    | some v =>
      obtain ⟨x, l⟩ := v
      simp only [argumentNames, List.mem_cons, forall_eq_or_imp]
      refine ⟨newVar_var s (h x (by simp [paramVars])) l, ih _ fun y hy => h y ?_⟩
      simp only [paramVars, List.flatMap_cons, List.map_append, List.mem_append]
      exact Or.inr hy

theorem arguments_ready {Γ : Scope} {s : State} (hs : Ready Γ s) {ps : List (Option (Text × Loc))} (h : ParamsWf ps) :
    Ready (paramVars ps ++ Γ) (argumentNames s ps).2 ∧ Ext s (argumentNames s ps).2 := by
  rw [argumentNames_state]
  obtain ⟨h1, h2⟩ := defineAll_ext s (paramVars ps) h.2
  exact ⟨(hs.ext h1).append h2, h1⟩

theorem ok_fn {params : List (Option (Text × Loc))} {body : List Stmt} (h : StmtsOk c body) : ExprOk c (.fn params body) :=
  fun Γ s hw hs => by
  simp only [Expr.Wf] at hw
  obtain ⟨h1, h2⟩ := arguments_ready hs hw.1
  obtain ⟨h3, h4⟩ := h _ _ hw.2.2 h1
  rw [tExpr]
  refine ⟨okAll_one ?_, (h2.trans h4).reset _⟩
  simp only [Term.Ok]
  exact ⟨trivial, arguments_var s hw.1.2, tStmts_ne _ hw.2.1, h3⟩

theorem ok_call {f : Expr} {es : List Expr} (h : ExprOk c f) (ha : ArgsOk c es) : ExprOk c (.call f es) := fun Γ s hw hs => by
  simp only [Expr.Wf] at hw
  obtain ⟨h1, h2⟩ := h.one hw.2.1 hs
  obtain ⟨h3, h4⟩ := ha _ _ hw.2.2 hs
  obtain ⟨h5, h6⟩ := ha _ _ hw.2.2 (hs.ext h2)
  by_cases hc : ∃ tag n, f = .ctor tag n
  · obtain ⟨tag, n, rfl⟩ := hc
    rw [tExpr]
    exact ⟨okAll_one (record_ok (by simpa only [Expr.Wf] using hw.2.1) es h3), h4⟩
  by_cases hf : ∃ m g n, f = .fnRef m g n
  · obtain ⟨m, g, n, rfl⟩ := hf
    cases m with
    | none =>
      rw [tExpr]
      refine ⟨okAll_one ?_, h4⟩
      simp only [Term.Ok]
      exact ⟨trivial, rfl, function_atom (by simpa only [Expr.Wf] using hw.2.1), h3⟩
    | some m =>
      have hm : ModuleFunction m g := by simpa only [Expr.Wf] using hw.2.1
      rw [tExpr]
      refine ⟨okAll_one ?_, h4⟩
      simp only [Term.Ok]
      exact ⟨trivial, moduleName_atom hm.1, escapeName_atom hm.2.1, h3⟩
  · have ht : tExpr c s (.call f es) = ([.call (tOne c f s).1 (tArgs c (tOne c f s).2 es).1], (tArgs c (tOne c f s).2 es).2) := by
      rw [tExpr]
      · intro tag n he; exact hc ⟨tag, n, he⟩
      · intro m g n he; exact hf ⟨some m, g, n, he⟩
      · intro g n he; exact hf ⟨none, g, n, he⟩
    rw [ht]
    refine ⟨okAll_one ?_, h2.trans h6⟩
    simp only [Term.Ok]
    exact ⟨trivial, callee_callable f s hw.1, h1, h5⟩

theorem ok_pipe {x : Text} {l : Loc} {value rest : Expr} (h : ExprOk c value) (hr : ExprOk c rest) :
    ExprOk c (.pipe x l value rest) := fun Γ s hw hs => by
  simp only [Expr.Wf] at hw
  have hn := newVar_ext s hw.1 l
  obtain ⟨h1, h2⟩ := h.one hw.2.1 (hs.ext hn)
  obtain ⟨h3, h4⟩ := hr _ _ hw.2.2 (hs.define hw.1 l h2)
  rw [tExpr]
  refine ⟨?_, hn.trans (h2.trans h4)⟩
  simp only [OkAll, Term.Ok]
  exact ⟨⟨newVar_var s hw.1 l, h1⟩, h3⟩

/-! ### Errors -/

theorem okFields_append (as bs : List ErlText.Field) (h : OkFields as) (h' : OkFields bs) : OkFields (as ++ bs) := by
  induction as with
  | nil => exact h'
  | cons a as ih =>
    obtain ⟨k, v⟩ := a
    simp only [List.cons_append, OkFields] at h ⊢
    exact ⟨h.1, h.2.1, ih h.2.2⟩

theorem kind_atom (kind : ErrorKind) : AtomText kind.atom := by
  cases kind <;> unfold AtomText <;> decide

theorem kind_quoted (kind : ErrorKind) : wellQuoted kind.defaultMessage = true := by
  cases kind <;> decide +kernel

theorem context_quoted (hc : ContextOk c) :
    wellQuoted c.file = true ∧ wellQuoted c.moduleName = true ∧ wellQuoted c.function = true := by
  obtain ⟨ps, h1, h2⟩ := hc.file
  obtain ⟨qs, h3, h4⟩ := hc.moduleName
  obtain ⟨rs, h5, h6⟩ := hc.function
  rw [h2, h4, h6]
  exact ⟨literal_quoted h1, literal_quoted h3, literal_quoted h5⟩

theorem error_ok (hc : ContextOk c) {Γ : Scope} {s : State} (hs : Ready Γ s) (kind : ErrorKind) (line : Nat) {message : Option TGen}
    (hm : ∀ g ∈ message, OneOk g Γ) {fields : List ErlText.Field} (hf : OkFields fields) :
    (tError c kind line message fields s).1.Ok .expression ∧ Ext s (tError c kind line message fields s).2 := by
  obtain ⟨h1, h2, h3⟩ := context_quoted hc
  have hmsg : (tMessage kind message s).1.Ok .expression ∧ Ext s (tMessage kind message s).2 := by
    cases message with
    | none => simp only [tMessage, Term.Ok]; exact ⟨kind_quoted kind, Ext.refl s⟩
    | some g =>
      obtain ⟨h4, -, h5⟩ := hm g rfl s hs
      exact ⟨h4, h5⟩
  simp only [tError, Term.Ok, OkAll]
  refine ⟨⟨trivial, erlang_atom, error_atom, ⟨trivial, okFields_append _ _ ?_ hf⟩, trivial⟩, hmsg.2⟩
  simp only [OkFields, Term.Ok]
  exact ⟨by unfold AtomText; decide, kind_atom kind, by unfold AtomText; decide, hmsg.1, by unfold AtomText; decide, h1,
    by unfold AtomText; decide, h2, by unfold AtomText; decide, h3, by unfold AtomText; decide, trivial, trivial⟩

theorem ok_fail_none (hc : ContextOk c) (kind : ErrorKind) (line : Nat) : ExprOk c (.fail kind line none) := fun Γ s hw hs => by
  obtain ⟨h1, h2⟩ := error_ok hc hs kind line (message := none) (by simp) (fields := []) trivial
  rw [tExpr]
  exact ⟨okAll_one h1, h2⟩

theorem ok_fail_some (hc : ContextOk c) (kind : ErrorKind) (line : Nat) {e : Expr} (h : ExprOk c e) :
    ExprOk c (.fail kind line (some e)) := fun Γ s hw hs => by
  simp only [Expr.Wf] at hw
  obtain ⟨h1, h2⟩ := error_ok hc hs kind line (message := some (tOne c e)) (by rintro g ⟨⟩; exact h.single hw) (fields := []) trivial
  rw [tExpr]
  exact ⟨okAll_one h1, h2⟩

theorem ok_case_one {e : Expr} {cs : List Clause} (h : ExprOk c e) (hcs : ClausesOk c cs)
    (hne : ∀ s Γ, clausesWf c.purity Γ cs → cs ≠ [] → (tClauses c s cs).1 ≠ []) : ExprOk c (.case_ [e] cs) := fun Γ s hw hs => by
  simp only [Expr.Wf, exprsWf] at hw
  obtain ⟨h1, h2⟩ := h.one hw.1.1 hs
  obtain ⟨h3, h4⟩ := hcs _ _ hw.2.2 (hs.ext h2)
  rw [tExpr]
  refine ⟨okAll_one ?_, h2.trans h4⟩
  simp only [Term.Ok]
  exact ⟨trivial, h1, hne _ Γ hw.2.2 hw.2.1, h3⟩

theorem ok_case_many {es : List Expr} (hes : ∀ e, es ≠ [e]) {cs : List Clause} (h : ArgsOk c es) (hcs : ClausesOk c cs)
    (hne : ∀ s Γ, clausesWf c.purity Γ cs → cs ≠ [] → (tClauses c s cs).1 ≠ []) : ExprOk c (.case_ es cs) := fun Γ s hw hs => by
  simp only [Expr.Wf] at hw
  obtain ⟨h1, h2⟩ := h _ _ hw.1 hs
  obtain ⟨h3, h4⟩ := hcs _ _ hw.2.2 (hs.ext h2)
  rw [tExpr]
  · refine ⟨okAll_one ?_, h2.trans h4⟩
    simp only [Term.Ok]
    exact ⟨trivial, h1, hne _ Γ hw.2.2 hw.2.1, h3⟩
  · intro e he; exact hes e he

theorem ok_noArgs : ArgsOk c [] := fun Γ s hw hs => by rw [tArgs]; exact ⟨trivial, Ext.refl s⟩

theorem ok_args {e : Expr} {es : List Expr} (h : ExprOk c e) (ha : ArgsOk c es) : ArgsOk c (e :: es) := fun Γ s hw hs => by
  simp only [exprsWf] at hw
  obtain ⟨h1, h2⟩ := h.one hw.1 hs
  obtain ⟨h3, h4⟩ := ha _ _ hw.2 (hs.ext h2)
  rw [tArgs]
  exact ⟨⟨h1, h3⟩, h2.trans h4⟩

end

end Verif.ErlGen
