import Verif.ErlGen.Tree

/-!
# The calls of the generator build the terms of `Tree.lean`
-/

namespace Verif.ErlGen

open Verif.ErlText (Text Term Term.calls callsAll segmentCalls fieldCalls clauseCalls pick)

attribute [local simp] Term.calls callsAll segmentCalls fieldCalls clauseCalls pick

mutual

theorem genConst_eq : ∀ k : Const, genConst k = (tConst k).calls .expression
  | .int n => by simp [genConst, tConst]
  | .string ps => by simp [genConst, tConst]
  | .tuple cs => by simp [genConst, tConst, genConsts_eq cs]
  | .nil => by simp [genConst, tConst]
  | .cons c d => by simp [genConst, tConst, genConst_eq c, genConst_eq d]
  | .record tag [] => by simp [genConst, tConst]
  | .record tag (c :: cs) => by simp [genConst, tConst, genConst_eq c, genConsts_eq cs]

theorem genConsts_eq : ∀ ks : List Const, genConsts ks = callsAll .expression (tConsts ks)
  | [] => by simp [genConsts, tConsts]
  | k :: ks => by simp [genConsts, tConsts, genConst_eq k, genConsts_eq ks]

end

mutual

theorem genPattern_eq (s : State) (later : Later) : ∀ p : Pattern,
    genPattern s later p = ((tPattern s later p).1.calls .pattern, (tPattern s later p).2)
  | .discard => by simp [genPattern, tPattern]
  | .int n => by simp [genPattern, tPattern]
  | .string ps => by simp [genPattern, tPattern]
  | .var x loc => by simp [genPattern, tPattern]
  | .assign p x loc => by simp [genPattern, tPattern, genPattern_eq s later p]
  | .tuple ps => by simp [genPattern, tPattern, genPatterns_eq s later ps]
  | .nil => by simp [genPattern, tPattern]
  | .cons p q => by
    simp [genPattern, tPattern, genPattern_eq s later p, fun s later => genPattern_eq s later q]
  | .ctor tag [] => by simp [genPattern, tPattern]
  | .ctor tag (p :: ps) => by
    simp [genPattern, tPattern, genPattern_eq s later p, fun s later => genPatterns_eq s later ps]
  | .prefix ps left right => by
    rcases left with _ | ⟨x, l⟩ <;> rcases right with _ | ⟨y, m⟩ <;>
      simp [genPattern, tPattern, tRight, laterOf]

theorem genPatterns_eq (s : State) (later : Later) : ∀ ps : List Pattern,
    genPatterns s later ps = (callsAll .pattern (tPatterns s later ps).1, (tPatterns s later ps).2)
  | [] => by simp [genPatterns, tPatterns]
  | p :: ps => by
    simp [genPatterns, tPatterns, genPattern_eq s later p, fun s later => genPatterns_eq s later ps]

end

theorem genAssignments_eq (s : State) (later : Later) :
    genAssignments s later = (callsAll .expression (tAssignments s later).1, (tAssignments s later).2) := by
  induction later generalizing s with
  | nil => simp [genAssignments, tAssignments]
  | cons a rest ih =>
    obtain ⟨x, loc, content⟩ := a
    simp [genAssignments, tAssignments, ih]

theorem genSubjectPatterns_eq (s : State) (later : Later) (ps : List Pattern) :
    genSubjectPatterns s later ps =
      ((tSubjectPatterns s later ps).1.calls .pattern, (tSubjectPatterns s later ps).2) := by
  match ps with
  | [] => simp [genSubjectPatterns, tSubjectPatterns, genPatterns_eq]
  | [p] => simp [genSubjectPatterns, tSubjectPatterns, genPattern_eq]
  | p :: q :: ps => simp [genSubjectPatterns, tSubjectPatterns, genPatterns_eq]

theorem genGuard_eq (s : State) (later : Later) (g : Guard) :
    genGuard s later g = (tGuard s later g).calls .expression := by
  induction g generalizing later with
  | var x loc =>
    simp only [genGuard, tGuard]
    cases later.get x <;> simp
  | const c => simp [genGuard, tGuard, genConst_eq]
  | block g ih => simp [genGuard, tGuard, ih]
  | not g ih => simp [genGuard, tGuard, ih]
  | bin op l r ihl ihr => cases op <;> simp [genGuard, tGuard, ihl, ihr, concatSpec]
  | index g i ih => simp [genGuard, tGuard, ih]
  | field g i ih => simp [genGuard, tGuard, ih]

theorem genGuards_eq (s : State) (later : Later) (g : Option Guard) (p : Term) (body : List Term)
    (cs : List ErlText.Clause) :
    [ErlText.Call.startCaseClause] ++ p.calls .pattern ++ [.endClausePattern] ++ genGuards s later g ++
      [.endClauseGuards] ++ callsAll .expression body ++ [.endClauseBody] ++ clauseCalls cs =
    clauseCalls (.mk p (g.map (tGuard s later)) body :: cs) := by
  cases g <;> simp [genGuards, genGuard_eq]

theorem callsAll_append (k : ErlText.Kind) (ts us : List Term) :
    callsAll k (ts ++ us) = callsAll k ts ++ callsAll k us := by
  induction ts with
  | nil => simp
  | cons t ts ih => simp [ih]

theorem clauseCalls_append (ts us : List ErlText.Clause) : clauseCalls (ts ++ us) = clauseCalls ts ++ clauseCalls us := by
  induction ts with
  | nil => simp
  | cons t ts ih => obtain ⟨p, g, b⟩ := t; cases g <;> simp [ih]

theorem fieldCalls_append (ts us : List ErlText.Field) : fieldCalls (ts ++ us) = fieldCalls ts ++ fieldCalls us := by
  induction ts with
  | nil => simp
  | cons t ts ih => obtain ⟨p, b⟩ := t; simp [ih]

theorem callsAll_vars (names : List Text) :
    callsAll .expression (names.map Term.var) = names.map ErlText.Call.var := by
  induction names with
  | nil => simp
  | cons t ts ih => simp [ih]

theorem recordBuilder_eq (s : State) (tag : Text) (arity : Nat) :
    recordBuilder s tag arity =
      (callsAll .expression [(tRecordBuilder s tag arity).1], (tRecordBuilder s tag arity).2) := by
  simp only [recordBuilder, tRecordBuilder]
  by_cases h : (newGenerated s arity).1.isEmpty = true <;> simp [h, callsAll_vars]

theorem recordCalls_eq (tag : Text) (es : List Expr) (ts : List Term) :
    recordCalls tag es (callsAll .expression ts) = (tRecord tag es ts).calls .expression := by
  by_cases h : es.isEmpty = true <;> simp [recordCalls, tRecord, h]

/-- A generator of calls makes the calls of a generator of terms. -/
def Builds (g : Gen) (t : TGens) : Prop := ∀ s, g s = (callsAll .expression (t s).1, (t s).2)

def BuildsOne (g : Gen) (t : TGen) : Prop := ∀ s, g s = ((t s).1.calls .expression, (t s).2)

theorem maybeBlock_eq {g : Gen} {t : TGens} (wrap : Bool) (h : Builds g t)
    (hs : wrap = false → ∀ s, ∃ u, (t s).1 = [u]) : BuildsOne (maybeBlock wrap g) (tMaybe wrap t) := by
  intro s
  simp only [maybeBlock, tMaybe, h s]
  cases wrap with
  | true => simp [oneTerm]
  | false =>
    obtain ⟨u, hu⟩ := hs rfl s
    simp [oneTerm, hu]

theorem genDivision_eq {l r : Gen} {l' r' : TGen} (how : HowToDivide) (op : ErlText.BinOp) (hl : BuildsOne l l')
    (hr : BuildsOne r r') : Builds (genDivision how op l r) (tDivision how op l' r') := by
  intro s
  have hl : ∀ s, l s = ((l' s).1.calls .expression, (l' s).2) := hl
  have hr : ∀ s, r s = ((r' s).1.calls .expression, (r' s).2) := hr
  match how with
  | .zero => simp [genDivision, tDivision]
  | .leftThenZero => simp [genDivision, tDivision, hl s]
  | .plain => simp [genDivision, tDivision, hl, hr]
  | .matchRight false => simp [genDivision, tDivision, hl, hr, plainClause]
  | .matchRight true => simp [genDivision, tDivision, hl, hr, plainClause]

theorem genBranches_eq {b : Gen} {b' : TGens} (before : Text → Option Nat) (g : Option Guard) (hb : Builds b b')
    (s : State) (pss : List (List Pattern)) :
    genBranches before g b s pss = (clauseCalls (tBranches before g b' s pss).1, (tBranches before g b' s pss).2) := by
  induction pss generalizing s with
  | nil => simp [genBranches, tBranches]
  | cons ps rest ih =>
    simp only [genBranches, tBranches, genSubjectPatterns_eq, patternAssignments, genAssignments_eq, hb _, ih]
    rw [← genGuards_eq, callsAll_append]

theorem genAsserted_eq {f : Gen} {f' : TGens} (p : Pattern) (hf : Builds f f') (s : State) (e : Bool) (cs) :
    ((genAsserted p (if e then none else some f) s).1 ++ clauseCalls cs,
      (genAsserted p (if e then none else some f) s).2) =
      (clauseCalls ((tAsserted p (if e then none else some f') s).1 :: cs),
        (tAsserted p (if e then none else some f') s).2) := by
  have hf : ∀ s, f s = (callsAll .expression (f' s).1, (f' s).2) := hf
  cases e with
  | true => simp [genAsserted, tAsserted, genPattern_eq, plainClause]
  | false =>
    simp [genAsserted, tAsserted, genPattern_eq, plainClause, patternAssignments, genAssignments_eq, hf,
      callsAll_append]

theorem assertFields_eq (value : Text) (info : AssertInfo) :
    assertFields value info = fieldCalls (tAssertFields value info) := by
  simp [assertFields, tAssertFields]

theorem genError_none (c : Context) (kind : ErrorKind) (line : Nat) (fs : List ErlText.Field) (s : State) :
    genError c kind line none (fieldCalls fs) s =
      ((tError c kind line none fs s).1.calls .expression, (tError c kind line none fs s).2) := by
  simp [genError, tError, tMessage, errorStart, errorFields]

theorem genError_some {m : Gen} {m' : TGen} (c : Context) (kind : ErrorKind) (line : Nat) (hm : BuildsOne m m')
    (fs : List ErlText.Field) (s : State) :
    genError c kind line (some m) (fieldCalls fs) s =
      ((tError c kind line (some m') fs s).1.calls .expression, (tError c kind line (some m') fs s).2) := by
  simp [genError, tError, tMessage, errorStart, errorFields, hm s]

theorem tDivision_single (how : HowToDivide) (op : ErlText.BinOp) (l r : TGen) (s : State)
    (h : how ≠ .matchRight false) (h' : how ≠ .leftThenZero) : ∃ t, (tDivision how op l r s).1 = [t] := by
  match how with
  | .zero => exact ⟨_, rfl⟩
  | .leftThenZero => exact absurd rfl h'
  | .plain => exact ⟨_, rfl⟩
  | .matchRight false => exact absurd rfl h
  | .matchRight true => exact ⟨_, rfl⟩

variable (c : Context)

theorem wrap_division {p : Expr → Bool} {l r : Expr}
    (h : (match howToDivide p l r with
      | .matchRight false | .leftThenZero => true
      | _ => false) = false) :
    howToDivide p l r ≠ .matchRight false ∧ howToDivide p l r ≠ .leftThenZero := by
  constructor <;> intro hc <;> rw [hc] at h <;> exact absurd h (by decide)

/-- Without wrapping there is one term. -/
theorem tExpr_single (e : Expr) (h : needsWrap c.purity e = false) (s : State) : ∃ t, (tExpr c s e).1 = [t] := by
  cases e with
  | ctor tag n => cases n <;> exact ⟨_, by rw [tExpr]⟩
  | block b =>
    match b with
    | [] => simp [tExpr]
    | [.expr e] => simp [tExpr]
    | [.let_ p e] => simp [tExpr]
    | [.letAssert p e i m] => simp [tExpr]
    | a :: b :: ss => simp [tExpr]
  | bin op l r =>
    cases op with
    | div =>
      rw [needsWrap] at h
      rw [tExpr]
      exact tDivision_single _ _ _ _ _ (wrap_division h).1 (wrap_division h).2
    | rem =>
      rw [needsWrap] at h
      rw [tExpr]
      exact tDivision_single _ _ _ _ _ (wrap_division h).1 (wrap_division h).2
    | _ => simp [tExpr]
  | update a r tag es =>
    cases a with
    | none => simp [tExpr]
    | some a => simp [needsWrap] at h
  | pipe x l v r => simp [needsWrap] at h
  | call f es => cases f with
    | fnRef m f n => cases m <;> simp [tExpr]
    | _ => simp [tExpr]
  | fail k l m => cases m <;> simp [tExpr]
  | case_ es cs =>
    match es with
    | [] => simp [tExpr]
    | [e] => simp [tExpr]
    | e :: e' :: es => simp [tExpr]
  | _ => simp [tExpr]

theorem maybe_eq (e : Expr) (h : ∀ s, genExpr c s e = (callsAll .expression (tExpr c s e).1, (tExpr c s e).2)) :
    BuildsOne (maybeBlock (needsWrap c.purity e) fun s => genExpr c s e)
      (tMaybe (needsWrap c.purity e) fun s => tExpr c s e) :=
  maybeBlock_eq _ h (tExpr_single c e)

theorem maybe_eq' (e : Expr) (h : ∀ s, genExpr c s e = (callsAll .expression (tExpr c s e).1, (tExpr c s e).2)) (s : State) :
    maybeBlock (needsWrap c.purity e) (fun s => genExpr c s e) s =
      ((tMaybe (needsWrap c.purity e) (fun s => tExpr c s e) s).1.calls .expression,
        (tMaybe (needsWrap c.purity e) (fun s => tExpr c s e) s).2) :=
  maybe_eq c e h s

theorem genLetAssert_eq (s : State) (p : Pattern) (e : Expr) (info : AssertInfo) (message : Option Expr) (ss : List Stmt)
    (he : ∀ s, maybeBlock (needsWrap c.purity e) (fun s => genExpr c s e) s =
      ((tMaybe (needsWrap c.purity e) (fun s => tExpr c s e) s).1.calls .expression,
        (tMaybe (needsWrap c.purity e) (fun s => tExpr c s e) s).2))
    (hs : ∀ s, genStmts c s ss = (callsAll .expression (tStmts c s ss).1, (tStmts c s ss).2))
    (hq : ∀ m ∈ message, ∀ s, genExpr c s m = (callsAll .expression (tExpr c s m).1, (tExpr c s m).2)) :
    genStmts c s (.letAssert p e info message :: ss) =
      (callsAll .expression (tStmts c s (.letAssert p e info message :: ss)).1,
        (tStmts c s (.letAssert p e info message :: ss)).2) := by
  rw [genStmts, tStmts]
  by_cases hp : p.alwaysMatches = true
  · rw [if_pos hp, if_pos hp]
    simp [genPattern_eq, he, hs]
  · rw [if_neg hp, if_neg hp]
    have ha := fun s cs => genAsserted_eq (f := fun s => genStmts c s ss) (f' := fun s => tStmts c s ss) p hs s ss.isEmpty cs
    have h1 : ∀ s, (genAsserted p (if ss.isEmpty then none else some fun s => genStmts c s ss) s).1 =
        clauseCalls [(tAsserted p (if ss.isEmpty then none else some fun s => tStmts c s ss) s).1] := by
      intro s
      have := congrArg Prod.fst (ha s [])
      simpa using this
    have h2 := fun s => congrArg Prod.snd (ha s [])
    have h3 : ∀ s, genAsserted p (if ss.isEmpty then none else some fun s => genStmts c s ss) s =
        (clauseCalls [(tAsserted p (if ss.isEmpty then none else some fun s => tStmts c s ss) s).1],
          (tAsserted p (if ss.isEmpty then none else some fun s => tStmts c s ss) s).2) := by
      intro s
      rw [← h1 s, ← h2 s]
    have h4 : ∀ (t u : ErlText.Clause) (cs), clauseCalls (t :: u :: cs) = clauseCalls [t] ++ clauseCalls (u :: cs) := by
      intro t u cs
      rw [← clauseCalls_append]
      rfl
    simp only [he, h3, assertFields_eq]
    cases message with
    | none => simp [genError_none, plainClause, h4]
    | some m =>
      have hm := maybe_eq c m (hq m rfl)
      simp [fun s fs => genError_some c .letAssert info.line hm fs s, plainClause, h4]

mutual

theorem genExpr_eq (s : State) : ∀ e : Expr,
    genExpr c s e = (callsAll .expression (tExpr c s e).1, (tExpr c s e).2)
  | .int n => by simp [genExpr, tExpr]
  | .string ps => by simp [genExpr, tExpr]
  | .var _ loc => by simp [genExpr, tExpr]
  | .ctor tag 0 => by simp [genExpr, tExpr]
  | .ctor tag (arity + 1) => by simp [genExpr, tExpr, recordBuilder_eq]
  | .fnRef m f arity => by simp [genExpr, tExpr]
  | .const k => by simp [genExpr, tExpr, genConst_eq]
  | .block [] => by simp [genExpr, tExpr, genStmts, tStmts]
  | .block [.expr e] => by
    simp [genExpr, tExpr, maybe_eq' c e (fun s => genExpr_eq s e)]
  | .block [.let_ p e] => by simp [genExpr, tExpr, genStmts_eq s [.let_ p e]]
  | .block [.letAssert p e i m] => by simp [genExpr, tExpr, genStmts_eq s [.letAssert p e i m]]
  | .block (a :: b :: ss) => by
    have := genStmts_eq s (a :: b :: ss)
    simp only [genExpr, tExpr, this]
    simp
  | .not e => by simp [genExpr, tExpr, maybe_eq' c e (fun s => genExpr_eq s e)]
  | .neg e => by simp [genExpr, tExpr, maybe_eq' c e (fun s => genExpr_eq s e)]
  | .bin op l r => by
    have hl := maybe_eq c l (fun s => genExpr_eq s l)
    have hr := maybe_eq c r (fun s => genExpr_eq s r)
    have hl' := maybe_eq' c l (fun s => genExpr_eq s l)
    have hr' := maybe_eq' c r (fun s => genExpr_eq s r)
    cases op with
    | div => simp only [genExpr, tExpr]; exact genDivision_eq _ _ hl hr s
    | rem => simp only [genExpr, tExpr]; exact genDivision_eq _ _ hl hr s
    | _ => simp [genExpr, tExpr, hl', hr', concatSpec]
  | .nil => by simp [genExpr, tExpr]
  | .cons h t => by
    simp [genExpr, tExpr, maybe_eq' c h (fun s => genExpr_eq s h), maybe_eq' c t (fun s => genExpr_eq s t)]
  | .tuple es => by simp [genExpr, tExpr, genArgs_eq s es]
  | .index e i => by simp [genExpr, tExpr, maybe_eq' c e (fun s => genExpr_eq s e)]
  | .field e i => by simp [genExpr, tExpr, maybe_eq' c e (fun s => genExpr_eq s e)]
  | .update (some (x, loc)) record tag es => by
    simp [genExpr, tExpr, maybe_eq' c record (fun s => genExpr_eq s record), fun s => genArgs_eq s es, recordCalls_eq]
  | .update none record tag es => by
    simp [genExpr, tExpr, genArgs_eq s es, recordCalls_eq]
  | .fn params body => by simp [genExpr, tExpr, fun s => genStmts_eq s body]
  | .call f es => by
    have hf := maybe_eq' c f (fun s => genExpr_eq s f)
    have ha := fun s => genArgs_eq s es
    cases f with
    | ctor tag n => simp [genExpr, tExpr, ha, recordCalls_eq]
    | fnRef m f n => cases m <;> simp [genExpr, tExpr, ha]
    | _ => rw [genExpr, tExpr, hf] <;> simp [ha]
  | .pipe x loc value rest => by
    simp [genExpr, tExpr, maybe_eq' c value (fun s => genExpr_eq s value), fun s => genExpr_eq s rest]
  | .fail kind line none => by
    have := genError_none c kind line [] s
    simp only [fieldCalls] at this
    simp [genExpr, tExpr, this]
  | .fail kind line (some e) => by
    have := genError_some c kind line (maybe_eq c e (fun s => genExpr_eq s e)) [] s
    simp only [fieldCalls] at this
    simp [genExpr, tExpr, this]
  | .case_ [] cs => by simp [genExpr, tExpr, genArgs, tArgs, genClauses_eq s cs]
  | .case_ [e] cs => by
    simp [genExpr, tExpr, maybe_eq' c e (fun s => genExpr_eq s e), fun s => genClauses_eq s cs]
  | .case_ (e :: e' :: es) cs => by
    have h1 := genArgs_eq s (e :: e' :: es)
    simp only [genExpr, tExpr, h1, fun s => genClauses_eq s cs]
    simp

theorem genArgs_eq (s : State) : ∀ es : List Expr,
    genArgs c s es = (callsAll .expression (tArgs c s es).1, (tArgs c s es).2)
  | [] => by simp [genArgs, tArgs]
  | e :: es => by
    simp [genArgs, tArgs, maybe_eq' c e (fun s => genExpr_eq s e), fun s => genArgs_eq s es]

theorem genStmts_eq (s : State) : ∀ ss : List Stmt,
    genStmts c s ss = (callsAll .expression (tStmts c s ss).1, (tStmts c s ss).2)
  | [] => by simp [genStmts, tStmts]
  | .expr e :: ss => by
    simp [genStmts, tStmts, fun s => genExpr_eq s e, fun s => genStmts_eq s ss, callsAll_append]
  | .let_ p e :: ss => by
    simp [genStmts, tStmts, genPattern_eq, maybe_eq' c e (fun s => genExpr_eq s e), fun s => genStmts_eq s ss]
  | .letAssert p e info message :: ss => by
    have he := maybe_eq' c e (fun s => genExpr_eq s e)
    have hs := fun s => genStmts_eq s ss
    have hmm : ∀ m ∈ message, ∀ s, genExpr c s m = (callsAll .expression (tExpr c s m).1, (tExpr c s m).2) := by
      match message with
      | none => intro m h; cases h
      | some m' =>
        intro m h s
        cases h
        exact genExpr_eq s m'
    exact genLetAssert_eq c s p e info message ss he hs hmm

theorem genClauses_eq (s : State) : ∀ cs : List Clause,
    genClauses c s cs = (clauseCalls (tClauses c s cs).1, (tClauses c s cs).2)
  | [] => by simp [genClauses, tClauses]
  | .mk ps alternatives g (.block stmts) :: rest => by
    have hb := genBranches_eq (b := fun s => genStmts c s stmts) (b' := fun s => tStmts c s stmts) s.taken g
      (fun s => genStmts_eq s stmts) s (ps :: alternatives)
    simp only [genClauses, tClauses, hb, fun s => genClauses_eq s rest, clauseCalls_append]
  | .mk ps alternatives g body :: rest => by
    have hb := genBranches_eq (b := fun s => genExpr c s body) (b' := fun s => tExpr c s body) s.taken g
      (fun s => genExpr_eq s body) s (ps :: alternatives)
    cases body with
    | block stmts =>
      have hb := genBranches_eq (b := fun s => genStmts c s stmts) (b' := fun s => tStmts c s stmts) s.taken g
        (fun s => genStmts_eq s stmts) s (ps :: alternatives)
      simp only [genClauses, tClauses, hb, fun s => genClauses_eq s rest, clauseCalls_append]
    | _ => simp only [genClauses, tClauses, hb, fun s => genClauses_eq s rest, clauseCalls_append]

end

end Verif.ErlGen
