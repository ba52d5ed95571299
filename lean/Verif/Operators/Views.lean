import Verif.Operators.Lemmas
/-! Expressions, guards and constants seen as trees. -/
namespace Verif.Operators

open Spec

mutual
/-- An expression as a tree: a pipeline `a |> b |> c` is `(a |> b) |> c`. -/
def Expr.tree : Expr → Tree Tok Nat
  | .unit n => .leaf n
  | .binOp op l r => .node (binopTok op) l.tree r.tree
  | .pipeline e es => stepsTree e.tree es
def stepsTree : Tree Tok Nat → List Expr → Tree Tok Nat
  | t, [] => t
  | t, e :: es => stepsTree (.node .pipe t e.tree) es
end

/-- A constant or bit array size as a tree. -/
def Simple.tree : Simple → Tree Tok Nat
  | .unit n => .leaf n
  | .binary op l r => .node op l.tree r.tree

/-- A guard as a tree whose operands are atoms, negations and blocks. -/
def Guard.tree : Guard → Tree Tok Guard
  | .binary op l r => .node (binopTok op) l.tree r.tree
  | g => .leaf g

/-- Whether every pipeline in the expression lists all its steps: a pipeline has at least two steps and its
first step is not itself a pipeline. -/
def Expr.isPipeline : Expr → Bool
  | .pipeline _ _ => true
  | _ => false

mutual
def Expr.Flat : Expr → Prop
  | .unit _ => True
  | .binOp _ l r => l.Flat ∧ r.Flat
  | .pipeline e es => e.isPipeline = false ∧ es ≠ [] ∧ e.Flat ∧ stepsFlat es
def stepsFlat : List Expr → Prop
  | [] => True
  | e :: es => e.Flat ∧ stepsFlat es
end

theorem tok_of_binop {t : Tok} {o : BinOp} (h : tokenToBinop t = some o) : binopTok o = t := by
  cases t <;> simp [tokenToBinop] at h <;> subst h <;> rfl

theorem binop_of_tok (o : BinOp) : tokenToBinop (binopTok o) = some o := by cases o <;> rfl

theorem binopTok_inj {a b : BinOp} (h : binopTok a = binopTok b) : a = b := by
  have := congrArg tokenToBinop h
  rw [binop_of_tok, binop_of_tok] at this
  simpa using this

theorem binopTok_ne_pipe (o : BinOp) : binopTok o ≠ .pipe := by cases o <;> simp [binopTok]

theorem stepsTree_append (t : Tree Tok Nat) (es : List Expr) (e : Expr) :
    stepsTree t (es ++ [e]) = .node .pipe (stepsTree t es) e.tree := by
  induction es generalizing t with
  | nil => simp [stepsTree]
  | cons d es ih => simp only [List.cons_append, stepsTree]; exact ih _

theorem combines_expression : Combines precedence expressionReduction Expr.tree := by
  intro t p l r hp
  unfold expressionReduction
  by_cases ht : t = .pipe
  · subst ht
    refine ⟨pipelineReduction l r, rfl, ?_⟩
    cases l with
    | unit n => simp [pipelineReduction, Expr.tree, stepsTree]
    | binOp o a b => simp [pipelineReduction, Expr.tree, stepsTree]
    | pipeline e es => simp [pipelineReduction, Expr.tree, stepsTree_append]
  · rw [if_neg ht]
    cases hb : tokenToBinop t with
    | none => simp [precedence, ht, hb] at hp
    | some o => exact ⟨.binOp o l r, rfl, by simp [Expr.tree, tok_of_binop hb]⟩

theorem combines_constant : Combines constantPrecedence constantReduction Simple.tree := by
  intro t p l r hp
  unfold constantReduction
  cases hb : tokenToBinop t with
  | none => by_cases ht : t = .pipe <;> simp [constantPrecedence, precedence, ht, hb] at hp
  | some o => exact ⟨.binary t l r, rfl, rfl⟩

theorem combines_bitSize : Combines bitSizePrecedence bitSizeReduction Simple.tree := by
  intro t p l r hp
  exact ⟨.binary t l r, by simp [bitSizeReduction, hp], rfl⟩

theorem combines_guard : Combines guardPrecedence guardReduction Guard.tree := by
  intro t p l r hp
  unfold guardReduction
  cases hb : tokenToBinop t with
  | none => cases t <;> simp [guardPrecedence, tokenToBinop] at hp hb
  | some o => exact ⟨.binary o l r, rfl, by simp [Guard.tree, tok_of_binop hb]⟩

/-! ### Predicates kept by combination -/

section
variable {A : Type} (combine : Tok → A → A → Option A) (P : A → Prop)
  (hP : ∀ t l r x, P l → P r → combine t l r = some x → P x)
include hP

theorem doReduce_all {t : Tok} {es es' : List A} (h : ∀ e ∈ es, P e) (hr : doReduce combine t es = some es') :
    ∀ e ∈ es', P e := by
  cases es with
  | nil => simp [doReduce] at hr
  | cons r es =>
    cases es with
    | nil => simp [doReduce] at hr
    | cons l es =>
      simp only [doReduce, Option.map_eq_some_iff] at hr
      obtain ⟨x, hx, rfl⟩ := hr
      intro e he
      rcases List.mem_cons.1 he with rfl | he
      · exact hP t l r e (h l (by simp)) (h r (by simp)) hx
      · exact h e (by simp [he])

theorem handleNext_all {next : Tok × Nat} {ops ops' : List (Tok × Nat)} {es es' : List A} {v : Option A}
    (h : ∀ e ∈ es, P e) (hr : handleNext combine next ops es = some (v, ops', es')) : ∀ e ∈ es', P e := by
  induction ops generalizing es with
  | nil => simp [handleNext] at hr; rw [← hr.2.2]; exact h
  | cons o ops ih =>
    obtain ⟨t, p⟩ := o
    rw [handleNext] at hr
    split at hr
    · cases hd : doReduce combine t es with
      | none => simp [hd] at hr
      | some es1 =>
        rw [hd] at hr
        exact ih (doReduce_all combine P hP h hd) hr
    · simp at hr; rw [← hr.2.2]; exact h

theorem handleEnd_all {ops ops' : List (Tok × Nat)} {es es' : List A} {v : A}
    (h : ∀ e ∈ es, P e) (hr : handleEnd combine ops es = some (some v, ops', es')) : P v := by
  induction ops generalizing es with
  | nil =>
    cases es with
    | nil => simp [handleEnd] at hr
    | cons e es =>
      cases es with
      | nil => simp [handleEnd] at hr; rw [← hr.1]; exact h e (by simp)
      | cons => simp [handleEnd] at hr
  | cons o ops ih =>
    obtain ⟨t, p⟩ := o
    rw [handleEnd] at hr
    cases hd : doReduce combine t es with
    | none => simp [hd] at hr
    | some es1 =>
      rw [hd] at hr
      exact ih (doReduce_all combine P hP h hd) hr

theorem loop_all (unit : List Tok → UnitResult A) (prec : Tok → Option Nat)
    (hu : ∀ toks a rest, unit toks = .found a rest → P a) (fuel : Nat) (ops : List (Tok × Nat)) (es : List A)
    (toks : List Tok) (a : A) (rest : List Tok) (h : ∀ e ∈ es, P e)
    (hr : loop unit prec combine fuel ops es toks = .ok a rest) : P a := by
  induction fuel generalizing ops es toks with
  | zero => simp [loop] at hr
  | succ fuel ih =>
    rw [loop] at hr
    cases hun : unit toks with
    | error => simp [hun] at hr
    | missing => simp only [hun] at hr; split at hr <;> simp at hr
    | found b r =>
      simp only [hun] at hr
      have hb : ∀ e ∈ b :: es, P e := by
        intro e he
        rcases List.mem_cons.1 he with rfl | he
        · exact hu _ _ _ hun
        · exact h e he
      cases r with
      | nil =>
        simp only [finish] at hr
        split at hr <;> simp at hr
        rename_i he
        obtain ⟨rfl, -⟩ := hr
        exact handleEnd_all combine P hP hb he
      | cons t r =>
        simp only at hr
        cases hp : prec t with
        | none =>
          simp only [hp, finish] at hr
          split at hr <;> simp at hr
          rename_i he
          obtain ⟨rfl, -⟩ := hr
          exact handleEnd_all combine P hP hb he
        | some p =>
          simp only [hp] at hr
          split at hr
          · simp at hr
          · rename_i hn
            exact ih _ _ _ (handleNext_all combine P hP hb hn) hr
end

/-! ### The tree determines the expression -/

theorem stepsFlat_append (es : List Expr) (e : Expr) : stepsFlat (es ++ [e]) ↔ stepsFlat es ∧ e.Flat := by
  induction es with
  | nil => simp [stepsFlat]
  | cons d es ih => simp [stepsFlat, ih, and_assoc]

theorem flat_reduction (t : Tok) (l r x : Expr) (hl : l.Flat) (hr : r.Flat) (h : expressionReduction t l r = some x) :
    x.Flat := by
  unfold expressionReduction at h
  split at h
  · simp only [Option.some.injEq] at h
    subst h
    cases l with
    | unit n => simp [pipelineReduction, Expr.Flat, Expr.isPipeline, stepsFlat, hr]
    | binOp o a b => simpa [pipelineReduction, Expr.Flat, Expr.isPipeline, stepsFlat, hr] using hl
    | pipeline e es =>
      simp only [Expr.Flat] at hl
      simp [pipelineReduction, Expr.Flat, stepsFlat_append, hl, hr]
  · cases hb : tokenToBinop t with
    | none => simp [hb] at h
    | some o => simp [hb] at h; subst h; exact ⟨hl, hr⟩

theorem stepsTree_eq (t : Tree Tok Nat) (es : List Expr) :
    es = [] ∨ ∃ ds e, es = ds ++ [e] ∧ stepsTree t es = .node .pipe (stepsTree t ds) e.tree := by
  rcases List.eq_nil_or_concat es with h | ⟨ds, e, h⟩
  · exact Or.inl h
  · exact Or.inr ⟨ds, e, by simpa using h, by rw [h]; simpa using stepsTree_append t ds e⟩

/-- Not rooted at a pipe. -/
def notPipe : Tree Tok Nat → Prop
  | .node .pipe _ _ => False
  | _ => True

theorem notPipe_tree (e : Expr) (h : e.isPipeline = false) : notPipe e.tree := by
  cases e with
  | unit n => simp [Expr.tree, notPipe]
  | binOp o l r => cases o <;> simp [Expr.tree, notPipe, binopTok]
  | pipeline e es => simp [Expr.isPipeline] at h

theorem stepsTree_inj (s t : Tree Tok Nat) (ds es : List Expr) (hs : notPipe s) (ht : notPipe t)
    (h : stepsTree s ds = stepsTree t es) : s = t ∧ ds.map Expr.tree = es.map Expr.tree := by
  generalize hn : ds.length = n
  induction n generalizing ds es with
  | zero =>
    have : ds = [] := List.length_eq_zero_iff.1 hn
    subst this
    rcases stepsTree_eq t es with rfl | ⟨es', e, rfl, he⟩
    · simpa [stepsTree] using h
    · rw [he] at h; simp only [stepsTree] at h; rw [h] at hs; exact absurd hs (by simp [notPipe])
  | succ n ih =>
    rcases stepsTree_eq s ds with rfl | ⟨ds', d, rfl, hd⟩
    · simp at hn
    · rcases stepsTree_eq t es with rfl | ⟨es', e, rfl, he⟩
      · rw [hd] at h; simp only [stepsTree] at h; rw [← h] at ht; exact absurd ht (by simp [notPipe])
      · rw [hd, he] at h
        simp only [Tree.node.injEq, true_and] at h
        obtain ⟨h1, h2⟩ := ih ds' es' h.1 (by simpa using hn)
        exact ⟨h1, by simp [h2, h.2]⟩

theorem stepsTree_pipe (t : Tree Tok Nat) (es : List Expr) (h : es ≠ []) : ¬ notPipe (stepsTree t es) := by
  rcases stepsTree_eq t es with rfl | ⟨es', e, rfl, he⟩
  · exact absurd rfl h
  · rw [he]; simp [notPipe]

theorem stepsFlat_iff (es : List Expr) : stepsFlat es ↔ ∀ e ∈ es, e.Flat := by
  induction es with
  | nil => simp [stepsFlat]
  | cons e es ih => simp [stepsFlat, ih]

theorem map_tree_inj (n : Nat) (ih : ∀ (e e' : Expr), sizeOf e < n → e.Flat → e'.Flat → e.tree = e'.tree → e = e')
    (es es' : List Expr) (hs : ∀ e ∈ es, sizeOf e < n) (h1 : stepsFlat es) (h2 : stepsFlat es')
    (h : es.map Expr.tree = es'.map Expr.tree) : es = es' := by
  induction es generalizing es' with
  | nil => cases es' <;> simp at h ⊢
  | cons e es ih2 =>
    cases es' with
    | nil => simp at h
    | cons e' es' =>
      simp only [List.map_cons, List.cons.injEq] at h
      simp only [stepsFlat] at h1 h2
      rw [ih e e' (hs e (by simp)) h1.1 h2.1 h.1, ih2 es' (fun e he => hs e (by simp [he])) h1.2 h2.2 h.2]

theorem tree_inj (n : Nat) : ∀ (e e' : Expr), sizeOf e < n → e.Flat → e'.Flat → e.tree = e'.tree → e = e' := by
  induction n with
  | zero => intro e e' h; omega
  | succ n ih =>
    intro e e' hn h1 h2 h
    cases e with
    | unit a =>
      cases e' with
      | unit b => simpa [Expr.tree] using h
      | binOp => simp [Expr.tree] at h
      | pipeline f fs =>
        simp only [Expr.tree] at h
        have := stepsTree_pipe f.tree fs h2.2.1
        rw [← h] at this; exact absurd trivial this
    | binOp o l r =>
      cases e' with
      | unit b => simp [Expr.tree] at h
      | binOp o' l' r' =>
        simp only [Expr.tree, Tree.node.injEq] at h
        simp only [Expr.binOp.sizeOf_spec] at hn
        rw [binopTok_inj h.1, ih l l' (by omega) h1.1 h2.1 h.2.1, ih r r' (by omega) h1.2 h2.2 h.2.2]
      | pipeline f fs =>
        simp only [Expr.tree] at h
        have := stepsTree_pipe f.tree fs h2.2.1
        rw [← h] at this
        exact absurd (by cases o <;> simp [notPipe, binopTok]) this
    | pipeline g gs =>
      cases e' with
      | unit b =>
        simp only [Expr.tree] at h
        have := stepsTree_pipe g.tree gs h1.2.1
        rw [h] at this; exact absurd trivial this
      | binOp o l r =>
        simp only [Expr.tree] at h
        have := stepsTree_pipe g.tree gs h1.2.1
        rw [h] at this
        exact absurd (by cases o <;> simp [notPipe, binopTok]) this
      | pipeline f fs =>
        simp only [Expr.tree] at h
        simp only [Expr.Flat] at h1 h2
        obtain ⟨e1, e2⟩ := stepsTree_inj _ _ gs fs (notPipe_tree g h1.1) (notPipe_tree f h2.1) h
        simp only [Expr.pipeline.sizeOf_spec] at hn
        have hg := ih g f (by omega) h1.2.2.1 h2.2.2.1 e1
        have hgs := map_tree_inj n ih gs fs (fun e he => by have := List.sizeOf_lt_of_mem he; omega) h1.2.2.2 h2.2.2.2 e2
        rw [hg, hgs]

theorem expr_tree_inj {e e' : Expr} (h1 : e.Flat) (h2 : e'.Flat) (h : e.tree = e'.tree) : e = e' :=
  tree_inj (sizeOf e + 1) e e' (by omega) h1 h2 h

theorem simple_tree_inj {e e' : Simple} (h : e.tree = e'.tree) : e = e' := by
  induction e generalizing e' with
  | unit n => cases e' <;> simp_all [Simple.tree]
  | binary o l r ihl ihr =>
    cases e' with
    | unit => simp [Simple.tree] at h
    | binary o' l' r' =>
      simp only [Simple.tree, Tree.node.injEq] at h
      rw [h.1, ihl h.2.1, ihr h.2.2]

def Guard.isUnit : Guard → Bool
  | .binary _ _ _ => false
  | _ => true

theorem guard_tree_unit {g : Guard} (h : g.isUnit = true) : g.tree = .leaf g := by
  cases g <;> simp_all [Guard.tree, Guard.isUnit]

theorem guard_tree_inj {g h : Guard} (e : g.tree = h.tree) : g = h := by
  induction g generalizing h with
  | binary o l r ihl ihr =>
    cases h with
    | binary o' l' r' =>
      simp only [Guard.tree, Tree.node.injEq] at e
      rw [binopTok_inj e.1, ihl e.2.1, ihr e.2.2]
    | _ => simp [Guard.tree] at e
  | _ => cases h <;> simp_all [Guard.tree]

end Verif.Operators
