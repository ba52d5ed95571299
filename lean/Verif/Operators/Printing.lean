import Verif.Operators.Views
/-! Printing and reading back. -/
namespace Verif.Operators

open Spec

section
variable {U : Type}

/-- A sequence of operands and operators as tokens. -/
def seqToks (p : U → List Tok) (first : U) (rest : List (Tok × U)) : List Tok :=
  p first ++ rest.flatMap fun x => x.1 :: p x.2

theorem seqToks_node (p : U → List Tok) (op : Tok) (l r : Tree Tok U) :
    seqToks p (Tree.node op l r).first (Tree.node op l r).rest =
      seqToks p l.first l.rest ++ op :: seqToks p r.first r.rest := by
  simp [seqToks, Tree.first, Tree.rest]

theorem chain_of_seq {A : Type} {prec : Tok → Option Nat} {view : A → Tree Tok U} {unit : List Tok → UnitResult A}
    (p : U → List Tok) (first : U) (ps : List (Tok × U)) (rest : List Tok)
    (hread : ∀ u, (u = first ∨ u ∈ ps.map Prod.snd) → ∀ r, ∃ a, unit (p u ++ r) = .found a r ∧ view a = .leaf u)
    (hops : ∀ x ∈ ps, (prec x.1).isSome) (hend : ∀ t, rest.head? = some t → prec t = none) :
    Chain unit prec view (seqToks p first ps ++ rest) first ps rest := by
  induction ps generalizing first with
  | nil =>
    obtain ⟨a, h1, h2⟩ := hread first (Or.inl rfl) rest
    exact .last (by simpa [seqToks] using h1) h2 hend
  | cons x ps ih =>
    obtain ⟨t, v⟩ := x
    obtain ⟨a, h1, h2⟩ := hread first (Or.inl rfl) (t :: (seqToks p v ps ++ rest))
    obtain ⟨pr, hp⟩ := Option.isSome_iff_exists.1 (hops (t, v) (by simp))
    have := ih v (fun u hu => hread u (Or.inr (by simpa using hu))) (fun x hx => hops x (by simp [hx]))
    refine .more (a := a) ?_ h2 hp this
    rw [← h1]
    simp [seqToks]

theorem chain_ops {A : Type} {prec : Tok → Option Nat} {view : A → Tree Tok U} {unit : List Tok → UnitResult A}
    {toks : List Tok} {u : U} {ps : List (Tok × U)} {rest : List Tok} (h : Chain unit prec view toks u ps rest) :
    (∀ x ∈ ps, (prec x.1).isSome) ∧ (∀ t, rest.head? = some t → prec t = none) := by
  induction h with
  | last _ _ h => exact ⟨by simp, h⟩
  | more _ _ hp _ ih =>
    refine ⟨?_, ih.2⟩
    intro x hx
    rcases List.mem_cons.1 hx with rfl | hx
    · simp [hp]
    · exact ih.1 x hx

/-- Grouping only depends on the order of the priorities of the operators present. -/
theorem grouped_order {Op : Type} (pr pr' : Op → Nat) (t : Tree Op U)
    (h : ∀ a ∈ t.ops, ∀ b ∈ t.ops, (pr a ≤ pr b ↔ pr' a ≤ pr' b)) (hg : Grouped pr t) : Grouped pr' t := by
  induction t with
  | leaf u => trivial
  | node op l r ihl ihr =>
    obtain ⟨gl, gr, hl, hr⟩ := hg
    have ml : ∀ o ∈ l.ops, o ∈ (Tree.node op l r).ops := fun o ho => by simp [Tree.ops, ho]
    have mr : ∀ o ∈ r.ops, o ∈ (Tree.node op l r).ops := fun o ho => by simp [Tree.ops, ho]
    have mo : op ∈ (Tree.node op l r).ops := by simp [Tree.ops]
    refine ⟨ihl (fun a ha b hb => h a (ml a ha) b (ml b hb)) gl, ihr (fun a ha b hb => h a (mr a ha) b (mr b hb)) gr,
      fun o ho => (h op mo o (ml o ho)).1 (hl o ho), fun o ho => ?_⟩
    have h1 := hr o ho
    have h2 := h o (mr o ho) op mo
    have h3 : ¬ (pr o ≤ pr op) := by omega
    have h4 := fun h => h3 (h2.2 h)
    omega

theorem grouped_order_iff {Op : Type} (pr pr' : Op → Nat) (t : Tree Op U)
    (h : ∀ a ∈ t.ops, ∀ b ∈ t.ops, (pr a ≤ pr b ↔ pr' a ≤ pr' b)) : Grouped pr t ↔ Grouped pr' t :=
  ⟨grouped_order pr pr' t h, grouped_order pr' pr t fun a ha b hb => (h a ha b hb).symm⟩

instance decidableGrouped {Op : Type} (pr : Op → Nat) : (t : Tree Op U) → Decidable (Grouped pr t)
  | .leaf _ => isTrue trivial
  | .node _ l r =>
    have := decidableGrouped pr l
    have := decidableGrouped pr r
    inferInstanceAs (Decidable (_ ∧ _))

end

/-! ### Expressions -/

theorem prio_binop (o : BinOp) : prio precedence (binopTok o) = o.precedence := by cases o <;> rfl
theorem prio_pipe : prio precedence .pipe = 6 := rfl

theorem operatorSide_le {doc : List Tok} {op side : Nat} (h : op ≤ side) : operatorSide doc op side = doc := by
  rw [operatorSide, if_neg (by omega)]

theorem prec_ne_six (o : BinOp) : o.precedence ≠ 6 := by cases o <;> simp [BinOp.precedence]
theorem prec_le_eight (o : BinOp) : o.precedence ≤ 8 := by cases o <;> simp [BinOp.precedence]

theorem stepsTree_pipe_mem (t : Tree Tok Nat) (es : List Expr) (h : es ≠ []) : Tok.pipe ∈ (stepsTree t es).ops := by
  rcases stepsTree_eq t es with rfl | ⟨es', e, rfl, he⟩
  · exact absurd rfl h
  · rw [he]; simp [Tree.ops]

/-- If all operators of a side bind at least as tightly, `bin_op_side` adds no braces. -/
theorem binOpSide_le (doc : List Tok) (op : BinOp) (e : Expr) (hf : e.Flat)
    (h : ∀ o ∈ e.tree.ops, op.precedence ≤ prio precedence o) : binOpSide doc op e = doc := by
  have h8 := prec_le_eight op
  cases e with
  | unit n => simp only [binOpSide, Expr.binOpPrecedence]; exact operatorSide_le (by omega)
  | binOp o l r =>
    have := h (binopTok o) (by simp [Expr.tree, Tree.ops])
    rw [prio_binop] at this
    simp only [binOpSide]
    split
    · rfl
    · exact operatorSide_le this
  | pipeline f fs =>
    have := h .pipe (stepsTree_pipe_mem _ _ hf.2.1)
    rw [prio_pipe] at this
    have := prec_ne_six op
    simp only [binOpSide, Expr.binOpPrecedence]
    exact operatorSide_le (by omega)

theorem side_of_pipe (n : Nat) (hn : n ≤ 5) (e : Expr) (hf : e.Flat) (h : ∀ o ∈ e.tree.ops, n ≤ prio precedence o) :
    n ≤ e.binOpPrecedence := by
  cases e with
  | unit n => simp only [Expr.binOpPrecedence]; omega
  | binOp o l r =>
    have := h (binopTok o) (by simp [Expr.tree, Tree.ops])
    rwa [prio_binop] at this
  | pipeline f fs => simpa [Expr.binOpPrecedence] using hn

def atomToks (n : Nat) : List Tok := [.atom n]

/-- The token sequence of a tree of atoms. -/
def treeToks (t : Tree Tok Nat) : List Tok := seqToks atomToks t.first t.rest

theorem treeToks_node (op : Tok) (l r : Tree Tok Nat) : treeToks (.node op l r) = treeToks l ++ op :: treeToks r :=
  seqToks_node _ _ _ _

theorem grouped_sub_steps (t : Tree Tok Nat) (es : List Expr) (hg : Grouped (prio precedence) (stepsTree t es)) :
    Grouped (prio precedence) t ∧ (es ≠ [] → ∀ o ∈ t.ops, 6 ≤ prio precedence o) := by
  generalize hn : es.length = n
  induction n generalizing es with
  | zero =>
    have := List.length_eq_zero_iff.1 hn
    subst this
    exact ⟨hg, by simp⟩
  | succ n ih =>
    rcases stepsTree_eq t es with rfl | ⟨ds, e, rfl, he⟩
    · simp at hn
    · rw [he] at hg
      obtain ⟨g1, g2, h1, h2⟩ := hg
      have := ih ds g1 (by simpa using hn)
      refine ⟨this.1, fun _ => ?_⟩
      rcases stepsTree_eq t ds with rfl | ⟨ds', e', rfl, he'⟩
      · simpa [stepsTree, prio_pipe] using h1
      · exact this.2 (by simp)

theorem print_steps (n : Nat)
    (ih : ∀ e : Expr, sizeOf e < n → e.Flat → Grouped (prio precedence) e.tree → printExpr e = treeToks e.tree)
    (t : Tree Tok Nat) (es : List Expr) (hs : ∀ e ∈ es, sizeOf e < n) (hf : stepsFlat es)
    (hg : Grouped (prio precedence) (stepsTree t es)) : treeToks t ++ printSteps es = treeToks (stepsTree t es) := by
  induction es generalizing t with
  | nil => simp [printSteps, stepsTree]
  | cons e es ih2 =>
    simp only [printSteps, stepsTree]
    simp only [stepsTree] at hg
    obtain ⟨⟨gt, ge, h1, h2⟩, -⟩ := grouped_sub_steps _ _ hg
    rw [← ih2 _ (fun d hd => hs d (by simp [hd])) hf.2 hg, treeToks_node, ih e (hs e (by simp)) hf.1 ge, operatorSide_le]
    · simp
    · exact side_of_pipe 4 (by omega) e hf.1 (fun o ho => by have := h2 o ho; rw [prio_pipe] at this; omega)

theorem printExpr_toks (n : Nat) : ∀ e : Expr, sizeOf e < n → e.Flat → Grouped (prio precedence) e.tree →
    printExpr e = treeToks e.tree := by
  induction n with
  | zero => intro e h; omega
  | succ n ih =>
    intro e hn hf hg
    cases e with
    | unit a => simp [printExpr, Expr.tree, treeToks, seqToks, atomToks, Tree.first, Tree.rest]
    | binOp o l r =>
      simp only [Expr.binOp.sizeOf_spec] at hn
      simp only [Expr.tree] at hg
      obtain ⟨gl, gr, h1, h2⟩ := hg
      rw [prio_binop] at h1 h2
      rw [printExpr, Expr.tree, treeToks_node, ih l (by omega) hf.1 gl, ih r (by omega) hf.2 gr,
        binOpSide_le _ _ l hf.1 h1, binOpSide_le _ _ r hf.2 (fun o ho => by have := h2 o ho; omega)]
    | pipeline f fs =>
      simp only [Expr.pipeline.sizeOf_spec] at hn
      simp only [Expr.tree] at hg
      obtain ⟨gf, hlow⟩ := grouped_sub_steps _ _ hg
      simp only [Expr.Flat] at hf
      rw [printExpr, Expr.tree, ih f (by omega) hf.2.2.1 gf, operatorSide_le,
        print_steps n ih f.tree fs (fun e he => by have := List.sizeOf_lt_of_mem he; omega) hf.2.2.2 hg]
      exact side_of_pipe 5 (by omega) f hf.2.2.1 (fun o ho => by have := hlow hf.2.1 o ho; omega)

theorem expressionUnit_atom (n : Nat) (r : List Tok) : expressionUnit (atomToks n ++ r) = .found (.unit n) r := rfl

theorem expressionUnit_spec {toks : List Tok} {a : Expr} {rest : List Tok} (h : expressionUnit toks = .found a rest) :
    ∃ n, a = .unit n ∧ toks = .atom n :: rest := by
  unfold expressionUnit at h
  split at h
  · simp at h; exact ⟨_, h.1.symm, by rw [h.2]⟩
  · simp at h

theorem simpleUnit_spec {toks : List Tok} {a : Simple} {rest : List Tok} (h : simpleUnit toks = .found a rest) :
    ∃ n, a = .unit n ∧ toks = .atom n :: rest := by
  unfold simpleUnit at h
  split at h
  · simp at h; exact ⟨_, h.1.symm, by rw [h.2]⟩
  · simp at h

/-! ### Guards -/

/-- What the guard parser produces: negated guards are operands, blocks hold grouped guards. -/
def Guard.Ok : Guard → Prop
  | .atom _ => True
  | .not g => g.isUnit = true ∧ g.Ok
  | .block g => Grouped (prio guardPrecedence) g.tree ∧ g.Ok
  | .binary _ l r => l.Ok ∧ r.Ok

theorem guard_prec_order (a b : BinOp) :
    prio guardPrecedence (binopTok a) ≤ prio guardPrecedence (binopTok b) ↔ a.precedence ≤ b.precedence := by
  cases a <;> cases b <;> decide

theorem guard_tree_ops (g : Guard) : ∀ o ∈ g.tree.ops, ∃ b, o = binopTok b := by
  induction g with
  | binary op l r ihl ihr =>
    intro o ho
    simp only [Guard.tree, Tree.ops, List.mem_append, List.mem_cons] at ho
    rcases ho with ho | rfl | ho
    · exact ihl o ho
    · exact ⟨op, rfl⟩
    · exact ihr o ho
  | _ => simp [Guard.tree, Tree.ops]

/-- A guard with all its operators grouped prints without added braces. -/
theorem printGuard_seq (g : Guard) (hg : Grouped (prio guardPrecedence) g.tree) :
    printGuard g = seqToks printGuard g.tree.first g.tree.rest := by
  induction g with
  | binary op l r ihl ihr =>
    simp only [Guard.tree] at hg
    obtain ⟨gl, gr, h1, h2⟩ := hg
    have h8 := prec_le_eight op
    simp only [Guard.tree]
    rw [seqToks_node, ← ihl gl, ← ihr gr]
    simp only [printGuard]
    rw [operatorSide_le, operatorSide_le]
    · cases r with
      | binary o _ _ =>
        have := h2 (binopTok o) (by simp [Guard.tree, Tree.ops])
        have hn : ¬ o.precedence ≤ op.precedence := fun h => (Nat.not_le_of_lt this) ((guard_prec_order o op).2 h)
        simp only [Guard.precedence]; omega
      | _ => simp only [Guard.precedence]; omega
    · cases l with
      | binary o _ _ =>
        have := h1 (binopTok o) (by simp [Guard.tree, Tree.ops])
        exact (guard_prec_order op o).1 this
      | _ => simp only [Guard.precedence]; omega
  | _ => simp [Guard.tree, Tree.first, Tree.rest, seqToks]

theorem guardReduction_ok (t : Tok) (l r x : Guard) (hl : l.Ok) (hr : r.Ok) (h : guardReduction t l r = some x) : x.Ok := by
  unfold guardReduction at h
  cases hb : tokenToBinop t with
  | none => simp [hb] at h
  | some o => simp [hb] at h; subst h; exact ⟨hl, hr⟩

theorem parseGuardWith_sound {unit : List Tok → UnitResult Guard}
    (hu : ∀ toks a rest, unit toks = .found a rest → a.isUnit = true ∧ a.Ok ∧ rest.length < toks.length)
    {toks : List Tok} {g : Guard} {rest : List Tok}
    (h : parseWith unit guardPrecedence guardReduction toks = .ok g rest) :
    g.Ok ∧ Grouped (prio guardPrecedence) g.tree ∧ rest.length < toks.length ∧
      (∀ t, rest.head? = some t → guardPrecedence t = none) ∧
      Chain unit guardPrecedence Guard.tree toks g.tree.first g.tree.rest rest := by
  have hok := loop_all guardReduction Guard.Ok guardReduction_ok unit guardPrecedence
    (fun toks a rest h => (hu toks a rest h).2.1) _ _ _ _ _ _ (by simp) h
  obtain ⟨u, ps, hch⟩ := loop_chain (view := Guard.tree) unit
    (fun toks a rest h => ⟨a, guard_tree_unit (hu toks a rest h).1⟩) _ _ _ _ _ _ h
  have hcons := fun toks a rest h => (hu toks a rest h).2.2
  obtain ⟨a, ha, hg, h1, h2⟩ := parseWith_spec unit combines_guard hcons hch
  rw [ha] at h
  simp only [Parsed.ok.injEq] at h
  obtain ⟨rfl, -⟩ := h
  have := hch.length hcons
  subst h1 h2
  exact ⟨hok, hg, by omega, (chain_ops hch).2, hch⟩

theorem guardUnit_sound (fuel : Nat) (toks : List Tok) (g : Guard) (rest : List Tok)
    (h : guardUnit fuel toks = .found g rest) : g.isUnit = true ∧ g.Ok ∧ rest.length < toks.length := by
  induction fuel generalizing toks g rest with
  | zero => simp [guardUnit] at h
  | succ fuel ih =>
    unfold guardUnit at h
    split at h
    · exact absurd ‹_› (by omega)
    · simp only [UnitResult.found.injEq] at h
      obtain ⟨rfl, rfl⟩ := h
      simp [Guard.isUnit, Guard.Ok]
    · rename_i f r hf
      have hf' : f = fuel := by omega
      subst hf'
      cases hu : guardUnit f r with
      | found g' r' =>
        simp only [hu, notResult, UnitResult.found.injEq] at h
        obtain ⟨rfl, rfl⟩ := h
        obtain ⟨h1, h2, h3⟩ := ih _ _ _ hu
        exact ⟨rfl, ⟨h1, h2⟩, by simp; omega⟩
      | missing => simp [hu, notResult] at h
      | error => simp [hu, notResult] at h
    · rename_i f r hf
      have hf' : f = fuel := by omega
      subst hf'
      cases hp : parseWith (guardUnit f) guardPrecedence guardReduction r with
      | ok g' r' =>
        simp only [hp] at h
        unfold blockResult at h
        split at h
        · rename_i heq
          simp only [UnitResult.found.injEq] at h
          obtain ⟨rfl, rfl⟩ := h
          simp only [Parsed.ok.injEq] at heq
          obtain ⟨rfl, rfl⟩ := heq
          obtain ⟨h1, h2, h3, -⟩ := parseGuardWith_sound ih hp
          exact ⟨rfl, ⟨h2, h1⟩, by simp at h3 ⊢; omega⟩
        · simp at h
      | nothing => simp [hp, blockResult] at h
      | error => simp [hp, blockResult] at h
      | panic => simp [hp, blockResult] at h
    · simp at h

/-- Parsing the printed form of a grouped guard, given an operand parser that reads the printed operands. -/
theorem parseGuardWith_print {unit : List Tok → UnitResult Guard}
    (hu : ∀ toks a rest, unit toks = .found a rest → a.isUnit = true ∧ a.Ok ∧ rest.length < toks.length)
    (g : Guard) (hg : Grouped (prio guardPrecedence) g.tree)
    (hread : ∀ u, (u = g.tree.first ∨ u ∈ g.tree.rest.map Prod.snd) → ∀ r, unit (printGuard u ++ r) = .found u r)
    (hunit : ∀ u, (u = g.tree.first ∨ u ∈ g.tree.rest.map Prod.snd) → u.isUnit = true)
    (rest : List Tok) (hend : ∀ t, rest.head? = some t → guardPrecedence t = none) :
    parseWith unit guardPrecedence guardReduction (printGuard g ++ rest) = .ok g rest := by
  rw [printGuard_seq g hg]
  have hops : ∀ x ∈ g.tree.rest, (guardPrecedence x.1).isSome := by
    intro x hx
    have hm : x.1 ∈ g.tree.ops := by rw [← rest_ops]; exact List.mem_map_of_mem hx
    obtain ⟨b, hb⟩ := guard_tree_ops g _ hm
    rw [hb]; cases b <;> rfl
  have hch := chain_of_seq (unit := unit) (view := Guard.tree) printGuard g.tree.first g.tree.rest rest
    (fun u hu' r => ⟨u, hread u hu' r, guard_tree_unit (hunit u hu')⟩) hops hend
  obtain ⟨a, ha, hga, h1, h2⟩ := parseWith_spec unit combines_guard (fun toks a rest h => (hu toks a rest h).2.2) hch
  rw [ha]
  have := grouped_unique _ _ _ hga hg h1 h2
  rw [guard_tree_inj this]

theorem tree_leaves (g : Guard) (P : Guard → Prop)
    (h : g.Ok) (hP : ∀ u : Guard, u.isUnit = true → u.Ok → (printGuard u).length ≤ (printGuard g).length → P u) :
    ∀ u, (u = g.tree.first ∨ u ∈ g.tree.rest.map Prod.snd) → P u := by
  have key : ∀ g : Guard, g.Ok → ∀ u, (u = g.tree.first ∨ u ∈ g.tree.rest.map Prod.snd) →
      u.isUnit = true ∧ u.Ok ∧ (printGuard u).length ≤ (printGuard g).length := by
    intro g
    induction g with
    | binary op l r ihl ihr =>
      intro hok u hu
      have hl : (printGuard l).length ≤ (printGuard (.binary op l r)).length := by
        simp only [printGuard, operatorSide]; split <;> simp <;> omega
      have hr : (printGuard r).length ≤ (printGuard (.binary op l r)).length := by
        simp only [printGuard, List.length_append, List.length_cons]
        have : (printGuard r).length ≤ (operatorSide (printGuard r) op.precedence (r.precedence - 1)).length := by
          unfold operatorSide; split <;> simp; omega
        omega
      simp only [Guard.tree, Tree.first, Tree.rest, List.map_append, List.map_cons, List.mem_append, List.mem_cons] at hu
      rcases hu with hu | hu | hu | hu
      · have := ihl hok.1 u (Or.inl hu); exact ⟨this.1, this.2.1, by omega⟩
      · have := ihl hok.1 u (Or.inr hu); exact ⟨this.1, this.2.1, by omega⟩
      · have := ihr hok.2 u (Or.inl hu); exact ⟨this.1, this.2.1, by omega⟩
      · have := ihr hok.2 u (Or.inr hu); exact ⟨this.1, this.2.1, by omega⟩
    | _ =>
      intro hok u hu
      simp [Guard.tree, Tree.first, Tree.rest] at hu
      subst hu
      exact ⟨rfl, hok, Nat.le_refl _⟩
  intro u hu
  obtain ⟨h1, h2, h3⟩ := key g h u hu
  exact hP u h1 h2 h3

theorem guardUnit_print (fuel : Nat) (g : Guard) (hu : g.isUnit = true) (hok : g.Ok)
    (hf : (printGuard g).length < fuel) (r : List Tok) : guardUnit fuel (printGuard g ++ r) = .found g r := by
  induction fuel generalizing g r with
  | zero => omega
  | succ fuel ih =>
    cases g with
    | atom n => rfl
    | not g =>
      obtain ⟨h1, h2⟩ := hok
      simp only [printGuard, List.length_cons] at hf
      simp only [printGuard, List.cons_append, guardUnit]
      rw [ih g h1 h2 (by omega)]
      rfl
    | block g =>
      obtain ⟨h1, h2⟩ := hok
      simp only [printGuard, List.length_append, List.length_cons, List.length_nil] at hf
      simp only [printGuard, List.cons_append, List.append_assoc, guardUnit, List.nil_append]
      rw [parseGuardWith_print (guardUnit_sound fuel) g h1 _ _ (.rightBrace :: r) (by simp [guardPrecedence])]
      · rfl
      · exact tree_leaves g (fun u => ∀ r, guardUnit fuel (printGuard u ++ r) = .found u r) h2
          (fun u a b c r => ih u a b (by omega) r)
      · exact tree_leaves g (fun u => u.isUnit = true) h2 (fun u a b c => a)
    | binary => simp [Guard.isUnit] at hu

end Verif.Operators
