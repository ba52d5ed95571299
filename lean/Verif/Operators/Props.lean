import Verif.Operators.Printing
/-!
# C13, C49: operators are grouped by the documented priorities, and the formatter keeps the grouping

`Spec.Grouped` says what a correct grouping is; `Spec.documentedPriority` is the documented table. An expression or
guard is read as a tree by `Expr.tree`, `Simple.tree`, `Guard.tree` in `Views.lean`.
-/
namespace Verif.Operators

open Spec

/-- The tokens of `n₀ op₁ n₁ op₂ n₂ …`. -/
def written (n0 : Nat) (ps : List (Tok × Nat)) : List Tok := .atom n0 :: ps.flatMap fun x => [x.1, .atom x.2]

/-- The documented priority of an operator token. -/
def docPriority (t : Tok) : Nat := documentedPriority t.spelling

/-- The operators of the language. -/
def operators : List Tok :=
  [.vbarVbar, .amperAmper, .equalEqual, .notEqual, .less, .lessEqual, .greater, .greaterEqual, .lessDot, .lessEqualDot,
   .greaterDot, .greaterEqualDot, .concatenate, .pipe, .plus, .minus, .plusDot, .minusDot, .star, .starDot, .slash,
   .slashDot, .percent]

theorem precedence_isSome_iff (t : Tok) : (precedence t).isSome ↔ t ∈ operators := by
  cases t <;> simp [precedence, tokenToBinop, operators]

theorem prio_doc (a b : Tok) (ha : a ∈ operators) (hb : b ∈ operators) :
    prio precedence a ≤ prio precedence b ↔ docPriority a ≤ docPriority b := by
  have : ∀ a ∈ operators, ∀ b ∈ operators,
      (prio precedence a ≤ prio precedence b ↔ docPriority a ≤ docPriority b) := by decide +kernel
  exact this a ha b hb

theorem guardPrio_doc (a b : Tok) (ha : a ∈ operators) (hb : b ∈ operators) (ha' : a ≠ .pipe) (hb' : b ≠ .pipe) :
    prio guardPrecedence a ≤ prio guardPrecedence b ↔ docPriority a ≤ docPriority b := by
  have : ∀ a ∈ operators, ∀ b ∈ operators, a ≠ .pipe → b ≠ .pipe →
      (prio guardPrecedence a ≤ prio guardPrecedence b ↔ docPriority a ≤ docPriority b) := by decide +kernel
  exact this a ha b hb ha' hb'

theorem guardPrecedence_isSome_iff (t : Tok) : (guardPrecedence t).isSome ↔ t ∈ operators ∧ t ≠ .pipe := by
  cases t <;> simp [guardPrecedence, operators]

theorem constantPrecedence_isSome_iff (t : Tok) : (constantPrecedence t).isSome ↔ t ∈ operators ∧ t ≠ .pipe := by
  cases t <;> simp [constantPrecedence, precedence, tokenToBinop, operators]

/-- The operators allowed in bit array sizes. -/
def sizeOperators : List Tok := [.plus, .minus, .star, .slash, .percent]

theorem bitSizePrecedence_isSome_iff (t : Tok) : (bitSizePrecedence t).isSome ↔ t ∈ sizeOperators := by
  cases t <;> simp [bitSizePrecedence, sizeOperators]

theorem written_eq (n0 : Nat) (ps : List (Tok × Nat)) : written n0 ps = seqToks atomToks n0 ps := rfl

theorem none_of_not {prec : Tok → Option Nat} {P : Tok → Prop} (hiff : ∀ t, (prec t).isSome ↔ P t) {rest : List Tok}
    (h : ∀ t, rest.head? = some t → ¬ P t) : ∀ t, rest.head? = some t → prec t = none := by
  intro t ht
  have := h t ht
  rw [← hiff] at this
  simpa using this

/-- **C13, expressions.** For every sequence of operands and operators, of any length, the parser accepts it and
returns the tree that reads the same from left to right and is grouped by the documented priorities, to the left among
operators of the same priority; and that tree is the only one. -/
theorem parse_expression_grouped (n0 : Nat) (ps : List (Tok × Nat)) (rest : List Tok)
    (hops : ∀ x ∈ ps, x.1 ∈ operators) (hend : ∀ t, rest.head? = some t → t ∉ operators) :
    ∃ e, parseExpression (written n0 ps ++ rest) = .ok e rest ∧
      e.tree.first = n0 ∧ e.tree.rest = ps ∧ Grouped docPriority e.tree ∧ e.Flat ∧
      ∀ t : Tree Tok Nat, t.first = n0 → t.rest = ps → Grouped docPriority t → t = e.tree := by
  have hch := chain_of_seq (prec := precedence) (view := Expr.tree) (unit := expressionUnit) atomToks n0 ps rest
    (fun u _ r => ⟨.unit u, rfl, by simp [Expr.tree]⟩) (fun x hx => (precedence_isSome_iff _).2 (hops x hx))
    (none_of_not precedence_isSome_iff hend)
  have hcons : ∀ toks a rest, expressionUnit toks = .found a rest → rest.length < toks.length := by
    intro toks a rest h
    obtain ⟨n, -, rfl⟩ := expressionUnit_spec h
    simp
  obtain ⟨e, he, hg, h1, h2⟩ := parseWith_spec expressionUnit combines_expression hcons hch
  have hflat := loop_all expressionReduction Expr.Flat flat_reduction expressionUnit precedence
    (fun toks a rest h => by obtain ⟨n, rfl, -⟩ := expressionUnit_spec h; simp [Expr.Flat]) _ _ _ _ _ _ (by simp) he
  have hmem : ∀ o ∈ e.tree.ops, o ∈ operators := by
    intro o ho
    rw [← rest_ops, h2] at ho
    obtain ⟨x, hx, rfl⟩ := List.mem_map.1 ho
    exact hops x hx
  have hg' := grouped_order _ docPriority e.tree (fun a ha b hb => prio_doc a b (hmem a ha) (hmem b hb)) hg
  refine ⟨e, he, h1, h2, hg', hflat, ?_⟩
  intro t t1 t2 tg
  exact grouped_unique _ t e.tree tg hg' (by rw [t1, h1]) (by rw [t2, h2])

-- `1 || 2 + 3 * 4 |> 5 |> 6 - 7 == 8 }`
example : (∀ x ∈ ([(.vbarVbar, 2), (.plus, 3), (.star, 4), (.pipe, 5), (.pipe, 6), (.minus, 7), (.equalEqual, 8)] :
      List (Tok × Nat)), x.1 ∈ operators) ∧
    (∀ t, ([.rightBrace] : List Tok).head? = some t → t ∉ operators) := by
  constructor
  · decide
  · intro t ht; simp at ht; subst ht; decide

/-- An operator with no operand after it is a syntax error. -/
theorem parse_expression_trailing (n0 : Nat) (ps : List (Tok × Nat)) (op : Tok) (rest : List Tok)
    (hops : ∀ x ∈ ps, x.1 ∈ operators) (hop : op ∈ operators) (hend : ∀ n, rest.head? ≠ some (.atom n)) :
    ∀ e r, parseExpression (written n0 ps ++ op :: rest) ≠ .ok e r := by
  intro e r h
  obtain ⟨u, qs, hch⟩ := loop_chain (view := Expr.tree) expressionUnit
    (fun toks a rest h => by obtain ⟨n, rfl, -⟩ := expressionUnit_spec h; exact ⟨n, by simp [Expr.tree]⟩) _ _ _ _ _ _ h
  clear h
  induction ps generalizing n0 u qs with
  | nil =>
    cases hch with
    | last hu _ hr =>
      obtain ⟨n, -, heq⟩ := expressionUnit_spec hu
      simp [written] at heq
      have := hr op (by rw [← heq.2]; rfl)
      have h2 := (precedence_isSome_iff op).2 hop
      simp [this] at h2
    | more hu _ _ hch =>
      obtain ⟨n, -, heq⟩ := expressionUnit_spec hu
      simp [written] at heq
      obtain ⟨-, rfl, rfl⟩ := heq
      cases hch with
      | last hu _ _ | more hu _ _ _ =>
        obtain ⟨m, -, heq⟩ := expressionUnit_spec hu
        rw [heq] at hend
        exact hend m rfl
  | cons x ps ih =>
    obtain ⟨t, m⟩ := x
    cases hch with
    | last hu _ hr =>
      obtain ⟨n, -, heq⟩ := expressionUnit_spec hu
      simp [written] at heq
      have := hr t (by rw [← heq.2]; rfl)
      have h2 := (precedence_isSome_iff t).2 (hops (t, m) (by simp))
      simp [this] at h2
    | more hu _ _ hch =>
      obtain ⟨n, -, heq⟩ := expressionUnit_spec hu
      simp [written] at heq
      obtain ⟨-, rfl, heq⟩ := heq
      rw [← heq] at hch
      exact ih m (fun x hx => hops x (by simp [hx])) _ _ (by simpa [written] using hch)

example : (.plus : Tok) ∈ operators ∧ ∀ n, ([.rightBrace] : List Tok).head? ≠ some (.atom n) := by
  exact ⟨by decide, by simp⟩

/-- **C13, constants.** -/
theorem parse_constant_grouped (n0 : Nat) (ps : List (Tok × Nat)) (rest : List Tok)
    (hops : ∀ x ∈ ps, x.1 ∈ operators ∧ x.1 ≠ .pipe)
    (hend : ∀ t, rest.head? = some t → ¬ (t ∈ operators ∧ t ≠ .pipe)) :
    ∃ e, parseConstant (written n0 ps ++ rest) = .ok e rest ∧
      e.tree.first = n0 ∧ e.tree.rest = ps ∧ Grouped docPriority e.tree ∧
      ∀ t : Tree Tok Nat, t.first = n0 → t.rest = ps → Grouped docPriority t → t = e.tree := by
  have hch := chain_of_seq (prec := constantPrecedence) (view := Simple.tree) (unit := simpleUnit) atomToks n0 ps rest
    (fun u _ r => ⟨.unit u, rfl, rfl⟩) (fun x hx => (constantPrecedence_isSome_iff _).2 (hops x hx))
    (none_of_not constantPrecedence_isSome_iff hend)
  have hcons : ∀ toks a rest, simpleUnit toks = .found a rest → rest.length < toks.length := by
    intro toks a rest h
    obtain ⟨n, -, rfl⟩ := simpleUnit_spec h
    simp
  obtain ⟨e, he, hg, h1, h2⟩ := parseWith_spec simpleUnit combines_constant hcons hch
  have hmem : ∀ o ∈ e.tree.ops, o ∈ operators ∧ o ≠ .pipe := by
    intro o ho
    rw [← rest_ops, h2] at ho
    obtain ⟨x, hx, rfl⟩ := List.mem_map.1 ho
    exact hops x hx
  have hprio : ∀ o, o ≠ Tok.pipe → prio constantPrecedence o = prio precedence o := by
    intro o ho; simp [prio, constantPrecedence, ho]
  have hg' := grouped_order _ docPriority e.tree (fun a ha b hb => by
    rw [hprio a (hmem a ha).2, hprio b (hmem b hb).2]
    exact prio_doc a b (hmem a ha).1 (hmem b hb).1) hg
  refine ⟨e, he, h1, h2, hg', ?_⟩
  intro t t1 t2 tg
  exact grouped_unique _ t e.tree tg hg' (by rw [t1, h1]) (by rw [t2, h2])

-- `1 == 2 + 3 <> 4`
example : ∀ x ∈ ([(.equalEqual, 2), (.plus, 3), (.concatenate, 4)] : List (Tok × Nat)), x.1 ∈ operators ∧ x.1 ≠ .pipe := by
  decide

/-- **C13, sizes of bit array segments.** -/
theorem parse_bit_size_grouped (n0 : Nat) (ps : List (Tok × Nat)) (rest : List Tok)
    (hops : ∀ x ∈ ps, x.1 ∈ sizeOperators) (hend : ∀ t, rest.head? = some t → t ∉ sizeOperators) :
    ∃ e, parseBitSize (written n0 ps ++ rest) = .ok e rest ∧
      e.tree.first = n0 ∧ e.tree.rest = ps ∧ Grouped docPriority e.tree ∧
      ∀ t : Tree Tok Nat, t.first = n0 → t.rest = ps → Grouped docPriority t → t = e.tree := by
  have hch := chain_of_seq (prec := bitSizePrecedence) (view := Simple.tree) (unit := simpleUnit) atomToks n0 ps rest
    (fun u _ r => ⟨.unit u, rfl, rfl⟩) (fun x hx => (bitSizePrecedence_isSome_iff _).2 (hops x hx))
    (none_of_not bitSizePrecedence_isSome_iff hend)
  have hcons : ∀ toks a rest, simpleUnit toks = .found a rest → rest.length < toks.length := by
    intro toks a rest h
    obtain ⟨n, -, rfl⟩ := simpleUnit_spec h
    simp
  obtain ⟨e, he, hg, h1, h2⟩ := parseWith_spec simpleUnit combines_bitSize hcons hch
  have hmem : ∀ o ∈ e.tree.ops, o ∈ sizeOperators := by
    intro o ho
    rw [← rest_ops, h2] at ho
    obtain ⟨x, hx, rfl⟩ := List.mem_map.1 ho
    exact hops x hx
  have hprio : ∀ a ∈ sizeOperators, ∀ b ∈ sizeOperators,
      (prio bitSizePrecedence a ≤ prio bitSizePrecedence b ↔ docPriority a ≤ docPriority b) := by decide +kernel
  have hg' := grouped_order _ docPriority e.tree (fun a ha b hb => hprio a (hmem a ha) b (hmem b hb)) hg
  refine ⟨e, he, h1, h2, hg', ?_⟩
  intro t t1 t2 tg
  exact grouped_unique _ t e.tree tg hg' (by rw [t1, h1]) (by rw [t2, h2])

-- `1 + 2 * 3 - 4`
example : ∀ x ∈ ([(.plus, 2), (.star, 3), (.minus, 4)] : List (Tok × Nat)), x.1 ∈ sizeOperators := by decide

/-- Every block inside a guard, at any depth, is grouped by the documented priorities, and `!` applies to the operand
right after it only. -/
def Guard.InnerGrouped : Guard → Prop
  | .atom _ => True
  | .not g => g.isUnit = true ∧ g.InnerGrouped
  | .block g => Grouped docPriority g.tree ∧ g.InnerGrouped
  | .binary _ l r => l.InnerGrouped ∧ r.InnerGrouped

theorem guard_grouped_doc (g : Guard) : Grouped (prio guardPrecedence) g.tree ↔ Grouped docPriority g.tree := by
  apply grouped_order_iff
  intro a ha b hb
  obtain ⟨x, rfl⟩ := guard_tree_ops g a ha
  obtain ⟨y, rfl⟩ := guard_tree_ops g b hb
  exact guardPrio_doc _ _ (by cases x <;> decide) (by cases y <;> decide) (binopTok_ne_pipe x) (binopTok_ne_pipe y)

theorem inner_of_ok (g : Guard) : g.Ok ↔ g.InnerGrouped := by
  induction g with
  | atom => exact Iff.rfl
  | not g ih => simp [Guard.Ok, Guard.InnerGrouped, ih]
  | block g ih => simp [Guard.Ok, Guard.InnerGrouped, ih, guard_grouped_doc]
  | binary o l r ihl ihr => simp [Guard.Ok, Guard.InnerGrouped, ihl, ihr]

/-- **C13, guards: what the parser returns.** Whatever a guard's operands (variables, negations, blocks nested at any
depth), every group of operators in the result is grouped by the documented priorities. -/
theorem parse_guard_grouped (toks : List Tok) (g : Guard) (rest : List Tok) (h : parseGuard toks = .ok g rest) :
    Grouped docPriority g.tree ∧ g.InnerGrouped := by
  obtain ⟨h1, h2, -⟩ := parseGuardWith_sound (guardUnit_sound _) h
  exact ⟨(guard_grouped_doc g).1 h2, (inner_of_ok g).1 h1⟩

/-- The tokens of a guard: operands written out, blocks in braces. No braces are added. -/
def Guard.text : Guard → List Tok
  | .atom n => [.atom n]
  | .not g => .bang :: g.text
  | .block g => .leftBrace :: g.text ++ [.rightBrace]
  | .binary op l r => l.text ++ binopTok op :: r.text

theorem text_print (g : Guard) (hok : g.Ok) (hg : Grouped (prio guardPrecedence) g.tree) : printGuard g = g.text := by
  induction g with
  | atom => rfl
  | not g ih =>
    simp only [printGuard, Guard.text]
    rw [ih hok.2]
    cases g with
    | binary => simp [Guard.Ok, Guard.isUnit] at hok
    | _ => trivial
  | block g ih => simp only [printGuard, Guard.text]; rw [ih hok.2 hok.1]
  | binary op l r ihl ihr =>
    have h1 := printGuard_seq _ hg
    simp only [Guard.tree] at h1 hg
    rw [h1, seqToks_node, ← printGuard_seq l hg.1, ← printGuard_seq r hg.2.1, ihl hok.1 hg.1, ihr hok.2 hg.2.1]
    rfl

/-- **C13, guards: everything written is accepted.** Every guard written without superfluous grouping is accepted,
nothing is left over, and the result is that guard. -/
theorem parse_guard_complete (g : Guard) (rest : List Tok) (hg : Grouped docPriority g.tree) (hi : g.InnerGrouped)
    (hend : ∀ t, rest.head? = some t → ¬ (t ∈ operators ∧ t ≠ .pipe)) :
    parseGuard (g.text ++ rest) = .ok g rest := by
  have hok := (inner_of_ok g).2 hi
  have hg' := (guard_grouped_doc g).2 hg
  rw [← text_print g hok hg', parseGuard]
  refine parseGuardWith_print (guardUnit_sound _) g hg' ?_ ?_ rest (none_of_not guardPrecedence_isSome_iff hend)
  · exact tree_leaves g (fun u => ∀ r, guardUnit _ (printGuard u ++ r) = .found u r) hok
      (fun u a b c r => guardUnit_print _ u a b (by simp; omega) r)
  · exact tree_leaves g (fun u => u.isUnit = true) hok (fun u a b c => a)

/-- `!{ 1 || 2 } && 3 + 4 * 5 == 6` -/
def sampleGuard : Guard :=
  .binary .and (.not (.block (.binary .or (.atom 1) (.atom 2))))
    (.binary .eq (.binary .addInt (.atom 3) (.binary .multInt (.atom 4) (.atom 5))) (.atom 6))

example : Grouped docPriority sampleGuard.tree ∧ sampleGuard.InnerGrouped ∧
    parseGuard (sampleGuard.text ++ [.rightBrace]) = .ok sampleGuard [.rightBrace] := by
  have h1 : Grouped docPriority sampleGuard.tree := by decide +kernel
  have h2 : sampleGuard.InnerGrouped :=
    ⟨⟨rfl, by decide +kernel, trivial, trivial⟩, ⟨trivial, trivial, trivial⟩, trivial⟩
  exact ⟨h1, h2, parse_guard_complete _ _ h1 h2 (by intro t ht; simp at ht; subst ht; decide)⟩

/-- **C13**: any two operators are grouped in a guard as they are in an expression. -/
theorem guard_priorities_agree (a b : BinOp) :
    (prio guardPrecedence (binopTok a) ≤ prio guardPrecedence (binopTok b)) ↔
    (prio precedence (binopTok a) ≤ prio precedence (binopTok b)) := by
  rw [guard_prec_order, prio_binop, prio_binop]

/-- **C49, expressions.** What the formatter prints for a parsed expression is read back as the same expression. -/
theorem format_expression_stable (toks : List Tok) (e : Expr) (rest : List Tok)
    (h : parseExpression toks = .ok e rest) : parseExpression (printExpr e ++ rest) = .ok e rest := by
  have hcons : ∀ toks a rest, expressionUnit toks = .found a rest → rest.length < toks.length := by
    intro toks a rest h
    obtain ⟨n, -, rfl⟩ := expressionUnit_spec h
    simp
  have hflat := loop_all expressionReduction Expr.Flat flat_reduction expressionUnit precedence
    (fun toks a rest h => by obtain ⟨n, rfl, -⟩ := expressionUnit_spec h; simp [Expr.Flat]) _ _ _ _ _ _ (by simp) h
  obtain ⟨u, ps, hch⟩ := loop_chain (view := Expr.tree) expressionUnit
    (fun toks a rest h => by obtain ⟨n, rfl, -⟩ := expressionUnit_spec h; exact ⟨n, by simp [Expr.tree]⟩) _ _ _ _ _ _ h
  obtain ⟨a, ha, hg, h1, h2⟩ := parseWith_spec expressionUnit combines_expression hcons hch
  have h' : parseWith expressionUnit precedence expressionReduction toks = .ok e rest := h
  rw [ha] at h'
  simp only [Parsed.ok.injEq] at h'
  obtain ⟨rfl, -⟩ := h'
  rw [printExpr_toks _ a (Nat.lt_succ_self _) hflat hg]
  obtain ⟨hops, hend⟩ := chain_ops hch
  subst h1 h2
  have hch' := chain_of_seq (prec := precedence) (view := Expr.tree) (unit := expressionUnit) atomToks a.tree.first
    a.tree.rest rest (fun u _ r => ⟨.unit u, rfl, by simp [Expr.tree]⟩) hops hend
  obtain ⟨b, hb, hgb, hb1, hb2⟩ := parseWith_spec expressionUnit combines_expression hcons hch'
  have hbflat := loop_all expressionReduction Expr.Flat flat_reduction expressionUnit precedence
    (fun toks a rest h => by obtain ⟨n, rfl, -⟩ := expressionUnit_spec h; simp [Expr.Flat]) _ _ _ _ _ _ (by simp) hb
  have htree := grouped_unique _ _ _ hgb hg hb1 hb2
  have := expr_tree_inj hbflat hflat htree
  subst this
  exact hb

example : ∃ e, parseExpression (written 1 [(.plus, 2), (.star, 3), (.pipe, 4), (.pipe, 5), (.concatenate, 6)]) = .ok e [] := by
  obtain ⟨e, he, -⟩ := parse_expression_grouped 1 [(.plus, 2), (.star, 3), (.pipe, 4), (.pipe, 5), (.concatenate, 6)] []
    (by decide) (by simp)
  exact ⟨e, by simpa using he⟩

/-- **C49, guards.** -/
theorem format_guard_stable (toks : List Tok) (g : Guard) (rest : List Tok) (h : parseGuard toks = .ok g rest) :
    parseGuard (printGuard g ++ rest) = .ok g rest := by
  obtain ⟨h1, h2, h3, h4, -⟩ := parseGuardWith_sound (guardUnit_sound _) h
  rw [parseGuard]
  refine parseGuardWith_print (guardUnit_sound _) g h2 ?_ ?_ rest h4
  · exact tree_leaves g (fun u => ∀ r, guardUnit _ (printGuard u ++ r) = .found u r) h1
      (fun u a b c r => guardUnit_print _ u a b (by simp; omega) r)
  · exact tree_leaves g (fun u => u.isUnit = true) h1 (fun u a b c => a)

example : parseGuard (printGuard sampleGuard) = .ok sampleGuard [] := by rfl

end Verif.Operators
