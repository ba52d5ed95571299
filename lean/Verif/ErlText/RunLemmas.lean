import Verif.ErlText.Run

/-! # The calls of a term print its text: one constructor at a time -/

namespace Verif.ErlText

theorem before_flushed (k : Kind) (t : Term) (b : Builder) (hb : b.flush = b)
    (h1 : ∀ s wv ws ps, b.position ≠ .segment s wv ws :: ps) (h2 : ∀ w ps, b.position ≠ .call .called w :: ps) :
    t.before k b = b := by
  unfold Term.before
  split
  · unfold Builder.doNotWrap
    simp only [hb]
    split
    · rename_i h; exact absurd h (by apply h1)
    · rename_i h; exact absurd h (by apply h1)
    · rfl
  · split
    · unfold Builder.markCalled
      rw [hb]
      simp only
      try (split <;> first | rfl | (rename_i h; exact absurd h (by apply h2)))
    · rfl

theorem newExpression_indentation {b b' : Builder} (h : b.newExpression = some b') :
    b'.indentation = b.indentation := by
  unfold Builder.newExpression at h
  simp only at h
  split at h <;> simp only [Builder.go, Option.some.injEq, reduceCtorEq] at h <;> subst h <;> rfl

theorem newPattern_indentation {b b' : Builder} (h : b.newPattern = some b') :
    b'.indentation = b.indentation := by
  unfold Builder.newPattern at h
  simp only at h
  split at h <;> simp only [Builder.go, Option.some.injEq, reduceCtorEq] at h <;> subst h <;> rfl

theorem newItem_indentation {k : Kind} {b b' : Builder} (h : b.newItem k = some b') :
    b'.indentation = b.indentation := by
  cases k
  · exact newPattern_indentation h
  · exact newExpression_indentation h

theorem before_indentation (k : Kind) (t : Term) (b : Builder) : (t.before k b).indentation = b.indentation := by
  unfold Term.before
  split
  · unfold Builder.doNotWrap
    simp only
    split <;> rfl
  · split
    · unfold Builder.markCalled
      simp only
      split <;> rfl
    · rfl

theorem text_tail (k : Kind) (t : Term) (i : Nat) (h : t.isList = false) :
    t.text k { tail := true } i = " | ".toList ++ t.text k {} i ++ "]".toList := by
  cases t <;> simp_all [Term.text, Ctx.rest, Term.isList]

/-- The claim for the rest of a list follows from the general one, except for lists. -/
theorem Prints.of_first {k : Kind} {t : Term} (hl : t.isList = false)
    (h : ∀ b b' : Builder, b.flush = b → (t.before k b).newItem k = some b' → b'.position ≠ [] →
      b.runF (t.calls k) =
        some (b'.push (t.text k { operand := isOperand b.position, value := isSize b'.position } b.indentation)).flush) :
    Prints k t := by
  refine ⟨fun b b' hb hb' hne _ => h b b' hb hb' hne, fun c ps i => ?_⟩
  have hb : Builder.flush ⟨c, .list k .rest :: ps, i⟩ = ⟨c, .list k .rest :: ps, i⟩ :=
    flush_open _ _ _ (by simp [Open])
  have hn : (t.before k ⟨c, .list k .rest :: ps, i⟩).newItem k =
      some ⟨c ++ " | ".toList, .list k .over :: ps, i⟩ := by
    rw [before_flushed k t _ hb (by simp) (by simp)]
    cases k <;> rfl
  have := h _ _ hb hn (by simp)
  rw [this, text_tail k t i hl]
  simp [isOperand, isSize, Builder.push, Builder.flush, popLeftover]

/-- A term built by one call that prints one text. -/
theorem Prints.leaf {k : Kind} {t : Term} (c : Call) (hl : t.isList = false) (hc : t.calls k = [c])
    (h : ∀ b : Builder, b.flush = b → ∀ b', (t.before k b).newItem k = some b' → b'.position ≠ [] →
      b.call c =
        some (b'.push (t.text k { operand := isOperand b.position, value := isSize b'.position } b.indentation))) :
    Prints k t := by
  apply Prints.of_first hl
  intro b b' hb hb' hne
  rw [hc, runF_cons, h b hb b' hb' hne]
  simp [runF_nil, flush_flush]

theorem bind_runF_nil (b : Builder) (cs : List Call) : ((b.runF []).bind fun b => b.runF cs) = b.runF cs := by
  simp [runF_nil, runF_flush]

theorem call_binary (b : Builder) (op : BinOp) : b.call (.binary op) =
    b.flush.newExpression.map fun b' =>
      (b'.push (if isOperand b.flush.position then "(".toList else [])).enter
        (.binary .left (isOperand b.flush.position) op) := rfl

theorem prints_var (k : Kind) (n : Text) : Prints k (.var n) := by
  cases k
  · exact Prints.leaf (.variablePattern n) rfl rfl fun b hb b' hb' hne => by
      simp only [Term.before, Term.bare, if_true, Builder.newItem, Bool.false_eq_true, if_false] at hb'
      simp [Builder.call, hb', Term.text, Ctx.rest]
  · exact Prints.leaf (.var n) rfl rfl fun b hb b' hb' hne => by
      simp only [Term.before, Term.bare, if_true, Builder.newItem, Bool.false_eq_true, if_false] at hb'
      simp [Builder.call, hb', Term.text, Ctx.rest]

theorem prints_discard : Prints .pattern .discard :=
  Prints.leaf .discardPattern rfl rfl fun b hb b' hb' hne => by
    simp only [Term.before, Term.bare, if_true, Builder.newItem, Bool.false_eq_true, if_false] at hb'
    simp [Builder.call, hb', Term.text, Ctx.rest]

theorem prints_int (k : Kind) (n : Int) : Prints k (.int n) := by
  cases k
  · exact Prints.leaf (.intPattern n) rfl rfl fun b hb b' hb' hne => by
      simp only [Term.before, Term.bare, if_true, Builder.newItem, Bool.false_eq_true, if_false] at hb'
      simp [Builder.call, hb', Term.text, Ctx.rest]
  · exact Prints.leaf (.int n) rfl rfl fun b hb b' hb' hne => by
      simp only [Term.before, Term.bare, if_true, Builder.newItem, Bool.false_eq_true, if_false] at hb'
      simp [Builder.call, hb', Term.text, Ctx.rest]

theorem prints_float (k : Kind) (s : Sign) (w f : Text) : Prints k (.float s w f) := by
  cases k
  · exact Prints.leaf (.floatPattern (s.text ++ w ++ ".".toList ++ f)) rfl rfl fun b hb b' hb' hne => by
      simp only [Term.before, Term.bare, if_true, Builder.newItem, Bool.false_eq_true, if_false] at hb'
      simp [Builder.call, hb', Term.text, Ctx.rest]
  · exact Prints.leaf (.float (s.text ++ w ++ ".".toList ++ f)) rfl rfl fun b hb b' hb' hne => by
      simp only [Term.before, Term.bare, if_true, Builder.newItem, Bool.false_eq_true, if_false] at hb'
      simp [Builder.call, hb', Term.text, Ctx.rest]

theorem prints_atom (k : Kind) (n : Text) : Prints k (.atom n) := by
  cases k
  · exact Prints.leaf (.atomPattern n) rfl rfl fun b hb b' hb' hne => by
      simp only [Term.before, Term.bare, Term.isCall, if_true, Builder.newItem, Bool.false_eq_true, if_false] at hb'
      simp [Builder.call, hb', Term.text, Ctx.rest]
  · exact Prints.leaf (.atom n) rfl rfl fun b hb b' hb' hne => by
      simp only [Term.before, Term.bare, Term.isCall, if_true, Builder.newItem, Bool.false_eq_true, if_false] at hb'
      simp [Builder.call, hb', Term.text, Ctx.rest]

theorem prints_reference (m : Option Text) (n : Text) (a : Nat) : Prints .expression (.reference m n a) :=
  Prints.leaf (.functionReference m n a) rfl rfl fun b hb b' hb' hne => by
    simp only [Term.before, Term.bare, Term.isCall, if_true, Builder.newItem, Bool.false_eq_true, if_false] at hb'
    cases m <;> simp [Builder.call, hb', Term.text, Ctx.rest]

theorem prints_string (k : Kind) (s : Text) : Prints k (.string s) := by
  have hp : ∀ b : Builder, b.position ≠ [] → b.printString s =
      some (b.push ((if isSize b.position then "\"".toList else "~\"".toList) ++ Strings.escapeErlang 0 s ++
        "\"".toList)) := by
    intro b hne
    unfold Builder.printString
    split
    · rename_i h; exact absurd h hne
    · rename_i h; simp [h, isSize]
    · rename_i h1 h2
      have : isSize b.position = false := by
        unfold isSize
        split
        · rename_i h; exact absurd h (by apply h2)
        · rfl
      simp [this]
  cases k
  · exact Prints.leaf (.stringPattern s) rfl rfl fun b hb b' hb' hne => by
      simp only [Term.before, Term.bare, if_true, Builder.newItem] at hb'
      simp [Builder.call, hb', Term.text, Ctx.rest, hp b' hne]
  · exact Prints.leaf (.string s) rfl rfl fun b hb b' hb' hne => by
      simp only [Term.before, Term.bare, if_true, Builder.newItem] at hb'
      simp [Builder.call, hb', Term.text, Ctx.rest, hp b' hne]

theorem notRest_ne {k k' : Kind} {ps qs : List Pos} (h : notRest k ps) (he : ps = .list k' .rest :: qs) : k' ≠ k := by
  subst he; exact h

theorem before_list {k : Kind} {t : Term} (b : Builder) (h : t.isList = true) : t.before k b = b := by
  cases t <;> simp_all [Term.isList, Term.before, Term.bare, Term.isCall]

theorem emptyList_new (k : Kind) (b : Builder) (hb : b.flush = b) (h : notRest k b.position) :
    b.emptyList k = (b.newItem k).map fun b => b.push "[]".toList := by
  unfold Builder.emptyList
  rw [hb]
  simp only
  split
  · rename_i he
    rw [if_neg (notRest_ne h he)]
  · rfl

theorem consList_new (k : Kind) (b : Builder) (hb : b.flush = b) (h : notRest k b.position) :
    b.consList k = (b.newItem k).map fun b => (b.push "[".toList).enter (.list k .first) := by
  unfold Builder.consList
  rw [hb]
  simp only
  split
  · rename_i he
    rw [if_neg (notRest_ne h he)]
  · rfl

theorem prints_nil (k : Kind) : Prints k .nil := by
  have hc : ∀ b : Builder, b.runF (Term.calls k .nil) = ((b.emptyList k).map Builder.flush) := by
    intro b
    cases k <;> simp only [Term.calls, pick, runF_cons, Builder.call] <;> cases b.emptyList _ <;>
      simp [runF_nil, flush_flush]
  constructor
  · intro b b' hb hb' _ hr
    rw [before_list b rfl] at hb'
    rw [hc, emptyList_new k b hb (hr rfl), hb']
    simp [Term.text]
  · intro c ps i
    rw [hc]
    simp [Builder.emptyList, Builder.flush, popLeftover, Builder.go, Term.text]

theorem prints_cons (k : Kind) (h t : Term) (hh : Prints k h) (ht : Prints k t) : Prints k (.cons h t) := by
  have hc : ∀ b : Builder, b.runF (Term.calls k (.cons h t)) =
      ((b.consList k).map Builder.flush).bind fun b => (b.runF (h.calls k)).bind fun b => b.runF (t.calls k) := by
    intro b
    cases k <;> simp only [Term.calls, pick, List.singleton_append, List.cons_append, runF_cons, runF_append,
      bind_runF_nil, Builder.call]
  have hrun : ∀ c ps i, Builder.runF ⟨c, .list k .first :: ps, i⟩ (h.calls k) =
      some ⟨c ++ h.text k {} i, .list k .rest :: ps, i⟩ := by
    intro c ps i
    have hb : Builder.flush ⟨c, .list k .first :: ps, i⟩ = ⟨c, .list k .first :: ps, i⟩ :=
      flush_open _ _ _ (by simp [Open])
    have hn : (h.before k ⟨c, .list k .first :: ps, i⟩).newItem k = some ⟨c, .list k .rest :: ps, i⟩ := by
      rw [before_flushed k h _ hb (by simp) (by simp)]
      cases k <;> simp [Builder.newItem, Builder.newExpression, Builder.newPattern, Builder.go, hb]
    rw [hh.1 _ _ hb hn (by simp) (by intro _; simp [notRest])]
    simp [isOperand, isSize, Builder.push, Builder.flush, popLeftover]
  constructor
  · intro b b' hb hb' _ hr
    rw [before_list b rfl] at hb'
    have hi := newItem_indentation hb'
    rw [hc, consList_new k b hb (hr rfl), hb']
    obtain ⟨c', ps', i'⟩ := b'
    simp only [Option.map_some, Option.bind_some, Builder.enter, Builder.push]
    rw [flush_open _ _ _ (by simp [Open]), hrun]
    simp only [Option.bind_some]
    rw [ht.2]
    simp at hi
    simp [Term.text, hi, plain]
  · intro c ps i
    rw [hc]
    have : Builder.consList ⟨c, .list k .rest :: ps, i⟩ k = some ⟨c ++ ", ".toList, .list k .first :: ps, i⟩ := by
      simp [Builder.consList, Builder.flush, popLeftover, Builder.go]
    rw [this]
    simp only [Option.map_some, Option.bind_some]
    rw [flush_open _ _ _ (by simp [Open]), hrun]
    simp only [Option.bind_some]
    rw [ht.2]
    simp [Term.text, plain]

theorem prints_unary (op : UnOp) (e : Term) (he : Prints .expression e) : Prints .expression (.unary op e) := by
  apply Prints.of_first rfl
  intro b b' hb hb' hne
  have hi := newItem_indentation hb'
  rw [before_indentation] at hi
  simp only [Term.before, Term.bare, Term.isCall, Bool.false_eq_true, if_false, Builder.newItem] at hb'
  simp only [Term.calls, List.singleton_append, runF_cons, Builder.call, hb', Option.map_some, Option.bind_some]
  obtain ⟨c', ps', i'⟩ := b'
  simp only [Builder.push, Builder.enter]
  have hf : Builder.flush ⟨c' ++ (op.text ++ " ".toList), .unary :: ps', i'⟩ = _ := flush_open _ _ _ (by simp [Open])
  rw [hf]
  have hn : (e.before .expression ⟨c' ++ (op.text ++ " ".toList), .unary :: ps', i'⟩).newItem .expression =
      some ⟨c' ++ (op.text ++ " ".toList), ps', i'⟩ := by
    rw [before_flushed _ e _ hf (by simp) (by simp)]
    simp only [Builder.newItem, Builder.newExpression, Builder.go, hf, List.append_nil]
  rw [he.1 _ _ hf hn hne (by intro _; simp [notRest])]
  simp at hi
  simp [isOperand, Builder.push, Term.text, Ctx.rest, hi]

theorem prints_binary (op : BinOp) (l r : Term) (hl : Prints .expression l) (hr : Prints .expression r) :
    Prints .expression (.binary op l r) := by
  apply Prints.of_first rfl
  intro b b' hb hb' hne
  have hi := newItem_indentation hb'
  rw [before_indentation] at hi
  simp only [Term.before, Term.bare, Term.isCall, Bool.false_eq_true, if_false, Builder.newItem] at hb'
  simp only [Term.calls, List.singleton_append, List.cons_append, runF_cons, runF_append, bind_runF_nil, call_binary, hb, hb',
    Option.map_some, Option.bind_some]
  generalize isOperand b.position = w
  obtain ⟨c', ps', i'⟩ := b'
  simp only [Builder.push, Builder.enter]
  simp only at hi
  subst hi
  have hf : ∀ c, Builder.flush ⟨c, .binary .left w op :: ps', b.indentation⟩ = _ :=
    fun c => flush_open _ _ _ (by simp [Open])
  have hf2 : ∀ c, Builder.flush ⟨c, .binary .right w op :: ps', b.indentation⟩ = _ :=
    fun c => flush_open _ _ _ (by simp [Open])
  rw [hf]
  have hn : ∀ c, (l.before .expression ⟨c, .binary .left w op :: ps', b.indentation⟩).newItem .expression =
      some ⟨c, .binary .right w op :: ps', b.indentation⟩ := by
    intro c
    rw [before_flushed _ l _ (hf c) (by simp) (by simp)]
    simp only [Builder.newItem, Builder.newExpression, Builder.go, hf, List.append_nil]
  have hn2 : ∀ c, (r.before .expression ⟨c, .binary .right w op :: ps', b.indentation⟩).newItem .expression =
      some ⟨c ++ (" ".toList ++ op.text ++ " ".toList), .binary .over w op :: ps', b.indentation⟩ := by
    intro c
    rw [before_flushed _ r _ (hf2 c) (by simp) (by simp)]
    simp only [Builder.newItem, Builder.newExpression, Builder.go, hf2, List.append_nil]
  rw [hl.1 _ _ (hf _) (hn _) (by simp) (by intro _; simp [notRest])]
  simp only [Builder.push, Option.bind_some, hf2]
  rw [hr.1 _ _ (hf2 _) (hn2 _) (by simp) (by intro _; simp [notRest])]
  cases w <;> simp [isOperand, isSize, Builder.push, Term.text, Ctx.rest, paren, Builder.flush, popLeftover]

theorem prints_bind (k : Kind) (l r : Term) (hl : Prints .pattern l) (hr : Prints k r) : Prints k (.bind l r) := by
  apply Prints.of_first rfl
  intro b b' hb hb' hne
  have hi := newItem_indentation hb'
  rw [before_indentation] at hi
  simp only [Term.before, Term.bare, Term.isCall, Bool.false_eq_true, if_false, Builder.newItem] at hb'
  obtain ⟨c', ps', i'⟩ := b'
  simp only at hi
  subst hi
  cases k
  · simp only [Term.calls, pick, List.singleton_append, List.cons_append, runF_cons, runF_append, bind_runF_nil, Builder.call, hb',
      Option.map_some, Option.bind_some, Builder.enter]
    have hf : ∀ c s, Builder.flush ⟨c, .matchPattern s :: ps', b.indentation⟩ = _ :=
      fun c s => flush_open _ _ _ (by simp [Open])
    have hn : ∀ c, (l.before .pattern ⟨c, .matchPattern false :: ps', b.indentation⟩).newItem .pattern =
        some ⟨c, .matchPattern true :: ps', b.indentation⟩ := by
      intro c
      rw [before_flushed _ l _ (hf _ _) (by simp) (by simp)]
      simp only [Builder.newItem, Builder.newPattern, Builder.go, hf, List.append_nil]
    have hn2 : ∀ c, (r.before .pattern ⟨c, .matchPattern true :: ps', b.indentation⟩).newItem .pattern =
        some ⟨c ++ " = ".toList, ps', b.indentation⟩ := by
      intro c
      rw [before_flushed _ r _ (hf _ _) (by simp) (by simp)]
      simp only [Builder.newItem, Builder.newPattern, Builder.go, hf, List.append_nil]
    rw [hf, hl.1 _ _ (hf _ _) (hn _) (by simp) (by intro _; simp [notRest])]
    simp only [Builder.push, Option.bind_some, hf]
    rw [hr.1 _ _ (hf _ _) (hn2 _) hne (by intro _; simp [notRest])]
    simp [isOperand, isSize, Builder.push, Term.text, Ctx.rest, plain]
  · simp only [Term.calls, pick, List.singleton_append, List.cons_append, runF_cons, runF_append, bind_runF_nil, Builder.call, hb',
      Option.map_some, Option.bind_some, Builder.enter]
    have hf : ∀ c s, Builder.flush ⟨c, .matchOp s :: ps', b.indentation⟩ = _ :=
      fun c s => flush_open _ _ _ (by simp [Open])
    have hn : ∀ c, (l.before .pattern ⟨c, .matchOp false :: ps', b.indentation⟩).newItem .pattern =
        some ⟨c, .matchOp true :: ps', b.indentation⟩ := by
      intro c
      rw [before_flushed _ l _ (hf _ _) (by simp) (by simp)]
      simp only [Builder.newItem, Builder.newPattern, Builder.go, hf, List.append_nil]
    have hn2 : ∀ c, (r.before .expression ⟨c, .matchOp true :: ps', b.indentation⟩).newItem .expression =
        some ⟨c ++ " = ".toList, ps', b.indentation⟩ := by
      intro c
      rw [before_flushed _ r _ (hf _ _) (by simp) (by simp)]
      simp only [Builder.newItem, Builder.newExpression, Builder.go, hf, List.append_nil]
    rw [hf, hl.1 _ _ (hf _ _) (hn _) (by simp) (by intro _; simp [notRest])]
    simp only [Builder.push, Option.bind_some, hf]
    rw [hr.1 _ _ (hf _ _) (hn2 _) hne (by intro _; simp [notRest])]
    simp [isOperand, isSize, Builder.push, Term.text, Ctx.rest, plain]

end Verif.ErlText
