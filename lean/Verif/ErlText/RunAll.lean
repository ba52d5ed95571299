import Verif.ErlText.RunLemmas

/-! # The calls of a term print its text: the terms with items -/

namespace Verif.ErlText

theorem container_of {k : Kind} {p : Bool → Pos} {first rest : Text} {i : Nat}
    (h1 : ∀ f s wv ws, p f ≠ .segment s wv ws) (h2 : ∀ f w, p f ≠ .call .called w)
    (h3 : ∀ f k' e, p f ≠ .list k' e) (h4 : ∀ f e w o, p f ≠ .binary e w o) (h5 : ∀ f, p f ≠ .unary)
    (h : ∀ f c ps, Builder.newItem ⟨c, p f :: ps, i⟩ k = some ⟨c ++ (if f then first else rest), p false :: ps, i⟩) :
    Container k p first rest i := by
  have ho : ∀ f ps, Open (p f :: ps) := by
    intro f ps
    unfold Open
    split
    · rename_i he; exact absurd (List.cons.inj he).1 (by apply h3)
    · rename_i he; exact absurd (List.cons.inj he).1 (by apply h4)
    · trivial
  refine ⟨ho, ?_, ?_⟩
  · intro f ps
    refine ⟨?_, ?_, ?_⟩
    · unfold isOperand
      split
      · rename_i he; exact absurd (List.cons.inj he).1 (by apply h4)
      · rename_i he; exact absurd (List.cons.inj he).1 (by apply h5)
      · rfl
    · unfold isSize
      split
      · rename_i he; exact absurd (List.cons.inj he).1 (by apply h1)
      · rfl
    · unfold notRest
      split
      · rename_i he; exact absurd (List.cons.inj he).1 (by apply h3)
      · trivial
  · intro f c ps t
    rw [before_flushed k t _ (flush_open _ _ _ (ho f ps)), h]
    · intro s wv ws qs he; exact absurd (List.cons.inj he).1 (by apply h1)
    · intro w qs he; exact absurd (List.cons.inj he).1 (by apply h2)

theorem container_tuple (i : Nat) : Container .expression .tuple [] ", ".toList i :=
  container_of (by simp) (by simp) (by simp) (by simp) (by simp) (fun f c ps => by cases f <;> rfl)

theorem container_tuplePattern (i : Nat) : Container .pattern .tuplePattern [] ", ".toList i :=
  container_of (by simp) (by simp) (by simp) (by simp) (by simp) (fun f c ps => by cases f <;> rfl)

theorem container_block (i : Nat) :
    Container .expression .block (statementStart true i) (statementStart false i) i :=
  container_of (by simp) (by simp) (by simp) (by simp) (by simp) (fun f c ps => by cases f <;> rfl)

theorem container_function (i : Nat) :
    Container .expression .function (statementStart true i) (statementStart false i) i :=
  container_of (by simp) (by simp) (by simp) (by simp) (by simp) (fun f c ps => by cases f <;> rfl)

theorem container_anonymous (i : Nat) :
    Container .expression .anonymous (statementStart true i) (statementStart false i) i :=
  container_of (by simp) (by simp) (by simp) (by simp) (by simp) (fun f c ps => by cases f <;> rfl)

theorem container_clause (i : Nat) :
    Container .expression (fun f => .clause (.body f)) (statementStart true i) (statementStart false i) i :=
  container_of (by simp) (by simp) (by simp) (by simp) (by simp) (fun f c ps => by cases f <;> rfl)

theorem container_arguments (w : Bool) (i : Nat) :
    Container .expression (fun f => .call (.arguments f) (w && f))
      ((if w then ")".toList else []) ++ "(".toList) ", ".toList i :=
  container_of (by simp) (by simp) (by simp) (by simp) (by simp) (fun f c ps => by cases f <;> cases w <;> rfl)

theorem run_items {k : Kind} {p : Bool → Pos} {first rest : Text} {i : Nat} (hc : Container k p first rest i)
    (ts : List Term) (hts : ∀ t ∈ ts, Prints k t) (f : Bool) (c : Text) (ps : List Pos) :
    Builder.runF ⟨c, p f :: ps, i⟩ (callsAll k ts) =
      some ⟨c ++ textAll k (if f then first else rest) rest i ts, p (f && ts.isEmpty) :: ps, i⟩ := by
  induction ts generalizing f c with
  | nil => simp [callsAll, runF_nil, textAll, flush_open _ _ _ (hc.open_ f ps)]
  | cons t ts ih =>
    have hp := hc.plain f ps
    have hp' := hc.plain false ps
    simp only [callsAll, runF_append]
    rw [(hts t (by simp)).1 _ _ (flush_open _ _ _ (hc.open_ f ps)) (hc.item f c ps t) (by simp) (fun _ => hp.2.2)]
    simp only [Builder.push, Option.bind_some, flush_open _ _ _ (hc.open_ false ps)]
    rw [ih (fun t ht => hts t (List.mem_cons_of_mem _ ht))]
    simp [textAll, hp.1, hp'.2.1, plain]

theorem prints_tuple (k : Kind) (ts : List Term) (hts : ∀ t ∈ ts, Prints k t) : Prints k (.tuple ts) := by
  apply Prints.of_first rfl
  intro b b' hb hb' hne
  have hi := newItem_indentation hb'
  rw [before_indentation] at hi
  simp only [Term.before, Term.bare, Term.isCall, Bool.false_eq_true, if_false, Builder.newItem] at hb'
  obtain ⟨c', ps', i'⟩ := b'
  simp only at hi
  subst hi
  cases k
  · have hr := run_items (container_tuplePattern b.indentation) ts hts true (c' ++ "{".toList) ps'
    simp only [if_true, Bool.true_and] at hr
    simp only [Term.calls, pick, List.singleton_append, List.cons_append, runF_cons, runF_append, bind_runF_nil,
      Builder.call, hb', Option.map_some, Option.bind_some, Builder.enter, Builder.push]
    rw [flush_open _ _ _ (by simp [Open]), hr]
    simp [Builder.close, Builder.flush, popLeftover, Builder.go, runF_nil, Term.text, Ctx.rest, popLeftover_idem]
  · have hr := run_items (container_tuple b.indentation) ts hts true (c' ++ "{".toList) ps'
    simp only [if_true, Bool.true_and] at hr
    simp only [Term.calls, pick, List.singleton_append, List.cons_append, runF_cons, runF_append, bind_runF_nil,
      Builder.call, hb', Option.map_some, Option.bind_some, Builder.enter, Builder.push]
    rw [flush_open _ _ _ (by simp [Open]), hr]
    simp [Builder.close, Builder.flush, popLeftover, Builder.go, runF_nil, Term.text, Ctx.rest, popLeftover_idem]

theorem prints_block (ts : List Term) (hts : ∀ t ∈ ts, Prints .expression t) : Prints .expression (.block ts) := by
  apply Prints.of_first rfl
  intro b b' hb hb' hne
  have hi := newItem_indentation hb'
  rw [before_indentation] at hi
  simp only [Term.before, Term.bare, Term.isCall, Bool.false_eq_true, if_false, Builder.newItem] at hb'
  obtain ⟨c', ps', i'⟩ := b'
  simp only at hi
  subst hi
  have hr := run_items (container_block (b.indentation + INDENT)) ts hts true (c' ++ "begin".toList) ps'
  simp only [if_true, Bool.true_and] at hr
  simp only [Term.calls, List.singleton_append, List.cons_append, runF_cons, runF_append, bind_runF_nil,
    Builder.call, hb', Option.map_some, Option.bind_some, Builder.enter, Builder.push, Builder.indent]
  rw [flush_open _ _ _ (by simp [Open]), hr]
  simp [Builder.close, Builder.flush, popLeftover, Builder.go, runF_nil, Term.text, Ctx.rest, popLeftover_idem]

theorem prints_function (ns : List Text) (ts : List Term) (hts : ∀ t ∈ ts, Prints .expression t) :
    Prints .expression (.function ns ts) := by
  apply Prints.of_first rfl
  intro b b' hb hb' hne
  have hi := newItem_indentation hb'
  rw [before_indentation] at hi
  simp only [Term.before, Term.bare, Term.isCall, Bool.false_eq_true, if_false, Builder.newItem] at hb'
  obtain ⟨c', ps', i'⟩ := b'
  simp only at hi
  subst hi
  have hr := run_items (container_anonymous (b.indentation + INDENT)) ts hts true
    (c' ++ ("fun(".toList ++ commaSeparated ns ++ ") ->".toList)) ps'
  simp only [if_true, Bool.true_and] at hr
  simp only [Term.calls, List.singleton_append, List.cons_append, runF_cons, runF_append, bind_runF_nil,
    Builder.call, hb', Option.map_some, Option.bind_some, Builder.enter, Builder.push, Builder.indent]
  rw [flush_open _ _ _ (by simp [Open]), hr]
  simp [Builder.close, Builder.flush, popLeftover, Builder.go, runF_nil, Term.text, Ctx.rest, popLeftover_idem]

theorem prints_remote (m f : Text) (ts : List Term) (hts : ∀ t ∈ ts, Prints .expression t) :
    Prints .expression (.remote m f ts) := by
  apply Prints.of_first rfl
  intro b b' hb hb' hne
  have hi := newItem_indentation hb'
  rw [before_indentation] at hi
  simp only [Term.before, Term.bare, Term.isCall, Bool.false_eq_true, if_false, if_true, Builder.newItem] at hb'
  obtain ⟨c', ps', i'⟩ := b'
  simp only at hi
  subst hi
  have hr := run_items (container_arguments false b.indentation) ts hts true
    (c' ++ (quoteAtomName m ++ ":".toList ++ quoteAtomName f)) ps'
  simp only [if_true, Bool.true_and, Bool.false_and, Bool.false_eq_true, if_false, List.nil_append] at hr
  simp only [Term.calls, List.singleton_append, List.cons_append, runF_cons, runF_append, bind_runF_nil,
    Builder.call, hb', Option.map_some, Option.bind_some, Builder.enter, Builder.push]
  rw [flush_open _ _ _ (by simp [Open]), hr]
  cases ts <;>
    simp [Builder.close, Builder.flush, popLeftover, Builder.go, runF_nil, Term.text, Ctx.rest, popLeftover_idem,
      textAll]

theorem prints_call (f : Term) (ts : List Term) (hf : Prints .expression f) (hts : ∀ t ∈ ts, Prints .expression t) :
    Prints .expression (.call f ts) := by
  apply Prints.of_first rfl
  intro b b' hb hb' hne
  have hi := newItem_indentation hb'
  rw [before_indentation] at hi
  simp only [Term.before, Term.bare, Term.isCall, Bool.false_eq_true, if_false, if_true, Builder.newItem] at hb'
  obtain ⟨c', ps', i'⟩ := b'
  simp only at hi
  subst hi
  have hfl : Builder.flush ⟨c', .call .called false :: ps', b.indentation⟩ = _ := flush_open _ _ _ (by simp [Open])
  have hn : (f.before .expression ⟨c', .call .called false :: ps', b.indentation⟩).newItem .expression =
      some ⟨c' ++ (if f.isCall then "(".toList else []), .call (.arguments true) f.isCall :: ps', b.indentation⟩ := by
    cases f <;> rfl
  have hr := run_items (container_arguments f.isCall b.indentation) ts hts true
    (c' ++ (if f.isCall then "(".toList else []) ++ f.text .expression {} b.indentation) ps'
  simp only [if_true, Bool.true_and, Bool.and_true] at hr
  simp only [Term.calls, List.singleton_append, List.cons_append, runF_cons, runF_append, bind_runF_nil,
    Builder.call, hb', Option.map_some, Option.bind_some, Builder.enter]
  rw [hfl, hf.1 _ _ hfl hn (by simp) (by intro _; simp [notRest])]
  have hfl2 : ∀ c, Builder.flush ⟨c, .call (.arguments true) f.isCall :: ps', b.indentation⟩ = _ :=
    fun c => flush_open _ _ _ (by simp [Open])
  simp only [Option.bind_some, Builder.push, hfl2, isOperand, isSize, Option.map_some]
  rw [bind_runF_nil, hr]
  cases ts <;> cases hcall : f.isCall <;>
    simp [Builder.close, Builder.flush, popLeftover, Builder.go, runF_nil, Term.text, Ctx.rest, popLeftover_idem,
      textAll, hcall, paren, plain]

def SegPrints (k : Kind) : Segment → Prop
  | .mk v s _ => Prints k v ∧ ∀ z, s = some z → Prints .expression z

theorem run_value (k : Kind) (v : Term) (hv : Prints k v) (c : Text) (ps : List Pos) (i : Nat) :
    Builder.runF ⟨c, .segment (.value k) true true :: ps, i⟩ (v.calls k) =
      some ⟨c ++ (if v.bare k then [] else "(".toList) ++ v.text k { value := true } i,
        .segment .size (!v.bare k) true :: ps, i⟩ := by
  have hf : Builder.flush ⟨c, .segment (.value k) true true :: ps, i⟩ = _ := flush_open _ _ _ (by simp [Open])
  have hn : (v.before k ⟨c, .segment (.value k) true true :: ps, i⟩).newItem k =
      some ⟨c ++ (if v.bare k then [] else "(".toList), .segment .size (!v.bare k) true :: ps, i⟩ := by
    unfold Term.before
    cases hb : v.bare k
    · have : v.isCall = true → Builder.markCalled ⟨c, .segment (.value k) true true :: ps, i⟩ =
        ⟨c, .segment (.value k) true true :: ps, i⟩ := fun _ => rfl
      cases hc : v.isCall <;> cases k <;> rfl
    · cases k <;> simp [Builder.doNotWrap, Builder.flush, popLeftover, Builder.newItem, Builder.newExpression,
        Builder.newPattern, Builder.go]
  rw [hv.1 _ _ hf hn (by simp) (by intro _; simp [notRest])]
  simp [isOperand, isSize, Builder.push, Builder.flush, popLeftover]

theorem run_size (z : Term) (hz : Prints .expression z) (wv : Bool) (c : Text) (ps : List Pos) (i : Nat) :
    Builder.runF ⟨c, .segment .size wv true :: ps, i⟩ (z.calls .expression) =
      some ⟨c ++ (if wv then ")".toList else []) ++ ":".toList ++ (if z.bare .expression then [] else "(".toList) ++
        z.text .expression {} i, .segment .specifiers false (!z.bare .expression) :: ps, i⟩ := by
  have hf : Builder.flush ⟨c, .segment .size wv true :: ps, i⟩ = _ := flush_open _ _ _ (by simp [Open])
  have hn : (z.before .expression ⟨c, .segment .size wv true :: ps, i⟩).newItem .expression =
      some ⟨c ++ (if wv then ")".toList else []) ++ ":".toList ++ (if z.bare .expression then [] else "(".toList),
        .segment .specifiers false (!z.bare .expression) :: ps, i⟩ := by
    unfold Term.before
    cases hb : z.bare .expression
    · cases hc : z.isCall <;> cases wv <;>
        simp [Builder.markCalled, Builder.flush, popLeftover, Builder.newItem, Builder.newExpression, Builder.go]
    · cases wv <;> simp [Builder.doNotWrap, Builder.flush, popLeftover, Builder.newItem, Builder.newExpression,
        Builder.go]
  rw [hz.1 _ _ hf hn (by simp) (by intro _; simp [notRest])]
  simp [isOperand, isSize, Builder.push, Builder.flush, popLeftover]

theorem run_segments (k : Kind) (ss : List Segment) (hss : ∀ s ∈ ss, SegPrints k s) (f : Bool) (c : Text)
    (ps : List Pos) (i : Nat) :
    Builder.runF ⟨c, .bits k f :: ps, i⟩ (segmentCalls k ss) =
      some ⟨c ++ segmentText k f i ss, .bits k (f && ss.isEmpty) :: ps, i⟩ := by
  induction ss generalizing f c with
  | nil => simp [segmentCalls, runF_nil, segmentText, flush_open _ _ _ (show Open (.bits k f :: ps) by simp [Open])]
  | cons s ss ih =>
    obtain ⟨v, z, specs⟩ := s
    have hs : SegPrints k (.mk v z specs) := hss _ (by simp)
    have hseg : ∀ c, (Builder.call ⟨c, .bits k f :: ps, i⟩ .segment).map Builder.flush =
        some ⟨c ++ commaFirst f, .segment (.value k) true true :: .bits k false :: ps, i⟩ := by
      intro c
      cases f <;> rfl
    have hspec : ∀ c wv ws, (Builder.call ⟨c, .segment .specifiers wv ws :: .bits k false :: ps, i⟩
        (.segmentSpecifiers specs)).map Builder.flush =
        some ⟨c ++ ((if wv then ")".toList else if ws then ")".toList else []) ++ specsText true (sortSpecs specs)),
          .bits k false :: ps, i⟩ := by
      intro c wv ws; rfl
    have hdef : ∀ c wv ws, (Builder.call ⟨c, .segment .size wv ws :: .bits k false :: ps, i⟩
        .segmentDefaultSize).map Builder.flush =
        some ⟨c ++ (if wv then ")".toList else []), .segment .specifiers false false :: .bits k false :: ps, i⟩ := by
      intro c wv ws; rfl
    cases z with
    | none =>
      simp only [segmentCalls, List.singleton_append, List.cons_append, List.nil_append, List.append_assoc, runF_cons, runF_append,
        hseg, Option.bind_some, run_value k v hs.1, hdef, hspec, ih (fun s hs => hss s (List.mem_cons_of_mem _ hs))]
      cases hb : v.bare k <;> simp [segmentText, paren, hb]
    | some z =>
      simp only [segmentCalls, List.singleton_append, List.cons_append, List.nil_append, List.append_assoc, runF_cons, runF_append,
        hseg, Option.bind_some, run_value k v hs.1, run_size z (hs.2 z rfl), hspec,
        ih (fun s hs => hss s (List.mem_cons_of_mem _ hs))]
      cases hb : v.bare k <;> cases hz : z.bare .expression <;> simp [segmentText, paren, hb, hz, plain]

theorem prints_bits (k : Kind) (ss : List Segment) (hss : ∀ s ∈ ss, SegPrints k s) : Prints k (.bits ss) := by
  apply Prints.of_first rfl
  intro b b' hb hb' hne
  have hi := newItem_indentation hb'
  rw [before_indentation] at hi
  obtain ⟨c', ps', i'⟩ := b'
  simp only at hi
  subst hi
  have hr := run_segments k ss hss true (c' ++ "<<".toList) ps' b.indentation
  simp only [Bool.true_and] at hr
  cases k
  · simp only [Term.before, Term.bare, Term.isCall, Bool.false_eq_true, if_false, Builder.newItem, reduceCtorEq,
      decide_false] at hb'
    simp only [Term.calls, pick, List.singleton_append, List.cons_append, runF_cons, runF_append, bind_runF_nil,
      Builder.call, hb', Option.map_some, Option.bind_some, Builder.enter, Builder.push]
    rw [flush_open _ _ _ (by simp [Open]), hr]
    simp [Builder.close, Builder.flush, popLeftover, Builder.go, runF_nil, Term.text, Ctx.rest, popLeftover_idem]
  · simp only [Term.before, Term.bare, if_true, Builder.newItem, decide_true] at hb'
    simp only [Term.calls, pick, List.singleton_append, List.cons_append, runF_cons, runF_append, bind_runF_nil,
      Builder.call, hb', Option.map_some, Option.bind_some, Builder.enter, Builder.push]
    rw [flush_open _ _ _ (by simp [Open]), hr]
    simp [Builder.close, Builder.flush, popLeftover, Builder.go, runF_nil, Term.text, Ctx.rest, popLeftover_idem]

def FieldPrints : Field → Prop
  | .mk k v => Prints .expression k ∧ Prints .expression v

/-- A term in a position that is replaced by others, where nothing depends on the term. -/
theorem run_plain {k : Kind} {t : Term} (ht : Prints k t) {c c' : Text} {p : Pos} {ps ps' : List Pos} {i : Nat}
    (ho : Open (p :: ps)) (h1 : ∀ s wv ws, p ≠ .segment s wv ws) (h2 : ∀ w, p ≠ .call .called w)
    (h3 : isOperand (p :: ps) = false) (h4 : isSize ps' = false) (h5 : notRest k (p :: ps)) (h6 : ps' ≠ [])
    (h7 : Open ps') (hn : Builder.newItem ⟨c, p :: ps, i⟩ k = some ⟨c ++ c', ps', i⟩) :
    Builder.runF ⟨c, p :: ps, i⟩ (t.calls k) = some ⟨c ++ c' ++ t.text k {} i, ps', i⟩ := by
  have hf := flush_open c _ i ho
  rw [ht.1 _ ⟨c ++ c', ps', i⟩ hf _ h6 (fun _ => h5)]
  · simp [Builder.push, flush_open _ _ _ h7, h3, h4]
  · rw [before_flushed k t _ hf, hn]
    · intro s wv ws qs he; exact absurd (List.cons.inj he).1 (by apply h1)
    · intro w qs he; exact absurd (List.cons.inj he).1 (by apply h2)

theorem run_fields (fs : List Field) (hfs : ∀ f ∈ fs, FieldPrints f) (first : Bool) (c : Text)
    (ps : List Pos) (i : Nat) :
    Builder.runF ⟨c, .map first :: ps, i⟩ (fieldCalls fs) =
      some ⟨c ++ fieldText first i fs, .map (first && fs.isEmpty) :: ps, i⟩ := by
  induction fs generalizing first c with
  | nil => simp [fieldCalls, runF_nil, fieldText, flush_open _ _ _ (show Open (.map first :: ps) by simp [Open])]
  | cons f fs ih =>
    obtain ⟨k, v⟩ := f
    have hf : FieldPrints (.mk k v) := hfs _ (by simp)
    have hfield : ∀ c, (Builder.call ⟨c, .map first :: ps, i⟩ .mapField).map Builder.flush =
        some ⟨c ++ (lineFirst first ++ spaces i), .field false :: .map false :: ps, i⟩ := by
      intro c
      cases first <;> rfl
    have hk : ∀ c, Builder.runF ⟨c, .field false :: .map false :: ps, i⟩ (k.calls .expression) =
        some ⟨c ++ [] ++ k.text .expression {} i, .field true :: .map false :: ps, i⟩ := by
      intro c
      apply run_plain hf.1 <;> simp [Open, isOperand, isSize, notRest]
      simp [Builder.newItem, Builder.newExpression, Builder.flush, popLeftover, Builder.go]
    have hv : ∀ c, Builder.runF ⟨c, .field true :: .map false :: ps, i⟩ (v.calls .expression) =
        some ⟨c ++ " => ".toList ++ v.text .expression {} i, .map false :: ps, i⟩ := by
      intro c
      apply run_plain hf.2 <;> simp [Open, isOperand, isSize, notRest]
      simp [Builder.newItem, Builder.newExpression, Builder.flush, popLeftover, Builder.go]
    simp only [fieldCalls, List.singleton_append, List.cons_append, List.nil_append, List.append_assoc, runF_cons, runF_append,
      hfield, Option.bind_some, hk, hv, ih (fun s hs => hfs s (List.mem_cons_of_mem _ hs))]
    simp [fieldText, plain]

theorem prints_map (fs : List Field) (hfs : ∀ f ∈ fs, FieldPrints f) : Prints .expression (.map fs) := by
  apply Prints.of_first rfl
  intro b b' hb hb' hne
  have hi := newItem_indentation hb'
  rw [before_indentation] at hi
  simp only [Term.before, Term.bare, Term.isCall, Bool.false_eq_true, if_false, Builder.newItem] at hb'
  obtain ⟨c', ps', i'⟩ := b'
  simp only at hi
  subst hi
  have hr := run_fields fs hfs true (c' ++ "#{".toList) ps' (b.indentation + INDENT)
  simp only [Bool.true_and] at hr
  simp only [Term.calls, List.singleton_append, List.cons_append, runF_cons, runF_append, bind_runF_nil,
    Builder.call, hb', Option.map_some, Option.bind_some, Builder.enter, Builder.push, Builder.indent]
  rw [flush_open _ _ _ (by simp [Open]), hr]
  simp [Builder.close, Builder.flush, popLeftover, Builder.go, runF_nil, Term.text, Ctx.rest, popLeftover_idem]

def ClausePrints : Clause → Prop
  | .mk p g ts => Prints .pattern p ∧ (∀ e, g = some e → Prints .expression e) ∧ ∀ t ∈ ts, Prints .expression t

theorem run_clauses (cs : List Clause) (hcs : ∀ x ∈ cs, ClausePrints x) (first : Bool) (c : Text)
    (ps : List Pos) (i : Nat) :
    Builder.runF ⟨c, .case_ (.branches first) :: ps, if first then i else i + INDENT⟩ (clauseCalls cs) =
      some ⟨c ++ clauseText first (i + INDENT) cs, .case_ (.branches (first && cs.isEmpty)) :: ps,
        if first && cs.isEmpty then i else i + INDENT⟩ := by
  induction cs generalizing first c with
  | nil =>
    simp [clauseCalls, runF_nil, clauseText,
      flush_open _ _ _ (show Open (.case_ (.branches first) :: ps) by simp [Open])]
  | cons x cs ih =>
    obtain ⟨p, g, ts⟩ := x
    have hx : ClausePrints (.mk p g ts) := hcs _ (by simp)
    have hstart : ∀ c, (Builder.call ⟨c, .case_ (.branches first) :: ps, if first then i else i + INDENT⟩
        .startCaseClause).map Builder.flush =
        some ⟨c ++ (clauseFirst first ++ spaces (i + INDENT)), .clause .pattern :: .case_ (.branches false) :: ps,
          i + INDENT⟩ := by
      intro c
      cases first <;> rfl
    have hp : ∀ c, Builder.runF ⟨c, .clause .pattern :: .case_ (.branches false) :: ps, i + INDENT⟩
        (p.calls .pattern) = some ⟨c ++ [] ++ p.text .pattern {} (i + INDENT),
          .clause .pattern :: .case_ (.branches false) :: ps, i + INDENT⟩ := by
      intro c
      apply run_plain hx.1 <;> simp [Open, isOperand, isSize, notRest]
      simp [Builder.newItem, Builder.newPattern, Builder.flush, popLeftover, Builder.go]
    have hend : ∀ c, (Builder.call ⟨c, .clause .pattern :: .case_ (.branches false) :: ps, i + INDENT⟩
        .endClausePattern).map Builder.flush =
        some ⟨c ++ [], .clause (.guards true) :: .case_ (.branches false) :: ps, i + INDENT⟩ := by
      intro c; rfl
    have hguards : ∀ c f, (Builder.call ⟨c, .clause (.guards f) :: .case_ (.branches false) :: ps, i + INDENT⟩
        .endClauseGuards).map Builder.flush =
        some ⟨c ++ " ->".toList, .clause (.body true) :: .case_ (.branches false) :: ps, i + INDENT + INDENT⟩ := by
      intro c f; rfl
    have hbody := fun c => run_items (container_clause (i + INDENT + INDENT)) ts hx.2.2 true c
      (.case_ (.branches false) :: ps)
    simp only [if_true] at hbody
    have hclose : ∀ c f, (Builder.call ⟨c, .clause (.body f) :: .case_ (.branches false) :: ps, i + INDENT + INDENT⟩
        .endClauseBody).map Builder.flush =
        some ⟨c, .case_ (.branches false) :: ps, i + INDENT⟩ := by
      intro c f
      simp [Builder.call, Builder.close, Builder.flush, popLeftover]
    have ih' := fun c => ih (fun s hs => hcs s (List.mem_cons_of_mem _ hs)) false c
    simp only [Bool.false_eq_true, if_false, Bool.false_and] at ih'
    cases g with
    | none =>
      simp only [clauseCalls, List.singleton_append, List.cons_append, List.nil_append, List.append_assoc, runF_cons,
        runF_append, hstart, Option.bind_some, hp, hend, hguards, hbody, hclose, ih']
      simp [clauseText, plain]
    | some g =>
      have hg0 : ∀ c, (Builder.call ⟨c, .clause (.guards true) :: .case_ (.branches false) :: ps, i + INDENT⟩
          .startClauseGuard).map Builder.flush =
          some ⟨c ++ [], .guard :: .clause (.guards false) :: .case_ (.branches false) :: ps, i + INDENT⟩ := by
        intro c; rfl
      have hg : ∀ c, Builder.runF ⟨c, .guard :: .clause (.guards false) :: .case_ (.branches false) :: ps, i + INDENT⟩
          (g.calls .expression) = some ⟨c ++ " when ".toList ++ g.text .expression {} (i + INDENT),
            .guard :: .clause (.guards false) :: .case_ (.branches false) :: ps, i + INDENT⟩ := by
        intro c
        apply run_plain (hx.2.1 g rfl) <;> simp [Open, isOperand, isSize, notRest]
        simp [Builder.newItem, Builder.newExpression, Builder.flush, popLeftover, Builder.go]
      have hg1 : ∀ c, (Builder.call ⟨c, .guard :: .clause (.guards false) :: .case_ (.branches false) :: ps, i + INDENT⟩
          .endClauseGuard).map Builder.flush =
          some ⟨c ++ [], .clause (.guards false) :: .case_ (.branches false) :: ps, i + INDENT⟩ := by
        intro c; rfl
      simp only [clauseCalls, List.singleton_append, List.cons_append, List.nil_append, List.append_assoc, runF_cons,
        runF_append, hstart, Option.bind_some, hp, hend, hg0, hg, hg1, hguards, hbody, hclose, ih']
      simp [clauseText, plain]

theorem prints_case (s : Term) (cs : List Clause) (hs : Prints .expression s) (hne : cs ≠ [])
    (hcs : ∀ x ∈ cs, ClausePrints x) : Prints .expression (.case_ s cs) := by
  apply Prints.of_first rfl
  intro b b' hb hb' _
  have hi := newItem_indentation hb'
  rw [before_indentation] at hi
  simp only [Term.before, Term.bare, Term.isCall, Bool.false_eq_true, if_false, Builder.newItem] at hb'
  obtain ⟨c', ps', i'⟩ := b'
  simp only at hi
  subst hi
  have hsub : ∀ c, Builder.runF ⟨c, .case_ .subject :: ps', b.indentation⟩ (s.calls .expression) =
      some ⟨c ++ [] ++ s.text .expression {} b.indentation, .case_ (.branches true) :: ps', b.indentation⟩ := by
    intro c
    apply run_plain hs <;> simp [Open, isOperand, isSize, notRest]
    simp [Builder.newItem, Builder.newExpression, Builder.flush, popLeftover, Builder.go]
  have hr := fun c => run_clauses cs hcs true c ps' b.indentation
  have he : cs.isEmpty = false := by cases cs <;> simp_all
  simp only [Bool.true_and, he, if_true, Bool.false_eq_true, if_false] at hr
  have hend : ∀ c, (Builder.call ⟨c, .case_ (.branches true) :: ps', b.indentation⟩
      .endCaseSubject).map Builder.flush = some ⟨c, .case_ (.branches true) :: ps', b.indentation⟩ := by
    intro c; rfl
  have hstart : (b.call .startCase).map Builder.flush =
      some ⟨c' ++ "case ".toList, .case_ .subject :: ps', b.indentation⟩ := by
    simp only [Builder.call, hb']
    rfl
  have hclose : ∀ c, (Builder.call ⟨c, .case_ (.branches false) :: ps', b.indentation + INDENT⟩ .endCase) =
      some ⟨c ++ endLine b.indentation "end".toList, ps', b.indentation⟩ := by
    intro c
    simp [Builder.call, Builder.close, Builder.flush, popLeftover]
  simp only [Term.calls, List.singleton_append, List.cons_append, List.nil_append, List.append_assoc, runF_cons, runF_append,
    hstart, Option.bind_some, hsub, hend, hr, hclose, Option.map_some, runF_nil, flush_flush]
  simp [Term.text, Ctx.rest, Builder.push, plain]

/-! ### All terms -/

mutual

theorem Term.prints (k : Kind) : ∀ t : Term, t.Ok k → Prints k t
  | .var n, _ => prints_var k n
  | .discard, h => by
    simp only [Term.Ok] at h; subst h; exact prints_discard
  | .int n, _ => prints_int k n
  | .float s w f, _ => prints_float k s w f
  | .string s, _ => prints_string k s
  | .atom n, _ => prints_atom k n
  | .nil, _ => prints_nil k
  | .cons a t, h => by
    simp only [Term.Ok] at h; exact prints_cons k a t (a.prints k h.1) (t.prints k h.2)
  | .tuple ts, h => by
    simp only [Term.Ok] at h; exact prints_tuple k ts (printsAll k ts h)
  | .bits ss, h => by
    simp only [Term.Ok] at h; exact prints_bits k ss (printsSegments k ss h)
  | .map fs, h => by
    simp only [Term.Ok] at h; obtain ⟨rfl, h⟩ := h; exact prints_map fs (printsFields fs h)
  | .block ts, h => by
    simp only [Term.Ok] at h; obtain ⟨rfl, _, h⟩ := h; exact prints_block ts (printsAll _ ts h)
  | .call f ts, h => by
    simp only [Term.Ok] at h; obtain ⟨rfl, _, h1, h2⟩ := h
    exact prints_call f ts (f.prints _ h1) (printsAll _ ts h2)
  | .remote m f ts, h => by
    simp only [Term.Ok] at h; obtain ⟨rfl, _, _, h⟩ := h; exact prints_remote m f ts (printsAll _ ts h)
  | .function ns ts, h => by
    simp only [Term.Ok] at h; obtain ⟨rfl, _, _, h⟩ := h; exact prints_function ns ts (printsAll _ ts h)
  | .reference m n a, h => by
    simp only [Term.Ok] at h; obtain ⟨rfl, _⟩ := h; exact prints_reference m n a
  | .unary op e, h => by
    simp only [Term.Ok] at h; obtain ⟨rfl, _, h⟩ := h; exact prints_unary op e (e.prints _ h)
  | .binary op l r, h => by
    simp only [Term.Ok] at h; obtain ⟨rfl, _, _, h1, h2⟩ := h
    exact prints_binary op l r (l.prints _ h1) (r.prints _ h2)
  | .bind l r, h => by
    simp only [Term.Ok] at h; exact prints_bind k l r (l.prints _ h.1) (r.prints _ h.2)
  | .case_ s cs, h => by
    simp only [Term.Ok] at h; obtain ⟨rfl, h1, h2, h3⟩ := h
    exact prints_case s cs (s.prints _ h1) h2 (printsClauses cs h3)

theorem printsAll (k : Kind) : ∀ ts : List Term, OkAll k ts → ∀ t ∈ ts, Prints k t
  | [], _ => by simp
  | t :: ts, h => by
    simp only [OkAll] at h
    have h1 := t.prints k h.1
    have h2 := printsAll k ts h.2
    intro u hu
    rcases List.mem_cons.1 hu with rfl | hu
    · exact h1
    · exact h2 u hu

theorem printsSegments (k : Kind) : ∀ ss : List Segment, OkSegments k ss → ∀ s ∈ ss, SegPrints k s
  | [], _ => by simp
  | .mk v none specs :: ss, h => by
    simp only [OkSegments] at h
    have h1 := v.prints k h.1
    have h2 := printsSegments k ss h.2
    intro u hu
    rcases List.mem_cons.1 hu with rfl | hu
    · exact ⟨h1, by simp⟩
    · exact h2 u hu
  | .mk v (some z) specs :: ss, h => by
    simp only [OkSegments] at h
    have h1 := v.prints k h.1
    have h2 := z.prints .expression h.2.2.1
    have h3 := printsSegments k ss h.2.2.2
    intro u hu
    rcases List.mem_cons.1 hu with rfl | hu
    · exact ⟨h1, by intro y hy; cases hy; exact h2⟩
    · exact h3 u hu

theorem printsFields : ∀ fs : List Field, OkFields fs → ∀ f ∈ fs, FieldPrints f
  | [], _ => by simp
  | .mk a v :: fs, h => by
    simp only [OkFields] at h
    have h1 := a.prints .expression h.1
    have h2 := v.prints .expression h.2.1
    have h3 := printsFields fs h.2.2
    intro u hu
    rcases List.mem_cons.1 hu with rfl | hu
    · exact ⟨h1, h2⟩
    · exact h3 u hu

theorem printsClauses : ∀ cs : List Clause, OkClauses cs → ∀ c ∈ cs, ClausePrints c
  | [], _ => by simp
  | .mk p none ts :: cs, h => by
    simp only [OkClauses] at h
    have h1 := p.prints .pattern h.1
    have h2 := printsAll .expression ts h.2.2.1
    have h3 := printsClauses cs h.2.2.2
    intro u hu
    rcases List.mem_cons.1 hu with rfl | hu
    · exact ⟨h1, by simp, h2⟩
    · exact h3 u hu
  | .mk p (some g) ts :: cs, h => by
    simp only [OkClauses] at h
    have h1 := p.prints .pattern h.1
    have h2 := g.prints .expression h.2.1
    have h3 := printsAll .expression ts h.2.2.2.1
    have h4 := printsClauses cs h.2.2.2.2
    intro u hu
    rcases List.mem_cons.1 hu with rfl | hu
    · exact ⟨h1, by intro y hy; cases hy; exact h2, h3⟩
    · exact h4 u hu

end

end Verif.ErlText
