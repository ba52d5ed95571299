import Verif.Segments.Tests
import Verif.Case.Orderly

/-!
# The tests of plain segments are plain
-/

namespace Verif.Segments

/-! ### Variables in offsets -/

theorem Variables.get_increase {v : VariableUsage} {unit : Nat} (x : VariableUsage) : ∀ (vs : Variables),
    ((vs.increase v unit).get x).isNone = (vs.get x).isNone
  | .nil => rfl
  | .cons u n rest => by
    rw [Variables.increase]
    split
    · rename_i h
      rw [Variables.get, Variables.get]
      split <;> rfl
    · rw [Variables.get, Variables.get]
      split
      · rfl
      · exact Variables.get_increase x rest

theorem Variables.get_insert {v : VariableUsage} {unit : Nat} (x : VariableUsage) : ∀ (vs : Variables),
    ((vs.insert v unit).get x).isNone = ((vs.get x).isNone && decide (v ≠ x))
  | .nil => by
    rw [Variables.insert, Variables.get, Variables.get]
    split
    · rename_i h; simp [h]
    · rename_i h; simp [h, Variables.get]
  | .cons u n rest => by
    rw [Variables.insert]
    split
    · rw [Variables.get]
      split
      · rename_i h; simp [h]
      · rename_i h; simp [h]
    · rw [Variables.get, Variables.get]
      split
      · rfl
      · exact Variables.get_insert x rest

theorem Variables.increase_distinct {v : VariableUsage} {unit : Nat} : ∀ {vs : Variables}, vs.distinct = true →
    (vs.increase v unit).distinct = true
  | .nil, _ => rfl
  | .cons u n rest, h => by
    rw [Variables.distinct, Bool.and_eq_true] at h
    rw [Variables.increase]
    split
    · rw [Variables.distinct, Bool.and_eq_true]; exact h
    · rw [Variables.distinct, Bool.and_eq_true, Variables.get_increase]
      exact ⟨h.1, Variables.increase_distinct h.2⟩

theorem Variables.insert_distinct {v : VariableUsage} {unit : Nat} : ∀ {vs : Variables}, vs.distinct = true →
    (vs.get v).isNone = true → (vs.insert v unit).distinct = true
  | .nil, _, _ => rfl
  | .cons u n rest, h, hv => by
    rw [Variables.insert]
    split
    · rw [Variables.distinct, Bool.and_eq_true]; exact ⟨hv, h⟩
    · rw [Variables.distinct, Bool.and_eq_true] at h
      rw [Variables.get] at hv
      split at hv
      · simp at hv
      · rename_i hne
        rw [Variables.distinct, Bool.and_eq_true, Variables.get_insert, Bool.and_eq_true]
        exact ⟨⟨h.1, by simpa using Ne.symm hne⟩, Variables.insert_distinct h.2 hv⟩

theorem Variables.add_distinct {v : VariableUsage} {unit : Nat} {vs : Variables} (h : vs.distinct = true) :
    (vs.add v unit).distinct = true := by
  unfold Variables.add
  split
  · exact Variables.increase_distinct h
  · rename_i hv
    exact Variables.insert_distinct h (by simpa using hv)

theorem Variables.add_unsigned {v : VariableUsage} {unit : Nat} (hv : v.unsigned = true) {vs : Variables} (h : vs.unsigned = true) :
    (vs.add v unit).unsigned = true := by
  have inc : ∀ vs : Variables, vs.unsigned = true → (vs.increase v unit).unsigned = true := by
    intro vs
    induction vs using Variables.unsigned.induct with
    | case1 => intro _; rfl
    | case2 u n rest ih =>
      intro h
      rw [Variables.unsigned, Bool.and_eq_true] at h
      rw [Variables.increase]
      split <;> rw [Variables.unsigned, Bool.and_eq_true]
      · exact h
      · exact ⟨h.1, ih h.2⟩
  have ins : ∀ vs : Variables, vs.unsigned = true → (vs.insert v unit).unsigned = true := by
    intro vs
    induction vs using Variables.unsigned.induct with
    | case1 => intro _; rw [Variables.insert, Variables.unsigned, hv]; rfl
    | case2 u n rest ih =>
      intro h
      rw [Variables.insert]
      split
      · rw [Variables.unsigned, hv, h]; rfl
      · rw [Variables.unsigned, Bool.and_eq_true] at h
        rw [Variables.unsigned, Bool.and_eq_true]
        exact ⟨h.1, ih h.2⟩
  unfold Variables.add
  split
  · exact inc vs h
  · exact ins vs h

/-- The variables of an offset are as in a plain test. -/
def Offset.Good (o : Offset) : Prop := o.vars.distinct = true ∧ o.vars.unsigned = true

/-- The segments named so far are read without a sign. -/
def Unsigned (vars : PatternVariables) : Prop := ∀ p ∈ vars, p.2.signed = false

theorem variableUsage_unsigned {vars : PatternVariables} (h : Unsigned vars) (x : Case.Name) :
    (variableUsage vars x).unsigned = true := by
  unfold variableUsage
  cases hx : vars.lookup x with
  | none => rfl
  | some a =>
    have : (x, a) ∈ vars := by
      induction vars with
      | nil => cases hx
      | cons p ps ih =>
        obtain ⟨y, c⟩ := p
        rw [List.lookup] at hx
        cases hxy : x == y with
        | true =>
          simp only [hxy, Option.some.injEq] at hx
          rw [beq_iff_eq] at hxy
          rw [hx, hxy]
          exact List.mem_cons_self
        | false =>
          simp only [hxy] at hx
          exact List.mem_cons_of_mem _ (ih (fun q hq => h q (List.mem_cons_of_mem _ hq)) hx)
    have := h _ this
    simp only [VariableUsage.unsigned]
    simpa using this

theorem addSize_good {vars : PatternVariables} (h : Unsigned vars) : ∀ (e : SizeExpr) (unit : Nat) (o : Offset), o.Good →
    (o.addSize (bitArraySize unit vars e)).Good
  | .int n, unit, .mk c vs cs, ho => by
    rw [bitArraySize, Offset.addSize]; exact ho
  | .variable x, unit, .mk c vs cs, ho => by
    rw [bitArraySize, Offset.addSize]
    exact ⟨Variables.add_distinct ho.1, Variables.add_unsigned (variableUsage_unsigned h x) ho.2⟩
  | .binaryOperator l r .add, unit, .mk c vs cs, ho => by
    rw [bitArraySize]
    split
    · rw [Offset.addSize]
      exact addSize_good h r 1 _ (addSize_good h l 1 _ ho)
    · rw [Offset.addSize]; exact ho; exact nofun
  | .binaryOperator l r .subtract, unit, .mk c vs cs, ho => by
    rw [bitArraySize]
    split <;> (rw [Offset.addSize]; exact ho; exact nofun)
  | .binaryOperator l r .multiply, unit, .mk c vs cs, ho => by
    rw [bitArraySize]
    split <;> (rw [Offset.addSize]; exact ho; exact nofun)
  | .binaryOperator l r .divide, unit, .mk c vs cs, ho => by
    rw [bitArraySize]
    split <;> (rw [Offset.addSize]; exact ho; exact nofun)
  | .binaryOperator l r .remainder, unit, .mk c vs cs, ho => by
    rw [bitArraySize]
    split <;> (rw [Offset.addSize]; exact ho; exact nofun)

theorem addSegment_good {vars : PatternVariables} (h : Unsigned vars) (s : Segment) {o : Offset} (ho : o.Good) :
    (o.addSize (segmentSize vars s)).Good := by
  unfold segmentSize
  split
  · exact addSize_good h _ _ _ ho
  · obtain ⟨c, vs, cs⟩ := o
    unfold defaultSize
    split <;> (rw [Offset.addSize]; exact ho)

/-! ### The tests of a segment -/

theorem literal_fits {vars : PatternVariables} (o : Offset) {s : Segment} (hs : s.plain = true) {l : Literal}
    {as : Option Case.Name} (hv : s.value = .literal l as) : l.matched.fits (readAction vars o s) = true := by
  unfold Segment.plain at hs
  rw [hv] at hs
  obtain ⟨value, size, unit, type, big, signed⟩ := s
  simp only at hv
  subst hv
  cases l with
  | float => rfl
  | int v =>
    simp only [Bool.and_eq_true, decide_eq_true_eq] at hs
    obtain ⟨-, rfl, hb⟩ := hs
    simp only [Literal.matched, MatchedValue.fits, readAction, ReadAction.size]
    unfold segmentSize
    cases size with
    | none => rfl
    | some e =>
      cases e with
      | int n => exact hb
      | «variable» x => rfl
      | binaryOperator l r op =>
        simp only [bitArraySize]
        split <;> rfl
  | string text utf =>
    simp only [Bool.and_eq_true, decide_eq_true_eq] at hs
    obtain ⟨-, rfl, rfl⟩ := hs
    simp [Literal.matched, MatchedValue.fits, readAction, ReadAction.size, segmentSize, defaultSize]

/-- A test of a pattern is one the theorems are about. -/
def SegmentTest.plain : SegmentTest → Bool
  | .check _ t => t.plain
  | _ => true

theorem segmentTests_plain {vars : PatternVariables} (h : Unsigned vars) {o : Offset} (ho : o.Good) (isLast : Bool) {s : Segment}
    (hs : s.plain = true) : ∀ t ∈ segmentTests vars o isLast s, t.plain = true := by
  intro t ht
  unfold segmentTests at ht
  rw [List.mem_append, List.mem_singleton, List.mem_map] at ht
  rcases ht with ⟨t, ht, rfl⟩ | rfl
  · change t.plain = true
    rw [List.mem_append, List.mem_append] at ht
    rcases ht with (ht | ht) | ht
    · unfold negativeTests at ht
      split at ht
      · rw [List.mem_singleton] at ht
        rw [ht]; rfl
      · cases ht
    · unfold sizeTests at ht
      split at ht
      · cases ht
      · rw [List.mem_singleton] at ht
        rw [ht]; rfl
      · rw [List.mem_singleton] at ht
        rw [ht, BitTest.plain, Bool.and_eq_true]
        exact addSegment_good h s ho
    · unfold floatTests at ht
      split at ht
      · rw [List.mem_singleton] at ht
        rw [ht]; rfl
      · rw [List.mem_singleton] at ht
        rw [ht]; rfl
      · cases ht
  · cases hv : s.value with
    | literal l as =>
      have := literal_fits (vars := vars) o hs hv
      cases as <;> exact this
    | «variable» x => rfl
    | discard as => cases as <;> rfl

theorem nextVariables_unsigned {vars : PatternVariables} (h : Unsigned vars) (o : Offset) {s : Segment} (hs : s.plain = true) :
    Unsigned (nextVariables vars o s) := by
  unfold nextVariables
  cases hn : s.value.name with
  | none => exact h
  | some x =>
    intro p hp
    rw [List.mem_cons] at hp
    rcases hp with rfl | hp
    · unfold Segment.plain at hs
      simp only [SegmentValue.given_eq, hn, Option.isNone_some, Bool.or_false, Bool.and_eq_true, Bool.not_eq_true'] at hs
      exact hs.1
    · exact h p hp

theorem testsFrom_plain : ∀ (segs : List Segment) (vars : PatternVariables) (o : Offset), Unsigned vars → o.Good →
    (∀ s ∈ segs, s.plain = true) → ∀ t ∈ testsFrom vars o segs, t.plain = true
  | [], _, _, _, _, _ => fun t ht => by cases ht
  | s :: more, vars, o, h, ho, hs => by
    intro t ht
    rw [testsFrom, List.mem_append] at ht
    have h1 := hs s List.mem_cons_self
    rcases ht with ht | ht
    · exact segmentTests_plain h ho _ h1 t ht
    · exact testsFrom_plain more _ _ (nextVariables_unsigned h o h1) (addSegment_good h s ho)
        (fun x hx => hs x (List.mem_cons_of_mem _ hx)) t ht

theorem bitArrayToTests_plain {segs : List Segment} (hs : ∀ s ∈ segs, s.plain = true) :
    ∀ t ∈ bitArrayToTests segs, t.plain = true := by
  unfold bitArrayToTests
  split
  · intro t ht
    rw [List.mem_singleton] at ht
    rw [ht]; rfl
  · exact testsFrom_plain segs [] _ nofun ⟨rfl, rfl⟩ hs

/-! ### The meaning of a plain pattern -/

theorem matchTests_toPlain (w : World) (b : List Bool) : ∀ {ts : List SegmentTest}, (∀ t ∈ ts, t.plain = true) →
    Case.matchTests (B := plainTests w) b (ts.map (SegmentTest.toPlain w)) = run w b ts
  | [], _ => rfl
  | .bind x a :: ts, h => by
    have ih := matchTests_toPlain w b (fun t ht => h t (List.mem_cons_of_mem _ ht))
    rw [run_bind, ← ih]; rfl
  | .discard :: ts, h => by
    have ih := matchTests_toPlain w b (fun t ht => h t (List.mem_cons_of_mem _ ht))
    rw [run_discard, ← ih]; rfl
  | .check as t :: ts, h => by
    have ih := matchTests_toPlain w b (fun t ht => h t (List.mem_cons_of_mem _ ht))
    have ht : t.plain = true := h _ List.mem_cons_self
    rw [run_check, ← ih, List.map_cons, SegmentTest.toPlain, dif_pos ht]
    rfl

theorem run_bitArrayToTests (w : World) (b : List Bool) {segs : List Segment} (hs : Sized segs = true) :
    run w b (bitArrayToTests segs) = matchSegments w [] segs b := by
  unfold bitArrayToTests
  split
  · rename_i h
    subst h
    rw [run_check, run_nil, matchSegments, BitTest.holds, Offset.ofConstant_eval]
    cases b with
    | nil => rfl
    | cons x xs => simp; omega
  · rename_i h
    have := testsFrom_eq (w := w) (b := b) segs [] [] (Offset.ofConstant 0) 0 h hs .nil (Offset.ofConstant_eval 0) (Nat.zero_le _)
    rw [this, List.drop_zero]

theorem compile_run (w : World) (b : List Bool) {c : BitClause} (hc : c.Plain) :
    ∀ ps ∈ (c.compile w).alternatives, Case.SrcPat.runs ps [.bits b] = matchSegments w [] c.segments b := by
  intro ps hps
  simp only [BitClause.compile, List.mem_singleton] at hps
  subst hps
  rw [← run_bitArrayToTests w b hc.1, ← matchTests_toPlain w b (bitArrayToTests_plain hc.2)]
  simp only [Case.SrcPat.runs, Case.SrcPat.run]
  generalize Case.matchTests (B := plainTests w) b _ = x
  cases x <;> simp

theorem compile_typed (w : World) (ds : Case.Decls) (cs : List BitClause) :
    Case.ClausesTyped ds [.bitArray] (cs.map (BitClause.compile w)) := by
  intro c hc ps hps
  rw [List.mem_map] at hc
  obtain ⟨c, -, rfl⟩ := hc
  simp only [BitClause.compile, List.mem_singleton] at hps
  subst hps
  simp [Case.SrcPat.haveTys, Case.SrcPat.hasTy]

theorem select_single {B : Case.BitSys} (guards : Case.Guards B) (vs : List (Case.Val B.Bits)) (i : Nat) (ps : List (Case.SrcPat B))
    (g : Option (List Case.Name)) (cs : List (Case.Clause B)) :
    Case.select guards vs i (⟨[ps], g⟩ :: cs) =
      ((Case.SrcPat.runs ps vs).bind fun l =>
        if g.isNone || guards i (fun x => l.lookup x) then some (i, 0, fun x => l.lookup x) else none).or
          (Case.select guards vs (i + 1) cs) := by
  rw [Case.select, Case.selectAlt, Case.selectAlt]
  have : (!g.isSome) = g.isNone := by cases g <;> rfl
  rw [this]
  cases Case.SrcPat.runs ps vs <;> rfl

theorem select_compile (w : World) (b : List Bool)
    (guards : Nat → (Case.Name → Option (Case.Val (List Bool))) → Bool) : ∀ (cs : List BitClause) (i : Nat),
    (∀ c ∈ cs, c.Plain) →
    (Case.select (B := plainTests w) guards [.bits b] i (cs.map (BitClause.compile w))).map (fun r => (r.1, r.2.2)) = firstMatch w guards b i cs
  | [], _, _ => rfl
  | c :: cs, i, h => by
    have ih := select_compile w b guards cs (i + 1) (fun c hc => h c (List.mem_cons_of_mem _ hc))
    have hr := compile_run w b (h c List.mem_cons_self) _ (List.mem_singleton.2 rfl)
    have hsel := select_single (B := plainTests w) guards [.bits b] i
      [.bits ((bitArrayToTests c.segments).map (SegmentTest.toPlain w))] c.guard (cs.map (BitClause.compile w))
    rw [hr] at hsel
    rw [firstMatch, ← ih]
    refine (congrArg (Option.map fun r => (r.1, r.2.2)) hsel).trans ?_
    generalize Case.select (B := plainTests w) guards [.bits b] (i + 1) (cs.map (BitClause.compile w)) = rest
    cases hm : matchSegments w [] c.segments b with
    | none => rfl
    | some l =>
      change Option.map _ ((if (c.guard.isNone || guards i fun x => List.lookup x l) = true then
        some (i, 0, fun x => List.lookup x l) else none).or rest) = _
      by_cases hg : (c.guard.isNone || guards i fun x => List.lookup x l) = true
      · rw [if_pos hg]
        simp only [hg]
        rfl
      · rw [if_neg hg]
        simp only [hg]
        rfl

/-! ### The relations between plain tests -/

theorem plainTests_sound {w : World} (hw : ∀ x, 0 ≤ w.vars x) : (plainTests w).Sound where
  succeeds t p b h hh := BitTest.succeeds_holds hw b t.2 p.2 h hh
  failsFailing t p b h hh := BitTest.failsFailing_holds hw b t.2 p.2 h hh
  failsSucceeding t p b h hh := BitTest.failsSucceeding_holds hw b t.2 p.2 h hh
  impossible t b h := by
    obtain ⟨t, ht⟩ := t
    cases t with
    | «matches» v a =>
      have := MatchedValue.impossible_holds w b (show v.impossible a = true from h) ht
      change (BitTest.matches v a).holds w b = false
      exact this
    | _ => cases h
  unalias t b := BitTest.unalias_holds w b t.1

/-! ### Orderly clauses -/

theorem segmentTests_simple {w : World} {vars : PatternVariables} {o : Offset} {isLast : Bool} {s : Segment} (hp : s.plain = true)
    (hs : s.simple) : ∀ t ∈ segmentTests vars o isLast s, (t.toPlain w).simple := by
  intro t ht
  unfold segmentTests at ht
  rw [List.mem_append, List.mem_singleton, List.mem_map] at ht
  rcases ht with ⟨t, ht, rfl⟩ | rfl
  · have himp : t.impossible = false := by
      rw [List.mem_append, List.mem_append] at ht
      rcases ht with (ht | ht) | ht
      · unfold negativeTests at ht
        split at ht
        · rw [List.mem_singleton] at ht
          rw [ht]; rfl
        · cases ht
      · unfold sizeTests at ht
        split at ht
        · cases ht
        · rw [List.mem_singleton] at ht
          rw [ht]; rfl
        · rw [List.mem_singleton] at ht
          rw [ht]; rfl
      · unfold floatTests at ht
        split at ht
        · rw [List.mem_singleton] at ht
          rw [ht]; rfl
        · rw [List.mem_singleton] at ht
          rw [ht]; rfl
        · cases ht
    rw [SegmentTest.toPlain]
    split
    · exact ⟨rfl, himp⟩
    · trivial
  · unfold Segment.simple at hs
    cases hv : s.value with
    | «variable» x => trivial
    | discard as => cases as <;> trivial
    | literal l as =>
      have has : as = none := by
        rw [hv] at hs
        cases l with
        | int => exact hs.1
        | float => exact hs
        | string => exact hs
      subst has
      rw [matchTest, SegmentTest.toPlain]
      split
      · refine ⟨rfl, ?_⟩
        change l.matched.impossible _ = false
        cases l with
        | float => rfl
        | string => rfl
        | int v =>
          rw [hv] at hs
          simp only [Literal.matched, MatchedValue.impossible]
          split
          · rename_i m hm
            exfalso
            obtain ⟨h1, h2⟩ := intToBits_unrepresentable hm
            have h1' : segmentSize vars s = .constantBits m := h1
            unfold Segment.plain at hp
            simp only [hv, Bool.and_eq_true, decide_eq_true_eq] at hp
            obtain ⟨-, htype, hpos⟩ := hp
            have hcount : s.bitCount = some (m : Int) := by
              unfold segmentSize at h1'
              unfold Segment.bitCount
              rw [htype]
              cases hsz : s.size with
              | none =>
                rw [hsz] at h1'
                simp only [htype, defaultSize, ReadSize.constantBits.injEq] at h1'
                simp only [h1']
              | some e =>
                rw [hsz] at h1'
                cases e with
                | int n =>
                  simp only [bitArraySize, ReadSize.constantBits.injEq] at h1'
                  simp only [h1']
                | «variable» x => simp only [bitArraySize] at h1'; cases h1'
                | binaryOperator l r op =>
                  simp only [bitArraySize] at h1'
                  split at h1' <;> cases h1'
            rw [hcount, Option.all_some, decide_eq_true_eq] at hpos
            have := (representable_iff v m s.signed).2 ⟨by omega, hs.2 m hcount⟩
            rw [show representableWithBits v m s.signed = false from h2] at this
            cases this
          · rfl
      · trivial

theorem testsFrom_simple {w : World} : ∀ (segs : List Segment) (vars : PatternVariables) (o : Offset),
    (∀ s ∈ segs, s.plain = true) → (∀ s ∈ segs, s.simple) → ∀ t ∈ testsFrom vars o segs, (t.toPlain w).simple
  | [], _, _, _, _ => fun t ht => by cases ht
  | s :: more, vars, o, hp, hs => by
    intro t ht
    rw [testsFrom, List.mem_append] at ht
    rcases ht with ht | ht
    · exact segmentTests_simple (hp s List.mem_cons_self) (hs s List.mem_cons_self) t ht
    · exact testsFrom_simple more _ _ (fun x hx => hp x (List.mem_cons_of_mem _ hx)) (fun x hx => hs x (List.mem_cons_of_mem _ hx)) t ht

theorem bitArrayToTests_simple {w : World} {segs : List Segment} (hp : ∀ s ∈ segs, s.plain = true) (hs : ∀ s ∈ segs, s.simple) :
    ∀ t ∈ bitArrayToTests segs, (t.toPlain w).simple := by
  unfold bitArrayToTests
  split
  · intro t ht
    rw [List.mem_singleton] at ht
    rw [ht, SegmentTest.toPlain]
    split
    · exact ⟨rfl, rfl⟩
    · trivial
  · exact testsFrom_simple segs _ _ hp hs

end Verif.Segments
