import Verif.Segments.Laws

/-!
# The tests of a pattern decide whether it matches
-/

namespace Verif.Segments

open Verif.Case (matchTests)

variable {w : World} {b : List Bool}

/-! ### Sizes and offsets -/

theorem Variables.increase_eval {v : VariableUsage} {unit : Nat} : ∀ {vs : Variables}, (vs.get v).isSome = true →
    (vs.increase v unit).eval w b = vs.eval w b + v.eval w b * unit
  | .nil, h => by simp [Variables.get] at h
  | .cons u n rest, h => by
    rw [Variables.get] at h
    rw [Variables.increase]
    split at h
    · rename_i e
      rw [if_pos e, Variables.eval, Variables.eval, e]
      push_cast
      ring
    · rename_i e
      rw [if_neg e, Variables.eval, Variables.eval, Variables.increase_eval h]
      ring

theorem Variables.insert_eval {v : VariableUsage} {unit : Nat} : ∀ {vs : Variables},
    (vs.insert v unit).eval w b = vs.eval w b + v.eval w b * unit
  | .nil => by simp [Variables.insert, Variables.eval]
  | .cons u n rest => by
    rw [Variables.insert]
    split
    · rw [Variables.eval, Variables.eval]; ring
    · rw [Variables.eval, Variables.eval, Variables.insert_eval]; ring

theorem Variables.add_eval {v : VariableUsage} {unit : Nat} {vs : Variables} :
    (vs.add v unit).eval w b = vs.eval w b + v.eval w b * unit := by
  unfold Variables.add
  split
  · rename_i h; exact Variables.increase_eval h
  · exact Variables.insert_eval

theorem Calculations.push_eval {l r : Offset} {o : IntOperator} : ∀ {cs : Calculations},
    (cs.push l r o).eval w b = cs.eval w b + o.apply (l.eval w b) (r.eval w b)
  | .nil => by simp [Calculations.push, Calculations.eval]
  | .cons l' r' o' rest => by
    rw [Calculations.push, Calculations.eval, Calculations.eval, Calculations.push_eval]
    ring

theorem Offset.ofConstant_eval (n : Int) : (Offset.ofConstant n).eval w b = n := by
  rw [Offset.ofConstant, Offset.eval, Variables.eval, Calculations.eval]
  ring

theorem Offset.addSize_eval : ∀ (s : ReadSize) (o : Offset), (o.addSize s).eval w b = o.eval w b + s.eval w b
  | .constantBits n, .mk c vs cs => by
    rw [Offset.addSize, Offset.eval, Offset.eval, ReadSize.eval]; ring
  | .variableBits u unit, .mk c vs cs => by
    rw [Offset.addSize, Offset.eval, Offset.eval, ReadSize.eval, Variables.add_eval]; ring
  | .remainingBits, o => by rw [Offset.addSize, ReadSize.eval]; ring
  | .remainingBytes, o => by rw [Offset.addSize, ReadSize.eval]; ring
  | .binaryOperator l r .add, o => by
    rw [Offset.addSize, Offset.addSize_eval r, Offset.addSize_eval l, ReadSize.eval, IntOperator.apply]; ring
  | .binaryOperator l r .subtract, .mk c vs cs => by
    rw [Offset.addSize, Offset.eval, Offset.eval, ReadSize.eval, Calculations.push_eval, Offset.addSize_eval l, Offset.addSize_eval r,
      Offset.ofConstant_eval, Int.zero_add, Int.zero_add]; ring
    exact nofun
  | .binaryOperator l r .multiply, .mk c vs cs => by
    rw [Offset.addSize, Offset.eval, Offset.eval, ReadSize.eval, Calculations.push_eval, Offset.addSize_eval l, Offset.addSize_eval r,
      Offset.ofConstant_eval, Int.zero_add, Int.zero_add]; ring
    exact nofun
  | .binaryOperator l r .divide, .mk c vs cs => by
    rw [Offset.addSize, Offset.eval, Offset.eval, ReadSize.eval, Calculations.push_eval, Offset.addSize_eval l, Offset.addSize_eval r,
      Offset.ofConstant_eval, Int.zero_add, Int.zero_add]; ring
    exact nofun
  | .binaryOperator l r .remainder, .mk c vs cs => by
    rw [Offset.addSize, Offset.eval, Offset.eval, ReadSize.eval, Calculations.push_eval, Offset.addSize_eval l, Offset.addSize_eval r,
      Offset.ofConstant_eval, Int.zero_add, Int.zero_add]; ring
    exact nofun

theorem Offset.normalised_eval (o : Offset) (n : Int) : (n - o.normalised.eval w b) % 8 = 0 ↔ (n - o.eval w b) % 8 = 0 := by
  obtain ⟨c, vs, cs⟩ := o
  rw [Offset.normalised, Offset.eval, Offset.eval]
  have := Int.tmod_add_mul_tdiv c 8
  omega

theorem IntOperator.apply_nonneg {o : IntOperator} {m n : Int} (h : o ≠ .subtract) (hm : 0 ≤ m) (hn : 0 ≤ n) : 0 ≤ o.apply m n := by
  cases o with
  | add => exact Int.add_nonneg hm hn
  | subtract => exact absurd rfl h
  | multiply => exact Int.mul_nonneg hm hn
  | divide =>
    rw [IntOperator.apply]
    split
    · exact le_refl _
    · exact Int.tdiv_nonneg hm hn
  | remainder =>
    rw [IntOperator.apply]
    split
    · exact le_refl _
    · exact Int.tmod_nonneg _ hm

/-- A size that cannot be negative is not. -/
theorem ReadSize.nonneg : ∀ {s : ReadSize}, s.canBeNegative = false → 0 ≤ s.eval w b
  | .constantBits n, h => by
    rw [ReadSize.canBeNegative, decide_eq_false_iff_not] at h
    rw [ReadSize.eval]
    omega
  | .variableBits (.patternSegment _ (.mk _ _ _ _ signed)) unit, h => by
    simp only [ReadSize.canBeNegative, ReadAction.signed] at h
    rw [ReadSize.eval, VariableUsage.eval, ReadAction.int, h]
    exact Int.mul_nonneg (intOf_unsigned _ _) (by omega)
  | .variableBits (.outsideVariable _) _, h => by cases h
  | .binaryOperator l r o, h => by
    simp only [ReadSize.canBeNegative, Bool.or_eq_false_iff, decide_eq_false_iff_not] at h
    rw [ReadSize.eval]
    exact IntOperator.apply_nonneg h.1.1 (ReadSize.nonneg h.1.2) (ReadSize.nonneg h.2)
  | .remainingBits, _ => by rw [ReadSize.eval]
  | .remainingBytes, _ => by rw [ReadSize.eval]

/-- The names known to the model and to the specification. -/
def Agrees (w : World) (b : List Bool) (vars : PatternVariables) (names : List (Case.Name × Int)) : Prop :=
  List.Forall₂ (fun p q => p.1 = q.1 ∧ p.2.int w b = q.2) vars names

theorem variableUsage_eval {vars : PatternVariables} {names : List (Case.Name × Int)} (h : Agrees w b vars names) (x : Case.Name) :
    (variableUsage vars x).eval w b = (names.lookup x).getD (w.vars x) := by
  unfold variableUsage
  induction h with
  | nil => rw [List.lookup, List.lookup, VariableUsage.eval, Option.getD_none]
  | @cons p q l l' hpq _ ih =>
    obtain ⟨y, a⟩ := p
    obtain ⟨y', n⟩ := q
    simp only at hpq
    obtain ⟨rfl, hn⟩ := hpq
    rw [List.lookup, List.lookup]
    cases hx : x == y with
    | true => simp only [VariableUsage.eval, hn, Option.getD_some]
    | false => simp only; exact ih

theorem bitArraySize_eval {vars : PatternVariables} {names : List (Case.Name × Int)} (h : Agrees w b vars names) :
    ∀ (unit : Nat) (e : SizeExpr), (bitArraySize unit vars e).eval w b = e.value w names * unit
  | unit, .int n => by rw [bitArraySize, ReadSize.eval, SizeExpr.value]
  | unit, .variable x => by rw [bitArraySize, ReadSize.eval, SizeExpr.value, variableUsage_eval h]
  | unit, .binaryOperator l r o => by
    rw [bitArraySize]
    split
    · rename_i e
      rw [ReadSize.eval, bitArraySize_eval h 1 l, bitArraySize_eval h 1 r, SizeExpr.value, e]
      simp
    · rw [ReadSize.eval, ReadSize.eval, ReadSize.eval, bitArraySize_eval h 1 l, bitArraySize_eval h 1 r, SizeExpr.value, IntOperator.apply]
      simp

/-! ### One segment -/

/-- The segment takes everything that is left. -/
def Segment.catchAll (s : Segment) : Bool := s.size.isNone && (s.type == .bits || s.type == .bytes)

/-- The size is that of neither catch-all. -/
def ReadSize.sized : ReadSize → Bool
  | .remainingBits => false
  | .remainingBytes => false
  | _ => true

theorem bitArraySize_sized (unit : Nat) (vars : PatternVariables) (e : SizeExpr) : (bitArraySize unit vars e).sized = true := by
  cases e with
  | int => rfl
  | «variable» => rfl
  | binaryOperator =>
    rw [bitArraySize]
    split <;> rfl

theorem slice_splitBits {p : Nat} (hp : p ≤ b.length) (n : Int) :
    slice b p n = (splitBits n (b.drop p)).map Prod.fst := by
  unfold slice splitBits
  rw [List.length_drop]
  by_cases h : 0 ≤ n ∧ (p : Int) + n ≤ b.length
  · rw [if_pos ⟨by omega, h.1, h.2⟩, if_pos ⟨h.1, by omega⟩]
    rfl
  · rw [if_neg (by omega), if_neg (by omega)]
    rfl

/-- The bits of a segment of known size. -/
theorem take_sized {vars : PatternVariables} {names : List (Case.Name × Int)} (h : Agrees w b vars names) {s : Segment}
    (hs : s.catchAll = false) (rest : List Bool) :
    (segmentSize vars s).sized = true ∧ s.take w names rest = splitBits ((segmentSize vars s).eval w b) rest := by
  obtain ⟨value, size, unit, type, big, signed⟩ := s
  cases size with
  | some e =>
    refine ⟨bitArraySize_sized unit vars e, ?_⟩
    simp only [Segment.take, segmentSize, bitArraySize_eval h]
  | none =>
    cases type with
    | bits => simp [Segment.catchAll] at hs
    | bytes => simp [Segment.catchAll] at hs
    | int => exact ⟨rfl, by simp only [Segment.take, segmentSize, defaultSize, ReadSize.eval]⟩
    | float =>
      cases value with
      | literal l as => cases l <;> exact ⟨rfl, by simp only [Segment.take, segmentSize, defaultSize, ReadSize.eval]⟩
      | «variable» => exact ⟨rfl, by simp only [Segment.take, segmentSize, defaultSize, ReadSize.eval]⟩
      | discard => exact ⟨rfl, by simp only [Segment.take, segmentSize, defaultSize, ReadSize.eval]⟩
    | string =>
      cases value with
      | literal l as => cases l <;> exact ⟨rfl, by simp only [Segment.take, segmentSize, defaultSize, ReadSize.eval]⟩
      | «variable» => exact ⟨rfl, by simp only [Segment.take, segmentSize, defaultSize, ReadSize.eval]⟩
      | discard => exact ⟨rfl, by simp only [Segment.take, segmentSize, defaultSize, ReadSize.eval]⟩
    | utfCodepoint =>
      cases value with
      | literal l as => cases l <;> exact ⟨rfl, by simp only [Segment.take, segmentSize, defaultSize, ReadSize.eval]⟩
      | «variable» => exact ⟨rfl, by simp only [Segment.take, segmentSize, defaultSize, ReadSize.eval]⟩
      | discard => exact ⟨rfl, by simp only [Segment.take, segmentSize, defaultSize, ReadSize.eval]⟩

theorem bits_sized {a : ReadAction} (h : a.size.sized = true) : a.bits w b = slice b (a.start.eval w b) (a.size.eval w b) := by
  unfold ReadAction.bits
  split
  · rename_i e; rw [e] at h; cases h
  · rename_i e; rw [e] at h; cases h
  · rfl

/-- Runs tests. -/
def run (w : World) (b : List Bool) (ts : List SegmentTest) : Option (List (Case.Name × Case.Val (List Bool))) :=
  matchTests (B := allTests w) b (ts.map (SegmentTest.toBTest w))

theorem run_nil : run w b [] = some [] := rfl
theorem run_bind (x : Case.Name) (a : ReadAction) (ts : List SegmentTest) :
    run w b (.bind x a :: ts) = (run w b ts).map fun l => (x, a.value w b) :: l := rfl
theorem run_discard (ts : List SegmentTest) : run w b (.discard :: ts) = run w b ts := rfl
theorem run_check (as : Option (Case.Name × Literal)) (t : BitTest) (ts : List SegmentTest) :
    run w b (.check as t :: ts) = if t.holds w b then
      (run w b ts).map fun l => (as.map fun p => (p.1, p.2.value w)).toList ++ l else none := rfl

theorem matchTests_checks (ts : List BitTest) (rest : List SegmentTest) :
    run w b (ts.map (SegmentTest.check none) ++ rest) =
      if ts.all (fun t => t.holds w b) then run w b rest else none := by
  induction ts with
  | nil => simp
  | cons t ts ih =>
    rw [List.map_cons, List.cons_append, run_check, ih, List.all_cons]
    cases t.holds w b with
    | false => simp
    | true => simp

/-- The match test and the test for finite floats together say whether the bits are accepted. -/
theorem matchTests_match {vars : PatternVariables} {o : Offset} {s : Segment} {bits : List Bool}
    (hb : (readAction vars o s).bits w b = some bits) (rest : List SegmentTest) :
    (if (floatTests s (readAction vars o s)).all (fun t => t.holds w b) then
      run w b (matchTest (readAction vars o s) s.value :: rest) else none) =
      if s.accepts w bits then
        (run w b rest).map fun l => s.binds w bits ++ l
      else none := by
  have hread : (readAction vars o s).value w b = s.read w bits := by
    unfold ReadAction.value
    rw [hb]
    obtain ⟨value, size, unit, type, big, signed⟩ := s
    cases type <;> rfl
  have hbig : (readAction vars o s).big = s.big := rfl
  have hsigned : (readAction vars o s).signed = s.signed := rfl
  cases hv : s.value with
  | literal l as =>
    have hfloat : floatTests s (readAction vars o s) = [] := by
      unfold floatTests
      rw [hv]
      cases s.type <;> rfl
    have hacc : l.matched.holds w (readAction vars o s) bits = s.accepts w bits := by
      unfold Segment.accepts
      rw [hv]
      cases l <;> simp only [Literal.matched, MatchedValue.holds, hbig, hsigned] <;> rfl
    rw [hfloat, List.all_nil, if_pos rfl]
    cases as with
    | none =>
      rw [matchTest, run_check, BitTest.holds, hb, Option.elim_some, hacc, Segment.binds, hv]
      rfl
    | some x =>
      rw [matchTest, run_check, BitTest.holds, hb, Option.elim_some, MatchedValue.holds, hacc, Segment.binds, hv]
      rfl
  | «variable» x =>
    have hall : (floatTests s (readAction vars o s)).all (fun t => t.holds w b) = s.accepts w bits := by
      unfold floatTests Segment.accepts
      rw [hv]
      cases s.type <;> simp [BitTest.holds, hb, hbig]
    rw [hall, matchTest, run_bind, Segment.binds, hv, hread]
    rfl
  | discard as =>
    have hall : (floatTests s (readAction vars o s)).all (fun t => t.holds w b) = s.accepts w bits := by
      unfold floatTests Segment.accepts
      rw [hv]
      cases s.type <;> simp [BitTest.holds, hb, hbig]
    rw [hall, Segment.binds, hv]
    cases as with
    | none =>
      rw [matchTest, run_discard]
      simp
    | some x =>
      rw [matchTest, run_bind, hread]
      rfl

/-- The tests of one segment. -/
theorem segment_step {vars : PatternVariables} {o : Offset} {isLast : Bool} {s : Segment} (rest : List SegmentTest) :
    run w b (segmentTests vars o isLast s ++ rest) =
      if (negativeTests (segmentSize vars s)).all (fun t => t.holds w b) &&
        (sizeTests o isLast (segmentSize vars s)).all (fun t => t.holds w b) then
        (if (floatTests s (readAction vars o s)).all (fun t => t.holds w b) then
          run w b (matchTest (readAction vars o s) s.value :: rest) else none)
      else none := by
  unfold segmentTests
  rw [List.append_assoc, matchTests_checks, List.all_append, List.all_append]
  cases (negativeTests (segmentSize vars s)).all (fun t => t.holds w b) <;>
    cases (sizeTests o isLast (segmentSize vars s)).all (fun t => t.holds w b) <;> simp

theorem negativeTests_holds (size : ReadSize) :
    (negativeTests size).all (fun t => t.holds w b) = decide (0 ≤ size.eval w b) := by
  unfold negativeTests
  split
  · simp [BitTest.holds]
  · rename_i h
    have := ReadSize.nonneg (w := w) (b := b) (Bool.eq_false_iff.2 h)
    simp [this]

theorem sizeTests_holds {o : Offset} {size : ReadSize} (hs : size.sized = true) (isLast : Bool) :
    (sizeTests o isLast size).all (fun t => t.holds w b) =
      (if isLast then decide (o.eval w b + size.eval w b = b.length) else decide (o.eval w b + size.eval w b ≤ b.length)) := by
  unfold sizeTests
  split
  · cases hs
  · cases hs
  · cases isLast <;> simp [BitTest.holds, Offset.addSize_eval]

/-! ### All segments -/

theorem named_agrees {vars : PatternVariables} {names : List (Case.Name × Int)} (h : Agrees w b vars names) {o : Offset} {s : Segment}
    {bits : List Bool} (hs : (segmentSize vars s).sized = true) (hb : (readAction vars o s).bits w b = some bits) :
    Agrees w b (nextVariables vars o s) (s.named bits names) := by
  unfold nextVariables Segment.named
  rw [SegmentValue.given_eq]
  cases s.value.name with
  | none => exact h
  | some x =>
    refine List.Forall₂.cons ⟨rfl, ?_⟩ h
    rw [bits_sized (a := readAction vars o s) hs] at hb
    unfold readAction
    rw [ReadAction.int]
    change intOf s.big s.signed (slice b ((readAction vars o s).start.eval w b) ((readAction vars o s).size.eval w b)) = _
    rw [hb]
    rfl

theorem testsFrom_eq : ∀ (segs : List Segment) (vars : PatternVariables) (names : List (Case.Name × Int)) (o : Offset) (p : Nat),
    segs ≠ [] → Sized segs = true → Agrees w b vars names → o.eval w b = p → p ≤ b.length →
    run w b (testsFrom vars o segs) = matchSegments w names segs (b.drop p)
  | [], _, _, _, _, h, _, _, _, _ => absurd rfl h
  | s :: more, vars, names, o, p, _, hsized, hag, ho, hp => by
    rw [testsFrom, segment_step, matchSegments, negativeTests_holds]
    by_cases hc : s.catchAll = true
    · -- the last segment
      have hmore : more = [] := by
        cases more with
        | nil => rfl
        | cons m ms =>
          rw [Sized.eq_3 s (m :: ms) nofun, Bool.and_eq_true] at hsized
          exfalso
          have h1 := hsized.1
          unfold Segment.catchAll at hc
          cases hsz : s.size <;> cases hst : s.type <;> simp [hsz, hst] at h1 hc
      subst hmore
      have hslice : slice b p ((b.length : Int) - p) = some (b.drop p) := by
        unfold slice
        rw [if_pos ⟨by omega, by omega, by omega⟩, List.take_of_length_le (by simp only [List.length_drop, Int.toNat_natCast]; omega)]
        rfl
      obtain ⟨value, size, unit, type, big, signed⟩ := s
      have hsize : size = none := by
        cases size with
        | none => rfl
        | some => simp [Segment.catchAll] at hc
      subst hsize
      have htype : type = .bits ∨ type = .bytes := by simpa [Segment.catchAll] using hc
      rcases htype with rfl | rfl
      · have hseg : segmentSize vars ⟨value, none, unit, .bits, big, signed⟩ = .remainingBits := rfl
        have hb : (readAction vars o ⟨value, none, unit, .bits, big, signed⟩).bits w b = some (b.drop p) := by
          unfold ReadAction.bits
          change slice b (o.eval w b) (b.length - o.eval w b) = _
          rw [ho, hslice]
        rw [matchTests_match hb]
        simp only [hseg, sizeTests, ReadSize.eval, List.all_nil, Segment.take, le_refl, decide_true, Bool.and_self, if_true,
          Option.bind_some, testsFrom, run_nil, matchSegments, Option.map_some]
      · have hseg : segmentSize vars ⟨value, none, unit, .bytes, big, signed⟩ = .remainingBytes := rfl
        have hb : (readAction vars o ⟨value, none, unit, .bytes, big, signed⟩).bits w b = some (b.drop p) := by
          unfold ReadAction.bits
          change slice b (o.eval w b) (b.length - o.eval w b) = _
          rw [ho, hslice]
        rw [matchTests_match hb]
        have hbytes : decide (((b.length : Int) - o.normalised.eval w b) % 8 = 0) = decide ((b.drop p).length % 8 = 0) := by
          rw [decide_eq_decide, Offset.normalised_eval, ho, List.length_drop]
          omega
        simp only [hseg, sizeTests, ReadSize.eval, List.all_cons, List.all_nil, Segment.take, le_refl, decide_true, Bool.true_and,
          Bool.and_true, BitTest.holds, hbytes, decide_eq_true_eq]
        split
        · simp only [Option.bind_some, testsFrom, run_nil, matchSegments, Option.map_some, if_true]
        · rfl
    · -- a segment of some size
      have hc' : s.catchAll = false := by simpa using hc
      obtain ⟨hs, htake⟩ := take_sized hag hc' (b.drop p)
      rw [sizeTests_holds hs, htake, ho]
      have hslice := slice_splitBits hp ((segmentSize vars s).eval w b)
      have hbits : (readAction vars o s).bits w b = slice b p ((segmentSize vars s).eval w b) := by
        rw [bits_sized (a := readAction vars o s) hs]
        change slice b (o.eval w b) _ = _
        rw [ho]
        rfl
      generalize hn : (segmentSize vars s).eval w b = n at *
      by_cases hin : 0 ≤ n ∧ (p : Int) + n ≤ b.length
      · have hsplit : splitBits n (b.drop p) = some ((b.drop p).take n.toNat, (b.drop p).drop n.toNat) := by
          unfold splitBits
          rw [if_pos ⟨hin.1, by rw [List.length_drop]; omega⟩]
        rw [hsplit] at hslice ⊢
        rw [hslice, Option.map_some] at hbits
        rw [matchTests_match hbits, Option.bind_some]
        have hag' := named_agrees hag hs hbits
        have ho' : (o.addSize (segmentSize vars s)).eval w b = ((p + n.toNat : Nat) : Int) := by
          rw [Offset.addSize_eval, ho, hn]
          omega
        have hdrop : (b.drop p).drop n.toNat = b.drop (p + n.toNat) := by rw [List.drop_drop]
        cases more with
        | nil =>
          simp only [hin.1, decide_true, Bool.true_and, List.isEmpty_nil, if_true, testsFrom, run_nil, matchSegments,
            Option.map_some, hdrop, decide_eq_true_eq]
          by_cases hlen : (p : Int) + n = b.length
          · rw [if_pos hlen, if_pos (List.drop_eq_nil_of_le (by omega))]
            rfl
          · rw [if_neg hlen, if_neg (c := List.drop (p + n.toNat) b = []) (by rw [List.drop_eq_nil_iff]; omega)]
            simp
        | cons m ms =>
          have hms : Sized (m :: ms) = true := by
            rw [Sized.eq_3 s (m :: ms) nofun, Bool.and_eq_true] at hsized
            exact hsized.2
          have ih := testsFrom_eq (m :: ms) (nextVariables vars o s) (s.named ((b.drop p).take n.toNat) names)
            (o.addSize (segmentSize vars s)) (p + n.toNat) nofun hms hag' ho' (by omega)
          simp only [hin.1, hin.2, decide_true, Bool.true_and, List.isEmpty_cons, Bool.false_eq_true, if_false, if_true, ih, hdrop]
      · have hsplit : splitBits n (b.drop p) = none := by
          unfold splitBits
          rw [if_neg]
          rw [List.length_drop]
          omega
        rw [hsplit, Option.bind_none, if_neg]
        rw [Bool.and_eq_true, decide_eq_true_eq]
        rintro ⟨h1, h2⟩
        cases more with
        | nil => rw [List.isEmpty_nil, if_pos rfl, decide_eq_true_eq] at h2; omega
        | cons => simp only [List.isEmpty_cons, Bool.false_eq_true, if_false, decide_eq_true_eq] at h2; omega

end Verif.Segments
