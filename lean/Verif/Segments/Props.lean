import Verif.Segments.Plain
import Verif.Case.Props

/-!
**C59**: a bit array pattern matches exactly the bit arrays it describes.
**C28**, **C30**, **C31** for `case` expressions on bit arrays, with the actual tests.
-/

namespace Verif.Segments

/-- **C59.** Running the tests the compiler makes of a bit array pattern, in their order, is the
same as reading the bit array from left to right by the segments of the pattern: it fails on the
same bit arrays, and gives the same values to the same variables. -/
theorem pattern_matches_what_it_describes (w : World) (segments : List Segment) (hs : Sized segments = true) (b : List Bool) :
    Case.matchTests (B := allTests w) b ((bitArrayToTests segments).map (SegmentTest.toBTest w)) = matchSegments w [] segments b :=
  run_bitArrayToTests w b hs

/-! ### A concrete pattern -/

/-- Floats do not matter in the examples. -/
def exampleWorld (vars : Case.Name → Int) : World := ⟨vars, fun _ => 0, fun _ _ => none⟩

def intSegment (value : SegmentValue) (size : Option SizeExpr) : Segment := ⟨value, size, 1, .int, true, false⟩
def restSegment (value : SegmentValue) : Segment := ⟨value, none, 1, .bits, true, false⟩

/-- `<<n:4, 5:size(n + k), rest:bits>>` -/
def lengthPattern : List Segment :=
  [intSegment (.variable "n") (some (.int 4)),
    intSegment (.literal (.int 5) none) (some (.binaryOperator (.variable "n") (.variable "k") .add)),
    restSegment (.variable "rest")]

/-- With `k = 1` it matches `0010 101 1 1`: `n` is 2, so 5 has three bits. -/
example : Sized lengthPattern = true ∧
    (matchSegments (exampleWorld fun _ => 1) [] lengthPattern
      [false, false, true, false, true, false, true, true, true]).map (List.map Prod.fst) = some ["n", "rest"] ∧
    (matchSegments (exampleWorld fun _ => 0) [] lengthPattern
      [false, false, true, false, true, false, true, true, true]).isNone = true := by
  decide +kernel

/-! ### `case` expressions -/

/-- **C28** for bit arrays. If no missing patterns are reported for a `case` expression on a bit
array with plain clauses, then every bit array matches a clause without a guard, whatever the
values of the variables used as sizes are, as long as they are not negative. -/
theorem accepted_bit_array_case_never_falls_through (w : World) (hw : ∀ x, 0 ≤ w.vars x) (ds : Case.Decls)
    (clauses : List BitClause) (hp : ∀ c ∈ clauses, c.Plain) (d : Case.Decision (plainTests w)) (st : Case.St)
    (hc : Case.compileCase ds [.bitArray] (clauses.map (BitClause.compile w)) = some (d, st)) (hm : st.missing = false)
    (b : List Bool) : ∃ c ∈ clauses, c.guard = none ∧ (matchSegments w [] c.segments b).isSome = true := by
  obtain ⟨⟨c, hc1, hg, ps, hps, hr⟩, -⟩ := Case.accepted_case_never_falls_through (plainTests_sound hw) ds [.bitArray] _ d st hc hm
    (compile_typed w ds clauses) [.bits b] (by simp [Case.Val.haveTys, Case.Val.hasTy])
  rw [List.mem_map] at hc1
  obtain ⟨c, hc1, rfl⟩ := hc1
  refine ⟨c, hc1, hg, ?_⟩
  rw [← compile_run w b (hp c hc1) ps hps]
  exact hr

theorem bound_append {B : Case.BitSys} (l m : List (Case.BTest B)) :
    Case.SrcPat.bound (.bits (l ++ m)) = Case.SrcPat.bound (.bits l) ++ Case.SrcPat.bound (.bits m) := by
  rw [Case.SrcPat.bound, Case.SrcPat.bound, Case.SrcPat.bound, List.flatMap_append]

theorem bound_check (w : World) (t : BitTest) :
    Case.SrcPat.bound (.bits [SegmentTest.toPlain w (.check none t)]) = [] := by
  rw [SegmentTest.toPlain]
  split <;> simp [Case.SrcPat.bound]

theorem bound_checks (w : World) : ∀ ts : List BitTest,
    Case.SrcPat.bound (.bits ((ts.map (SegmentTest.check none)).map (SegmentTest.toPlain w))) = []
  | [] => by simp [Case.SrcPat.bound]
  | t :: ts => by
    rw [List.map_cons, List.map_cons, ← List.singleton_append, bound_append, bound_check, bound_checks w ts, List.append_nil]

theorem testsFrom_bound (w : World) : ∀ (segs : List Segment) (vars : PatternVariables) (o : Offset), (∀ s ∈ segs, s.simple) →
    Case.SrcPat.bound (.bits ((testsFrom vars o segs).map (SegmentTest.toPlain w))) = segs.filterMap fun s => s.value.given
  | [], _, _, _ => by simp [testsFrom, Case.SrcPat.bound]
  | s :: more, vars, o, hs => by
    have ih := testsFrom_bound w more (nextVariables vars o s) (o.addSize (segmentSize vars s))
      (fun x hx => hs x (List.mem_cons_of_mem _ hx))
    have h1 := hs s List.mem_cons_self
    rw [testsFrom, List.map_append, bound_append, ih, segmentTests, List.map_append, bound_append, bound_checks, List.nil_append,
      List.filterMap_cons]
    unfold Segment.simple at h1
    cases hv : s.value with
    | «variable» x => simp [matchTest, SegmentTest.toPlain, SegmentValue.given, Case.SrcPat.bound]
    | discard as => cases as <;> simp [matchTest, SegmentTest.toPlain, SegmentValue.given, Case.SrcPat.bound]
    | literal l as =>
      have has : as = none := by
        rw [hv] at h1
        cases l with
        | int => exact h1.1
        | float => exact h1
        | string => exact h1
      subst has
      rw [matchTest, List.map_cons, List.map_nil, bound_check]
      rfl

theorem compile_bound (w : World) {c : BitClause} (hs : ∀ s ∈ c.segments, s.simple) :
    Case.SrcPat.bounds (B := plainTests w) [.bits ((bitArrayToTests c.segments).map (SegmentTest.toPlain w))] =
      c.segments.filterMap fun s => s.value.given := by
  rw [Case.SrcPat.bounds, Case.SrcPat.bounds, List.append_nil]
  unfold bitArrayToTests
  split
  · rename_i h
    rw [h, List.map_cons, List.map_nil, SegmentTest.toPlain]
    split <;> simp [Case.SrcPat.bound]
  · exact testsFrom_bound w c.segments _ _ hs

theorem compile_orderly (w : World) {clauses : List BitClause} (hp : ∀ c ∈ clauses, c.Plain)
    (hs : ∀ c ∈ clauses, ∀ s ∈ c.segments, s.simple)
    (hn : ∀ c ∈ clauses, (c.segments.filterMap fun s => s.value.given).Nodup) :
    Case.Orderly (clauses.map (BitClause.compile w)) := by
  have hmem : ∀ a ∈ Case.allAlternatives (clauses.map (BitClause.compile w)), ∃ c ∈ clauses,
      a.1 = [.bits ((bitArrayToTests c.segments).map (SegmentTest.toPlain w))] := by
    intro a ha
    unfold Case.allAlternatives at ha
    rw [List.mem_flatMap] at ha
    obtain ⟨c, hc, ha⟩ := ha
    rw [List.mem_map] at hc
    obtain ⟨c, hc, rfl⟩ := hc
    simp only [BitClause.compile, List.map_cons, List.map_nil, List.mem_singleton] at ha
    exact ⟨c, hc, by rw [ha]⟩
  refine ⟨?_, ?_, ⟨fun _ => 0, ?_⟩, ?_⟩
  · intro a ha p hpp
    obtain ⟨c, hc, he⟩ := hmem a ha
    rw [he, List.mem_singleton] at hpp
    subst hpp
    rw [Case.SrcPat.orderly]
    refine ⟨.inl rfl, ?_⟩
    intro t ht
    rw [List.mem_map] at ht
    obtain ⟨t, ht, rfl⟩ := ht
    exact bitArrayToTests_simple (hp c hc).2 (hs c hc) t ht
  · intro a ha
    obtain ⟨c, hc, he⟩ := hmem a ha
    rw [he, compile_bound w (hs c hc)]
    exact hn c hc
  · intro a ha p hpp s hss
    obtain ⟨c, hc, he⟩ := hmem a ha
    rw [he, List.mem_singleton] at hpp
    subst hpp
    simp [Case.SrcPat.strings, Case.SrcPat.prefixes] at hss
  · refine List.pairwise_of_forall_mem_list ?_
    intro a ha l hl i p q hpi hqi s hss
    obtain ⟨c, hc, he⟩ := hmem l hl
    rw [he] at hqi
    have := List.mem_of_getElem? hqi
    rw [List.mem_singleton] at this
    subst this
    simp [Case.SrcPat.prefixes] at hss

/-- **C30 (partial)** for bit arrays. For plain clauses whose literals have no names and fit their
segments, the decision tree runs the first clause whose pattern matches the bit array and whose
guard holds, with the variables of that pattern, and fails if there is none.  Missing: literals with
names, which can be lost, and sizes that are sums with negative variables, see `Witnesses.lean`. -/
theorem bit_array_tree_runs_first_match_partial (w : World) (hw : ∀ x, 0 ≤ w.vars x) (ds : Case.Decls)
    (clauses : List BitClause) (hp : ∀ c ∈ clauses, c.Plain) (hs : ∀ c ∈ clauses, ∀ s ∈ c.segments, s.simple)
    (hn : ∀ c ∈ clauses, (c.segments.filterMap fun s => s.value.given).Nodup) (d : Case.Decision (plainTests w)) (st : Case.St)
    (hc : Case.compileCase ds [.bitArray] (clauses.map (BitClause.compile w)) = some (d, st)) (b : List Bool)
    (guards : Nat → (Case.Name → Option (Case.Val (List Bool))) → Bool) :
    d.eval guards (Case.subjectEnv [.bitArray] [.bits b]) = firstMatch w guards b 0 clauses := by
  have h := Case.tree_runs_first_matching_clause_partial (plainTests_sound hw) ds [.bitArray] _ d st hc (compile_typed w ds clauses)
    (compile_orderly w hp hs hn) [.bits b] (by simp [Case.Val.haveTys, Case.Val.hasTy]) guards
  exact h.trans (select_compile w b guards clauses 0 hp)

/-- **C31 (partial)** for bit arrays. A clause that is reported as unreachable is not the first one
that matches, for any bit array. -/
theorem unreachable_bit_array_clause_never_selected_partial (w : World) (hw : ∀ x, 0 ≤ w.vars x) (ds : Case.Decls)
    (clauses : List BitClause) (hp : ∀ c ∈ clauses, c.Plain) (hs : ∀ c ∈ clauses, ∀ s ∈ c.segments, s.simple)
    (hn : ∀ c ∈ clauses, (c.segments.filterMap fun s => s.value.given).Nodup) (d : Case.Decision (plainTests w)) (st : Case.St)
    (hc : Case.compileCase ds [.bitArray] (clauses.map (BitClause.compile w)) = some (d, st)) (i : Nat) (hi : i < clauses.length)
    (hu : st.isReachable i 0 = false) (b : List Bool)
    (guards : Nat → (Case.Name → Option (Case.Val (List Bool))) → Bool) :
    (firstMatch w guards b 0 clauses).map Prod.fst ≠ some i := by
  rw [← bit_array_tree_runs_first_match_partial w hw ds clauses hp hs hn d st hc b guards]
  refine Case.unreachable_clause_never_runs (plainTests_sound hw) ds [.bitArray] _ d st hc (compile_typed w ds clauses) i
    (clauses[i].compile w) ?_ ?_ [.bits b] (by simp [Case.Val.haveTys, Case.Val.hasTy]) guards
  · rw [List.getElem?_map, List.getElem?_eq_getElem hi]; rfl
  · intro j hj
    have : j = 0 := by simpa [BitClause.compile] using hj
    rw [this]; exact hu

/-- `case b { <<>> -> 0  <<1, n, _:size(n)>> if .. -> 1  <<1, _:bits>> -> 2  <<1:8, 2:8>> -> 3
<<x:1, _:bits>> -> 4  _ -> 5 }`; the third clause hides the fourth one. -/
def exampleClauses : List BitClause :=
  [⟨[], none⟩,
    ⟨[intSegment (.literal (.int 1) none) none, intSegment (.variable "n") none, intSegment (.discard none) (some (.variable "n"))],
      some ["n"]⟩,
    ⟨[intSegment (.literal (.int 1) none) none, restSegment (.discard none)], none⟩,
    ⟨[intSegment (.literal (.int 1) none) (some (.int 8)), intSegment (.literal (.int 2) none) (some (.int 8))], none⟩,
    ⟨[intSegment (.variable "x") (some (.int 1)), restSegment (.discard none)], none⟩,
    ⟨[restSegment (.discard none)], none⟩]

theorem exampleClauses_plain : ∀ c ∈ exampleClauses, c.Plain := by
  intro c hc
  simp only [exampleClauses, List.mem_cons, List.not_mem_nil, or_false] at hc
  rcases hc with rfl | rfl | rfl | rfl | rfl | rfl <;> exact ⟨by decide, by decide⟩

theorem exampleClauses_simple : ∀ c ∈ exampleClauses, ∀ s ∈ c.segments, s.simple := by
  have fits : ∀ v : Int, 0 ≤ v → v < 256 → ∀ n : Nat, (8 : Int) = n → IntFits v n false := by
    intro v h0 h1 n hn
    have : n = 8 := by omega
    subst this
    exact ⟨h0, by norm_num; exact h1⟩
  intro c hc s hs
  simp only [exampleClauses, List.mem_cons, List.not_mem_nil, or_false] at hc
  rcases hc with rfl | rfl | rfl | rfl | rfl | rfl <;>
    simp only [List.mem_cons, List.not_mem_nil, or_false] at hs
  · rcases hs with rfl | rfl | rfl
    · exact ⟨rfl, fun n hn => fits 1 (by decide) (by decide) n (by simpa [Segment.bitCount, intSegment] using hn)⟩
    · trivial
    · trivial
  · rcases hs with rfl | rfl
    · exact ⟨rfl, fun n hn => fits 1 (by decide) (by decide) n (by simpa [Segment.bitCount, intSegment] using hn)⟩
    · trivial
  · rcases hs with rfl | rfl
    · exact ⟨rfl, fun n hn => fits 1 (by decide) (by decide) n (by simpa [Segment.bitCount, intSegment] using hn)⟩
    · exact ⟨rfl, fun n hn => fits 2 (by decide) (by decide) n (by simpa [Segment.bitCount, intSegment] using hn)⟩
  · rcases hs with rfl | rfl <;> trivial
  · subst hs; trivial

theorem exampleClauses_report : Case.report Case.exampleDecls [.bitArray] (exampleClauses.map (BitClause.compile (exampleWorld fun _ => 0))) =
    some (false, [(5, 0), (4, 0), (2, 0), (1, 0), (0, 0)]) := by
  decide +kernel

/-- The example meets the hypotheses of the three theorems: every bit array matches a clause without
a guard, the tree runs the first clause that matches, and the fourth one is never run.  With the
guard false `1, 2, 11` runs the third clause, with the guard true the second one. -/
example : ∃ d st, Case.compileCase Case.exampleDecls [.bitArray] (exampleClauses.map (BitClause.compile (exampleWorld fun _ => 0))) =
      some (d, st) ∧
    (∀ b, ∃ c ∈ exampleClauses, c.guard = none ∧ (matchSegments (exampleWorld fun _ => 0) [] c.segments b).isSome = true) ∧
    (∀ b guards, d.eval guards (Case.subjectEnv [.bitArray] [.bits b]) = firstMatch (exampleWorld fun _ => 0) guards b 0 exampleClauses) ∧
    (∀ b guards, (firstMatch (exampleWorld fun _ => 0) guards b 0 exampleClauses).map Prod.fst ≠ some 3) := by
  obtain ⟨⟨d, st⟩, h1, h2⟩ := Option.map_eq_some_iff.1 exampleClauses_report
  simp only [Prod.mk.injEq] at h2
  have hn : ∀ c ∈ exampleClauses, (c.segments.filterMap fun s => s.value.given).Nodup := by decide
  exact ⟨d, st, h1,
    accepted_bit_array_case_never_falls_through _ (fun _ => by exact le_refl _) _ _ exampleClauses_plain d st h1 h2.1,
    fun b guards => bit_array_tree_runs_first_match_partial _ (fun _ => by exact le_refl _) _ _ exampleClauses_plain exampleClauses_simple hn d
      st h1 b guards,
    fun b guards => unreachable_bit_array_clause_never_selected_partial _ (fun _ => by exact le_refl _) _ _ exampleClauses_plain
      exampleClauses_simple hn d st h1 3 (by decide) (by simp [Case.St.isReachable, h2.2]) b guards⟩

/-- The bits of `<<1, 2, 3:2>>`. -/
def exampleBits : List Bool := (List.replicate 7 false ++ [true]) ++ (List.replicate 6 false ++ [true, false]) ++ [true, true]

example : (firstMatch (exampleWorld fun _ => 0) (fun _ _ => true) exampleBits 0 exampleClauses).map Prod.fst = some 1 ∧
    (firstMatch (exampleWorld fun _ => 0) (fun _ _ => false) exampleBits 0 exampleClauses).map Prod.fst = some 2 := by
  decide +kernel

end Verif.Segments
