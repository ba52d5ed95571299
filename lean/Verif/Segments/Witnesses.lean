import Verif.Segments.Props

/-!
**C28**-**C31** for bit arrays: `case` expressions for which the properties are false of the code.
-/

namespace Verif.Segments

def noBitGuard : Nat → (Case.Name → Option (Case.Val (List Bool))) → Bool := fun _ _ => false

/-- What the tree made of all the tests of the clauses does: the clause it runs. -/
def bitTree (w : World) (clauses : List BitClause) (b : List Bool) : Option (Option Nat) :=
  Case.treeClause (B := plainTests w) Case.exampleDecls [.bitArray] (clauses.map (BitClause.compile w)) noBitGuard [.bits b]

/-- The variables among `names` that the body of that clause can use. -/
def bitTreeNames (w : World) (clauses : List BitClause) (b : List Bool) (names : List Case.Name) : Option (Option (List Case.Name)) :=
  Case.treeNames (B := plainTests w) Case.exampleDecls [.bitArray] (clauses.map (BitClause.compile w)) noBitGuard [.bits b] names

/-- `n` is -5, every other variable is 10. -/
def negativeWorld : World := exampleWorld fun x => if x = "n" then -5 else 10

/-- `size(n + m)` -/
def sumSize : SizeExpr := .binaryOperator (.variable "n") (.variable "m") .add

/-- `case b { <<_:size(m), _:bits>> -> 0  <<_:size(n + m), _:bits>> -> 1  _ -> 2 }` -/
def sumAfterVariable : List BitClause :=
  [⟨[intSegment (.discard none) (some (.variable "m")), restSegment (.discard none)], none⟩,
    ⟨[intSegment (.discard none) (some sumSize), restSegment (.discard none)], none⟩, ⟨[restSegment (.discard none)], none⟩]

/-- **C30, false in general.** The compiler takes `n + m` bits to be at least as many as `m` bits, but
`n` can be negative: with `n = -5` and `m = 10` seven bits match the second clause, and the tree
runs the third one.  (Only the sum is tested not to be negative, exhaustiveness.rs 3736-3740; the
offsets are compared variable by variable, 1824-1853.) -/
theorem negative_size_skips_clause : bitTree negativeWorld sumAfterVariable (List.replicate 7 true) = some (some 2) ∧
    (firstMatch negativeWorld noBitGuard (List.replicate 7 true) 0 sumAfterVariable).map Prod.fst = some 1 := by
  decide +kernel

/-- `case b { <<x:size(n + m), _:bits>> if .. -> 0  <<y:size(m), _:bits>> -> 1  _ -> 2 }` -/
def variableAfterSum : List BitClause :=
  [⟨[intSegment (.variable "x") (some sumSize), restSegment (.discard none)], some ["x"]⟩,
    ⟨[intSegment (.variable "y") (some (.variable "m")), restSegment (.discard none)], none⟩, ⟨[restSegment (.discard none)], none⟩]

/-- **C30, false in general.** The tree runs a clause that does not match: with `n = -5` and `m = 10`
the second one for seven bits, although it reads ten bits. -/
theorem negative_size_runs_clause_that_does_not_match :
    bitTree negativeWorld variableAfterSum (List.replicate 7 true) = some (some 1) ∧
    (matchSegments negativeWorld [] (variableAfterSum[1].segments) (List.replicate 7 true)).isNone = true := by
  decide +kernel

/-- Both examples are plain; what is missing is that the variables are not negative. -/
example : (∀ c ∈ sumAfterVariable, c.Plain) ∧ ∀ c ∈ variableAfterSum, c.Plain := by
  constructor <;> intro c hc <;> simp only [sumAfterVariable, variableAfterSum, List.mem_cons, List.not_mem_nil, or_false] at hc <;>
    rcases hc with rfl | rfl | rfl <;> exact ⟨by decide, by decide⟩

/-- So the relations between tests are wrong for negative variables. -/
theorem plainTests_not_sound : ¬ (plainTests negativeWorld).Sound := by
  intro h
  have := h.succeeds ⟨.size .greaterEqual ((Offset.ofConstant 0).addSize (.variableBits (.outsideVariable "m") 1)), by decide +kernel⟩
    ⟨.size .greaterEqual ((Offset.ofConstant 0).addSize (bitArraySize 1 [] sumSize)), by decide +kernel⟩ (List.replicate 7 true)
    (by decide +kernel) (by decide +kernel)
  revert this
  decide +kernel

/-- `case b { <<258:16>> if .. -> 0  <<1, 2 as y>> -> 1  _ -> 2 }` -/
def literalWithName : List BitClause :=
  [⟨[intSegment (.literal (.int 258) none) (some (.int 16))], some []⟩,
    ⟨[intSegment (.literal (.int 1) none) none, intSegment (.literal (.int 2) (some "y")) none], none⟩,
    ⟨[restSegment (.discard none)], none⟩]

/-- **C30, false in general.** A test that is known to succeed is dropped together with the name of its
literal (exhaustiveness.rs 3138-3142): the body of the second clause has no `y`. -/
theorem name_of_literal_lost :
    bitTree (exampleWorld fun _ => 0) literalWithName (exampleBits.take 16) = some (some 1) ∧
    bitTreeNames (exampleWorld fun _ => 0) literalWithName (exampleBits.take 16) ["y"] = some (some []) ∧
    (firstMatch (exampleWorld fun _ => 0) noBitGuard (exampleBits.take 16) 0 literalWithName).map
      (fun r => (r.1, (r.2 "y").isSome)) = some (1, true) := by
  decide +kernel

/-- `case b { <<>> -> 0  <<_:1, _:bits>> -> 1 }` -/
def emptyOrNot : List BitClause :=
  [⟨[], none⟩, ⟨[intSegment (.discard none) (some (.int 1)), restSegment (.discard none)], none⟩]

/-- **C29, false for bit arrays.** Missing patterns are reported although every bit array matches. -/
theorem bit_arrays_reported_missing : Case.report Case.exampleDecls [.bitArray]
      (emptyOrNot.map (BitClause.compile (exampleWorld fun _ => 0))) = some (true, [(1, 0), (0, 0)]) ∧
    ∀ b : List Bool, ∃ c ∈ emptyOrNot, c.guard = none ∧ (matchSegments (exampleWorld fun _ => 0) [] c.segments b).isSome = true := by
  refine ⟨by decide +kernel, ?_⟩
  intro b
  cases b with
  | nil => exact ⟨_, List.mem_cons_self, rfl, by decide⟩
  | cons x xs =>
    refine ⟨_, List.mem_cons_of_mem _ List.mem_cons_self, rfl, ?_⟩
    simp [matchSegments, Segment.take, intSegment, restSegment, SizeExpr.value, splitBits, Segment.accepts, Segment.named,
      SegmentValue.name, Segment.binds]

/-- The clauses with all tests, plain or not. -/
def BitClause.compileAll (w : World) (c : BitClause) : Case.Clause (allTests w) :=
  ⟨[[.bits ((bitArrayToTests c.segments).map (SegmentTest.toBTest w))]], c.guard⟩

/-- `case b { <<0:size({ 0 })>> -> 0  _ -> 1 }`; the check for positive sizes does not look into blocks
(bit_array.rs 327-338). -/
def zeroSize : List BitClause :=
  [⟨[intSegment (.literal (.int 0) none) (some (.int 0))], none⟩, ⟨[restSegment (.discard none)], none⟩]

/-- **C31, false in general.** The first clause is reported as unreachable, since nothing is taken to fit
into zero bits (exhaustiveness.rs 4098-4102), but it is the first one that matches the empty bit
array; the tree runs the second one. -/
theorem zero_size_reported_unreachable :
    Case.report (B := allTests negativeWorld) Case.exampleDecls [.bitArray] (zeroSize.map (BitClause.compileAll negativeWorld)) =
      some (false, [(1, 0)]) ∧
    Case.treeClause (B := allTests negativeWorld) Case.exampleDecls [.bitArray] (zeroSize.map (BitClause.compileAll negativeWorld))
      noBitGuard [.bits []] = some (some 1) ∧
    (firstMatch negativeWorld noBitGuard [] 0 zeroSize).map Prod.fst = some 0 := by
  decide +kernel

end Verif.Segments
