import Verif.Equality.Lemmas

/-
Property C39: on JavaScript, `==` is structural equality.
-/
namespace Verif.Equality
open Verif.BitArrays

/-- C39. Missing: values with NaN in them, for which `isEqual` depends on sharing (`equality_with_nan`). For all others `isEqual` stops and
says whether the values are structurally equal, for values of any depth and any sharing between and within them. -/
theorem equality_structural_partial (heap : Nat → Value) (layout : String → List Key) (hl : Layout layout) (x y : Value)
    (hx : InMemory heap layout x) (hy : InMemory heap layout y) (nx : NoNaN x) (ny : NoNaN y) :
    ∃ n, ∀ fuel ≥ n, ∃ r, isEqual fuel x y = some r ∧ (r = true ↔ Same x y) := by
  refine ⟨stackSize [y, x], fun fuel hf => ?_⟩
  obtain ⟨r, h1, h2⟩ := loop_spec hl fuel [y, x] (by
    intro v hv
    simp only [List.mem_cons, List.not_mem_nil, or_false] at hv
    rcases hv with rfl | rfl
    · exact ⟨ny, hy⟩
    · exact ⟨nx, hx⟩) hf (by simp)
  refine ⟨r, h1, h2.trans ?_⟩
  simp only [PairsSame, and_true]
  exact ⟨same_symm _ _, same_symm _ _⟩

/-- Structural equality is an equivalence on these values. -/
theorem same_equivalence : (∀ v, NoNaN v → Same v v) ∧ (∀ x y, Same x y → Same y x) ∧ (∀ x y z, Same x y → Same y z → Same x z) :=
  ⟨same_refl, same_symm, same_trans⟩

/-- What the type checker and the shape of the operands promise about the values that are compared. -/
def Promised (scalarType : Bool) (left right : Operand) (x y : Value) : Prop :=
  (scalarType = true → ∀ v, v = x ∨ v = y → (∃ n, v = .num n) ∨ (∃ s, v = .str s) ∨ (∃ b, v = .bool b) ∨ v = .undefined) ∧
  (∀ c, left = .variant c → ∃ r, x = .obj r (.cls c) .nil) ∧
  (∀ c, right = .variant c → ∃ r, y = .obj r (.cls c) .nil)

/-- C39, for the code that is generated for `==` and `!=`: whichever of the three forms is chosen. -/
theorem operators_structural_partial (heap : Nat → Value) (layout : String → List Key) (hl : Layout layout) (x y : Value)
    (hx : InMemory heap layout x) (hy : InMemory heap layout y) (nx : NoNaN x) (ny : NoNaN y) (scalarType : Bool) (left right : Operand)
    (hp : Promised scalarType left right x y) :
    ∃ n, ∀ fuel ≥ n,
      (∃ r, runComparison fuel true x y (comparison scalarType left right) = some r ∧ (r = true ↔ Same x y)) ∧
      (∃ r, runComparison fuel false x y (comparison scalarType left right) = some r ∧ (r = true ↔ ¬ Same x y)) := by
  -- it is enough to know what is compared with the wanted result
  have finish : ∀ (b : Bool) (_ : b = true ↔ Same x y),
      (∃ r, some (b == true) = some r ∧ (r = true ↔ Same x y)) ∧ (∃ r, some (b == false) = some r ∧ (r = true ↔ ¬ Same x y)) := by
    intro b hb
    refine ⟨⟨_, rfl, ?_⟩, ⟨_, rfl, ?_⟩⟩
    · rw [← hb]
      cases b <;> simp
    · rw [← hb]
      cases b <;> simp
  have layouts : ∀ v : Value, ∀ c r, InMemory heap layout v → InMemory heap layout (.obj r (.cls c) .nil) →
      (instanceOf c v = true ↔ Same v (.obj r (.cls c) .nil)) := by
    intro v c r hv hs
    cases v with
    | obj r' c' f =>
      cases c' with
      | array => simp [instanceOf, Same]
      | cls n =>
        simp only [instanceOf, beq_iff_eq, Same, Ctor.cls.injEq]
        constructor
        · rintro rfl
          refine ⟨rfl, ?_⟩
          have := keys_eq hv hs (by
            simp only [InMemory] at hv hs
            rw [hv.2.1, hs.2.1])
          cases f with
          | nil => simp [SameFields]
          | cons k w f => simp [Fields.keys] at this
        · exact fun h => h.1
    | _ => simp [instanceOf, Same]
  obtain ⟨hp1, hp2, hp3⟩ := hp
  unfold comparison
  split
  · rename_i hs
    refine ⟨0, fun fuel _ => ?_⟩
    simp only [runComparison]
    apply finish
    rcases hp1 hs x (.inl rfl) with ⟨n, rfl⟩ | ⟨s, rfl⟩ | ⟨b, rfl⟩ | rfl <;>
      rcases hp1 hs y (.inr rfl) with ⟨n', rfl⟩ | ⟨s', rfl⟩ | ⟨b', rfl⟩ | rfl <;>
      simp [strictEq, Same, num_strictEq]
  · split
    · rename_i c
      obtain ⟨r, rfl⟩ := hp3 c rfl
      refine ⟨0, fun fuel _ => ?_⟩
      simp only [runComparison]
      exact finish _ (layouts x c r hx hy)
    · split
      · rename_i c
        obtain ⟨r, rfl⟩ := hp2 c rfl
        refine ⟨0, fun fuel _ => ?_⟩
        simp only [runComparison]
        exact finish _ ((layouts y c r hy hx).trans ⟨same_symm _ _, same_symm _ _⟩)
      · obtain ⟨n, hn⟩ := equality_structural_partial heap layout hl x y hx hy nx ny
        refine ⟨n, fun fuel hf => ?_⟩
        obtain ⟨b, hb, hiff⟩ := hn fuel hf
        simp only [runComparison, hb, Option.map_some]
        exact finish b hiff

/-- The list `[x]` at a place in memory. -/
def oneElement (ref : Nat) (x : Value) : Value :=
  .obj ref (.cls "NonEmpty") (.cons (.name "head") x (.cons (.name "tail") (.obj 0 (.cls "Empty") .nil) .nil))

def sampleHeap : Nat → Value
  | 0 => .obj 0 (.cls "Empty") .nil
  | 1 => oneElement 1 (.num (.finite 5))
  | _ => oneElement 2 (.num (.finite 5))

def sampleLayout : String → List Key := fun c => if c = "NonEmpty" then [.name "head", .name "tail"] else []

/-- The hypotheses hold of two lists that share their tail. -/
example : Layout sampleLayout ∧ InMemory sampleHeap sampleLayout (oneElement 1 (.num (.finite 5))) ∧
    InMemory sampleHeap sampleLayout (oneElement 2 (.num (.finite 5))) ∧ NoNaN (oneElement 1 (.num (.finite 5))) ∧
    isEqual 9 (oneElement 1 (.num (.finite 5))) (oneElement 2 (.num (.finite 5))) = some true ∧
    isEqual 9 (oneElement 1 (.num (.finite 5))) (oneElement 2 (.num (.finite 6))) = some false := by
  refine ⟨?_, ?_, ?_, ?_, ?_, ?_⟩
  · intro c
    unfold sampleLayout
    split <;> simp
  · simp [oneElement, InMemory, InMemoryFields, sampleHeap, sampleLayout, Fields.keys]
  · simp [oneElement, InMemory, InMemoryFields, sampleHeap, sampleLayout, Fields.keys]
  · simp [oneElement, NoNaN, NoNaNFields]
  · simp [oneElement, isEqual, loop, step, strictEq, Fields.keys, Fields.get, pushAll, Num.strictEq]
  · simp [oneElement, isEqual, loop, step, strictEq, Fields.keys, Fields.get, pushAll, Num.strictEq]

/-- C39 fails with NaN, which `inf -. inf` computes: a list with NaN in it equals itself, and differs from another list with the same
contents; so the result depends on more than the values. -/
theorem equality_with_nan :
    isEqual 9 (oneElement 1 (.num .nan)) (oneElement 1 (.num .nan)) = some true ∧
    isEqual 9 (oneElement 1 (.num .nan)) (oneElement 2 (.num .nan)) = some false ∧
    isEqual 9 (.num .nan) (.num .nan) = some false := by
  simp [oneElement, isEqual, loop, step, strictEq, Fields.keys, Fields.get, pushAll, Num.strictEq]

end Verif.Equality
