import Verif.Case.Examples
import Verif.JsCase.Spec

/-!
# Where the generated JavaScript is wrong

**C32**: `case` expressions and `let assert`s whose decision tree comes from the compiler, for which
the generated JavaScript does something else than the decision tree.
-/

namespace Verif.JsCase

open Verif.Case

/-- What happened, without the values. -/
inductive Brief
  | ran (clause : Nat)
  | returned (clause : Nat)
  | assigned
  | threw
  | stuck
deriving DecidableEq

/-- What happened, without the values. -/
def Outcome.brief {B : BitSys} : Outcome B → Brief
  | .ran c _ => .ran c
  | .returned c _ => .returned c
  | .assigned _ => .assigned
  | .threw => .threw
  | .stuck => .stuck

/-- The value of a variable, if it is an integer. -/
def Outcome.intVar {B : BitSys} (x : Name) : Outcome B → Option Int
  | .ran _ vars => (vars x).bind fun
    | .int i => some i
    | _ => none
  | _ => none

section
variable {B : BitSys} [DecidableEq B.Bits] [DecidableEq B.Test] [DecidableEq B.Read]

/-- Compiles clauses to a decision tree, generates code for it and runs it. -/
def runJs (ds : Decls) (ctx : Ctx) (subjects : List Ty) (clauses : List (Clause B))
    (guards : Guards B) (vs : List (Val B.Bits)) : Option (Outcome B) :=
  (compileCase ds subjects clauses).map fun r =>
    (genCase ctx (freshVars 0 subjects) r.1).exec guards (subjectVars vs) []

/-- The same for the decision tree itself. -/
def runTree (ds : Decls) (ctx : Ctx) (subjects : List Ty) (clauses : List (Clause B))
    (guards : Guards B) (vs : List (Val B.Bits)) : Option (Outcome B) :=
  (compileCase ds subjects clauses).map fun r =>
    expected ctx vs (r.1.eval guards (subjectEnv subjects vs))
end

/-- A `case` without clauses that return a subject; type 0 is `Bool`. -/
def plainCase : Ctx where
  letAssert := false
  returned _ := none
  refs _ := []
  isBool t := decide (t = boolTy)
  namedTrue _ i := decide (i = 0)

/-- The same for a `let assert`. -/
def plainAssert : Ctx := { plainCase with letAssert := true }

instance : DecidableEq sizeBits.Bits := inferInstanceAs (DecidableEq (List Bool))
instance : DecidableEq sizeBits.Test := inferInstanceAs (DecidableEq Nat)
instance : DecidableEq sizeBits.Read := inferInstanceAs (DecidableEq Nat)

/-- `let assert Ok([_, ..]) = r`. -/
def nestedList : List (Clause sizeBits) :=
  [⟨[[.variant 0 [.list [.discard] (some .discard)]]], none⟩]

/-- **C32** is false for `let assert`: `let assert Ok([_, ..]) = Ok([1])` matches, but the JavaScript
throws the error of the assertion.  The decision tree is right. -/
theorem let_assert_nested_list_throws :
    (runJs exampleDecls plainAssert [resultTy (.list .int) .int] nestedList (fun _ _ => true)
      [.variant 0 [.cons (.int 1) .nil]]).map Outcome.brief = some .threw ∧
    (runTree exampleDecls plainAssert [resultTy (.list .int) .int] nestedList (fun _ _ => true)
      [.variant 0 [.cons (.int 1) .nil]]).map Outcome.brief = some .assigned := by
  decide +kernel

/-- `case s, n, m { "ab" <> w, 1, _ if w == .. -> 0  "ab" <> _, z, _ | "a" <> _, _, z | _, z, _ -> 1 }` -/
def mergedClauses : List (Clause sizeBits) :=
  [⟨[[.strPrefix (lit "ab") none (some "w"), .int 1, .discard]], some ["w"]⟩,
    ⟨[[.strPrefix (lit "ab") none none, .var "z", .discard],
      [.strPrefix (lit "a") none none, .discard, .var "z"],
      [.discard, .var "z", .discard]], none⟩]

/-- **C32** is false for `case`: with `"abc", 2, 3` the second clause is run with `z = 2`; the
decision tree does that, but in JavaScript `z` is 3, because the test for 1 has been merged with the
test for `"ab"`, so that the test for `"a"` is made if it fails. -/
theorem merged_conditions_bind_other_value :
    (runJs exampleDecls { plainCase with refs := fun _ => ["w"] } [.string, .int, .int]
      mergedClauses (fun _ _ => true) [.str "abc".toList, .int 2, .int 3]).map
        (fun o => (o.brief, o.intVar "z")) = some (.ran 1, some 3) ∧
    (runTree exampleDecls { plainCase with refs := fun _ => ["w"] } [.string, .int, .int]
      mergedClauses (fun _ _ => true) [.str "abc".toList, .int 2, .int 3]).map
        (fun o => (o.brief, o.intVar "z")) = some (.ran 1, some 2) := by
  decide +kernel

/-- `case s { "abc" if .. -> 0  "ab" <> _ -> 1  _ -> 2 }` -/
def prefixClauses : List (Clause sizeBits) :=
  [⟨[[.str (lit "abc")]], some []⟩, ⟨[[.strPrefix (lit "ab") none none]], none⟩,
    ⟨[[.discard]], none⟩]

/-- The other way round: for `"abc"` and a guard that is false the tree runs the third clause, the
JavaScript the second one, which is the one that should be run. -/
theorem merged_conditions_run_other_clause :
    (runJs exampleDecls plainCase [.string] prefixClauses (fun _ _ => false)
      [.str "abc".toList]).map Outcome.brief = some (.ran 1) ∧
    (runTree exampleDecls plainCase [.string] prefixClauses (fun _ _ => false)
      [.str "abc".toList]).map Outcome.brief = some (.ran 2) ∧
    selectedClause prefixClauses (fun _ _ => false) [.str "abc".toList] = some 1 := by
  decide +kernel

/-- `import gleam.{True as Yes}` and `case b { Yes -> 0  False -> 1 }`: the check for `Yes` is
`!b`, as it is not called `True`, so that the clauses are swapped. -/
theorem renamed_true_is_negated :
    (runJs exampleDecls { plainCase with namedTrue := fun _ _ => false } [boolTy]
      [⟨[[.variant 0 []]], none⟩, ⟨[[.variant 1 []]], none⟩] (fun _ _ => true)
      [.variant 0 []] (B := sizeBits)).map Outcome.brief = some (.ran 1) ∧
    (runTree exampleDecls { plainCase with namedTrue := fun _ _ => false } [boolTy]
      [⟨[[.variant 0 []]], none⟩, ⟨[[.variant 1 []]], none⟩] (fun _ _ => true)
      [.variant 0 []] (B := sizeBits)).map Outcome.brief = some (.ran 0) := by
  decide +kernel

end Verif.JsCase
