import Verif.Case.Spec

/-!
# Concrete `case` expressions

Used to show that the hypotheses of the theorems can be met, and by the witnesses.
-/

namespace Verif.Case

/-- Bit arrays as lists of bits with one kind of test: there are at least so many bits. -/
def sizeBits : BitSys where
  Bits := List Bool
  Test := Nat
  Read := Nat
  holds n b := decide (n ≤ b.length)
  read n b := .bits (b.drop n)
  failsIfSucceeding _ _ := false
  failsIfFailing t p := decide (p ≤ t)
  succeedsIfSucceeding t p := decide (t ≤ p)
  impossible _ := false
  unalias t := t

theorem sizeBits_sound : sizeBits.Sound where
  succeeds t p b h1 h2 := by
    simp only [sizeBits, decide_eq_true_eq] at *
    exact Nat.le_trans h1 h2
  failsFailing t p b h1 h2 := by
    simp only [sizeBits, decide_eq_true_eq, decide_eq_false_iff_not] at *
    exact fun h => h2 (Nat.le_trans h1 h)
  failsSucceeding t p b h1 _ := by simp [sizeBits] at h1
  impossible t b h := by simp [sizeBits] at h
  unalias t b := rfl

/-- A string literal without escape sequences. -/
def lit (s : String) : Lit := s.toList.map (Piece.mk 0)

/-- Type 0 is `Bool` (`True`, `False`), type 1 is `Result(a, b)` (`Ok(a)`, `Error(b)`). -/
def exampleDecls : Decls
  | 0 => ⟨[], [[], []], true⟩
  | 1 => ⟨[0, 1], [[.var 0], [.var 1]], true⟩
  | _ => ⟨[], [], true⟩

def boolTy : Ty := .named 0 [] none
def resultTy (a b : Ty) : Ty := .named 1 [a, b] none

/-- `case r, xs { Ok(1), [] if .. -> 0  Ok(n), [x, ..] | Ok(n), [] as x -> 1
Error(<<_:8, _:bits>>), _ -> 2  Error(b), _ -> 3 }` for `Result(Int, BitArray)`, `List(Int)`. -/
def exampleClauses : List (Clause sizeBits) :=
  [⟨[[.variant 0 [.int 1], .list [] none]], some []⟩,
    ⟨[[.variant 0 [.var "n"], .list [.var "x"] (some .discard)],
      [.variant 0 [.var "n"], .assign "x" (.list [] none)]], none⟩,
    ⟨[[.variant 1 [.bits [.check none (8 : Nat), .discard]], .discard]], none⟩,
    ⟨[[.variant 1 [.var "b"], .discard]], none⟩]

def exampleSubjects : List Ty := [resultTy .int .bitArray, .list .int]

theorem exampleClauses_typed : ClausesTyped exampleDecls exampleSubjects exampleClauses := by
  intro c hc ps hps
  simp only [exampleClauses, List.mem_cons, List.not_mem_nil, or_false] at hc
  rcases hc with rfl | rfl | rfl | rfl <;>
    simp only [List.mem_cons, List.not_mem_nil, or_false] at hps <;>
    (try rcases hps with rfl | rfl) <;>
    (try subst hps) <;>
    simp [exampleSubjects, resultTy, SrcPat.haveTys, SrcPat.hasTy, SrcPat.allHaveTy,
      SrcPat.tailHasTy, constructors, exampleDecls, specialises, specialise, List.lookup]

/-- What `compileCase` says about missing patterns and reachable alternatives. -/
def report {B : BitSys} (ds : Decls) (subjects : List Ty) (clauses : List (Clause B)) :
    Option (Bool × List (Nat × Nat)) :=
  (compileCase ds subjects clauses).map fun r => (r.2.missing, r.2.reachable)

/-- The clause the decision tree runs. -/
def treeClause {B : BitSys} (ds : Decls) (subjects : List Ty) (clauses : List (Clause B))
    (guards : Guards B) (vs : List (Val B.Bits)) : Option (Option Nat) :=
  (compileCase ds subjects clauses).map fun r =>
    (r.1.eval guards (subjectEnv subjects vs)).map Prod.fst

/-- The names the body of the clause that is run can use, among `names`. -/
def treeNames {B : BitSys} (ds : Decls) (subjects : List Ty) (clauses : List (Clause B))
    (guards : Guards B) (vs : List (Val B.Bits)) (names : List Name) :
    Option (Option (List Name)) :=
  (compileCase ds subjects clauses).map fun r =>
    (r.1.eval guards (subjectEnv subjects vs)).map fun p =>
      names.filter fun x => (p.2 x).isSome

/-- The clause that is selected. -/
def selectedClause {B : BitSys} (clauses : List (Clause B)) (guards : Guards B)
    (vs : List (Val B.Bits)) : Option Nat :=
  (select guards vs 0 clauses).map fun p => p.1

/-- The names bound by the clause that is selected, among `names`. -/
def selectedNames {B : BitSys} (clauses : List (Clause B)) (guards : Guards B)
    (vs : List (Val B.Bits)) (names : List Name) : Option (List Name) :=
  (select guards vs 0 clauses).map fun p => names.filter fun x => (p.2.2 x).isSome

/-- `case s, r { "ab" as p <> x, _ -> 0  "b", Ok(n) if .. -> 1
"a" <> x, Error(<<_:8, y:bits>>) if x == .. -> 2  _, z -> 3 }` for `String`,
`Result(Int, BitArray)`. -/
def stringClauses : List (Clause sizeBits) :=
  [⟨[[.strPrefix (lit "ab") (some "p") (some "x"), .discard]], none⟩,
    ⟨[[.str (lit "b"), .variant 0 [.var "n"]]], some []⟩,
    ⟨[[.strPrefix (lit "a") none (some "x"),
      .variant 1 [.bits [.check none (8 : Nat), .bind "y" (8 : Nat)]]]], some ["x"]⟩,
    ⟨[[.discard, .var "z"]], none⟩]

def stringSubjects : List Ty := [.string, resultTy .int .bitArray]

theorem stringClauses_typed : ClausesTyped exampleDecls stringSubjects stringClauses := by
  intro c hc ps hps
  simp only [stringClauses, List.mem_cons, List.not_mem_nil, or_false] at hc
  rcases hc with rfl | rfl | rfl | rfl <;>
    simp only [List.mem_cons, List.not_mem_nil, or_false] at hps <;>
    subst hps <;>
    simp [stringSubjects, resultTy, SrcPat.haveTys, SrcPat.hasTy,
      constructors, exampleDecls, specialises, specialise, List.lookup]

theorem exampleClauses_report : report exampleDecls exampleSubjects exampleClauses =
    some (false, [(3, 0), (2, 0), (1, 0), (1, 1), (0, 0)]) := by
  decide +kernel

end Verif.Case
