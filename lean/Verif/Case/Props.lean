import Verif.Case.Root
import Verif.Case.Examples

/-!
**C28**: a `case` expression without missing patterns never falls through.
**C30**, **C31**: which clause is run.
-/

namespace Verif.Case

variable {B : BitSys}

/-- **C28.** If no missing patterns are reported for a `case` expression whose patterns type check,
then for all values of the types of the subjects an alternative of a clause without a guard
matches.  So whatever the guards evaluate to, a clause is selected, and the decision tree runs a
clause. -/
theorem accepted_case_never_falls_through (hB : B.Sound) (ds : Decls) (subjects : List Ty)
    (clauses : List (Clause B)) (d : Decision B) (st : St)
    (hc : compileCase ds subjects clauses = some (d, st)) (hm : st.missing = false)
    (ht : ClausesTyped ds subjects clauses) (vs : List (Val B.Bits))
    (hv : Val.haveTys ds vs subjects) :
    (∃ c ∈ clauses, c.guard = none ∧ ∃ ps ∈ c.alternatives, (SrcPat.runs ps vs).isSome = true) ∧
    (∀ guards : Guards B, (select guards vs 0 clauses).isSome = true) ∧
    ∀ guards : Guards B, (d.eval guards (subjectEnv subjects vs)).isSome = true := by
  have hp := compileCase_promise hB hc ht hv
  have h1 : ∃ c ∈ clauses, c.guard = none ∧
      ∃ ps ∈ c.alternatives, (SrcPat.runs ps vs).isSome = true := by
    obtain ⟨b, hb, hg, hr⟩ := hp.total hm
    obtain ⟨i, c, j, ps, h1, h2, h3⟩ := clauseBranches_mem hb
    have hmc := List.mem_of_getElem? h1
    have hmp := List.mem_of_getElem? h2
    refine ⟨c, hmc, ?_, ps, hmp, ?_⟩
    · obtain ⟨n, rfl⟩ := h3.eq
      simpa [altBranch] using hg
    · rw [← h3.run (ht c hmc ps hmp) hv]; exact hr
  exact ⟨h1, fun guards => select_isSome guards vs clauses 0 h1, hp.runs hm⟩

/-- A case expression with a guard, alternatives, nested patterns, lists and bit arrays meets the
hypotheses. -/
example : ∃ d st, compileCase exampleDecls exampleSubjects exampleClauses = some (d, st) ∧
    st.missing = false ∧ ClausesTyped exampleDecls exampleSubjects exampleClauses ∧
    Val.haveTys exampleDecls [.variant 1 [.bits [true, false]], .cons (.int 1) .nil]
      exampleSubjects ∧
    ∀ guards, (select guards [.variant 1 [.bits [true, false]], .cons (.int 1) .nil] 0
      exampleClauses).isSome = true := by
  obtain ⟨⟨d, st⟩, h1, h2⟩ := Option.map_eq_some_iff.1 exampleClauses_report
  simp only [Prod.mk.injEq] at h2
  have hv : Val.haveTys exampleDecls [.variant 1 [.bits [true, false]], .cons (.int 1) .nil]
      exampleSubjects := by
    simp [exampleSubjects, resultTy, Val.haveTys, Val.hasTy, constructors, exampleDecls,
      specialises, specialise, List.lookup]
  exact ⟨d, st, h1, h2.1, exampleClauses_typed, hv,
    (accepted_case_never_falls_through sizeBits_sound _ _ _ d st h1 h2.1 exampleClauses_typed _
      hv).2.1⟩

/-- **C30 (partial).** The clause the decision tree runs is one of which an alternative matches
the values, and its guard, if it has one, evaluates to true with the variables the body gets.
Missing: that it is the first one, and that the variables are the ones of the patterns.  Both are
false in general, see `Witnesses.lean`.
**C31 (partial).** That alternative is reported as reachable.  Missing: alternatives reported as
reachable that are never selected, see `Witnesses.lean`. -/
theorem tree_runs_matching_clause_partial (hB : B.Sound) (ds : Decls) (subjects : List Ty)
    (clauses : List (Clause B)) (d : Decision B) (st : St)
    (hc : compileCase ds subjects clauses = some (d, st))
    (ht : ClausesTyped ds subjects clauses) (vs : List (Val B.Bits))
    (hv : Val.haveTys ds vs subjects) (guards : Guards B) (i : Nat)
    (vars : Name → Option (Val B.Bits))
    (hr : d.eval guards (subjectEnv subjects vs) = some (i, vars)) :
    ∃ (c : Clause B) (j : Nat) (ps : List (SrcPat B)), clauses[i]? = some c ∧
      c.alternatives[j]? = some ps ∧ (SrcPat.runs ps vs).isSome = true ∧
      (c.guard = none ∨ guards i vars = true) ∧ st.isReachable i j = true := by
  have hp := compileCase_promise hB hc ht hv
  obtain ⟨b, hb, hbc, hrun, hk, hg⟩ := hp.sound guards i vars hr
  obtain ⟨i', c, j, ps, h1, h2, h3⟩ := clauseBranches_mem hb
  have hrun' := h3.run (ht c (List.mem_of_getElem? h1) ps (List.mem_of_getElem? h2)) hv
  obtain ⟨n, rfl⟩ := h3.eq
  simp only [altBranch, Nat.zero_add] at hbc hk hg
  subst hbc
  rw [hrun'] at hrun
  refine ⟨c, j, ps, h1, h2, hrun, by simpa using hg, ?_⟩
  have himp : ¬ ((i', j) ∈ st.impossibleVariants ∨ (i', j) ∈ st.impossibleSegments) := by
    intro hx
    obtain ⟨c', ps', g1, g2, g3⟩ := compileCase_impossible hB hc ht hx
    rw [h1] at g1
    simp only [Option.some.injEq] at g1
    subst g1
    rw [h2] at g2
    simp only [Option.some.injEq] at g2
    subst g2
    rw [g3 vs hv] at hrun
    simp at hrun
  rcases hk with hk | hk
  · simpa [St.isReachable] using hk
  · exact absurd hk himp

/-- **C30 (partial).** For clauses that do not get in the way of each other (`Orderly`) the
decision tree does what the `case` expression means: it runs the first clause in the order of the
source that has an alternative that matches and whose guard evaluates to true, the body gets the
variables of that alternative, and it fails if there is no such clause.  Missing: clauses that are
not orderly.  `Witnesses.lean` has clauses that only violate the condition on prefixes, on names
inside of other patterns, or on spellings, for which the tree does something else. -/
theorem tree_runs_first_matching_clause_partial (hB : B.Sound) (ds : Decls) (subjects : List Ty)
    (clauses : List (Clause B)) (d : Decision B) (st : St)
    (hc : compileCase ds subjects clauses = some (d, st))
    (ht : ClausesTyped ds subjects clauses) (ho : Orderly clauses) (vs : List (Val B.Bits))
    (hv : Val.haveTys ds vs subjects) (guards : Guards B) :
    d.eval guards (subjectEnv subjects vs) =
      (select guards vs 0 clauses).map fun r => (r.1, r.2.2) :=
  compileCase_exact hB hc ht hv ho guards

theorem stringClauses_orderly : Orderly stringClauses := by
  refine ⟨?_, ?_, ⟨fun _ => 0, ?_⟩, ?_⟩
  · intro a ha p hp
    simp only [allAlternatives, stringClauses, List.flatMap_cons, List.flatMap_nil, List.map_cons,
      List.map_nil, List.cons_append, List.nil_append, List.append_nil, List.mem_cons,
      List.not_mem_nil, or_false] at ha
    rcases ha with rfl | rfl | rfl | rfl <;>
      simp only [List.mem_cons, List.not_mem_nil, or_false] at hp <;>
      rcases hp with rfl | rfl <;>
      simp only [SrcPat.orderly, SrcPat.orderlies, bindsFirst, true_or, or_true, and_true, true_and]
    intro t ht
    simp only [List.mem_cons, List.not_mem_nil, or_false] at ht
    rcases ht with rfl | rfl
    · exact ⟨rfl, rfl⟩
    · trivial
  · decide +kernel
  · decide +kernel
  · simp only [allAlternatives, stringClauses, List.flatMap_cons, List.flatMap_nil, List.map_cons,
      List.map_nil, List.cons_append, List.nil_append, List.append_nil, List.pairwise_cons,
      List.mem_cons, List.not_mem_nil, or_false, forall_eq_or_imp, forall_eq, IsEmpty.forall_iff,
      implies_true, and_true, List.Pairwise.nil]
    refine ⟨⟨?_, ?_, ?_⟩, ⟨?_, ?_⟩, ?_⟩ <;> intro i p q hp hq s hs <;>
      rcases i with _ | _ | i <;>
      simp only [List.getElem?_cons_zero, List.getElem?_cons_succ, Option.some.injEq,
        List.getElem?_nil, reduceCtorEq] at hp hq <;> subst hp <;> subst hq <;>
      simp only [SrcPat.prefixes, SrcPat.prefixess, List.mem_singleton, List.append_nil,
        List.not_mem_nil] at hs
    all_goals subst hs
    · exact ⟨by simp [SrcPat.strings], fun t _ _ _ => .inl ⟨rfl, by decide⟩⟩
    · refine ⟨?_, by simp [SrcPat.prefixes]⟩
      simp only [SrcPat.strings, List.mem_singleton, forall_eq]
      intro h
      exact absurd h (by decide)

/-- The hypotheses are met by clauses with overlapping prefixes, named prefixes, guards and bit
arrays; the tree fails the guard of the third clause and runs the fourth. -/
example : (∃ d st, compileCase exampleDecls stringSubjects stringClauses = some (d, st) ∧
      ∀ vs, Val.haveTys exampleDecls vs stringSubjects → ∀ guards,
        d.eval guards (subjectEnv stringSubjects vs) =
          (select guards vs 0 stringClauses).map fun r => (r.1, r.2.2)) ∧
    treeClause exampleDecls stringSubjects stringClauses (fun _ _ => false)
      [.str "axe".toList, .variant 1 [.bits (List.replicate 9 true)]] = some (some 3) ∧
    treeClause exampleDecls stringSubjects stringClauses (fun _ _ => true)
      [.str "axe".toList, .variant 1 [.bits (List.replicate 9 true)]] = some (some 2) := by
  refine ⟨?_, by decide +kernel, by decide +kernel⟩
  have h : (compileCase exampleDecls stringSubjects stringClauses).isSome = true := by
    decide +kernel
  obtain ⟨⟨d, st⟩, h⟩ := Option.isSome_iff_exists.1 h
  exact ⟨d, st, h, fun vs hv guards => tree_runs_first_matching_clause_partial sizeBits_sound _ _ _
    d st h stringClauses_typed stringClauses_orderly vs hv guards⟩

/-- **C31 (partial).** A clause of orderly clauses all of whose alternatives are reported as
unreachable is never the first one that matches. -/
theorem unreachable_clause_never_selected_partial (hB : B.Sound) (ds : Decls) (subjects : List Ty)
    (clauses : List (Clause B)) (d : Decision B) (st : St)
    (hc : compileCase ds subjects clauses = some (d, st))
    (ht : ClausesTyped ds subjects clauses) (ho : Orderly clauses) (i : Nat) (c : Clause B)
    (hi : clauses[i]? = some c)
    (hu : ∀ j, j < c.alternatives.length → st.isReachable i j = false)
    (vs : List (Val B.Bits)) (hv : Val.haveTys ds vs subjects) (guards : Guards B) :
    (select guards vs 0 clauses).map Prod.fst ≠ some i := by
  intro h
  have he := tree_runs_first_matching_clause_partial hB ds subjects clauses d st hc ht ho vs hv
    guards
  simp only [Option.map_eq_some_iff] at h
  obtain ⟨r, hr, rfl⟩ := h
  rw [hr] at he
  obtain ⟨c', j, ps, h1, h2, -, -, h5⟩ :=
    tree_runs_matching_clause_partial hB ds subjects clauses d st hc ht vs hv guards r.1 r.2.2 he
  rw [hi] at h1
  simp only [Option.some.injEq] at h1
  subst h1
  have hj : j < c.alternatives.length := by
    by_contra hlt
    rw [List.getElem?_eq_none (by omega)] at h2
    simp at h2
  rw [hu j hj] at h5
  simp at h5

/-- `case s { "a" -> 0  "a" -> 1  _ -> 2 }`: the second clause is reported as unreachable. -/
example : report exampleDecls [.string]
    [⟨[[.str (lit "a")]], none⟩, ⟨[[.str (lit "a")]], none⟩, ⟨[[.discard]], none⟩]
    (B := sizeBits) = some (false, [(2, 0), (0, 0)]) := by
  decide +kernel

/-- The example runs its third clause, which is reported as reachable. -/
example : treeClause exampleDecls exampleSubjects exampleClauses (fun _ _ => false)
    [.variant 1 [.bits (List.replicate 9 true)], .nil] = some (some 2) := by
  decide +kernel

/-- **C31 (partial).** A clause all of whose alternatives are reported as unreachable is never run
by the decision tree, whatever the values and the guards are. -/
theorem unreachable_clause_never_runs (hB : B.Sound) (ds : Decls) (subjects : List Ty)
    (clauses : List (Clause B)) (d : Decision B) (st : St)
    (hc : compileCase ds subjects clauses = some (d, st))
    (ht : ClausesTyped ds subjects clauses) (i : Nat) (c : Clause B) (hi : clauses[i]? = some c)
    (hu : ∀ j, j < c.alternatives.length → st.isReachable i j = false)
    (vs : List (Val B.Bits)) (hv : Val.haveTys ds vs subjects) (guards : Guards B) :
    (d.eval guards (subjectEnv subjects vs)).map Prod.fst ≠ some i := by
  intro h
  simp only [Option.map_eq_some_iff] at h
  obtain ⟨⟨i', vars⟩, hr, rfl⟩ := h
  obtain ⟨c', j, ps, h1, h2, -, -, h5⟩ :=
    tree_runs_matching_clause_partial hB ds subjects clauses d st hc ht vs hv guards i' vars hr
  rw [hi] at h1
  simp only [Option.some.injEq] at h1
  subst h1
  have hj : j < c.alternatives.length := by
    by_contra hlt
    rw [List.getElem?_eq_none (by omega)] at h2
    simp at h2
  rw [hu j hj] at h5
  simp at h5

/-- `case n { 1 -> 0  1 -> 1  _ -> 2 }`: the second clause is reported as unreachable. -/
example : report exampleDecls [.int]
    [⟨[[.int 1]], none⟩, ⟨[[.int 1]], none⟩, ⟨[[.discard]], none⟩] (B := sizeBits) =
      some (false, [(2, 0), (0, 0)]) := by
  decide +kernel

/-- **C31 (partial).** An alternative reported as matching an impossible variant or an impossible
segment of a bit array matches no values of the types of the subjects. -/
theorem impossible_alternative_never_matches (hB : B.Sound) (ds : Decls) (subjects : List Ty)
    (clauses : List (Clause B)) (d : Decision B) (st : St)
    (hc : compileCase ds subjects clauses = some (d, st))
    (ht : ClausesTyped ds subjects clauses) (i j : Nat)
    (hx : (i, j) ∈ st.impossibleVariants ∨ (i, j) ∈ st.impossibleSegments) :
    ∃ c ps, clauses[i]? = some c ∧ c.alternatives[j]? = some ps ∧
      ∀ vs : List (Val B.Bits), Val.haveTys ds vs subjects → SrcPat.runs ps vs = none :=
  compileCase_impossible hB hc ht hx

/-- `case r { Error(_) -> 0  Ok(_) -> 1 }` where `r` is known to be `Ok`. -/
example : ((compileCase (B := sizeBits) exampleDecls [.named 1 [.int, .int] (some 0)]
    [⟨[[.variant 1 [.discard]]], none⟩, ⟨[[.variant 0 [.discard]]], none⟩]).any fun r =>
      (0, 0) ∈ r.2.impossibleVariants) = true := by
  decide +kernel

end Verif.Case
