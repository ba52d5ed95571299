import Verif.Case.Examples

/-!
**C30**, **C31**, **C29**: `case` expressions for which the properties are false of the code.
-/

namespace Verif.Case

/-- All guards are false. -/
def noGuard : Guards sizeBits := fun _ _ => false

/-- `case s { "ab" if .. -> 0  "a" <> _ -> 1  _ -> 2 }`: a prefix never joins the choice of a
literal that starts with it (exhaustiveness.rs 3236-3286). -/
def literalThenPrefix : List (Clause sizeBits) :=
  [⟨[[.str (lit "ab")]], some []⟩, ⟨[[.strPrefix (lit "a") none none]], none⟩,
    ⟨[[.discard]], none⟩]

/-- **C30, false in general.** With `"ab"` and a guard that is false the clause with the prefix is
the first one that matches, but the tree runs the one after it. -/
theorem prefix_skips_clause :
    treeClause exampleDecls [.string] literalThenPrefix noGuard [.str "ab".toList] =
      some (some 2) ∧
    selectedClause literalThenPrefix noGuard [.str "ab".toList] = some 1 := by
  decide +kernel

/-- `case s, n { "ab", 1 -> 0  "a" <> _, _ -> 1  _, _ -> 2 }`: no guard is needed if there is
another subject. -/
def literalThenPrefix2 : List (Clause sizeBits) :=
  [⟨[[.str (lit "ab"), .int 1]], none⟩, ⟨[[.strPrefix (lit "a") none none, .discard]], none⟩,
    ⟨[[.discard, .discard]], none⟩]

/-- **C30, false in general.** -/
theorem prefix_skips_clause_without_guard :
    treeClause exampleDecls [.string, .int] literalThenPrefix2 noGuard
      [.str "ab".toList, .int 2] = some (some 2) ∧
    selectedClause literalThenPrefix2 noGuard [.str "ab".toList, .int 2] = some 1 := by
  decide +kernel

/-- `case s { "wibble" <> _ if flag -> 0  "wib" <> _ -> 1  _ -> 2 }`, where the guard uses no
variable of the pattern (exhaustiveness.rs 3184-3192). -/
def prefixThenPrefix : List (Clause sizeBits) :=
  [⟨[[.strPrefix (lit "wibble") none none]], some ["flag"]⟩,
    ⟨[[.strPrefix (lit "wib") none none]], none⟩, ⟨[[.discard]], none⟩]

/-- **C30, false in general.** A shorter prefix is skipped after a longer one with a guard. -/
theorem shorter_prefix_skips_clause :
    treeClause exampleDecls [.string] prefixThenPrefix noGuard [.str "wibble".toList] =
      some (some 2) ∧
    selectedClause prefixThenPrefix noGuard [.str "wibble".toList] = some 1 := by
  decide +kernel

/-- The literal `"\u{61}"`, another way to write `"a"`. -/
def escapedA : Lit := [⟨1, 'a'⟩]

/-- `case s, n { "\u{61}" <> _, 1 -> 0  "ab", _ -> 1  _, _ -> 2 }`. -/
def escapedPrefix : List (Clause sizeBits) :=
  [⟨[[.strPrefix escapedA none none, .int 1]], none⟩,
    ⟨[[.str (lit "ab"), .discard]], none⟩, ⟨[[.discard, .discard]], none⟩]

/-- **C30, false in general.** Literals are compared by the way they are written. -/
theorem spelling_skips_clause :
    treeClause exampleDecls [.string, .int] escapedPrefix noGuard
      [.str "ab".toList, .int 2] = some (some 2) ∧
    selectedClause escapedPrefix noGuard [.str "ab".toList, .int 2] = some 1 := by
  decide +kernel

/-- `case b, r { True, _ if .. -> 0  _, Ok("x" as p <> _) -> 1  _, _ -> 2 }`. -/
def nestedNamedPrefix : List (Clause sizeBits) :=
  [⟨[[.variant 0 [], .discard]], some []⟩,
    ⟨[[.discard, .variant 0 [.strPrefix (lit "x") (some "p") none]]], none⟩,
    ⟨[[.discard, .discard]], none⟩]

/-- **C30, false in general.** The name of a prefix inside another pattern is taken out of a pattern
that is shared by all paths of the tree (exhaustiveness.rs 258-267): on the second path the body
has no `p`. -/
theorem nested_prefix_name_lost :
    treeNames exampleDecls [boolTy, resultTy .string .int] nestedNamedPrefix noGuard
      [.variant 1 [], .variant 0 [.str "xy".toList]] ["p"] = some (some []) ∧
    selectedNames nestedNamedPrefix noGuard
      [.variant 1 [], .variant 0 [.str "xy".toList]] ["p"] = some ["p"] := by
  decide +kernel

/-- `case b, r { True, _ if .. -> 0  _, Ok(<<rest:bits>>) -> 1  _, _ -> 2 }`. -/
def nestedBits : List (Clause sizeBits) :=
  [⟨[[.variant 0 [], .discard]], some []⟩,
    ⟨[[.discard, .variant 0 [.bits [.bind "rest" (0 : Nat)]]]], none⟩,
    ⟨[[.discard, .discard]], none⟩]

/-- **C30, false in general.** The same for the segments of a bit array
(exhaustiveness.rs 278-337). -/
theorem nested_segment_lost :
    treeNames exampleDecls [boolTy, resultTy .bitArray .int] nestedBits noGuard
      [.variant 1 [], .variant 0 [.bits [true]]] ["rest"] = some (some []) ∧
    selectedNames nestedBits noGuard
      [.variant 1 [], .variant 0 [.bits [true]]] ["rest"] = some ["rest"] := by
  decide +kernel

/-- `case s { "\u{61}" <> _ -> 0  "a" <> _ -> 1  _ -> 2 }`. -/
def escapedTwice : List (Clause sizeBits) :=
  [⟨[[.strPrefix escapedA none none]], none⟩, ⟨[[.strPrefix (lit "a") none none]], none⟩,
    ⟨[[.discard]], none⟩]

/-- **C31, second half, false in general.** The second clause is reported as reachable, but no
string selects it. -/
theorem reachable_clause_never_selected :
    (report exampleDecls [.string] escapedTwice).any (fun r => (1, 0) ∈ r.2) = true ∧
    ∀ (guards : Guards sizeBits) (s : List Char),
      selectedClause escapedTwice guards [.str s] ≠ some 1 := by
  refine ⟨by decide +kernel, fun guards s => ?_⟩
  simp only [selectedClause, select, selectAlt, escapedTwice, SrcPat.runs, SrcPat.run]
  by_cases h : ['a'] <+: s
  · simp [h, Lit.decode, escapedA]
  · simp [h, Lit.decode, escapedA, lit]

/-- `Never` is `type Never { Never(Never) }`: a type that is in scope with its constructor, and
has no values. -/
def neverDecls : Decls
  | 0 => ⟨[], [[.named 0 [] none]], true⟩
  | 1 => ⟨[0, 1], [[.var 0], [.var 1]], true⟩
  | _ => ⟨[], [], true⟩

/-- `case r { Ok(_) -> 0 }` for `Result(Int, Never)`. -/
def onlyOk : List (Clause sizeBits) := [⟨[[.variant 0 [.discard]]], none⟩]

mutual
theorem never_empty : ∀ v : Val (List Bool), ¬ v.hasTy neverDecls (.named 0 [] none)
  | .int _ => by simp [Val.hasTy, constructors, neverDecls]
  | .float _ => by simp [Val.hasTy, constructors, neverDecls]
  | .str _ => by simp [Val.hasTy, constructors, neverDecls]
  | .bits _ => by simp [Val.hasTy, constructors, neverDecls]
  | .opaque _ => by simp [Val.hasTy, constructors, neverDecls]
  | .tuple _ => by simp [Val.hasTy, constructors, neverDecls]
  | .nil => by simp [Val.hasTy, constructors, neverDecls]
  | .cons _ _ => by simp [Val.hasTy, constructors, neverDecls]
  | .variant i vs => by
    intro h
    simp only [Val.hasTy] at h
    rcases h with h | ⟨-, fs, hf, h⟩
    · simp [constructors, neverDecls] at h
    · cases i with
      | zero =>
        simp [constructors, neverDecls, specialises, specialise] at hf
        subst hf
        exact never_empty_list vs h
      | succ i => simp [constructors, neverDecls] at hf
theorem never_empty_list : ∀ vs : List (Val (List Bool)),
    ¬ Val.haveTys neverDecls vs [.named 0 [] none]
  | [] => by simp [Val.haveTys]
  | v :: vs => by
    intro h
    simp only [Val.haveTys] at h
    exact never_empty v h.1
end

/-- **C29, false in general.** Patterns are reported as missing although every value of the type
of the subject is matched. -/
theorem missing_pattern_without_values :
    (report neverDecls [resultTy .int (.named 0 [] none)] onlyOk).any (fun r => r.1) = true ∧
    ∀ v : Val (List Bool), v.hasTy neverDecls (resultTy .int (.named 0 [] none)) →
      ∀ guards : Guards sizeBits, selectedClause onlyOk guards [v] = some 0 := by
  refine ⟨by decide +kernel, fun v hv guards => ?_⟩
  cases v <;> simp only [resultTy, Val.hasTy] at hv <;>
    try (simp [constructors, neverDecls] at hv)
  rename_i i vs
  obtain ⟨fs, hf, hvs⟩ := hv
  match i, hf with
  | 0, hf =>
    simp [specialises, specialise, List.lookup] at hf
    subst hf
    match vs, hvs with
    | [v], hvs =>
      simp [selectedClause, select, selectAlt, onlyOk, SrcPat.runs, SrcPat.run]
  | 1, hf =>
    simp [specialises, specialise, List.lookup] at hf
    subst hf
    match vs, hvs with
    | [v], hvs =>
      simp only [Val.haveTys] at hvs
      exact absurd hvs.1 (never_empty v)

end Verif.Case
