import Verif.Case.Spec

/-!
# Clauses that do not get in the way of each other

A condition on the clauses of a `case` expression that rules out the ways in which the decision
tree is known to run another clause than the first one that matches, or to bind other variables
(`Witnesses.lean`).  It only speaks about the patterns in the source.
-/

namespace Verif.Case

variable {B : BitSys}

mutual
/-- The strings a pattern compares with. -/
def SrcPat.strings : SrcPat B → List Lit
  | .assign _ p => p.strings
  | .str s => [s]
  | .tuple ps => SrcPat.stringss ps
  | .list es tail => SrcPat.stringss es ++ SrcPat.tailStrings tail
  | .variant _ ps => SrcPat.stringss ps
  | _ => []
/-- The strings the patterns of a list compare with. -/
def SrcPat.stringss : List (SrcPat B) → List Lit
  | [] => []
  | p :: ps => p.strings ++ SrcPat.stringss ps
/-- The strings the tail of a list pattern compares with. -/
def SrcPat.tailStrings : Option (SrcPat B) → List Lit
  | none => []
  | some p => p.strings
end

mutual
/-- The prefixes a pattern compares with. -/
def SrcPat.prefixes : SrcPat B → List Lit
  | .assign _ p => p.prefixes
  | .strPrefix s _ _ => [s]
  | .tuple ps => SrcPat.prefixess ps
  | .list es tail => SrcPat.prefixess es ++ SrcPat.tailPrefixes tail
  | .variant _ ps => SrcPat.prefixess ps
  | _ => []
/-- The prefixes the patterns of a list compare with. -/
def SrcPat.prefixess : List (SrcPat B) → List Lit
  | [] => []
  | p :: ps => p.prefixes ++ SrcPat.prefixess ps
/-- The prefixes the tail of a list pattern compares with. -/
def SrcPat.tailPrefixes : Option (SrcPat B) → List Lit
  | none => []
  | some p => p.prefixes
end

mutual
/-- How many parts of a value a pattern has to look at side by side: 0 for a pattern that matches
everything, 1 for a chain of patterns in each other. -/
def SrcPat.breadth : SrcPat B → Nat
  | .discard => 0
  | .var _ => 0
  | .assign _ p => p.breadth
  | .int _ => 1
  | .float _ => 1
  | .str _ => 1
  | .strPrefix _ _ _ => 1
  | .tuple ps => max 1 (SrcPat.breadths ps)
  | .list es tail => SrcPat.listBreadth es (SrcPat.tailBreadth tail)
  | .variant _ ps => max 1 (SrcPat.breadths ps)
  | .bits ts => if ts.any fun t => t.test.isSome then 1 else 0
/-- Patterns side by side. -/
def SrcPat.breadths : List (SrcPat B) → Nat
  | [] => 0
  | p :: ps => p.breadth + SrcPat.breadths ps
/-- Elements of a list before a tail. -/
def SrcPat.listBreadth : List (SrcPat B) → Nat → Nat
  | [], tail => tail
  | p :: ps, tail => max 1 (p.breadth + SrcPat.listBreadth ps tail)
/-- The tail of a list: the empty list has to be looked at. -/
def SrcPat.tailBreadth : Option (SrcPat B) → Nat
  | none => 1
  | some p => p.breadth
end

/-- A bit array pattern that binds a segment before it tests anything. -/
def bindsFirst : List (BTest B) → Bool
  | .bind _ _ :: _ => true
  | .discard :: ts => bindsFirst ts
  | _ => false

/-- A test of a bit array without an alias that is not known to fail. -/
def BTest.simple : BTest B → Prop
  | .check as t => as = none ∧ B.impossible t = false
  | _ => True

mutual
/-- Inside of other patterns no prefix of a string is given a name, and no segment of a bit array
before the first test; no segment has an alias or is impossible. -/
def SrcPat.orderly (top : Bool) : SrcPat B → Prop
  | .assign _ p => p.orderly top
  | .strPrefix _ left _ => top = true ∨ left = none
  | .bits ts => (top = true ∨ bindsFirst ts = false) ∧ ∀ t ∈ ts, t.simple
  | .tuple ps => SrcPat.orderlies ps
  | .list es tail => SrcPat.orderlies es ∧ SrcPat.tailOrderly tail
  | .variant _ ps => SrcPat.orderlies ps
  | _ => True
/-- The patterns inside of a pattern. -/
def SrcPat.orderlies : List (SrcPat B) → Prop
  | [] => True
  | p :: ps => p.orderly false ∧ SrcPat.orderlies ps
/-- The tail of a list pattern. -/
def SrcPat.tailOrderly : Option (SrcPat B) → Prop
  | none => True
  | some p => p.orderly false
end

/-- An alternative without a guard that looks at one part of the values only. -/
def Settled (ps : List (SrcPat B)) (guard : Option (List Name)) : Prop :=
  guard = none ∧ SrcPat.breadths ps ≤ 1

/-- The guard mentions a variable of the patterns. -/
def UsesNames (ps : List (SrcPat B)) (guard : Option (List Name)) : Prop :=
  ∃ names, guard = some names ∧ ∃ x ∈ SrcPat.bounds ps, x ∈ names

/-- The prefixes of a later alternative do not overlook an earlier one.  If a prefix of the later
one also is a prefix of a string the earlier one compares the same subject with, then the earlier
one is settled; if it also is a prefix of a longer prefix of the earlier one, then that is settled
or has a guard that uses its variables. -/
def NotOverlooked (e l : List (SrcPat B) × Option (List Name)) : Prop :=
  ∀ (i : Nat) (p q : SrcPat B), e.1[i]? = some p → l.1[i]? = some q → ∀ s ∈ q.prefixes,
    (∀ t ∈ p.strings, s <+: t → Settled e.1 e.2) ∧
    ∀ t ∈ p.prefixes, s <+: t → s ≠ t → Settled e.1 e.2 ∨ UsesNames e.1 e.2

/-- The alternatives of all clauses in the order of the source. -/
def allAlternatives (clauses : List (Clause B)) : List (List (SrcPat B) × Option (List Name)) :=
  clauses.flatMap fun c => c.alternatives.map fun ps => (ps, c.guard)

/-- Clauses for which the decision tree can be trusted. -/
structure Orderly (clauses : List (Clause B)) : Prop where
  patterns : ∀ a ∈ allAlternatives clauses, ∀ p ∈ a.1, p.orderly true
  names : ∀ a ∈ allAlternatives clauses, (SrcPat.bounds a.1).Nodup
  spelling : ∃ k : Char → Nat, ∀ a ∈ allAlternatives clauses, ∀ p ∈ a.1,
    ∀ s ∈ p.strings ++ p.prefixes, ∀ x ∈ s, x.spelling = k x.char
  order : (allAlternatives clauses).Pairwise NotOverlooked

end Verif.Case
