import Verif.Comments.Model

/-
What positions and comments have to do with each other.
-/
namespace Verif.Comments

/-- Comments as the lexer finds them: one after the other. -/
def InOrder (comments : List Span) : Prop :=
  comments.Pairwise (fun a b => a.stop < b.start) ∧ ∀ c ∈ comments, c.start ≤ c.stop

/-- The comment and the range have a position in common, ends included. -/
def Overlaps (c : Span) (start stop : Nat) : Prop := c.start ≤ stop ∧ start ≤ c.stop

/-- The comment lies in the range. -/
def Inside (c : Span) (start stop : Nat) : Prop := start ≤ c.start ∧ c.stop ≤ stop

/-- The first comment that overlaps the range. -/
def IsFirst (comments : List Span) (start stop : Nat) (c : Span) : Prop :=
  c ∈ comments ∧ Overlaps c start stop ∧ ∀ d ∈ comments, Overlaps d start stop → c.start ≤ d.start

/-- The last comment that overlaps the range. -/
def IsLast (comments : List Span) (start stop : Nat) (c : Span) : Prop :=
  c ∈ comments ∧ Overlaps c start stop ∧ ∀ d ∈ comments, Overlaps d start stop → d.start ≤ c.start

/-- What the documentation of `binary_search_by` promises: what is found matches, and if the list is sorted by the comparison and
something matches then something is found, though it is not said which. -/
structure IsSearch (search : Search) : Prop where
  found : ∀ cmp list i, search cmp list = some i → ∃ x, list[i]? = some x ∧ cmp x = .eq
  finds : ∀ cmp list, list.Pairwise (fun a b => (cmp a = .gt → cmp b = .gt) ∧ (cmp b = .lt → cmp a = .lt)) →
    (∃ x ∈ list, cmp x = .eq) → ∃ i, search cmp list = some i

end Verif.Comments
