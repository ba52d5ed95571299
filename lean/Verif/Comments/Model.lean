/-
Model of `/repo/compiler-core/src/parse/extra.rs:20-101`: finding comments by position.
-/
namespace Verif.Comments

/-- `SrcSpan`, in bytes. -/
structure Span where
  start : Nat
  stop : Nat
deriving DecidableEq, Repr

/-- The loop of the standard library's `slice::binary_search_by`, from its published source: the element looked for, if any, is
among the `size` elements from `base` on. -/
def searchLoop {α : Type} (cmp : α → Ordering) (list : List α) (base size : Nat) : Nat :=
  if size ≤ 1 then base
  else
    match list[base + size / 2]? with
    | none => base
    | some x => searchLoop cmp list (if cmp x = .gt then base else base + size / 2) (size - size / 2)
termination_by size
decreasing_by omega

/-- `slice::binary_search_by(..).ok()`. -/
def binarySearch {α : Type} (cmp : α → Ordering) (list : List α) : Option Nat :=
  match list[searchLoop cmp list 0 list.length]? with
  | none => none
  | some x => if cmp x = .eq then some (searchLoop cmp list 0 list.length) else none

/-- The type of searches, so that the theorems do not depend on which of several matching elements is found. -/
abbrev Search := (Span → Ordering) → List Span → Option Nat

/-- `extra.rs:27-35`: the comparison in `is_within_comment`. -/
def compareIndex (i : Nat) (span : Span) : Ordering :=
  if i < span.start then .gt else if i > span.stop then .lt else .eq

/-- `extra.rs:26-40` `is_within_comment`. -/
def isWithin (search : Search) (comments docs modules : List Span) (i : Nat) : Bool :=
  (search (compareIndex i) comments).isSome || (search (compareIndex i) docs).isSome || (search (compareIndex i) modules).isSome

/-- `extra.rs:48-56`: the comparison in `index_of_first_comment_between`. -/
def compareRange (start stop : Nat) (span : Span) : Ordering :=
  if span.stop < start then .lt else if span.start > stop then .gt else .eq

/-- `extra.rs:63-79` `first_comment_between`. -/
def firstBetween (search : Search) (comments : List Span) (start stop : Nat) : Option Span :=
  match search (compareRange start stop) comments with
  | none => none
  | some i => ((comments.take (i + 1)).reverse.takeWhile fun c => decide (c.stop ≥ start ∧ c.start ≤ stop)).getLast?

/-- `extra.rs:42-44` `has_comment_between`. -/
def hasBetween (search : Search) (comments : List Span) (start stop : Nat) : Bool := (firstBetween search comments start stop).isSome

/-- `extra.rs:89-103`: the loop of `last_comment_between`. -/
def lastLoop (comments : List Span) (start stop i : Nat) : Option Span :=
  match h : comments[i + 1]? with
  | none => comments[i]?
  | some next => if start ≤ next.start ∧ next.stop ≤ stop then lastLoop comments start stop (i + 1) else comments[i]?
termination_by comments.length - i
decreasing_by
  have := (List.getElem?_eq_some_iff.mp h).1
  omega

/-- `extra.rs:81-104` `last_comment_between`. -/
def lastBetween (search : Search) (comments : List Span) (start stop : Nat) : Option Span :=
  match search (compareRange start stop) comments with
  | none => none
  | some i => lastLoop comments start stop i

end Verif.Comments
