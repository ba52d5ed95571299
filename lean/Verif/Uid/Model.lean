/-
Model of `/repo/compiler-core/src/uid.rs`, the generator of ids of type variables, shared by clones.
-/
namespace Verif.Uid

/-- What is done with generators. Handles and counters are numbered in the order in which they are made. -/
inductive Event where
  /-- `uid.rs:16-18` `new`, also `Default`. -/
  | new
  /-- `#[derive(Clone)]` on the `Arc`: the new handle shares the counter. -/
  | clone (handle : Nat)
  /-- `uid.rs:20-22` `next`: `fetch_add` is atomic, so that a history of requests from many threads is a list of them. -/
  | next (handle : Nat)

/-- The counter each handle points to, and the values of the counters. -/
structure State where
  handles : List Nat := []
  counters : List UInt64 := []

/-- One event: the new state, and for `next` the counter used and the id returned. An event about a handle that does not exist
does nothing. -/
def step (s : State) : Event → State × Option (Nat × UInt64)
  | .new => ({ handles := s.handles ++ [s.counters.length], counters := s.counters ++ [0] }, none)
  | .clone h =>
    match s.handles[h]? with
    | some c => ({ s with handles := s.handles ++ [c] }, none)
    | none => (s, none)
  | .next h =>
    match s.handles[h]? with
    | none => (s, none)
    | some c =>
      match s.counters[c]? with
      | none => (s, none)
      | some v => ({ s with counters := s.counters.set c (v + 1) }, some (c, v))

/-- The ids handed out in a history, with the counter each came from. -/
def run (s : State) : List Event → List (Nat × UInt64)
  | [] => []
  | e :: events => (step s e).2.toList ++ run (step s e).1 events

end Verif.Uid
