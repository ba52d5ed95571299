/-!
# Computations with effects

Shared by the two languages: a computation changes the state of the world, and returns a value, raises an error, runs
out of time, or is stuck (the program is not one the language gives a meaning to).
-/

namespace Verif.ErlGen

inductive Out (ε α : Type) where
  | val (a : α)
  | error (e : ε)
  | timeout
  | stuck

def M (W ε α : Type) : Type := W → Out ε α × W

namespace M

variable {W ε α β : Type}

def pure (a : α) : M W ε α := fun w => (.val a, w)

def error (e : ε) : M W ε α := fun w => (.error e, w)

def timeout : M W ε α := fun w => (.timeout, w)

def stuck : M W ε α := fun w => (.stuck, w)

/-- One computation after the other. -/
def bind (m : M W ε α) (f : α → M W ε β) : M W ε β := fun w =>
  match m w with
  | (.val a, w) => f a w
  | (.error e, w) => (.error e, w)
  | (.timeout, w) => (.timeout, w)
  | (.stuck, w) => (.stuck, w)

def ofOption : Option α → M W ε α
  | some a => pure a
  | none => stuck

end M

/-- The result of matching a value with a pattern: the pattern does not fit the value at all, it does not match, or it
matches and binds variables. -/
inductive Match (β : Type) where
  | bad
  | no
  | yes (bindings : List (List Char × β))

end Verif.ErlGen
