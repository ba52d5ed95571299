import Verif.Case.Model

/-!
# What a `case` expression means

Types of values and patterns, which clause is selected, and how a decision tree is run.
Independent of the functions that build the tree.
-/

namespace Verif.Case

variable {B : BitSys}

/-! ### Types -/

mutual
/-- A value of a type.  The values of a type without (visible) constructors and of a type variable
can be anything. -/
def Val.hasTy {β : Type} (ds : Decls) : Val β → Ty → Prop
  | _, .var _ => True
  | .int _, .int => True
  | .float _, .float => True
  | .str _, .string => True
  | .bits _, .bitArray => True
  | .opaque _, .fn => True
  | .tuple vs, .tuple ts => Val.haveTys ds vs ts
  | .nil, .list _ => True
  | .cons h t, .list e => h.hasTy ds e ∧ t.hasTy ds (.list e)
  | .variant i vs, .named n args inferred =>
    constructors ds n args = [] ∨
      (∀ j, inferred = some j → i = j) ∧
        ∃ fields, (constructors ds n args)[i]? = some fields ∧ Val.haveTys ds vs fields
  | _, .named n args _ => constructors ds n args = []
  | _, _ => False
/-- Values of the types in a list. -/
def Val.haveTys {β : Type} (ds : Decls) : List (Val β) → List Ty → Prop
  | [], [] => True
  | v :: vs, t :: ts => v.hasTy ds t ∧ Val.haveTys ds vs ts
  | _, _ => False
end

mutual
/-- A pattern that type checks for a type. -/
def SrcPat.hasTy (ds : Decls) : SrcPat B → Ty → Prop
  | .discard, _ => True
  | .var _, _ => True
  | .assign _ p, t => p.hasTy ds t
  | .int _, .int => True
  | .float _, .float => True
  | .str _, .string => True
  | .strPrefix _ _ _, .string => True
  | .tuple ps, .tuple ts => SrcPat.haveTys ds ps ts
  | .list es tail, .list e => SrcPat.allHaveTy ds es e ∧ SrcPat.tailHasTy ds tail (.list e)
  | .variant i ps, .named n args _ =>
    ∃ fields, (constructors ds n args)[i]? = some fields ∧ SrcPat.haveTys ds ps fields
  | .bits _, .bitArray => True
  | _, _ => False
/-- Patterns for the types in a list. -/
def SrcPat.haveTys (ds : Decls) : List (SrcPat B) → List Ty → Prop
  | [], [] => True
  | p :: ps, t :: ts => p.hasTy ds t ∧ SrcPat.haveTys ds ps ts
  | _, _ => False
/-- Patterns that all are for one type. -/
def SrcPat.allHaveTy (ds : Decls) : List (SrcPat B) → Ty → Prop
  | [], _ => True
  | p :: ps, t => p.hasTy ds t ∧ SrcPat.allHaveTy ds ps t
/-- The tail of a list pattern. -/
def SrcPat.tailHasTy (ds : Decls) : Option (SrcPat B) → Ty → Prop
  | none, _ => True
  | some p, t => p.hasTy ds t
end

/-- The patterns of the clauses type check for the types of the subjects. -/
def ClausesTyped (ds : Decls) (subjects : List Ty) (clauses : List (Clause B)) : Prop :=
  ∀ c ∈ clauses, ∀ ps ∈ c.alternatives, SrcPat.haveTys ds ps subjects

/-! ### Matching -/

/-- What a variable is bound to, by name. -/
abbrev Bindings (B : BitSys) := List (Name × Val B.Bits)

/-- The tests of a bit array pattern: all have to hold. -/
def matchTests (b : B.Bits) : List (BTest B) → Option (Bindings B)
  | [] => some []
  | .bind x r :: ts => (matchTests b ts).map fun l => (x, B.read r b) :: l
  | .discard :: ts => matchTests b ts
  | .check as t :: ts =>
    if B.holds t b then (matchTests b ts).map fun l => as.toList ++ l else none

mutual
/-- Matches a value with a pattern: the variables it binds if it matches. -/
def SrcPat.run : SrcPat B → Val B.Bits → Option (Bindings B)
  | .discard, _ => some []
  | .var x, v => some [(x, v)]
  | .assign x p, v => (p.run v).map fun l => (x, v) :: l
  | .int i, .int j => if i = j then some [] else none
  | .float f, .float g => if f = g then some [] else none
  | .str s, .str x => if s.decode = x then some [] else none
  | .strPrefix s left right, .str x =>
    if s.decode <+: x then
      some ((left.map fun y => (y, Val.str s.decode)).toList ++
        (right.map fun y => (y, Val.str (x.drop s.decode.length))).toList)
    else none
  | .tuple ps, .tuple vs => SrcPat.runs ps vs
  | .variant i ps, .variant j vs => if i = j then SrcPat.runs ps vs else none
  | .list es tail, v => SrcPat.runList es (fun w => SrcPat.runTail tail w) v
  | .bits ts, .bits b => matchTests b ts
  | _, _ => none
/-- Matches a list of values with as many patterns. -/
def SrcPat.runs : List (SrcPat B) → List (Val B.Bits) → Option (Bindings B)
  | [], [] => some []
  | p :: ps, v :: vs =>
    (p.run v).bind fun l => (SrcPat.runs ps vs).map fun m => l ++ m
  | _, _ => none
/-- Matches a list: its first elements, then what is left with `tail`. -/
def SrcPat.runList : List (SrcPat B) → (Val B.Bits → Option (Bindings B)) → Val B.Bits →
    Option (Bindings B)
  | [], tail, v => tail v
  | p :: ps, tail, .cons h t =>
    (p.run h).bind fun l => (SrcPat.runList ps tail t).map fun m => l ++ m
  | _ :: _, _, _ => none
/-- Matches what is left of a list. -/
def SrcPat.runTail : Option (SrcPat B) → Val B.Bits → Option (Bindings B)
  | none, .nil => some []
  | none, _ => none
  | some p, v => p.run v
end

/-- The values of the guards: a guard can use the variables bound by the patterns. -/
abbrev Guards (B : BitSys) := Nat → (Name → Option (Val B.Bits)) → Bool

/-- The clause that is run, with the variables its body can use. -/
abbrev Selected (B : BitSys) := Nat × Nat × (Name → Option (Val B.Bits))

/-- The first alternative that matches, and whose guard holds with the variables it binds. -/
def selectAlt (guards : Guards B) (vs : List (Val B.Bits)) (ci : Nat) (guarded : Bool) :
    Nat → List (List (SrcPat B)) → Option (Selected B)
  | _, [] => none
  | ai, ps :: alts =>
    match SrcPat.runs ps vs with
    | some l =>
      if !guarded || guards ci (fun x => l.lookup x) then some (ci, ai, fun x => l.lookup x)
      else selectAlt guards vs ci guarded (ai + 1) alts
    | none => selectAlt guards vs ci guarded (ai + 1) alts

/-- The meaning of a `case` expression: the first clause, in the order of the source, that has an
alternative that matches and whose guard holds. -/
def select (guards : Guards B) (vs : List (Val B.Bits)) : Nat → List (Clause B) →
    Option (Selected B)
  | _, [] => none
  | ci, c :: cs =>
    (selectAlt guards vs ci c.guard.isSome 0 c.alternatives).or (select guards vs (ci + 1) cs)

/-! ### Running a decision tree -/

/-- The values of the variables of a decision tree. -/
abbrev Env (B : BitSys) := Var → Val B.Bits

/-- Gives variables new values. -/
def Env.set (env : Env B) (l : List (Var × Val B.Bits)) : Env B :=
  fun v => (l.lookup v).getD (env v)

/-- Whether a runtime check succeeds. -/
def Check.holds : Check B → Val B.Bits → Bool
  | .int i, .int j => decide (i = j)
  | .float f, .float g => decide (f = g)
  | .str s, .str x => decide (s.decode = x)
  | .strPrefix s _, .str x => decide (s.decode <+: x)
  | .tuple vs, .tuple xs => decide (vs.length = xs.length)
  | .bits t, .bits b => B.holds t b
  | .variant _ i _, .variant j _ => decide (i = j)
  | .nil, .nil => true
  | .cons _ _, .cons _ _ => true
  | _, _ => false

/-- The variables introduced by a check that has succeeded. -/
def Check.binds : Check B → Val B.Bits → List (Var × Val B.Bits)
  | .strPrefix s rest, .str x => [(rest, .str (x.drop s.decode.length))]
  | .tuple vs, .tuple xs => vs.zip xs
  | .variant _ _ vs, .variant _ xs => vs.zip xs
  | .cons first rest, .cons h t => [(first, h), (rest, t)]
  | _, _ => []

/-- The variables introduced by a fallback that stands for a check. -/
def Fallback.binds : Fallback B → Val B.Bits → List (Var × Val B.Bits)
  | .check c, x => c.binds x
  | .infinite, _ => []
  | .catchAll _, _ => []

/-- Reads a segment of a bit array. -/
def readBits (r : B.Read) : Val B.Bits → Val B.Bits
  | .bits b => B.read r b
  | v => v

/-- Drops a prefix of a string. -/
def dropPrefix (s : Lit) : Val B.Bits → Val B.Bits
  | .str x => .str (x.drop s.decode.length)
  | v => v

/-- The value a variable of the body is bound to. -/
def Bound.value (env : Env B) : Bound B → Val B.Bits
  | .var v => env v
  | .const c => c
  | .bitSlice v r => readBits r (env v)
  | .strSlice v s => dropPrefix s (env v)

/-- The variables of a body. -/
def Body.values (env : Env B) (body : Body B) : Bindings B :=
  body.bindings.map fun p => (p.1, p.2.value env)

/-- The variables of a body, by name. -/
def Body.lookup (env : Env B) (body : Body B) : Name → Option (Val B.Bits) :=
  fun x => (body.values env).lookup x

mutual
/-- Runs a decision tree: the clause whose body is run and its variables.  `none` is a failure. -/
def Decision.eval (guards : Guards B) : Env B → Decision B →
    Option (Nat × (Name → Option (Val B.Bits)))
  | env, .run body => some (body.clause, body.lookup env)
  | env, .guard g body d =>
    if guards g (body.lookup env) then some (body.clause, body.lookup env) else d.eval guards env
  | env, .switch v cs fallback check =>
    match cs.eval guards env (env v) with
    | some r => r
    | none => fallback.eval guards (env.set (check.binds (env v)))
  | _, .fail => none
/-- The first choice whose check succeeds; `none` if there is none. -/
def Choices.eval (guards : Guards B) : Env B → Val B.Bits → Choices B →
    Option (Option (Nat × (Name → Option (Val B.Bits))))
  | _, _, .nil => none
  | env, x, .cons c d cs =>
    if c.holds x then some (d.eval guards (env.set (c.binds x))) else cs.eval guards env x
end

/-- The variables of the subjects of a `case` expression. -/
def subjectEnv (subjects : List Ty) (vs : List (Val B.Bits)) : Env B :=
  Env.set (fun _ => .opaque 0) (((List.range subjects.length).zip subjects |>.map
    fun p => Var.mk p.1 p.2).zip vs)

/-! ### Tests of bit arrays -/

/-- What the compiler relies on when it relates the tests of bit arrays to each other. -/
structure BitSys.Sound (B : BitSys) : Prop where
  succeeds : ∀ t p b, B.succeedsIfSucceeding t p = true → B.holds p b = true → B.holds t b = true
  failsFailing : ∀ t p b, B.failsIfFailing t p = true → B.holds p b = false → B.holds t b = false
  failsSucceeding : ∀ t p b, B.failsIfSucceeding t p = true → B.holds p b = true →
    B.holds t b = false
  impossible : ∀ t b, B.impossible t = true → B.holds t b = false
  unalias : ∀ t b, B.holds (B.unalias t) b = B.holds t b

end Verif.Case
