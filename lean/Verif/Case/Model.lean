import Mathlib.Data.List.Basic

/-!
# Compiling a `case` expression to a decision tree

Model of `compiler-core/src/exhaustiveness.rs`: the branches, the splitting of branches on a
pivot variable, the decision tree that results and the diagnostics collected on the way.
The tests on the segments of bit arrays are a parameter (`BitSys`) here.
-/

namespace Verif.Case

/-- A variable name of the source program. -/
abbrev Name := String

/-- One character of a string literal as it is written in the source.  The literals of the
patterns keep their source text (compiler-core/src/parse/lexer.rs 1338-1470 pushes the escape
sequences unchanged), so `a` and `\u{61}` differ although they stand for the same character.
`spelling` numbers the ways to write the character, `0` is the character itself.  No way to write
a character is the beginning of another one, so one text starts with another exactly if the list of
its pieces does. -/
structure Piece where
  spelling : Nat
  char : Char
deriving DecidableEq

/-- The source text of a string literal. -/
abbrev Lit := List Piece

/-- The string a literal stands for (compiler-core/src/strings.rs `convert_string_escape_chars`). -/
def Lit.decode (l : Lit) : List Char := l.map Piece.char

/-- Runtime values.  Floats are opaque tokens compared for equality, `opaque` is a function or a
value of a type whose constructors cannot be seen. -/
inductive Val (β : Type)
  | int (i : Int)
  | float (f : Nat)
  | str (s : List Char)
  | bits (b : β)
  | opaque (n : Nat)
  | tuple (vs : List (Val β))
  | variant (index : Nat) (vs : List (Val β))
  | nil
  | cons (head tail : Val β)

/-- The tests on bit arrays, exhaustiveness.rs 996-1024 (`BitArrayTest`), as a parameter:
`Test` are the tests that can fail, `Read` the read actions of 1660-1680.
`failsIfSucceeding t p`, `failsIfFailing t p` and `succeedsIfSucceeding t p` are 1597-1622,
1563-1589 and 1530-1554 for the test `t` knowing about the pivot test `p` (`true` is `Certain`),
`impossible` is 1382-1409 (`is_impossible_segment`), `unalias` is the test without the name it is
given (333-336).
`holds` and `read` say what the generated code computes for them. -/
structure BitSys where
  Bits : Type
  Test : Type
  Read : Type
  holds : Test → Bits → Bool
  read : Read → Bits → Val Bits
  failsIfSucceeding : Test → Test → Bool
  failsIfFailing : Test → Test → Bool
  succeedsIfSucceeding : Test → Test → Bool
  impossible : Test → Bool
  unalias : Test → Test

variable {B : BitSys}

/-- The tests making up a bit array pattern, exhaustiveness.rs 996-1024 and 1317-1342: a segment
bound to a variable (`Match(Variable)` or `Match(Assign { value: Discard })`), a discarded
segment, and a test that can fail.  The last one has an alias in `<<1 as x>>`
(`Match(Assign)` with the literal `1`); `t` is then the test with its alias. -/
inductive BTest (B : BitSys)
  | bind (x : Name) (r : B.Read)
  | discard
  | check (as : Option (Name × Val B.Bits)) (t : B.Test)

/-- Types, type_.rs `Type`: `var` is a type variable, `fn` a function type (its arguments do not
matter here), `named` a custom type with the variant it is known to be, if any. -/
inductive Ty
  | int
  | float
  | string
  | bitArray
  | fn
  | var (id : Nat)
  | list (t : Ty)
  | tuple (ts : List Ty)
  | named (name : Nat) (args : List Ty) (inferred : Option Nat)

mutual
/-- Equality of types. -/
def Ty.eq : Ty → Ty → Bool
  | .int, .int => true
  | .float, .float => true
  | .string, .string => true
  | .bitArray, .bitArray => true
  | .fn, .fn => true
  | .var a, .var b => a == b
  | .list a, .list b => Ty.eq a b
  | .tuple a, .tuple b => Ty.eqs a b
  | .named n a i, .named m b j => n == m && Ty.eqs a b && i == j
  | _, _ => false
/-- Equality of lists of types. -/
def Ty.eqs : List Ty → List Ty → Bool
  | [], [] => true
  | a :: as, b :: bs => Ty.eq a b && Ty.eqs as bs
  | _, _ => false
end

mutual
theorem Ty.eq_iff : (a b : Ty) → (Ty.eq a b = true ↔ a = b)
  | .int, b => by cases b <;> simp [Ty.eq]
  | .float, b => by cases b <;> simp [Ty.eq]
  | .string, b => by cases b <;> simp [Ty.eq]
  | .bitArray, b => by cases b <;> simp [Ty.eq]
  | .fn, b => by cases b <;> simp [Ty.eq]
  | .var a, b => by cases b <;> simp [Ty.eq]
  | .list a, b => by cases b <;> simp [Ty.eq, Ty.eq_iff a]
  | .tuple a, b => by cases b <;> simp [Ty.eq, Ty.eqs_iff a]
  | .named n a i, b => by cases b <;> simp [Ty.eq, Ty.eqs_iff a, and_assoc]
theorem Ty.eqs_iff : (a b : List Ty) → (Ty.eqs a b = true ↔ a = b)
  | [], b => by cases b <;> simp [Ty.eqs]
  | a :: as, b => by cases b <;> simp [Ty.eqs, Ty.eq_iff a, Ty.eqs_iff as]
end

instance : DecidableEq Ty := fun a b =>
  if h : Ty.eq a b = true then isTrue ((Ty.eq_iff a b).1 h)
  else isFalse fun e => h ((Ty.eq_iff a b).2 e)

/-- The declaration of a custom type: its type parameters, the types of the fields of its
variants, and whether the module being compiled can see them
(type_.rs `TypeVariantConstructors`; exhaustiveness.rs 3365-3371 for opaque types). -/
structure TypeDecl where
  params : List Nat
  variants : List (List Ty)
  visible : Bool

/-- The custom types in scope. -/
abbrev Decls := Nat → TypeDecl

mutual
/-- exhaustiveness.rs 3411-3469 `specialise_type` and `specialise_var`.  `named` keeps its inferred variant. -/
def specialise (m : List (Nat × Ty)) : Ty → Ty
  | .var id => (m.lookup id).getD (.var id)
  | .list t => .list (specialise m t)
  | .tuple ts => .tuple (specialises m ts)
  | .named n args i => .named n (specialises m args) i
  | .int => .int
  | .float => .float
  | .string => .string
  | .bitArray => .bitArray
  | .fn => .fn
/-- The same for a list of types. -/
def specialises (m : List (Nat × Ty)) : List Ty → List Ty
  | [] => []
  | t :: ts => specialise m t :: specialises m ts
end

/-- exhaustiveness.rs 3359-3388 `specialise_constructors`: the fields of the variants of a custom
type with the given arguments, none if they cannot be seen. -/
def constructors (ds : Decls) (n : Nat) (args : List Ty) : List (List Ty) :=
  if (ds n).visible then
    (ds n).variants.map (specialises ((ds n).params.zip args))
  else []

/-- exhaustiveness.rs 870-883 `BranchMode`. -/
inductive Mode
  | infinite
  | tuple (elements : List Ty)
  | list (inner : Ty)
  | named (constructors : List (List Ty)) (inferred : Option Nat)

/-- exhaustiveness.rs 911-959 `branch_mode`. -/
def branchMode (ds : Decls) : Ty → Mode
  | .int => .infinite
  | .float => .infinite
  | .string => .infinite
  | .bitArray => .infinite
  | .fn => .infinite
  | .var _ => .infinite
  | .list t => .list t
  | .tuple ts => .tuple ts
  | .named n args i => .named (constructors ds n args) i

/-- exhaustiveness.rs 891-898 `branching_factor`, `usize::MAX` for infinite types. -/
def Mode.factor : Mode → Nat
  | .infinite => 2 ^ 64 - 1
  | .tuple ts => ts.length
  | .list _ => 2
  | .named cs _ => cs.length

/-- exhaustiveness.rs 900-907 `is_infinite`. -/
def Mode.isInfinite : Mode → Bool
  | .infinite => true
  | _ => false

/-- exhaustiveness.rs 829-842 `Variable`.  Two variables are equal if both fields are. -/
structure Var where
  id : Nat
  ty : Ty
deriving DecidableEq

/-- exhaustiveness.rs 497-543 `Pattern`.  The code keeps the patterns in an arena and changes two
kinds of cells in place: it takes the name of a string prefix out of it (258-267) and takes
bit array tests off the front (278-334).  Patterns are trees here; the number of the arena cell
is kept where a cell can change: with the name of a prefix, and with the tests of a bit array
(`none` for a pattern allocated while compiling, which belongs to a single branch until it has
been changed).  What follows a prefix is a variable or a discard (3684-3687). -/
inductive Pat (B : BitSys)
  | discard
  | var (x : Name)
  | assign (x : Name) (p : Pat B)
  | int (i : Int)
  | float (f : Nat)
  | str (s : Lit)
  | strPrefix (s : Lit) (name : Option (Nat × Name)) (rest : Option Name)
  | slice (s : Lit) (name : Option Name) (rest : Option Name)
  | tuple (ps : List (Pat B))
  | variant (index : Nat) (ps : List (Pat B))
  | nil
  | cons (first rest : Pat B)
  | bits (cell : Option Nat) (tests : List (BTest B))

/-- exhaustiveness.rs 397-427 `BoundValue`.  `const` covers the three literals. -/
inductive Bound (B : BitSys)
  | var (v : Var)
  | const (c : Val B.Bits)
  | bitSlice (v : Var) (r : B.Read)
  | strSlice (v : Var) (s : Lit)

/-- exhaustiveness.rs 380-395 `Body`. -/
structure Body (B : BitSys) where
  bindings : List (Name × Bound B)
  clause : Nat

/-- exhaustiveness.rs 650-653 `PatternCheck`. -/
abbrev PCheck (B : BitSys) := Var × Pat B

/-- exhaustiveness.rs 127-143 `Branch`.  The guard of a branch is the guard of its clause; the
flag is `uses_pattern_bindings` (147-150). -/
structure Branch (B : BitSys) where
  clause : Nat
  alt : Nat
  checks : List (PCheck B)
  guard : Option Bool
  body : Body B

/-- exhaustiveness.rs 768-777 `RuntimeCheckKind`. -/
inductive Kind
  | int (i : Int)
  | float (f : Nat)
  | str (s : Lit)
  | strPrefix (s : Lit)
  | tuple (size : Nat)
  | variant (index : Nat)
  | nil
  | cons
deriving DecidableEq

/-- exhaustiveness.rs 672-704 `RuntimeCheck`.  Of `VariantMatch` only the difference between
`ExplicitlyMatchedOn` and `NeverExplicitlyMatchedOn` is kept, labels are left out. -/
inductive Check (B : BitSys)
  | int (i : Int)
  | float (f : Nat)
  | str (s : Lit)
  | strPrefix (s : Lit) (rest : Var)
  | tuple (elements : List Var)
  | bits (t : B.Test)
  | variant (explicit : Bool) (index : Nat) (fields : List Var)
  | nil
  | cons (first rest : Var)

/-- exhaustiveness.rs 2104-2155 `FallbackCheck`. -/
inductive Fallback (B : BitSys)
  | infinite
  | check (c : Check B)
  | catchAll (ignored : List (Check B))

mutual
/-- exhaustiveness.rs 2049-2097 `Decision`. -/
inductive Decision (B : BitSys)
  | run (body : Body B)
  | guard (guard : Nat) (ifTrue : Body B) (ifFalse : Decision B)
  | switch (var : Var) (choices : Choices B) (fallback : Decision B) (check : Fallback B)
  | fail
/-- The choices of a `Switch`. -/
inductive Choices (B : BitSys)
  | nil
  | cons (check : Check B) (decision : Decision B) (rest : Choices B)
end

/-- The state of the compiler, exhaustiveness.rs 2174-2182, with the diagnostics of 2262-2296.
`taken` are the arena cells names have been taken out of. -/
structure St where
  next : Nat
  taken : List Nat
  missing : Bool
  reachable : List (Nat × Nat)
  impossibleVariants : List (Nat × Nat)
  impossibleSegments : List (Nat × Nat)
deriving DecidableEq

/-! ### Moving unconditional patterns into the body -/

/-- The loop of exhaustiveness.rs 279-337 over the tests of a bit array: what is bound and the
tests that are left. -/
def stripTests (v : Var) : List (BTest B) → List (Name × Bound B) × List (BTest B)
  | [] => ([], [])
  | .bind x r :: ts => ((x, .bitSlice v r) :: (stripTests v ts).1, (stripTests v ts).2)
  | .discard :: ts => stripTests v ts
  | .check (some (x, c)) t :: ts => ([(x, .const c)], .check none (B.unalias t) :: ts)
  | .check none t :: ts => ([], .check none t :: ts)

/-- The bindings of a guaranteed slice, exhaustiveness.rs 342-358. -/
def sliceBindings (v : Var) (s : Lit) (name rest : Option Name) : List (Name × Bound B) :=
  (name.map fun x => (x, Bound.const (.str s.decode))).toList ++
  (rest.map fun x => (x, Bound.strSlice v s)).toList

/-- The outcome of looking at one check: what is left of it, what it binds, the cells taken. -/
structure Moved (B : BitSys) where
  left : Option (Pat B)
  binds : List (Name × Bound B)
  taken : List Nat

/-- exhaustiveness.rs 231-368, the closure of `retain_mut`: one check of a branch. -/
def movePat (taken : List Nat) (v : Var) : Pat B → Moved B
  | .var x => ⟨none, [(x, .var v)], taken⟩
  | .discard => ⟨none, [], taken⟩
  | .assign x p =>
    ⟨(movePat taken v p).left, (x, .var v) :: (movePat taken v p).binds, (movePat taken v p).taken⟩
  | .strPrefix s (some (c, x)) rest =>
    if c ∈ taken then ⟨some (.strPrefix s none rest), [], taken⟩
    else ⟨some (.strPrefix s none rest), [(x, .const (.str s.decode))], c :: taken⟩
  | .strPrefix s none rest => ⟨some (.strPrefix s none rest), [], taken⟩
  | .slice s name rest => ⟨none, sliceBindings v s name rest, taken⟩
  | .bits cell ts =>
    ⟨if (stripTests v ts).2.isEmpty then none else some (.bits none (stripTests v ts).2),
     if cell.any (· ∈ taken) then [] else (stripTests v ts).1,
     if (stripTests v ts).1.isEmpty then taken else cell.toList ++ taken⟩
  | .int i => ⟨some (.int i), [], taken⟩
  | .float f => ⟨some (.float f), [], taken⟩
  | .str s => ⟨some (.str s), [], taken⟩
  | .tuple ps => ⟨some (.tuple ps), [], taken⟩
  | .variant i ps => ⟨some (.variant i ps), [], taken⟩
  | .nil => ⟨some .nil, [], taken⟩
  | .cons h t => ⟨some (.cons h t), [], taken⟩

/-- The checks of a branch, one after another. -/
def moveChecks (taken : List Nat) :
    List (PCheck B) → List (PCheck B) × List (Name × Bound B) × List Nat
  | [] => ([], [], taken)
  | (v, p) :: cs =>
    let m := movePat taken v p
    let r := moveChecks m.taken cs
    ((m.left.map fun q => (v, q)).toList ++ r.1, m.binds ++ r.2.1, r.2.2)

/-- exhaustiveness.rs 230-371 `move_unconditional_patterns`. -/
def moveBranch (taken : List Nat) (b : Branch B) : Branch B × List Nat :=
  ({ b with
      checks := (moveChecks taken b.checks).1
      body := { b.body with bindings := b.body.bindings ++ (moveChecks taken b.checks).2.1 } },
    (moveChecks taken b.checks).2.2)

/-- exhaustiveness.rs 2379-2381: every branch in turn. -/
def moveAll (taken : List Nat) : List (Branch B) → List (Branch B) × List Nat
  | [] => ([], taken)
  | b :: bs =>
    ((moveBranch taken b).1 :: (moveAll (moveBranch taken b).2 bs).1,
      (moveAll (moveBranch taken b).2 bs).2)

/-! ### Picking the pivot -/

/-- exhaustiveness.rs 2905-2913: how often a variable is checked in all branches. -/
def references (bs : List (Branch B)) (v : Var) : Nat :=
  ((bs.map fun b => b.checks).flatten.filter fun c => c.1.id = v.id).length

/-- The key of exhaustiveness.rs 2929-2937 is `(branching_factor, -references)`: whether the
first check has a smaller key than the second. -/
def keyLt (ds : Decls) (bs : List (Branch B)) (a b : Var) : Bool :=
  decide ((branchMode ds a.ty).factor < (branchMode ds b.ty).factor) ||
  (decide ((branchMode ds a.ty).factor = (branchMode ds b.ty).factor) &&
    decide (references bs b < references bs a))

/-- `min_by_key`: the first of the checks with the smallest key. -/
def minVar (ds : Decls) (bs : List (Branch B)) : Var → List (PCheck B) → Var
  | best, [] => best
  | best, (v, _) :: cs => minVar ds bs (if keyLt ds bs v best then v else best) cs

/-- exhaustiveness.rs 2896-2939 `find_pivot_check`: the variable of the check it returns. -/
def findPivot (ds : Decls) (first : Branch B) (bs : List (Branch B)) : Option Var :=
  match first.checks with
  | [] => none
  | (v, _) :: cs => some (minVar ds bs v cs)

/-! ### Runtime checks -/

/-- exhaustiveness.rs 2339-2343 `fresh_variable`, for a list of types: variables numbered from
`n`. -/
def freshVars (n : Nat) : List Ty → List Var
  | [] => []
  | t :: ts => ⟨n, t⟩ :: freshVars (n + 1) ts

/-- exhaustiveness.rs 2821-2844 `is_variant_check`. -/
def variantCheck (n : Nat) (index : Nat) (fields : List Ty) : Check B × Nat :=
  (.variant false index (freshVars n fields), n + fields.length)

/-- exhaustiveness.rs 2849-2854 `is_list_check`. -/
def listCheck (n : Nat) (inner : Ty) : Check B × Nat :=
  (.cons ⟨n, inner⟩ ⟨n + 1, .list inner⟩, n + 2)

/-- exhaustiveness.rs 2859-2867 `is_tuple_check`. -/
def tupleCheck (n : Nat) (elements : List Ty) : Check B × Nat :=
  (.tuple (freshVars n elements), n + elements.length)

/-- One check for each variant, exhaustiveness.rs 2469-2473. -/
def variantChecks (n : Nat) (index : Nat) : List (List Ty) → List (Check B) × Nat
  | [] => ([], n)
  | fs :: cs =>
    ((variantCheck n index fs).1 :: (variantChecks (n + fs.length) (index + 1) cs).1,
      (variantChecks (n + fs.length) (index + 1) cs).2)

/-- exhaustiveness.rs 2436-2474: the checks known before looking at the branches.  `none` is the
panic of 2463-2465. -/
def knownChecks (n : Nat) : Mode → Option (List (Check B) × Nat)
  | .infinite => some ([], n)
  | .tuple ts => some ([(tupleCheck n ts).1], (tupleCheck (B := B) n ts).2)
  | .list t => some ([.nil, (listCheck n t).1], (listCheck (B := B) n t).2)
  | .named cs (some i) =>
    (cs[i]?).map fun fs => ([(variantCheck n i fs).1], (variantCheck (B := B) n i fs).2)
  | .named cs none => some (variantChecks n 0 cs)

/-- exhaustiveness.rs 550-581 `to_runtime_check_kind`. -/
def Pat.kind : Pat B → Option Kind
  | .int i => some (.int i)
  | .float f => some (.float f)
  | .str s => some (.str s)
  | .strPrefix s _ _ => some (.strPrefix s)
  | .tuple ps => some (.tuple ps.length)
  | .variant i _ => some (.variant i)
  | .cons _ _ => some .cons
  | .nil => some .nil
  | .discard => none
  | .var _ => none
  | .assign _ _ => none
  | .slice _ _ _ => none
  | .bits _ _ => none

/-- exhaustiveness.rs 707-729 `RuntimeCheck::kind`. -/
def Check.kind : Check B → Option Kind
  | .int i => some (.int i)
  | .float f => some (.float f)
  | .str s => some (.str s)
  | .strPrefix s _ => some (.strPrefix s)
  | .tuple vs => some (.tuple vs.length)
  | .variant _ i _ => some (.variant i)
  | .nil => some .nil
  | .cons _ _ => some .cons
  | .bits _ => none

/-- exhaustiveness.rs 730-746 `is_ignored`. -/
def Check.ignored : Check B → Bool
  | .variant false _ _ => true
  | _ => false

/-- exhaustiveness.rs 2609-2637 `fresh_runtime_check`.  `none` is the panic of 2635. -/
def freshCheck (n : Nat) : Kind → Mode → Option (Check B × Nat)
  | .int i, _ => some (.int i, n)
  | .float f, _ => some (.float f, n)
  | .str s, _ => some (.str s, n)
  | .strPrefix s, _ => some (.strPrefix s ⟨n, .string⟩, n + 1)
  | .tuple _, .tuple ts => some (tupleCheck n ts)
  | .variant i, .named cs _ => (cs[i]?).map (variantCheck n i)
  | .nil, _ => some (.nil, n)
  | .cons, .list t => some (listCheck n t)
  | _, _ => none

/-- What follows a prefix as a pattern, exhaustiveness.rs 3684-3687. -/
def restPat : Option Name → Pat B
  | some x => .var x
  | none => .discard

/-- The case of a longer prefix that has succeeded already or a shorter one,
exhaustiveness.rs 2773-2811. -/
def newPrefixChecks (subject : Var) (s : Lit) (name : Option (Nat × Name)) (rest : Option Name)
    (s0 : Lit) (rest0 : Var) : List (PCheck B) :=
  if s0.isPrefixOf s then
    if (s.drop s0.length).isEmpty then [(rest0, restPat rest)]
    else [(rest0, .strPrefix (s.drop s0.length) none rest)]
  else if name.isNone && rest.isNone then []
  else [(subject, .slice s (name.map Prod.snd) rest)]

/-- exhaustiveness.rs 2651-2816 `new_checks`.  `none` is the panic of 2814. -/
def newChecks (subject : Var) : Pat B → Check B → Option (List (PCheck B))
  | .discard, _ => some []
  | .assign _ _, _ => some []
  | .var _, _ => some []
  | .int _, _ => some []
  | .float _, _ => some []
  | .bits _ _, _ => some []
  | .nil, _ => some []
  | .str _, .str _ => some []
  | .cons h t, .cons first rest => some [(first, h), (rest, t)]
  | .variant _ ps, .variant _ _ vs => some (vs.zip ps)
  | .tuple ps, .tuple vs => some (vs.zip ps)
  | .str s, .strPrefix s0 rest0 =>
    some [(rest0, .str (if s0.isPrefixOf s then s.drop s0.length else s))]
  | .strPrefix s name rest, .strPrefix s0 rest0 =>
    some (newPrefixChecks subject s name rest s0 rest0)
  | _, _ => none

/-! ### Splitting the branches -/

/-- exhaustiveness.rs 2944-2959 `BranchSplitter`.  Its two maps from kinds to positions in
`choices` are looked up by searching the choices. -/
structure Splitter (B : BitSys) where
  choices : List (Check B × List (Branch B))
  fallback : List (Branch B)

/-- exhaustiveness.rs 2964-2981 `from_checks`. -/
def Splitter.fromChecks (cs : List (Check B)) : Splitter B :=
  ⟨cs.map fun c => (c, []), []⟩

/-- exhaustiveness.rs 2988-2993 `add_fallback_branch`. -/
def addFallback (sp : Splitter B) (b : Branch B) : Splitter B :=
  ⟨sp.choices.map fun ch => (ch.1, ch.2 ++ [b]), sp.fallback ++ [b]⟩

/-- exhaustiveness.rs 3184-3192 `choice_has_guard_using_pattern_bindings`. -/
def hasGuard (bs : List (Branch B)) : Bool :=
  bs.any fun b => b.guard == some true

/-- The text of a prefix check. -/
def Check.prefixText : Check B → Option Lit
  | .strPrefix s _ => some s
  | _ => none

/-- `get_ancestor` of the trie of prefix checks: the longest prefix of the key among them. -/
def ancestor (value : Lit) : List (Check B × List (Branch B)) → Option Lit
  | [] => none
  | ch :: chs =>
    match ch.1.prefixText, ancestor value chs with
    | some s, some a =>
      if s.isPrefixOf value && decide (a.length ≤ s.length) then some s else some a
    | some s, none => if s.isPrefixOf value then some s else none
    | none, r => r

/-- exhaustiveness.rs 3318-3330 `CheckOverlaps`: which choices a check overlaps, and whether it
needs a choice of its own. -/
structure Overlaps (B : BitSys) where
  overlapping : Check B × List (Branch B) → Bool
  needsNew : Bool

/-- Whether the text of a prefix check is related to a literal. -/
def prefixIs (f : Lit → Bool) (c : Check B) : Bool := c.prefixText.any f

/-- exhaustiveness.rs 3236-3286, overlaps of a string prefix. -/
def prefixOverlaps (chs : List (Check B × List (Branch B))) (value : Lit) : Overlaps B :=
  match ancestor value chs with
  | some a =>
    ⟨fun ch => prefixIs (fun s => a.isPrefixOf s &&
        (s.isPrefixOf value || (value.isPrefixOf s && hasGuard ch.2))) ch.1, false⟩
  | none => ⟨fun ch => prefixIs (fun s => value.isPrefixOf s && hasGuard ch.2) ch.1, true⟩

/-- exhaustiveness.rs 3292-3312, overlaps of a string literal: the same literal, or a prefix. -/
def strOverlapping (chs : List (Check B × List (Branch B))) (value : Lit)
    (ch : Check B × List (Branch B)) : Bool :=
  (ch.1.kind == some (.str value)) ||
  (ancestor value chs).any fun a => prefixIs (fun s => a.isPrefixOf s && s.isPrefixOf value) ch.1

/-- exhaustiveness.rs 3194-3314 `check_overlaps`. -/
def checkOverlaps (chs : List (Check B × List (Branch B))) : Kind → Overlaps B
  | .strPrefix s => prefixOverlaps chs s
  | .str s => ⟨strOverlapping chs s, !(chs.any (strOverlapping chs s))⟩
  | k => ⟨fun ch => ch.1.kind == some k, !(chs.any fun ch => ch.1.kind == some k)⟩

/-- The update of exhaustiveness.rs 3062-3084: an overlapping variant is matched on explicitly. -/
def Check.matched : Check B → Check B
  | .variant _ i fs => .variant true i fs
  | c => c

/-- Adds checks to a branch, exhaustiveness.rs 176-178. -/
def Branch.add (b : Branch B) (cs : List (PCheck B)) : Branch B :=
  { b with checks := b.checks ++ cs }

/-- exhaustiveness.rs 3033-3044 and 3062-3084 for one choice: the branch joins it if it overlaps. -/
def joinChoice (v : Var) (p : Pat B) (b : Branch B)
    (overlapping : Check B × List (Branch B) → Bool) (ch : Check B × List (Branch B)) :
    Option (Check B × List (Branch B)) :=
  if overlapping ch then
    (newChecks v p ch.1).map fun cs => (ch.1.matched, ch.2 ++ [b.add cs])
  else some ch

/-- exhaustiveness.rs 3033-3044: the branch joins every choice it overlaps. -/
def joinChoices (v : Var) (p : Pat B) (b : Branch B)
    (overlapping : Check B × List (Branch B) → Bool) :
    List (Check B × List (Branch B)) → Option (List (Check B × List (Branch B)))
  | [] => some []
  | ch :: chs =>
    (joinChoice v p b overlapping ch).bind fun c =>
      (joinChoices v p b overlapping chs).bind fun r => some (c :: r)

/-- The test of a `BTest` that can fail. -/
def BTest.test : BTest B → Option B.Test
  | .check _ t => some t
  | _ => none

/-- exhaustiveness.rs 3107-3118: the test to split on and the branches that follow it so far.  The
panics are those of 3109 and 3117.  A choice made here starts without the fallback branches
(3110-3113). -/
def pivotTest (ts : List (BTest B)) :
    List (Check B × List (Branch B)) → Option (B.Test × List (Branch B))
  | [] => (ts.head?.bind BTest.test).map fun t => (t, [])
  | [(.bits t, bs)] => some (t, bs)
  | _ => none

/-- Whether one of the tests is related to the pivot test. -/
def anyTest (f : B.Test → B.Test → Bool) (pivot : B.Test) (ts : List (BTest B)) : Bool :=
  ts.any fun t => t.test.any fun t => f t pivot

/-- The tests left after the pivot test has succeeded, exhaustiveness.rs 3139-3142. -/
def leftTests (pivot : B.Test) (ts : List (BTest B)) : List (BTest B) :=
  ts.filter fun t => !(t.test.any fun t => B.succeedsIfSucceeding t pivot)

/-- exhaustiveness.rs 3098-3166 `add_checked_bit_array_branch`. -/
def addBits (sp : Splitter B) (v : Var) (p : Pat B) (ts : List (BTest B)) (b : Branch B) :
    Option (Splitter B) :=
  (pivotTest ts sp.choices).map fun pv =>
    ⟨[(.bits pv.1, if anyTest B.failsIfSucceeding pv.1 ts then pv.2
        else pv.2 ++ [b.add [(v, .bits none (leftTests pv.1 ts))]])],
      if anyTest B.failsIfFailing pv.1 ts then sp.fallback
      else sp.fallback ++ [b.add [(v, p)]]⟩

/-- exhaustiveness.rs 3017-3085 `add_checked_branch` for the other patterns. -/
def addKind (n : Nat) (sp : Splitter B) (v : Var) (p : Pat B) (k : Kind) (b : Branch B)
    (mode : Mode) : Option (Splitter B × Nat) :=
  (joinChoices v p b (checkOverlaps sp.choices k).overlapping sp.choices).bind fun chs =>
    if (checkOverlaps sp.choices k).needsNew then
      (freshCheck n k mode).bind fun c =>
        (newChecks v p c.1).bind fun cs =>
          some (⟨chs ++ [(c.1, sp.fallback ++ [b.add cs])], sp.fallback⟩, c.2)
    else some (⟨chs, sp.fallback⟩, n)

/-- exhaustiveness.rs 2999-3085 `add_checked_branch`. -/
def addChecked (n : Nat) (sp : Splitter B) (v : Var) (p : Pat B) (b : Branch B) (mode : Mode) :
    Option (Splitter B × Nat) :=
  match p with
  | .bits _ ts => (addBits sp v p ts b).map fun s => (s, n)
  | _ => p.kind.bind fun k => addKind n sp v p k b mode

/-- exhaustiveness.rs 171-174 `pop_check_on_var`. -/
def popCheck (v : Var) : List (PCheck B) → Option (Pat B × List (PCheck B))
  | [] => none
  | (w, p) :: cs =>
    if w = v then some (p, cs) else (popCheck v cs).map fun r => (r.1, (w, p) :: r.2)

/-- exhaustiveness.rs 585-596 `is_matching_on_unreachable_variant`. -/
def Pat.unreachableVariant : Pat B → Mode → Bool
  | .variant i _, .named _ (some j) => i != j
  | _, _ => false

/-- exhaustiveness.rs 598-634 `is_matching_on_impossible_segment`. -/
def Pat.impossibleSegment : Pat B → Bool
  | .bits _ ts => ts.any fun t => t.test.any B.impossible
  | _ => false

/-- exhaustiveness.rs 2352-2361 `mark_as_matching_impossible_variant`. -/
def St.markVariant (st : St) (x : Nat × Nat) : St :=
  { st with
    reachable := st.reachable.filter (· ≠ x)
    impossibleVariants := x :: st.impossibleVariants }

/-- exhaustiveness.rs 2363-2376 `mark_as_matching_impossible_segment`. -/
def St.markSegment (st : St) (x : Nat × Nat) : St :=
  { st with
    reachable := st.reachable.filter (· ≠ x)
    impossibleSegments := x :: st.impossibleSegments }

/-- exhaustiveness.rs 2501-2532 `split_branches`. -/
def splitBranches (mode : Mode) (v : Var) : St → Splitter B → List (Branch B) →
    Option (St × Splitter B)
  | st, sp, [] => some (st, sp)
  | st, sp, b :: bs =>
    match popCheck v b.checks with
    | none => splitBranches mode v st (addFallback sp b) bs
    | some (p, cs) =>
      if p.unreachableVariant mode then
        splitBranches mode v (st.markVariant (b.clause, b.alt)) sp bs
      else if p.impossibleSegment then
        splitBranches mode v (st.markSegment (b.clause, b.alt)) sp bs
      else
        (addChecked st.next sp v p { b with checks := cs } mode).bind fun r =>
          splitBranches mode v { st with next := r.2 } r.1 bs

/-- exhaustiveness.rs 2594-2602 `compile_all_choices`, with `rec` compiling a list of branches. -/
def compileChoices (rec : St → List (Branch B) → Option (Decision B × St)) :
    St → List (Check B × List (Branch B)) → Option (Choices B × St)
  | st, [] => some (.nil, st)
  | st, ch :: chs =>
    (rec st ch.2).bind fun r =>
      (compileChoices rec r.2 chs).bind fun s => some (.cons ch.1 r.1 s.1, s.2)

/-- Compiles the choices, then the fallback: the end of exhaustiveness.rs 2538-2547 and
2584-2591. -/
def compileSwitch (rec : St → List (Branch B) → Option (Decision B × St)) (st : St) (v : Var)
    (choices : List (Check B × List (Branch B))) (fallback : List (Branch B)) (fc : Fallback B) :
    Option (Decision B × St) :=
  (compileChoices rec st choices).bind fun r =>
    (rec r.2 fallback).bind fun s => some (.switch v r.1 s.1 fc, s.2)

/-- exhaustiveness.rs 2552-2592 `splitter_to_exhaustive_switch`. -/
def exhaustiveSwitch (rec : St → List (Branch B) → Option (Decision B × St)) (st : St) (v : Var)
    (sp : Splitter B) : Option (Decision B × St) :=
  if sp.choices.any fun ch => ch.1.ignored then
    compileSwitch rec st v (sp.choices.filter fun ch => !ch.1.ignored) sp.fallback
      (.catchAll ((sp.choices.filter fun ch => ch.1.ignored).map Prod.fst))
  else
    match sp.choices.getLast? with
    | none => none
    | some last => compileSwitch rec st v sp.choices.dropLast last.2 (.check last.1)

/-- exhaustiveness.rs 2427-2499 `split_and_compile_with_pivot_var`. -/
def splitAndCompile (ds : Decls) (rec : St → List (Branch B) → Option (Decision B × St))
    (st : St) (v : Var) (bs : List (Branch B)) : Option (Decision B × St) :=
  (knownChecks st.next (branchMode ds v.ty)).bind fun kc =>
    (splitBranches (branchMode ds v.ty) v { st with next := kc.2 }
      (Splitter.fromChecks kc.1) bs).bind fun r =>
      if (branchMode ds v.ty).isInfinite then
        compileSwitch rec r.1 v r.2.choices r.2.fallback .infinite
      else if r.2.choices.isEmpty then some (.fail, { r.1 with missing := true })
      else exhaustiveSwitch rec r.1 v r.2

/-- exhaustiveness.rs 2345-2350 `mark_as_reached`. -/
def St.reached (st : St) (x : Nat × Nat) : St :=
  if x ∈ st.reachable then st else { st with reachable := x :: st.reachable }

/-- exhaustiveness.rs 2378-2425 `compile`.  `none` is a panic, or not enough fuel. -/
def compile (ds : Decls) : Nat → St → List (Branch B) → Option (Decision B × St)
  | 0, _, _ => none
  | fuel + 1, st, branches =>
    match moveAll st.taken branches with
    | ([], taken) => some (.fail, { st with taken := taken, missing := true })
    | (first :: rest, taken) =>
      let st := St.reached { st with taken := taken } (first.clause, first.alt)
      match findPivot ds first (first :: rest) with
      | some v => splitAndCompile ds (compile ds fuel) st v (first :: rest)
      | none =>
        match first.guard with
        | none => some (.run first.body, st)
        | some _ =>
          (compile ds fuel st rest).bind fun r => some (.guard first.clause first.body r.1, r.2)

/-! ### The case expression -/

/-- The patterns of the source, ast.rs `Pattern`, after type checking: what `register` tells
apart.  Invalid patterns are discards.  A bit array pattern is given by the tests
`bit_array_to_tests` (3707-3818) makes of it. -/
inductive SrcPat (B : BitSys)
  | discard
  | var (x : Name)
  | assign (x : Name) (p : SrcPat B)
  | int (i : Int)
  | float (f : Nat)
  | str (s : Lit)
  | strPrefix (s : Lit) (left right : Option Name)
  | tuple (ps : List (SrcPat B))
  | list (elements : List (SrcPat B)) (tail : Option (SrcPat B))
  | variant (index : Nat) (ps : List (SrcPat B))
  | bits (tests : List (BTest B))

mutual
/-- exhaustiveness.rs 3596-3701 `register`; `n` is the number of cells allocated so far. -/
def register (n : Nat) : SrcPat B → Pat B × Nat
  | .discard => (.discard, n)
  | .var x => (.var x, n)
  | .assign x p => (.assign x (register n p).1, (register n p).2)
  | .int i => (.int i, n)
  | .float f => (.float f, n)
  | .str s => (.str s, n)
  | .strPrefix s left right => (.strPrefix s (left.map fun x => (n, x)) right, n + 1)
  | .tuple ps => (.tuple (registers n ps).1, (registers n ps).2)
  | .list es tail =>
    let t := registerTail n tail
    let r := registers t.2 es
    (r.1.foldr .cons t.1, r.2)
  | .variant i ps => (.variant i (registers n ps).1, (registers n ps).2)
  | .bits ts => (.bits (some n) ts, n + 1)
/-- The same for a list of patterns.  Cells are only told apart, so their order does not
matter. -/
def registers (n : Nat) : List (SrcPat B) → List (Pat B) × Nat
  | [] => ([], n)
  | p :: ps =>
    ((register n p).1 :: (registers (register n p).2 ps).1, (registers (register n p).2 ps).2)
/-- The tail of a list pattern, 3637-3640. -/
def registerTail (n : Nat) : Option (SrcPat B) → Pat B × Nat
  | none => (.nil, n)
  | some p => register n p
end

mutual
/-- ast.rs `bound_variables`: the names a pattern binds. -/
def SrcPat.bound : SrcPat B → List Name
  | .discard => []
  | .var x => [x]
  | .assign x p => x :: p.bound
  | .int _ => []
  | .float _ => []
  | .str _ => []
  | .strPrefix _ left right => left.toList ++ right.toList
  | .tuple ps => SrcPat.bounds ps
  | .list es tail => SrcPat.bounds es ++ SrcPat.boundTail tail
  | .variant _ ps => SrcPat.bounds ps
  | .bits ts => ts.flatMap fun t => match t with
    | .bind x _ => [x]
    | .discard => []
    | .check as _ => (as.map Prod.fst).toList
/-- The names a list of patterns binds. -/
def SrcPat.bounds : List (SrcPat B) → List Name
  | [] => []
  | p :: ps => p.bound ++ SrcPat.bounds ps
/-- The names the tail of a list pattern binds. -/
def SrcPat.boundTail : Option (SrcPat B) → List Name
  | none => []
  | some p => p.bound
end

/-- ast.rs `Clause`: alternative lists of patterns, one pattern for each subject, and the names
the guard mentions if there is a guard. -/
structure Clause (B : BitSys) where
  alternatives : List (List (SrcPat B))
  guard : Option (List Name)

/-- The branch of one alternative of a clause, exhaustiveness.rs 3515-3545. -/
def altBranch (subjects : List Var) (ci ai : Nat) (guard : Option (List Name))
    (n : Nat) (ps : List (SrcPat B)) : Branch B × Nat :=
  ({ clause := ci
     alt := ai
     checks := subjects.zip (registers n ps).1
     guard := guard.map fun names => (SrcPat.bounds ps).any (· ∈ names)
     body := ⟨[], ci⟩ }, (registers n ps).2)

/-- The branches of the alternatives of a clause. -/
def altBranches (subjects : List Var) (ci : Nat) (guard : Option (List Name)) :
    Nat → Nat → List (List (SrcPat B)) → List (Branch B) × Nat
  | _, n, [] => ([], n)
  | ai, n, ps :: alts =>
    let r := altBranch subjects ci ai guard n ps
    let s := altBranches subjects ci guard (ai + 1) r.2 alts
    (r.1 :: s.1, s.2)

/-- exhaustiveness.rs 3511-3549 `add_clause`, for every clause. -/
def clauseBranches (subjects : List Var) : Nat → Nat → List (Clause B) → List (Branch B)
  | _, _, [] => []
  | ci, n, c :: cs =>
    let r := altBranches subjects ci c.guard 0 n c.alternatives
    r.1 ++ clauseBranches subjects (ci + 1) r.2 cs

mutual
/-- The size of a pattern, a bound on the steps of the compiler. -/
def Pat.size : Pat B → Nat
  | .discard => 1
  | .var _ => 1
  | .assign _ p => 1 + p.size
  | .int _ => 1
  | .float _ => 1
  | .str s => 1 + s.length
  | .strPrefix s _ _ => 2 + s.length
  | .slice _ _ _ => 1
  | .tuple ps => 1 + Pat.sizes ps
  | .variant _ ps => 1 + Pat.sizes ps
  | .nil => 1
  | .cons h t => 1 + h.size + t.size
  | .bits _ ts => 1 + ts.length
/-- The size of a list of patterns. -/
def Pat.sizes : List (Pat B) → Nat
  | [] => 0
  | p :: ps => p.size + Pat.sizes ps
end

/-- The size of the checks of a branch. -/
def checksSize : List (PCheck B) → Nat
  | [] => 0
  | c :: cs => c.2.size + checksSize cs

/-- The size of a list of branches. -/
def branchesSize : List (Branch B) → Nat
  | [] => 0
  | b :: bs => 1 + checksSize b.checks + branchesSize bs

/-- The state the compiler starts in, exhaustiveness.rs 2316-2328. -/
def St.init (next : Nat) : St := ⟨next, [], false, [], [], []⟩

/-- exhaustiveness.rs 3486-3504 and 3569-3591 `CaseToCompile::{new, compile}`.  `compile` needs no
bound on its steps in the code; the size of the patterns is enough here. -/
def compileCase (ds : Decls) (subjects : List Ty) (clauses : List (Clause B)) :
    Option (Decision B × St) :=
  let vars := freshVars 0 subjects
  let bs := clauseBranches vars 0 0 clauses
  if bs.isEmpty then
    match vars with
    | [] => none
    | v :: _ => splitAndCompile ds (compile ds 1) (.init vars.length) v []
  else compile ds (branchesSize bs + 1) (.init vars.length) bs

/-- exhaustiveness.rs 2190-2214 `is_reachable`. -/
def St.isReachable (st : St) (clause alt : Nat) : Bool := (clause, alt) ∈ st.reachable

end Verif.Case
