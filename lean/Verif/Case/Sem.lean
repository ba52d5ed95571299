import Verif.Case.Spec
import Mathlib.Data.List.Perm.Basic
import Mathlib.Data.List.Nodup

/-!
# Meaning of the branches while they are compiled

Lemmas: how patterns, checks and branches are matched, and that moving unconditional patterns to
the body keeps what a branch means.
-/

namespace Verif.Case

variable {B : BitSys}

def testHolds (t : B.Test) : Val B.Bits → Bool
  | .bits b => B.holds t b
  | _ => false

def runTests (v : Val B.Bits) : List (BTest B) → Option (Bindings B)
  | [] => some []
  | .bind x r :: ts => (runTests v ts).map fun l => (x, readBits r v) :: l
  | .discard :: ts => runTests v ts
  | .check as t :: ts =>
    if testHolds t v then (runTests v ts).map fun l => as.toList ++ l else none

def nameBinds (name : Option Name) (v : Val B.Bits) : Bindings B :=
  (name.map fun y => (y, v)).toList

mutual
def Pat.run : Pat B → Val B.Bits → Option (Bindings B)
  | .discard, _ => some []
  | .var x, v => some [(x, v)]
  | .assign x p, v => (p.run v).map fun l => (x, v) :: l
  | .int i, .int j => if i = j then some [] else none
  | .float f, .float g => if f = g then some [] else none
  | .str s, .str x => if s.decode = x then some [] else none
  | .strPrefix s name rest, .str x =>
    if s.decode <+: x then
      some (nameBinds (name.map Prod.snd) (.str s.decode) ++
        nameBinds rest (.str (x.drop s.decode.length)))
    else none
  | .slice s name rest, v =>
    some (nameBinds name (.str s.decode) ++ nameBinds rest (dropPrefix s v))
  | .tuple ps, .tuple vs => Pat.runs ps vs
  | .variant i ps, .variant j vs => if i = j then Pat.runs ps vs else none
  | .nil, .nil => some []
  | .cons p q, .cons h t => (p.run h).bind fun l => (q.run t).map fun m => l ++ m
  | .bits _ ts, v => runTests v ts
  | _, _ => none
def Pat.runs : List (Pat B) → List (Val B.Bits) → Option (Bindings B)
  | [], [] => some []
  | p :: ps, v :: vs => (p.run v).bind fun l => (Pat.runs ps vs).map fun m => l ++ m
  | _, _ => none
end

def runChecks (env : Env B) : List (PCheck B) → Option (Bindings B)
  | [] => some []
  | c :: cs => (c.2.run (env c.1)).bind fun l => (runChecks env cs).map fun m => l ++ m

def Branch.run (env : Env B) (b : Branch B) : Option (Bindings B) :=
  (runChecks env b.checks).map fun l => b.body.values env ++ l

/-- The same match, up to the order of the bindings. -/
inductive Same : Option (Bindings B) → Option (Bindings B) → Prop
  | none : Same none none
  | some {l m} : l.Perm m → Same (some l) (some m)

theorem Same.refl (a : Option (Bindings B)) : Same a a := by
  cases a with
  | none => exact .none
  | some l => exact .some (List.Perm.refl l)

theorem Same.symm {a b : Option (Bindings B)} (h : Same a b) : Same b a := by
  cases h with
  | none => exact .none
  | some h => exact .some h.symm

theorem Same.trans {a b c : Option (Bindings B)} (h : Same a b) (h' : Same b c) : Same a c := by
  cases h with
  | none => exact h'
  | some h => cases h' with | some h' => exact .some (h.trans h')

theorem Same.of_eq {a b : Option (Bindings B)} (h : a = b) : Same a b := h ▸ Same.refl a

theorem Same.isSome {a b : Option (Bindings B)} (h : Same a b) : a.isSome = b.isSome := by
  cases h <;> rfl

def seq2 (a b : Option (Bindings B)) : Option (Bindings B) :=
  a.bind fun l => b.map fun m => l ++ m

theorem seq2_same {a a' b b' : Option (Bindings B)} (h : Same a a') (h' : Same b b') :
    Same (seq2 a b) (seq2 a' b') := by
  cases h with
  | none => exact .none
  | some h => cases h' with
    | none => exact .none
    | some h' => exact .some (h.append h')

theorem seq2_comm (a b : Option (Bindings B)) : Same (seq2 a b) (seq2 b a) := by
  cases a <;> cases b <;> first | exact .none | exact .some List.perm_append_comm

theorem seq2_assoc (a b c : Option (Bindings B)) : seq2 (seq2 a b) c = seq2 a (seq2 b c) := by
  cases a <;> cases b <;> cases c <;> simp [seq2]

theorem seq2_nil (a : Option (Bindings B)) : seq2 (some []) a = a := by cases a <;> rfl

theorem seq2_nil' (a : Option (Bindings B)) : seq2 a (some []) = a := by cases a <;> simp [seq2]

theorem seq2_isSome (a b : Option (Bindings B)) :
    (seq2 a b).isSome = (a.isSome && b.isSome) := by cases a <;> cases b <;> rfl

theorem runChecks_cons (env : Env B) (c : PCheck B) (cs : List (PCheck B)) :
    runChecks env (c :: cs) = seq2 (c.2.run (env c.1)) (runChecks env cs) := rfl

theorem runChecks_append (env : Env B) : ∀ cs ds : List (PCheck B),
    runChecks env (cs ++ ds) = seq2 (runChecks env cs) (runChecks env ds)
  | [], ds => by simp [runChecks, seq2_nil]
  | c :: cs, ds => by
    rw [List.cons_append, runChecks_cons, runChecks_append env cs ds, runChecks_cons, seq2_assoc]

theorem Branch.run_eq (env : Env B) (b : Branch B) :
    b.run env = seq2 (some (b.body.values env)) (runChecks env b.checks) := rfl

/-! ### The environment -/

def Agree (cs : List (PCheck B)) (env env' : Env B) : Prop :=
  ∀ c ∈ cs, env' c.1 = env c.1

theorem runChecks_agree {env env' : Env B} : ∀ {cs : List (PCheck B)}, Agree cs env env' →
    runChecks env' cs = runChecks env cs
  | [], _ => rfl
  | c :: cs, h => by
    rw [runChecks_cons, runChecks_cons, h c (by simp),
      runChecks_agree fun d hd => h d (by simp [hd])]

def Bound.var? : Bound B → Option Var
  | .var v => some v
  | .const _ => none
  | .bitSlice v _ => some v
  | .strSlice v _ => some v

theorem Bound.value_agree {env env' : Env B} {x : Bound B}
    (h : ∀ v, x.var? = some v → env' v = env v) : x.value env' = x.value env := by
  cases x <;> simp_all [Bound.var?, Bound.value]

/-- All variables of the bindings are older than `n`. -/
def BindsBelow (n : Nat) (l : List (Name × Bound B)) : Prop :=
  ∀ p ∈ l, ∀ v, p.2.var? = some v → v.id < n

def ChecksBelow (n : Nat) (cs : List (PCheck B)) : Prop := ∀ c ∈ cs, c.1.id < n

theorem values_agree {n : Nat} {env env' : Env B} {l : List (Name × Bound B)}
    (h : BindsBelow n l) (he : ∀ v : Var, v.id < n → env' v = env v) :
    (l.map fun p => (p.1, p.2.value env')) = l.map fun p => (p.1, p.2.value env) := by
  apply List.map_congr_left
  intro p hp
  rw [Bound.value_agree fun v hv => he v (h p hp v hv)]

theorem Env.set_of_not_mem {env : Env B} {l : List (Var × Val B.Bits)} {v : Var}
    (h : ∀ p ∈ l, p.1 ≠ v) : env.set l v = env v := by
  unfold Env.set
  rw [List.lookup_eq_none_iff.2]
  · rfl
  · intro p hp
    simpa using fun e => h p hp e.symm

/-! ### Types of patterns -/

mutual
def Pat.hasTy (ds : Decls) : Pat B → Ty → Prop
  | .discard, _ => True
  | .var _, _ => True
  | .assign _ p, t => p.hasTy ds t
  | .int _, .int => True
  | .float _, .float => True
  | .str _, .string => True
  | .strPrefix _ _ _, .string => True
  | .slice _ _ _, .string => True
  | .tuple ps, .tuple ts => Pat.haveTys ds ps ts
  | .nil, .list _ => True
  | .cons h t, .list e => h.hasTy ds e ∧ t.hasTy ds (.list e)
  | .variant i ps, .named n args _ =>
    ∃ fields, (constructors ds n args)[i]? = some fields ∧ Pat.haveTys ds ps fields
  | .bits _ _, .bitArray => True
  | _, _ => False
def Pat.haveTys (ds : Decls) : List (Pat B) → List Ty → Prop
  | [], [] => True
  | p :: ps, t :: ts => p.hasTy ds t ∧ Pat.haveTys ds ps ts
  | _, _ => False
end

/-! ### Moving unconditional patterns -/

def evalBinds (env : Env B) (l : List (Name × Bound B)) : Bindings B :=
  l.map fun p => (p.1, p.2.value env)

def BitSys.UnaliasLaw (B : BitSys) : Prop := ∀ t b, B.holds (B.unalias t) b = B.holds t b

theorem stripTests_run (hu : B.UnaliasLaw) (env : Env B) (v : Var) : ∀ ts : List (BTest B),
    runTests (env v) ts =
      (runTests (env v) (stripTests v ts).2).map fun l => evalBinds env (stripTests v ts).1 ++ l
  | [] => rfl
  | .bind x r :: ts => by
    simp only [runTests, stripTests]
    rw [stripTests_run hu env v ts, Option.map_map]
    rfl
  | .discard :: ts => by simp only [runTests, stripTests]; exact stripTests_run hu env v ts
  | .check (some (x, c)) t :: ts => by
    have : testHolds (B.unalias t) (env v) = testHolds t (env v) := by
      cases env v <;> first | rfl | exact hu _ _
    simp only [runTests, stripTests, this]
    split
    · simp [evalBinds, Bound.value, Function.comp_def]
    · rfl
  | .check none t :: ts => by
    simp only [runTests, stripTests]
    split <;> simp [evalBinds, Function.comp_def]

theorem stripTests_isSome (hu : B.UnaliasLaw) (env : Env B) (v : Var) (ts : List (BTest B)) :
    (runTests (env v) (stripTests v ts).2).isSome = (runTests (env v) ts).isSome := by
  rw [stripTests_run hu env v ts]; simp

def leftRun (v : Val B.Bits) : Option (Pat B) → Option (Bindings B)
  | none => some []
  | some p => p.run v

/-- What is left of a check matches whenever the check does. -/
theorem movePat_isSome (hu : B.UnaliasLaw) (env : Env B) (taken : List Nat) (v : Var) :
    ∀ p : Pat B, (leftRun (env v) (movePat taken v p).left).isSome = (p.run (env v)).isSome
  | .var x => rfl
  | .discard => rfl
  | .assign x p => by
    have := movePat_isSome hu env taken v p
    simp only [movePat, Pat.run, Option.isSome_map]
    exact this
  | .strPrefix s none rest => rfl
  | .strPrefix s (some (c, x)) rest => by
    have : ∀ w, ((Pat.strPrefix (B := B) s none rest).run w).isSome =
        ((Pat.strPrefix (B := B) s (some (c, x)) rest).run w).isSome := by
      intro w
      cases w <;> simp only [Pat.run]
      split <;> rfl
    simp only [movePat]
    split <;> exact this _
  | .slice s name rest => rfl
  | .bits cell ts => by
    simp only [movePat, Pat.run]
    rw [← stripTests_isSome hu env v ts]
    split
    · rename_i h
      rw [List.isEmpty_iff.1 h]; rfl
    · rfl
  | .int i => rfl
  | .float f => rfl
  | .str s => rfl
  | .tuple ps => rfl
  | .variant i ps => rfl
  | .nil => rfl
  | .cons h t => rfl

theorem moveChecks_isSome (hu : B.UnaliasLaw) (env : Env B) : ∀ (cs : List (PCheck B))
    (taken : List Nat),
    (runChecks env (moveChecks taken cs).1).isSome = (runChecks env cs).isSome
  | [], _ => rfl
  | (v, p) :: cs, taken => by
    have ih := moveChecks_isSome hu env cs (movePat taken v p).taken
    have hp := movePat_isSome hu env taken v p
    simp only [moveChecks]
    rw [runChecks_append, seq2_isSome, ih, runChecks_cons, seq2_isSome]
    congr 1
    rw [← hp]
    cases (movePat taken v p).left with
    | none => rfl
    | some q =>
      simp only [Option.map_some, Option.toList, runChecks_cons, runChecks, seq2_nil']
      rfl

/-- The cells a check takes names out of. -/
def Pat.cells : Pat B → List Nat
  | .assign _ p => p.cells
  | .strPrefix _ (some (c, _)) _ => [c]
  | .bits (some c) ts => if (stripTests ⟨0, .int⟩ ts).1.isEmpty then [] else [c]
  | _ => []

theorem stripTests_isEmpty (v w : Var) : ∀ ts : List (BTest B),
    (stripTests v ts).1.isEmpty = (stripTests w ts).1.isEmpty
  | [] => rfl
  | .bind x r :: ts => rfl
  | .discard :: ts => stripTests_isEmpty v w ts
  | .check (some (x, c)) t :: ts => rfl
  | .check none t :: ts => rfl

theorem strPrefix_run_named (s : Lit) (c : Nat) (x : Name) (rest : Option Name)
    (w : Val B.Bits) :
    (Pat.strPrefix (B := B) s (some (c, x)) rest).run w =
      ((Pat.strPrefix (B := B) s none rest).run w).map fun l => (x, Val.str s.decode) :: l := by
  cases w <;> simp only [Pat.run, Option.map_none]
  split <;> simp [nameBinds]

/-- If its cells have not been taken, a check binds the same after it has been moved. -/
theorem movePat_run (hu : B.UnaliasLaw) (env : Env B) (taken : List Nat) (v : Var) :
    ∀ p : Pat B, (∀ c ∈ p.cells, c ∉ taken) →
      p.run (env v) = seq2 (some (evalBinds env (movePat taken v p).binds))
        (leftRun (env v) (movePat taken v p).left)
  | .var x, _ => rfl
  | .discard, _ => rfl
  | .assign x p, h => by
    have ih := movePat_run hu env taken v p h
    simp only [movePat, Pat.run, ih]
    cases leftRun (env v) (movePat taken v p).left <;> simp [seq2, evalBinds, Bound.value]
  | .strPrefix s none rest, _ => by simp [movePat, evalBinds, seq2_nil, leftRun]
  | .strPrefix s (some (c, x)) rest, h => by
    have hc : c ∉ taken := h c (by simp [Pat.cells])
    rw [strPrefix_run_named]
    simp only [movePat, if_neg hc, leftRun]
    rfl
  | .slice s name rest, _ => by
    cases name <;> cases rest <;>
      simp [movePat, Pat.run, leftRun, seq2, evalBinds, sliceBindings, Bound.value, nameBinds]
  | .bits cell ts, h => by
    simp only [movePat, Pat.run]
    rw [stripTests_run hu env v ts]
    have hb : evalBinds env (if cell.any (· ∈ taken) then [] else (stripTests v ts).1) =
        evalBinds env (stripTests v ts).1 := by
      cases cell with
      | none => simp
      | some c =>
        by_cases hc : c ∈ taken
        · have : (stripTests v ts).1.isEmpty = true := by
            rw [stripTests_isEmpty v ⟨0, .int⟩]
            by_contra hne
            exact h c (by simp [Pat.cells, hne]) hc
          simp [hc, List.isEmpty_iff.1 this]
        · simp [hc]
    rw [hb]
    split
    · rename_i h
      rw [List.isEmpty_iff.1 h]; rfl
    · rfl
  | .int i, _ => by simp [movePat, evalBinds, seq2_nil, leftRun]
  | .float f, _ => by simp [movePat, evalBinds, seq2_nil, leftRun]
  | .str s, _ => by simp [movePat, evalBinds, seq2_nil, leftRun]
  | .tuple ps, _ => by simp [movePat, evalBinds, seq2_nil, leftRun]
  | .variant i ps, _ => by simp [movePat, evalBinds, seq2_nil, leftRun]
  | .nil, _ => by simp [movePat, evalBinds, seq2_nil, leftRun]
  | .cons h t, _ => by simp [movePat, evalBinds, seq2_nil, leftRun]

theorem movePat_taken (taken : List Nat) (v : Var) : ∀ (p : Pat B) (c : Nat),
    c ∈ (movePat taken v p).taken → c ∈ p.cells ∨ c ∈ taken
  | .var x, c, h => .inr h
  | .discard, c, h => .inr h
  | .assign x p, c, h => movePat_taken taken v p c h
  | .strPrefix s none rest, c, h => .inr h
  | .strPrefix s (some (d, x)) rest, c, h => by
    simp only [movePat] at h
    split at h
    · exact .inr h
    · simpa [Pat.cells] using h
  | .slice s name rest, c, h => .inr h
  | .bits cell ts, c, h => by
    simp only [movePat] at h
    split at h
    · exact .inr h
    · rename_i he
      rw [stripTests_isEmpty v ⟨0, .int⟩] at he
      cases cell with
      | none => exact .inr (by simpa using h)
      | some d => simpa [Pat.cells, he] using h
  | .int i, c, h => .inr h
  | .float f, c, h => .inr h
  | .str s, c, h => .inr h
  | .tuple ps, c, h => .inr h
  | .variant i ps, c, h => .inr h
  | .nil, c, h => .inr h
  | .cons _ _, c, h => .inr h

def checksCells (cs : List (PCheck B)) : List Nat := cs.flatMap fun c => c.2.cells

theorem moveChecks_taken : ∀ (cs : List (PCheck B)) (taken : List Nat) (c : Nat),
    c ∈ (moveChecks taken cs).2.2 → c ∈ checksCells cs ∨ c ∈ taken
  | [], taken, c, h => .inr h
  | (v, p) :: cs, taken, c, h => by
    simp only [moveChecks] at h
    rcases moveChecks_taken cs _ c h with h | h
    · exact .inl (by simp [checksCells] at h ⊢; exact .inr h)
    · rcases movePat_taken taken v p c h with h | h
      · exact .inl (by simp [checksCells, h])
      · exact .inr h

theorem moveChecks_run (hu : B.UnaliasLaw) (env : Env B) : ∀ (cs : List (PCheck B))
    (taken : List Nat), (checksCells cs).Nodup → (∀ c ∈ checksCells cs, c ∉ taken) →
    Same (runChecks env cs) (seq2 (some (evalBinds env (moveChecks taken cs).2.1))
      (runChecks env (moveChecks taken cs).1))
  | [], taken, _, _ => Same.refl _
  | (v, p) :: cs, taken, hn, hd => by
    have hn' : (p.cells ++ checksCells cs).Nodup := by simpa [checksCells] using hn
    have hnp := List.nodup_append.1 hn'
    have hp := movePat_run hu env taken v p fun c hc => hd c (by simp [checksCells, hc])
    have ih := moveChecks_run hu env cs (movePat taken v p).taken hnp.2.1 (by
      intro c hc ht
      rcases movePat_taken taken v p c ht with h | h
      · exact hnp.2.2 c h c hc rfl
      · exact hd c (by simp [checksCells] at hc ⊢; exact .inr hc) h)
    simp only [moveChecks]
    rw [runChecks_cons]
    simp only
    rw [hp, runChecks_append]
    have hl : runChecks env ((movePat taken v p).left.map fun q => (v, q)).toList =
        leftRun (env v) (movePat taken v p).left := by
      cases (movePat taken v p).left with
      | none => rfl
      | some q => simp [runChecks_cons, runChecks, seq2_nil', leftRun]
    rw [hl]
    refine (seq2_same (Same.refl _) ih).trans ?_
    have he : evalBinds env ((movePat taken v p).binds ++
        (moveChecks (movePat taken v p).taken cs).2.1) =
        evalBinds env (movePat taken v p).binds ++
          evalBinds env (moveChecks (movePat taken v p).taken cs).2.1 := by
      simp [evalBinds]
    rw [he]
    cases leftRun (env v) (movePat taken v p).left with
    | none => exact .none
    | some l =>
      cases runChecks env (moveChecks (movePat taken v p).taken cs).1 with
      | none => exact .none
      | some m =>
        refine .some ?_
        simp only [List.append_assoc]
        refine List.Perm.append_left _ ?_
        rw [← List.append_assoc, ← List.append_assoc]
        exact List.Perm.append_right _ List.perm_append_comm

theorem moveBranch_run (hu : B.UnaliasLaw) (env : Env B) (b : Branch B) (taken : List Nat)
    (hn : (checksCells b.checks).Nodup) (hd : ∀ c ∈ checksCells b.checks, c ∉ taken) :
    Same ((moveBranch taken b).1.run env) (b.run env) := by
  have h := moveChecks_run hu env b.checks taken hn hd
  rw [Branch.run_eq, Branch.run_eq]
  refine Same.trans ?_ (seq2_same (Same.refl _) h.symm)
  rw [← seq2_assoc]
  apply Same.of_eq
  congr 1
  simp [moveBranch, Body.values, evalBinds, seq2]

theorem moveBranch_isSome (hu : B.UnaliasLaw) (env : Env B) (b : Branch B) (taken : List Nat) :
    ((moveBranch taken b).1.run env).isSome = (b.run env).isSome := by
  simp only [Branch.run, Option.isSome_map]
  exact moveChecks_isSome hu env b.checks taken

end Verif.Case
