import Verif.Case.Root
import Verif.JsCase.Spec

/-!
# The values of the variables of a body exist

Lemmas: the branches of the compiler only read segments of bit arrays and only drop prefixes that
strings have.
-/

namespace Verif.JsCase

open Verif.Case

variable {B : BitSys}

mutual
/-- The pattern is not, and has no part that is, what is left of a prefix that was found. -/
def unsliced : Pat B → Bool
  | .assign _ p => unsliced p
  | .slice _ _ _ => false
  | .tuple ps => unslicedAll ps
  | .variant _ ps => unslicedAll ps
  | .cons h t => unsliced h && unsliced t
  | _ => true
/-- The same for a list. -/
def unslicedAll : List (Pat B) → Bool
  | [] => true
  | p :: ps => unsliced p && unslicedAll ps
end

theorem unslicedAll_mem : ∀ {ps : List (Pat B)}, unslicedAll ps = true → ∀ p ∈ ps,
    unsliced p = true
  | [], _, p, hp => by simp at hp
  | q :: ps, h, p, hp => by
    simp only [unslicedAll, Bool.and_eq_true] at h
    simp only [List.mem_cons] at hp
    rcases hp with rfl | hp
    · exact h.1
    · exact unslicedAll_mem h.2 p hp

mutual
theorem register_unsliced : ∀ (p : SrcPat B) (n : Nat), unsliced (register n p).1 = true
  | .discard, n => by simp [register, unsliced]
  | .var _, n => by simp [register, unsliced]
  | .assign _ p, n => by simp [register, unsliced, register_unsliced p n]
  | .int _, n => by simp [register, unsliced]
  | .float _, n => by simp [register, unsliced]
  | .str _, n => by simp [register, unsliced]
  | .strPrefix _ _ _, n => by simp [register, unsliced]
  | .tuple ps, n => by simp [register, unsliced, registers_unsliced ps n]
  | .list es tail, n => by
    simp only [register]
    exact foldr_unsliced (registers_unsliced es _) (registerTail_unsliced tail n)
  | .variant _ ps, n => by simp [register, unsliced, registers_unsliced ps n]
  | .bits _, n => by simp [register, unsliced]
theorem registers_unsliced : ∀ (ps : List (SrcPat B)) (n : Nat),
    unslicedAll (registers n ps).1 = true
  | [], n => by simp [registers, unslicedAll]
  | p :: ps, n => by
    simp [registers, unslicedAll, register_unsliced p n, registers_unsliced ps _]
theorem registerTail_unsliced : ∀ (p : Option (SrcPat B)) (n : Nat),
    unsliced (registerTail n p).1 = true
  | none, n => by simp [registerTail, unsliced]
  | some p, n => by simp [registerTail, register_unsliced p n]
theorem foldr_unsliced : ∀ {ps : List (Pat B)} {q : Pat B}, unslicedAll ps = true →
    unsliced q = true → unsliced (ps.foldr .cons q) = true
  | [], q, _, h => h
  | p :: ps, q, h1, h2 => by
    simp only [unslicedAll, Bool.and_eq_true] at h1
    simp [unsliced, h1.1, foldr_unsliced h1.2 h2]
end

/-- What is left of a prefix is left of a string that has it. -/
def SliceOk (env : Env B) (c : PCheck B) : Prop :=
  unsliced c.2 = true ∨ ∃ s name rest, c.2 = .slice s name rest ∧ BoundFits env (.strSlice c.1 s)

theorem stripTests_fits {env : Env B} {v : Var} (hv : ∃ b, env v = .bits b) :
    ∀ ts : List (BTest B), ∀ e ∈ (stripTests v ts).1, BoundFits env e.2
  | [], e, h => by simp [stripTests] at h
  | .bind x r :: ts, e, h => by
    simp only [stripTests, List.mem_cons] at h
    rcases h with rfl | h
    · exact hv
    · exact stripTests_fits hv ts e h
  | .discard :: ts, e, h => stripTests_fits hv ts e h
  | .check (some (x, c)) t :: ts, e, h => by
    simp only [stripTests, List.mem_singleton] at h
    subst h
    trivial
  | .check none t :: ts, e, h => by simp [stripTests] at h

theorem movePat_fits {ds : Decls} {env : Env B} (taken : List Nat) (v : Var)
    (hv : (env v).hasTy ds v.ty) : ∀ p : Pat B, SliceOk env (v, p) → p.hasTy ds v.ty →
    (∀ e ∈ (movePat taken v p).binds, BoundFits env e.2) ∧
      ∀ q, (movePat taken v p).left = some q → unsliced q = true
  | .var x, _, _ => by simp [movePat, BoundFits]
  | .discard, _, _ => by simp [movePat]
  | .assign x p, h, ht => by
    have h' : SliceOk env (v, p) := by
      rcases h with h | ⟨s, name, rest, h, -⟩
      · exact .inl (by simpa only [unsliced] using h)
      · simp at h
    obtain ⟨h1, h2⟩ := movePat_fits taken v hv p h' (by simpa only [Pat.hasTy] using ht)
    refine ⟨?_, h2⟩
    intro e he
    simp only [movePat, List.mem_cons] at he
    rcases he with rfl | he
    · trivial
    · exact h1 e he
  | .strPrefix s none rest, _, _ => by simp [movePat, unsliced]
  | .strPrefix s (some (c, x)) rest, _, _ => by
    simp only [movePat]
    split <;> simp [BoundFits, unsliced]
  | .slice s name rest, h, _ => by
    rcases h with h | ⟨s', name', rest', h, hf⟩
    · simp [unsliced] at h
    · simp only [Pat.slice.injEq] at h
      obtain ⟨rfl, rfl, rfl⟩ := h
      refine ⟨?_, by simp [movePat]⟩
      intro e he
      simp only [movePat, sliceBindings, List.mem_append, Option.mem_toList, Option.mem_def,
        Option.map_eq_some_iff] at he
      rcases he with ⟨x, -, rfl⟩ | ⟨x, -, rfl⟩
      · trivial
      · exact hf
  | .bits cell ts, _, ht => by
    have hb : ∃ b, env v = .bits b := by
      have hty : v.ty = .bitArray := by
        revert ht
        generalize v.ty = t
        cases t <;> simp [Pat.hasTy]
      rw [hty] at hv
      revert hv
      generalize env v = x
      cases x <;> simp [Val.hasTy]
    refine ⟨?_, ?_⟩
    · intro e he
      simp only [movePat] at he
      split at he
      · simp at he
      · exact stripTests_fits hb ts e he
    · intro q hq
      simp only [movePat] at hq
      split at hq
      · simp at hq
      · simp only [Option.some.injEq] at hq
        subst hq
        rfl
  | .int i, _, _ => by simp [movePat, unsliced]
  | .float f, _, _ => by simp [movePat, unsliced]
  | .str s, _, _ => by simp [movePat, unsliced]
  | .tuple ps, h, _ => by
    refine ⟨by simp [movePat], ?_⟩
    intro q hq
    simp only [movePat, Option.some.injEq] at hq
    subst hq
    rcases h with h | ⟨s, name, rest, h, -⟩
    · exact h
    · simp at h
  | .variant i ps, h, _ => by
    refine ⟨by simp [movePat], ?_⟩
    intro q hq
    simp only [movePat, Option.some.injEq] at hq
    subst hq
    rcases h with h | ⟨s, name, rest, h, -⟩
    · exact h
    · simp at h
  | .nil, _, _ => by simp [movePat, unsliced]
  | .cons a b, h, _ => by
    refine ⟨by simp [movePat], ?_⟩
    intro q hq
    simp only [movePat, Option.some.injEq] at hq
    subst hq
    rcases h with h | ⟨s, name, rest, h, -⟩
    · exact h
    · simp at h

/-- The values of the variables a branch has bound, and will bind, exist. -/
structure Readable (env : Env B) (b : Branch B) : Prop where
  binds : ∀ p ∈ b.body.bindings, BoundFits env p.2
  slices : ∀ c ∈ b.checks, SliceOk env c

theorem moveChecks_fits {ds : Decls} {env : Env B} : ∀ (cs : List (PCheck B)) (taken : List Nat),
    (∀ c ∈ cs, SliceOk env c ∧ c.2.hasTy ds c.1.ty ∧ (env c.1).hasTy ds c.1.ty) →
    (∀ e ∈ (moveChecks taken cs).2.1, BoundFits env e.2) ∧
      ∀ c ∈ (moveChecks taken cs).1, unsliced c.2 = true
  | [], taken, _ => by simp [moveChecks]
  | (v, p) :: cs, taken, h => by
    obtain ⟨h1, h2, h3⟩ := h (v, p) (by simp)
    obtain ⟨k1, k2⟩ := movePat_fits taken v h3 p h1 h2
    obtain ⟨k3, k4⟩ := moveChecks_fits cs (movePat taken v p).taken fun c hc => h c (by simp [hc])
    refine ⟨?_, ?_⟩
    · intro e he
      simp only [moveChecks, List.mem_append] at he
      rcases he with he | he
      · exact k1 e he
      · exact k3 e he
    · intro c hc
      simp only [moveChecks, List.mem_append, Option.mem_toList, Option.mem_def,
        Option.map_eq_some_iff] at hc
      rcases hc with ⟨q, hq, rfl⟩ | hc
      · exact k2 q hq
      · exact k4 c hc

theorem Readable.move {ds : Decls} {n : Nat} {env : Env B} {b : Branch B} (h : Readable env b)
    (hb : BranchOk ds n env b) (t : List Nat) : Readable env (moveBranch t b).1 := by
  obtain ⟨h1, h2⟩ := moveChecks_fits (ds := ds) (env := env) b.checks t fun c hc =>
    ⟨h.slices c hc, hb.pat c hc, hb.val c hc⟩
  refine ⟨?_, fun c hc => .inl (h2 c hc)⟩
  intro p hp
  simp only [moveBranch, List.mem_append] at hp
  rcases hp with hp | hp
  · exact h.binds p hp
  · exact h1 p hp

theorem BoundFits.agree {env env' : Env B} {b : Bound B} (h : BoundFits env b)
    (he : ∀ v, b.var? = some v → env' v = env v) : BoundFits env' b := by
  cases b with
  | var v => trivial
  | const c => trivial
  | bitSlice v r =>
    simp only [BoundFits] at h ⊢
    rw [he v rfl]; exact h
  | strSlice v s =>
    simp only [BoundFits] at h ⊢
    rw [he v rfl]; exact h

theorem SliceOk.agree {env env' : Env B} {c : PCheck B} (h : SliceOk env c)
    (he : env' c.1 = env c.1) : SliceOk env' c := by
  rcases h with h | ⟨s, name, rest, h1, h2⟩
  · exact .inl h
  · refine .inr ⟨s, name, rest, h1, h2.agree ?_⟩
    intro v hv
    simp only [Bound.var?, Option.some.injEq] at hv
    rw [← hv]; exact he

theorem Readable.agree {ds : Decls} {n : Nat} {env env' : Env B} {b : Branch B}
    (h : Readable env b) (hb : BranchOk ds n env b) (he : ∀ w : Var, w.id < n → env' w = env w) :
    Readable env' b :=
  ⟨fun p hp => (h.binds p hp).agree fun v hv => he v (hb.binds p hp v hv),
    fun c hc => (h.slices c hc).agree (he _ (hb.below c hc))⟩

theorem Readable.derived {ds : Decls} {n : Nat} {env env' : Env B} {v : Var} {b : Branch B}
    {p : Pat B} {cs new : List (PCheck B)} (h : Readable env b) (hb : BranchOk ds n env b)
    (hpop : popCheck v b.checks = some (p, cs)) (he : ∀ w : Var, w.id < n → env' w = env w)
    (hnew : ∀ d ∈ new, SliceOk env' d) : Readable env' ((b.popped cs).add new) := by
  have h' := h.agree hb he
  refine ⟨h'.binds, fun c hc => ?_⟩
  simp only [Branch.add, Branch.popped, List.mem_append] at hc
  rcases hc with hc | hc
  · exact h'.slices c ((popCheck_mem hpop).2 c hc)
  · exact hnew c hc

theorem SliceOk.stuck {env : Env B} {v : Var} {p : Pat B} (h : SliceOk env (v, p)) (hs : p.stuck) :
    unsliced p = true := by
  rcases h with h | ⟨s, name, rest, rfl, -⟩
  · exact h
  · simp [Pat.stuck] at hs

theorem newChecks_slices {env' : Env B} {v : Var} {p : Pat B} {c : Check B}
    {new : List (PCheck B)} (hp : unsliced p = true) (hr : Related p c)
    (hh : c.holds (env' v) = true) (h : newChecks v p c = some new) : ∀ d ∈ new, SliceOk env' d := by
  cases p <;> cases c <;>
    simp only [newChecks, Option.some.injEq, reduceCtorEq] at h <;> subst h <;>
    try (intro d hd; simp at hd; done)
  case str.strPrefix s s0 r0 =>
    intro d hd
    simp only [List.mem_singleton] at hd
    subst hd
    exact .inl rfl
  case strPrefix.strPrefix s name rest s0 r0 =>
    intro d hd
    simp only [newPrefixChecks] at hd
    split at hd
    · split at hd
      · simp only [List.mem_singleton] at hd
        subst hd
        cases rest <;> exact .inl rfl
      · simp only [List.mem_singleton] at hd
        subst hd
        exact .inl rfl
    · rename_i hno
      split at hd
      · simp at hd
      · simp only [List.mem_singleton] at hd
        subst hd
        refine .inr ⟨s, name.map Prod.snd, rest, rfl, ?_⟩
        simp only [Related] at hr
        have hss : s <+: s0 := by
          rcases hr with hr | hr
          · rw [isPrefixOf_eq] at hno
            exact absurd hr hno
          · exact hr
        revert hh
        simp only [BoundFits]
        generalize env' v = x
        intro hh
        cases x <;> simp only [Check.holds, decide_eq_true_eq, Bool.false_eq_true] at hh
        exact ⟨_, rfl, (decode_prefix hss).trans hh⟩
  case tuple.tuple ps vs =>
    intro d hd
    simp only [unsliced] at hp
    exact .inl (unslicedAll_mem hp _ (List.of_mem_zip hd).2)
  case variant.variant i ps e j vs =>
    intro d hd
    simp only [unsliced] at hp
    exact .inl (unslicedAll_mem hp _ (List.of_mem_zip hd).2)
  case cons.cons p q a b =>
    intro d hd
    simp only [unsliced, Bool.and_eq_true] at hp
    simp only [List.mem_cons, List.not_mem_nil, or_false] at hd
    rcases hd with rfl | rfl
    · exact .inl hp.1
    · exact .inl hp.2

end Verif.JsCase
