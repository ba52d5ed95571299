import Verif.Case.Split

/-!
# Splitting keeps branches well formed and sound

Lemmas: the steps of the splitter, and the path a value takes through a compiled switch.
-/

namespace Verif.Case

variable {B : BitSys}

theorem env_set_nil (env : Env B) : env.set [] = env := rfl

theorem leftTests_isSome (hs : B.Sound) (pivot : B.Test) {x : Val B.Bits}
    (hx : testHolds pivot x = true) : ∀ ts : List (BTest B),
    (runTests x (leftTests pivot ts)).isSome = (runTests x ts).isSome
  | [] => rfl
  | .bind y r :: ts => by
    have ih := leftTests_isSome hs pivot hx ts
    simp only [leftTests, BTest.test, Option.any_none, Bool.not_false, List.filter_cons, if_true,
      runTests, Option.isSome_map]
    exact ih
  | .discard :: ts => by
    have ih := leftTests_isSome hs pivot hx ts
    simp only [leftTests, BTest.test, Option.any_none, Bool.not_false, List.filter_cons, if_true,
      runTests]
    exact ih
  | .check as t :: ts => by
    have ih := leftTests_isSome hs pivot hx ts
    simp only [leftTests, BTest.test, Option.any_some, List.filter_cons, runTests]
    by_cases h : B.succeedsIfSucceeding t pivot = true
    · have ht : testHolds t x = true := by
        cases x <;> simp only [testHolds] at hx ⊢ <;> first | exact hs.succeeds t pivot _ h hx | simp at hx
      simp only [h, Bool.not_true, Bool.false_eq_true, if_false, ht, if_true, Option.isSome_map]
      exact ih
    · have h : B.succeedsIfSucceeding t pivot = false := by simpa using h
      simp only [h, Bool.not_false, if_true, runTests]
      split
      · simp only [Option.isSome_map]; exact ih
      · rfl

theorem Check.bits_holds (t : B.Test) (x : Val B.Bits) :
    (Check.bits (B := B) t).holds x = testHolds t x := by cases x <;> rfl

theorem Check.bits_binds (t : B.Test) (x : Val B.Bits) :
    (Check.bits (B := B) t).binds x = [] := by cases x <;> rfl

theorem pivotTest_cases {ts : List (BTest B)} {chs : List (Check B × List (Branch B))}
    {r : B.Test × List (Branch B)} (h : pivotTest ts chs = some r) :
    (chs = [] ∧ r.2 = [] ∧ ts.head?.bind BTest.test = some r.1) ∨ chs = [(.bits r.1, r.2)] := by
  unfold pivotTest at h
  split at h
  · simp only [Option.map_eq_some_iff] at h
    obtain ⟨t, ht, rfl⟩ := h
    exact .inl ⟨rfl, rfl, ht⟩
  · simp only [Option.some.injEq] at h
    subst h
    exact .inr rfl
  · simp at h

/-- A branch that is about to be added. -/
structure Adding (ds : Decls) (n0 : Nat) (env : Env B) (v : Var) (b : Branch B) (p : Pat B)
    (cs : List (PCheck B)) : Prop where
  ok : BranchOk ds n0 env b
  stuck : b.stuck
  pop : popCheck v b.checks = some (p, cs)

namespace Adding

variable {ds : Decls} {n0 : Nat} {env : Env B} {v : Var} {b : Branch B} {p : Pat B}
  {cs : List (PCheck B)}

theorem mem (h : Adding ds n0 env v b p cs) : (v, p) ∈ b.checks := (popCheck_mem h.pop).1
theorem var (h : Adding ds n0 env v b p cs) : v.id < n0 := h.ok.below _ h.mem
theorem pat (h : Adding ds n0 env v b p cs) : p.hasTy ds v.ty := h.ok.pat _ h.mem
theorem val (h : Adding ds n0 env v b p cs) : (env v).hasTy ds v.ty := h.ok.val _ h.mem
theorem pstuck (h : Adding ds n0 env v b p cs) : p.stuck := h.stuck _ h.mem

/-- The branch in the list of a choice. -/
theorem joined_ok (h : Adding ds n0 env v b p cs) {n : Nat} (hn : n0 ≤ n) {c : Check B}
    (hc : CheckOk ds n0 n v.ty c) (hr : Related p c) {new : List (PCheck B)}
    (hnew : newChecks v p c = some new) (hh : c.holds (env v) = true) :
    BranchOk ds n (env.set (c.binds (env v))) ((b.popped cs).add new) :=
  derived_ok h.ok h.pop (fun _ hw => env_set_old hc env _ hw) hn
    (newChecks_ok hc hn h.var h.pat h.pstuck h.val hh hr hnew)

theorem joined_run (h : Adding ds n0 env v b p cs) {n : Nat} {c : Check B}
    (hc : CheckOk ds n0 n v.ty c) (hr : Related p c) {new : List (PCheck B)}
    (hnew : newChecks v p c = some new) (hh : c.holds (env v) = true) :
    Same (((b.popped cs).add new).run (env.set (c.binds (env v)))) (b.run env) :=
  derived_run h.ok h.pop (fun _ hw => env_set_old hc env _ hw)
    (Same.of_eq (newChecks_run hc h.var h.pat h.pstuck h.val hh hr hnew))

/-- The branch with its check on the pivot put back. -/
theorem back_ok (h : Adding ds n0 env v b p cs) {n : Nat} (hn : n0 ≤ n) :
    BranchOk ds n env ((b.popped cs).add [(v, p)]) :=
  derived_ok h.ok h.pop (fun _ _ => rfl) hn fun d hd => by
    simp only [List.mem_singleton] at hd
    subst hd
    exact ⟨Nat.lt_of_lt_of_le h.var hn, h.pat, h.val⟩

theorem back_run (h : Adding ds n0 env v b p cs) :
    Same (((b.popped cs).add [(v, p)]).run env) (b.run env) :=
  derived_run h.ok h.pop (fun _ _ => rfl)
    (Same.of_eq (by simp [runChecks_cons, runChecks, seq2_nil']))

theorem bits_ok (h : Adding ds n0 env v b p cs) {n : Nat} (hn : n0 ≤ n) {cell : Option Nat}
    {ts : List (BTest B)} (hp : p = .bits cell ts) (ts' : List (BTest B)) :
    BranchOk ds n env ((b.popped cs).add [(v, .bits none ts')]) :=
  derived_ok h.ok h.pop (fun _ _ => rfl) hn fun d hd => by
    simp only [List.mem_singleton] at hd
    subst hd
    refine ⟨Nat.lt_of_lt_of_le h.var hn, ?_, h.val⟩
    have := h.pat
    rw [hp] at this
    revert this
    generalize v.ty = t
    cases t <;> simp [Pat.hasTy]

theorem bits_ty (h : Adding ds n0 env v b p cs) {cell : Option Nat} {ts : List (BTest B)}
    (hp : p = .bits cell ts) : v.ty = .bitArray := by
  have := h.pat
  rw [hp] at this
  revert this
  generalize v.ty = t
  cases t <;> simp [Pat.hasTy]

end Adding

theorem tag_add (b : Branch B) (cs new : List (PCheck B)) : Tag ((b.popped cs).add new) b :=
  ⟨rfl, rfl, rfl, rfl⟩

theorem SpWf.mono {ds : Decls} {n0 n m : Nat} {env : Env B} {v : Var} {sp : Splitter B}
    (h : SpWf ds n0 n env v sp) (hm : n ≤ m) : SpWf ds n0 m env v sp :=
  ⟨Nat.le_trans h.le hm, fun ch hch => (h.checks ch hch).mono hm,
    fun ch hch hh b hb => (h.choice ch hch hh b hb).mono hm,
    h.fallback⟩

/-- Adding a branch with a bit array pattern. -/
theorem addBits_inv {ds : Decls} {n0 n : Nat} {env : Env B} {v : Var} {b : Branch B} {p : Pat B}
    {cs : List (PCheck B)} {cell : Option Nat} {ts : List (BTest B)} {sp sp' : Splitter B}
    {bs : List (Branch B)} (hs : B.Sound) (ha : Adding ds n0 env v b p cs)
    (hp : p = .bits cell ts) (hw : SpWf ds n0 n env v sp) (hd : SpSound env v bs sp)
    (h : addBits sp v p ts (b.popped cs) = some sp') :
    SpWf ds n0 n env v sp' ∧ SpSound env v (bs ++ [b]) sp' := by
  simp only [addBits, Option.map_eq_some_iff] at h
  obtain ⟨r, hr, rfl⟩ := h
  have hbase : testHolds r.1 (env v) = true → ∀ b' ∈ r.2, BranchOk ds n env b' ∧
      ∃ b0 ∈ bs, Tag b' b0 ∧ ((b'.run env).isSome → (b0.run env).isSome) := by
    intro hh b' hb'
    rcases pivotTest_cases hr with ⟨_, h2, _⟩ | h2
    · rw [h2] at hb'; simp at hb'
    · have h1 := hw.choice (.bits r.1, r.2) (by simp [h2]) (by rw [Check.bits_holds]; exact hh) b' hb'
      have h3 := hd.choice (.bits r.1, r.2) (by simp [h2]) (by rw [Check.bits_holds]; exact hh) b' hb'
      simp only [Check.bits_binds, env_set_nil] at h1 h3
      exact ⟨h1, h3⟩
  have hrun : testHolds r.1 (env v) = true →
      (((b.popped cs).add [(v, .bits none (leftTests r.1 ts))]).run env).isSome =
        (b.run env).isSome := by
    intro hh
    refine derived_isSome ha.ok ha.pop (fun _ _ => rfl) ?_
    rw [hp]
    have h1 : runChecks env [(v, Pat.bits none (leftTests r.1 ts))] =
        runTests (env v) (leftTests r.1 ts) := by
      simp [runChecks, Pat.run]
    rw [h1]
    exact leftTests_isSome hs r.1 hh ts
  constructor
  · refine ⟨hw.le, ?_, ?_, ?_⟩
    · intro ch hch
      simp only [List.mem_singleton] at hch
      subst hch
      refine emptyCheck_ok ds ?_ rfl
      rw [ha.bits_ty hp]; trivial
    · intro ch hch hh b' hb'
      simp only [List.mem_singleton] at hch
      subst hch
      simp only [Check.bits_binds, env_set_nil]
      rw [Check.bits_holds] at hh
      simp only at hb'
      split at hb'
      · exact (hbase hh b' hb').1
      · simp only [List.mem_append, List.mem_singleton] at hb'
        rcases hb' with hb' | rfl
        · exact (hbase hh b' hb').1
        · exact ha.bits_ok hw.le hp _
    · intro b' hb'
      simp only at hb'
      split at hb'
      · exact hw.fallback b' hb'
      · simp only [List.mem_append, List.mem_singleton] at hb'
        rcases hb' with hb' | rfl
        · exact hw.fallback b' hb'
        · exact ha.back_ok (Nat.le_refl _)
  · refine ⟨?_, ?_⟩
    · intro ch hch hh b' hb'
      simp only [List.mem_singleton] at hch
      subst hch
      simp only [Check.bits_binds, env_set_nil]
      rw [Check.bits_holds] at hh
      have hold : b' ∈ r.2 → ∃ b0 ∈ bs ++ [b], Tag b' b0 ∧
          ((b'.run env).isSome → (b0.run env).isSome) := by
        intro hb'
        obtain ⟨-, b0, hb0, r⟩ := hbase hh b' hb'
        exact ⟨b0, by simp [hb0], r⟩
      simp only at hb'
      split at hb'
      · exact hold hb'
      · simp only [List.mem_append, List.mem_singleton] at hb'
        rcases hb' with hb' | rfl
        · exact hold hb'
        · exact ⟨b, by simp, tag_add b cs _, fun h => by rwa [hrun hh] at h⟩
    · intro b' hb'
      have hold : b' ∈ sp.fallback → ∃ b0 ∈ bs ++ [b], Tag b' b0 ∧
          ((b'.run env).isSome → (b0.run env).isSome) := by
        intro hb'
        obtain ⟨b0, hb0, r⟩ := hd.fallback b' hb'
        exact ⟨b0, by simp [hb0], r⟩
      simp only at hb'
      split at hb'
      · exact hold hb'
      · simp only [List.mem_append, List.mem_singleton] at hb'
        rcases hb' with hb' | rfl
        · exact hold hb'
        · exact ⟨b, by simp, tag_add b cs _, fun h => by rwa [ha.back_run.isSome] at h⟩

/-- What adding a branch with another pattern does to the choices. -/
theorem addKind_cases {n : Nat} {sp : Splitter B} {v : Var} {p : Pat B} {k : Kind} {b : Branch B}
    {mode : Mode} {r : Splitter B × Nat} (h : addKind n sp v p k b mode = some r) :
    ∃ chs, List.Forall₂ (JoinedTo v p b (checkOverlaps sp.choices k).overlapping) sp.choices chs ∧
      (((checkOverlaps sp.choices k).needsNew = false ∧ r = (⟨chs, sp.fallback⟩, n)) ∨
        (checkOverlaps sp.choices k).needsNew = true ∧
          ∃ c cs, freshCheck n k mode = some c ∧ newChecks v p c.1 = some cs ∧
            r = (⟨chs ++ [(c.1, sp.fallback ++ [b.add cs])], sp.fallback⟩, c.2)) := by
  simp only [addKind, Option.bind_eq_some_iff] at h
  obtain ⟨chs, hj, h⟩ := h
  refine ⟨chs, joinChoices_forall hj, ?_⟩
  split at h
  · rename_i hn
    simp only [Option.bind_eq_some_iff, Option.some.injEq] at h
    obtain ⟨c, hc, cs, hcs, rfl⟩ := h
    exact .inr ⟨hn, c, cs, hc, hcs, rfl⟩
  · rename_i hn
    simp only [Option.some.injEq] at h
    exact .inl ⟨by simpa using hn, h.symm⟩

theorem addKind_inv {ds : Decls} {n0 n : Nat} {env : Env B} {v : Var} {b : Branch B} {p : Pat B}
    {cs : List (PCheck B)} {k : Kind} {sp : Splitter B} {r : Splitter B × Nat}
    {bs : List (Branch B)} (ha : Adding ds n0 env v b p cs) (hk : p.kind = some k)
    (hw : SpWf ds n0 n env v sp) (hd : SpSound env v bs sp)
    (h : addKind n sp v p k (b.popped cs) (branchMode ds v.ty) = some r) :
    n ≤ r.2 ∧ SpWf ds n0 r.2 env v r.1 ∧ SpSound env v (bs ++ [b]) r.1 := by
  obtain ⟨chs, hj, h⟩ := addKind_cases h
  -- the choices that were there before
  have hold : SpWf ds n0 n env v ⟨chs, sp.fallback⟩ ∧
      SpSound env v (bs ++ [b]) ⟨chs, sp.fallback⟩ := by
    have hkey : ∀ ch ∈ chs, CheckOk ds n0 n v.ty ch.1 ∧ (ch.1.holds (env v) = true → ∀ b' ∈ ch.2,
        BranchOk ds n (env.set (ch.1.binds (env v))) b' ∧ ∃ b0 ∈ bs ++ [b], Tag b' b0 ∧
          ((b'.run (env.set (ch.1.binds (env v)))).isSome → (b0.run env).isSome)) := by
      intro ch hch
      obtain ⟨ch0, h0, hjt⟩ := forall₂_mem_right hj ch hch
      have hc0 := hw.checks ch0 h0
      have hprev : ch0.1.holds (env v) = true → ∀ b' ∈ ch0.2,
        BranchOk ds n (env.set (ch0.1.binds (env v))) b' ∧ ∃ b0 ∈ bs ++ [b], Tag b' b0 ∧
          ((b'.run (env.set (ch0.1.binds (env v)))).isSome → (b0.run env).isSome) := by
        intro hh b' hb'
        obtain ⟨b0, hb0, r⟩ := hd.choice ch0 h0 hh b' hb'
        exact ⟨hw.choice ch0 h0 hh b' hb', b0, by simp [hb0], r⟩
      cases hjt with
      | keep hov => exact ⟨hc0, hprev⟩
      | join hov hnew =>
        have hrel := overlapping_related hk hov
        refine ⟨matched_ok hc0, fun hh b' hb' => ?_⟩
        simp only [matched_holds] at hh
        simp only [matched_binds]
        simp only [List.mem_append, List.mem_singleton] at hb'
        rcases hb' with hb' | rfl
        · exact hprev hh b' hb'
        · exact ⟨ha.joined_ok hw.le hc0 hrel hnew hh, b, by simp, tag_add b cs _,
            fun h => by rwa [(ha.joined_run hc0 hrel hnew hh).isSome] at h⟩
    refine ⟨⟨hw.le, fun ch hch => (hkey ch hch).1,
      fun ch hch hh b' hb' => ((hkey ch hch).2 hh b' hb').1, hw.fallback⟩,
      ⟨fun ch hch hh b' hb' => ((hkey ch hch).2 hh b' hb').2, ?_⟩⟩
    intro b' hb'
    obtain ⟨b0, hb0, r⟩ := hd.fallback b' hb'
    exact ⟨b0, by simp [hb0], r⟩
  rcases h with ⟨-, rfl⟩ | ⟨-, c, new, hc, hnew, rfl⟩
  · exact ⟨Nat.le_refl n, hold⟩
  · obtain ⟨hcok, hnle, hrel⟩ := freshCheck_ok hw.le ha.pat hk hc
    have hw' := hold.1.mono hnle
    refine ⟨hnle, ⟨hw'.le, ?_, ?_, hw'.fallback⟩, ⟨?_, hold.2.fallback⟩⟩
    · intro ch hch
      simp only [List.mem_append, List.mem_singleton] at hch
      rcases hch with hch | rfl
      · exact hw'.checks ch hch
      · exact hcok
    · intro ch hch hh b' hb'
      simp only [List.mem_append, List.mem_singleton] at hch
      rcases hch with hch | rfl
      · exact hw'.choice ch hch hh b' hb'
      · simp only [List.mem_append, List.mem_singleton] at hb'
        rcases hb' with hb' | rfl
        · have := hw.fallback b' hb'
          exact this.env hw'.le fun w hw => env_set_old hcok env _ hw
        · exact ha.joined_ok hw'.le hcok hrel hnew hh
    · intro ch hch hh b' hb'
      simp only [List.mem_append, List.mem_singleton] at hch
      rcases hch with hch | rfl
      · exact hold.2.choice ch hch hh b' hb'
      · simp only [List.mem_append, List.mem_singleton] at hb'
        rcases hb' with hb' | rfl
        · obtain ⟨b0, hb0, ht, r⟩ := hd.fallback b' hb'
          refine ⟨b0, by simp [hb0], ht, fun h => r ?_⟩
          rwa [Branch.run_old (hw.fallback b' hb') fun w hw => env_set_old hcok env _ hw] at h
        · exact ⟨b, by simp, tag_add b cs _,
            fun h => by rwa [(ha.joined_run hcok hrel hnew hh).isSome] at h⟩

/-! ### The state only grows -/

/-- A later state of the compiler. -/
structure StLe (s s' : St) : Prop where
  next : s.next ≤ s'.next
  missing : s.missing = true → s'.missing = true
  reachable : ∀ x ∈ s.reachable, x ∈ s'.reachable ∨ x ∈ s'.impossibleVariants ∨
    x ∈ s'.impossibleSegments
  variants : ∀ x ∈ s.impossibleVariants, x ∈ s'.impossibleVariants
  segments : ∀ x ∈ s.impossibleSegments, x ∈ s'.impossibleSegments

theorem StLe.refl (s : St) : StLe s s :=
  ⟨Nat.le_refl _, id, fun _ h => .inl h, fun _ h => h, fun _ h => h⟩

theorem StLe.trans {a b c : St} (h1 : StLe a b) (h2 : StLe b c) : StLe a c := by
  refine ⟨Nat.le_trans h1.next h2.next, fun h => h2.missing (h1.missing h), ?_,
    fun x h => h2.variants x (h1.variants x h), fun x h => h2.segments x (h1.segments x h)⟩
  intro x hx
  rcases h1.reachable x hx with h | h | h
  · exact h2.reachable x h
  · exact .inr (.inl (h2.variants x h))
  · exact .inr (.inr (h2.segments x h))

theorem StLe.markVariant (s : St) (x : Nat × Nat) : StLe s (s.markVariant x) := by
  refine ⟨Nat.le_refl _, id, ?_, fun _ h => by simp [St.markVariant, h], fun _ h => h⟩
  intro y hy
  by_cases h : y = x
  · exact .inr (.inl (by simp [St.markVariant, h]))
  · exact .inl (by simp [St.markVariant, hy, h])

theorem StLe.markSegment (s : St) (x : Nat × Nat) : StLe s (s.markSegment x) := by
  refine ⟨Nat.le_refl _, id, ?_, fun _ h => h, fun _ h => by simp [St.markSegment, h]⟩
  intro y hy
  by_cases h : y = x
  · exact .inr (.inr (by simp [St.markSegment, h]))
  · exact .inl (by simp [St.markSegment, hy, h])

theorem StLe.reached (s : St) (x : Nat × Nat) : StLe s (s.reached x) := by
  unfold St.reached
  split
  · exact StLe.refl s
  · exact ⟨Nat.le_refl _, id, fun y h => .inl (by simp [h]), fun _ h => h, fun _ h => h⟩

theorem St.mem_reached (s : St) (x : Nat × Nat) : x ∈ (s.reached x).reachable := by
  unfold St.reached
  split
  · assumption
  · simp

theorem freshCheck_next {n : Nat} {k : Kind} {mode : Mode} {r : Check B × Nat}
    (h : freshCheck n k mode = some r) : n ≤ r.2 := by
  cases k <;> cases mode <;>
    simp only [freshCheck, variantCheck, listCheck, tupleCheck, Option.some.injEq,
      Option.map_eq_some_iff, reduceCtorEq] at h <;>
    first
    | (subst h; simp)
    | (obtain ⟨fs, -, rfl⟩ := h; simp)

theorem addChecked_next {n : Nat} {sp : Splitter B} {v : Var} {p : Pat B} {b : Branch B}
    {mode : Mode} {r : Splitter B × Nat} (h : addChecked n sp v p b mode = some r) : n ≤ r.2 := by
  have hk : ∀ k, addKind n sp v p k b mode = some r → n ≤ r.2 := by
    intro k h
    obtain ⟨chs, -, ⟨-, rfl⟩ | ⟨-, c, cs, hc, -, rfl⟩⟩ := addKind_cases h
    · exact Nat.le_refl n
    · exact freshCheck_next hc
  unfold addChecked at h
  split at h
  · simp only [Option.map_eq_some_iff] at h
    obtain ⟨s, -, rfl⟩ := h
    exact Nat.le_refl n
  · simp only [Option.bind_eq_some_iff] at h
    obtain ⟨k, -, h⟩ := h
    exact hk k h

theorem splitBranches_le {mode : Mode} {v : Var} : ∀ {bs : List (Branch B)} {st : St}
    {sp : Splitter B} {r : St × Splitter B}, splitBranches mode v st sp bs = some r → StLe st r.1
  | [], st, sp, r, h => by
    simp only [splitBranches, Option.some.injEq] at h
    subst h
    exact StLe.refl st
  | b :: bs, st, sp, r, h => by
    simp only [splitBranches] at h
    split at h
    · exact splitBranches_le h
    · split at h
      · exact (StLe.markVariant _ _).trans (splitBranches_le h)
      · split at h
        · exact (StLe.markSegment _ _).trans (splitBranches_le h)
        · simp only [Option.bind_eq_some_iff] at h
          obtain ⟨a, ha, h⟩ := h
          refine StLe.trans ?_ (splitBranches_le h)
          exact ⟨addChecked_next ha, id, fun _ h => .inl h, fun _ h => h, fun _ h => h⟩

/-- A function that compiles branches only lets the state grow. -/
def Grows (rec : St → List (Branch B) → Option (Decision B × St)) : Prop :=
  ∀ st bs r, rec st bs = some r → StLe st r.2

theorem compileChoices_le {rec : St → List (Branch B) → Option (Decision B × St)}
    (hg : Grows rec) : ∀ {chs : List (Check B × List (Branch B))} {st : St} {r : Choices B × St},
    compileChoices rec st chs = some r → StLe st r.2
  | [], st, r, h => by
    simp only [compileChoices, Option.some.injEq] at h
    subst h
    exact StLe.refl st
  | ch :: chs, st, r, h => by
    simp only [compileChoices, Option.bind_eq_some_iff, Option.some.injEq] at h
    obtain ⟨a, ha, s, hs, rfl⟩ := h
    have := compileChoices_le hg hs
    exact (hg _ _ _ ha).trans this

theorem compileSwitch_le {rec : St → List (Branch B) → Option (Decision B × St)}
    (hg : Grows rec) {st : St} {v : Var} {chs : List (Check B × List (Branch B))}
    {fb : List (Branch B)} {fc : Fallback B} {r : Decision B × St}
    (h : compileSwitch rec st v chs fb fc = some r) : StLe st r.2 := by
  simp only [compileSwitch, Option.bind_eq_some_iff, Option.some.injEq] at h
  obtain ⟨a, ha, s, hs, rfl⟩ := h
  have := hg _ _ _ hs
  exact (compileChoices_le hg ha).trans this

theorem exhaustiveSwitch_le {rec : St → List (Branch B) → Option (Decision B × St)}
    (hg : Grows rec) {st : St} {v : Var} {sp : Splitter B} {r : Decision B × St}
    (h : exhaustiveSwitch rec st v sp = some r) : StLe st r.2 := by
  unfold exhaustiveSwitch at h
  split at h
  · exact compileSwitch_le hg h
  · split at h
    · simp at h
    · exact compileSwitch_le hg h

theorem knownChecks_next {n : Nat} {mode : Mode} {r : List (Check B) × Nat}
    (h : knownChecks n mode = some r) : n ≤ r.2 := by
  have hv : ∀ (cs : List (List Ty)) (n i : Nat), n ≤ (variantChecks (B := B) n i cs).2 := by
    intro cs
    induction cs with
    | nil => intro n i; exact Nat.le_refl n
    | cons c cs ih =>
      intro n i
      exact Nat.le_trans (Nat.le_add_right _ _) (ih (n + c.length) (i + 1))
  unfold knownChecks at h
  split at h
  · simp only [Option.some.injEq] at h; subst h; exact Nat.le_refl n
  · simp only [Option.some.injEq] at h; subst h; simp [tupleCheck]
  · simp only [Option.some.injEq] at h; subst h; simp [listCheck]
  · simp only [Option.map_eq_some_iff] at h
    obtain ⟨fs, -, rfl⟩ := h
    simp [variantCheck]
  · simp only [Option.some.injEq] at h; subst h; exact hv _ _ _

theorem splitAndCompile_le {ds : Decls} {rec : St → List (Branch B) → Option (Decision B × St)}
    (hg : Grows rec) {st : St} {v : Var} {bs : List (Branch B)} {r : Decision B × St}
    (h : splitAndCompile ds rec st v bs = some r) : StLe st r.2 := by
  simp only [splitAndCompile, Option.bind_eq_some_iff] at h
  obtain ⟨kc, hkc, sp, hsp, h⟩ := h
  have h1 : StLe st { st with next := kc.2 } :=
    ⟨knownChecks_next hkc, id, fun _ h => .inl h, fun _ h => h, fun _ h => h⟩
  refine (h1.trans (splitBranches_le hsp)).trans ?_
  split at h
  · exact compileSwitch_le hg h
  · split at h
    · simp only [Option.some.injEq] at h
      subst h
      exact ⟨Nat.le_refl _, fun _ => rfl, fun _ h => .inl h, fun _ h => h, fun _ h => h⟩
    · exact exhaustiveSwitch_le hg h

theorem compile_le (ds : Decls) : ∀ fuel, Grows (B := B) (compile ds fuel)
  | 0 => fun st bs r h => by simp [compile] at h
  | fuel + 1 => fun st bs r h => by
    have ih := compile_le ds fuel
    simp only [compile] at h
    have ht : ∀ taken, StLe st { st with taken := taken } := fun _ =>
      ⟨Nat.le_refl _, id, fun _ h => .inl h, fun _ h => h, fun _ h => h⟩
    split at h
    · simp only [Option.some.injEq] at h
      subst h
      exact ⟨Nat.le_refl _, fun _ => rfl, fun _ h => .inl h, fun _ h => h, fun _ h => h⟩
    · rename_i first rest taken _
      refine ((ht taken).trans (StLe.reached _ (first.clause, first.alt))).trans ?_
      split at h
      · exact splitAndCompile_le ih h
      · split at h
        · simp only [Option.some.injEq] at h
          subst h
          exact StLe.refl _
        · simp only [Option.bind_eq_some_iff, Option.some.injEq] at h
          obtain ⟨a, ha, rfl⟩ := h
          have := ih _ _ _ ha
          exact this

/-! ### Splitting -/

/-- Some choice of a list is the one for a value. -/
def Cover (x : Val B.Bits) (chs : List (Check B × List (Branch B))) : Prop :=
  ∃ ch ∈ chs, ch.1.holds x = true

theorem knownChecks_cover {ds : Decls} {n : Nat} {t : Ty} {r : List (Check B) × Nat}
    {x : Val B.Bits} (h : knownChecks n (branchMode ds t) = some r)
    (hf : (branchMode ds t).isInfinite = false) (hr : r.1 ≠ []) (hx : x.hasTy ds t) :
    Cover x (Splitter.fromChecks r.1).choices := by
  have hc : ∀ c ∈ r.1, c.holds x = true → Cover x (Splitter.fromChecks r.1).choices :=
    fun c hc hh => ⟨(c, []), by simp [Splitter.fromChecks, hc], hh⟩
  have hv : ∀ (cs : List (List Ty)) (n i j : Nat), j < cs.length →
      ∃ vs, Check.variant false (i + j) vs ∈ (variantChecks (B := B) n i cs).1 := by
    intro cs
    induction cs with
    | nil => intro n i j hj; simp at hj
    | cons c cs ih =>
      intro n i j hj
      cases j with
      | zero => exact ⟨_, by simp only [variantChecks, variantCheck]; exact List.mem_cons_self⟩
      | succ j =>
        obtain ⟨vs, hvs⟩ := ih (n + c.length) (i + 1) j (by simpa using hj)
        refine ⟨vs, ?_⟩
        simp only [variantChecks, List.mem_cons]
        right
        have : i + (j + 1) = i + 1 + j := by omega
        rw [this]
        exact hvs
  cases t with
  | int | float | string | bitArray | fn | var i => simp [branchMode, Mode.isInfinite] at hf
  | list t =>
    simp only [knownChecks, branchMode, Option.some.injEq] at h
    subst h
    cases x <;> simp only [Val.hasTy] at hx
    · exact hc .nil (by simp) rfl
    · exact hc (listCheck n t).1 (by simp) rfl
  | tuple ts =>
    simp only [knownChecks, branchMode, Option.some.injEq] at h
    subst h
    cases x <;> simp only [Val.hasTy] at hx
    rename_i vs
    refine hc (tupleCheck n ts).1 (by simp) ?_
    have := Val.haveTys_length hx
    simp [tupleCheck, Check.holds, freshVars_length, this]
  | named m args inf =>
    cases inf with
    | none =>
      simp only [knownChecks, branchMode, Option.some.injEq] at h
      have hne : constructors ds m args ≠ [] := by
        intro h0
        rw [h0] at h
        subst h
        simp [variantChecks] at hr
      cases x <;> simp only [Val.hasTy] at hx <;> try exact absurd hx hne
      rename_i i vs
      rcases hx with hx | ⟨-, fields, hfs, -⟩
      · exact absurd hx hne
      · have hi : i < (constructors ds m args).length := by
          by_contra hlt
          rw [List.getElem?_eq_none (by omega)] at hfs
          simp at hfs
        obtain ⟨ws, hws⟩ := hv (constructors ds m args) n 0 i hi
        subst h
        refine hc _ hws ?_
        simp [Check.holds]
    | some j =>
      simp only [knownChecks, branchMode, Option.map_eq_some_iff] at h
      obtain ⟨fs, hfs, rfl⟩ := h
      have hne : constructors ds m args ≠ [] := by
        intro h0; rw [h0] at hfs; simp at hfs
      cases x <;> simp only [Val.hasTy] at hx <;> try exact absurd hx hne
      rename_i i vs
      rcases hx with hx | ⟨hi, -⟩
      · exact absurd hx hne
      · have := hi j rfl
        subst this
        refine hc _ List.mem_cons_self ?_
        simp [variantCheck, Check.holds]

theorem Cover.addFallback {x : Val B.Bits} {sp : Splitter B} (b : Branch B)
    (h : Cover x sp.choices) : Cover x (addFallback sp b).choices := by
  obtain ⟨ch, hch, hh⟩ := h
  exact ⟨(ch.1, ch.2 ++ [b]), by simp only [Verif.Case.addFallback, List.mem_map]; exact ⟨ch, hch, rfl⟩, hh⟩

theorem Cover.addKind {x : Val B.Bits} {n : Nat} {sp : Splitter B} {v : Var} {p : Pat B} {k : Kind}
    {b : Branch B} {mode : Mode} {r : Splitter B × Nat} (h : addKind n sp v p k b mode = some r)
    (hc : Cover x sp.choices) : Cover x r.1.choices := by
  obtain ⟨chs, hj, h⟩ := addKind_cases h
  have h1 : Cover x chs := by
    obtain ⟨ch, hch, hh⟩ := hc
    obtain ⟨ch', hch', hjt⟩ := forall₂_mem_left hj ch hch
    refine ⟨ch', hch', ?_⟩
    cases hjt with
    | keep hov => exact hh
    | join hov hnew => simpa only [matched_holds] using hh
  rcases h with ⟨-, rfl⟩ | ⟨-, c, cs, -, -, rfl⟩
  · exact h1
  · obtain ⟨ch, hch, hh⟩ := h1
    exact ⟨ch, by simp [hch], hh⟩

theorem addChecked_inv {ds : Decls} {n0 n : Nat} {env : Env B} {v : Var} {b : Branch B} {p : Pat B}
    {cs : List (PCheck B)} {sp : Splitter B} {r : Splitter B × Nat} {bs : List (Branch B)}
    (hs : B.Sound) (ha : Adding ds n0 env v b p cs)
    (hw : SpWf ds n0 n env v sp) (hd : SpSound env v bs sp)
    (h : addChecked n sp v p (b.popped cs) (branchMode ds v.ty) = some r) :
    SpWf ds n0 r.2 env v r.1 ∧ SpSound env v (bs ++ [b]) r.1 ∧
      ((branchMode ds v.ty).isInfinite = false → Cover (env v) sp.choices →
        Cover (env v) r.1.choices) := by
  unfold addChecked at h
  split at h
  · rename_i p cell ts
    simp only [Option.map_eq_some_iff] at h
    obtain ⟨s, hs', rfl⟩ := h
    obtain ⟨h1, h2⟩ := addBits_inv hs ha rfl hw hd hs'
    refine ⟨h1, h2, fun hf => ?_⟩
    rw [ha.bits_ty rfl] at hf
    simp [branchMode, Mode.isInfinite] at hf
  · simp only [Option.bind_eq_some_iff] at h
    obtain ⟨k, hk, h⟩ := h
    obtain ⟨-, h1, h2⟩ := addKind_inv ha hk hw hd h
    exact ⟨h1, h2, fun _ => Cover.addKind h⟩

theorem splitBranches_inv {ds : Decls} {n0 : Nat} {env : Env B} {v : Var} (hs : B.Sound) :
    ∀ {bs seen : List (Branch B)} {st : St} {sp : Splitter B} {r : St × Splitter B},
    splitBranches (branchMode ds v.ty) v st sp bs = some r →
    (∀ b ∈ bs, BranchOk ds n0 env b ∧ b.stuck) →
    SpWf ds n0 st.next env v sp → SpSound env v seen sp →
    SpWf ds n0 r.1.next env v r.2 ∧ SpSound env v (seen ++ bs) r.2 ∧
      ((branchMode ds v.ty).isInfinite = false → Cover (env v) sp.choices →
        Cover (env v) r.2.choices)
  | [], seen, st, sp, r, h, _, hw, hd => by
    simp only [splitBranches, Option.some.injEq] at h
    subst h
    exact ⟨hw, by simpa using hd, fun _ h => h⟩
  | b :: bs, seen, st, sp, r, h, hb, hw, hd => by
    have hbs : ∀ b ∈ bs, BranchOk ds n0 env b ∧ b.stuck := fun b' h' => hb b' (by simp [h'])
    obtain ⟨hbok, hbst⟩ := hb b (by simp)
    have happ : seen ++ b :: bs = (seen ++ [b]) ++ bs := by simp
    have hd' : SpSound env v (seen ++ [b]) sp := hd.mono fun b' h' => by simp [h']
    rw [happ]
    simp only [splitBranches] at h
    split at h
    · obtain ⟨h1, h2, h3⟩ := splitBranches_inv hs h hbs (hw.addFallback hbok)
        (SpSound.addFallback hw hd hbok)
      exact ⟨h1, h2, fun hf hc => h3 hf (hc.addFallback b)⟩
    · rename_i p cs hpop
      split at h
      · exact splitBranches_inv hs h hbs hw hd'
      · split at h
        · exact splitBranches_inv hs h hbs hw hd'
        · simp only [Option.bind_eq_some_iff] at h
          obtain ⟨a, ha, h⟩ := h
          obtain ⟨h1, h2, h3⟩ := addChecked_inv hs ⟨hbok, hbst, hpop⟩ hw hd ha
          obtain ⟨h4, h5, h6⟩ := splitBranches_inv hs h hbs (st := { st with next := a.2 }) h1 h2
          exact ⟨h4, h5, fun hf hc => h6 hf (h3 hf hc)⟩

end Verif.Case
