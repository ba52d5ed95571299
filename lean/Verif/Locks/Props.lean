import Verif.Locks.Model

/-
**C36**: processes never deadlock on build locks and never build the same target together.
-/
namespace Verif.Locks

/-- Different locks are different files. -/
theorem path_injective (l₁ l₂ : Lock) (h : l₁.path = l₂.path) : l₁ = l₂ := by
  cases l₁ with
  | packages =>
    cases l₂ with
    | packages => rfl
    | target m t => revert h; cases m <;> cases t <;> decide
  | target m t =>
    cases l₂ with
    | packages => revert h; cases m <;> cases t <;> decide
    | target m' t' => revert h; cases m <;> cases t <;> cases m' <;> cases t' <;> decide

example : (Lock.target .dev .erlang).path = "gleam-dev-erlang.lock" := by decide

/-! ### The order of locks -/

/-- The order in which locks are taken. -/
def rank : Lock → Nat
  | .packages => 0
  | .target .dev .erlang => 1
  | .target .dev .javascript => 2
  | .target .prod .erlang => 3
  | .target .prod .javascript => 4
  | .target .lsp .erlang => 5
  | .target .lsp .javascript => 6

/-- Locks are only taken in ascending order, all are given back at the end, whether or not errors of locking are ignored. -/
def Ordered : List Lock → List Action → Bool
  | held, [] => held.isEmpty
  | held, .acquire l strict :: rest => held.all (fun h => rank h < rank l) && Ordered (l :: held) rest && (strict || Ordered held rest)
  | held, .use _ :: rest => Ordered held rest
  | held, .release l :: rest => Ordered (held.filter fun h => decide (h ≠ l)) rest
  | held, .clean :: rest => Ordered held rest

theorem ordered_append (a b : List Action) (held : List Lock) (ha : Ordered held a = true) (hb : Ordered [] b = true) :
    Ordered held (a ++ b) = true := by
  induction a generalizing held with
  | nil =>
    simp only [Ordered, List.isEmpty_iff] at ha
    subst ha
    exact hb
  | cons x a ih =>
    cases x with
    | acquire l strict =>
      simp only [List.cons_append, Ordered, Bool.and_eq_true, Bool.or_eq_true] at ha ⊢
      exact ⟨⟨ha.1.1, ih _ ha.1.2⟩, ha.2.imp_right (ih _)⟩
    | use l => exact ih _ ha
    | release l => exact ih _ ha
    | clean => exact ih _ ha

theorem ordered_script (j : Job) : Ordered [] j.script = true := by
  cases j with
  | build m t => cases m <;> cases t <;> decide
  | download => decide +kernel
  | cleanup c => cases c <;> decide +kernel
  | lsp t => cases t <;> decide
  | clean => decide

theorem ordered_jobs (jobs : List Job) : Ordered [] (jobs.flatMap Job.script) = true := by
  induction jobs with
  | nil => rfl
  | cons j jobs ih => exact ordered_append _ _ _ (ordered_script j) ih

/-- Every process will take its locks in ascending order. -/
def AllOrdered (s : State) : Prop := ∀ p ∈ s.processes, Ordered (p.held.map (·.1)) p.todo = true

theorem forall_replace {α : Type} {P : α → Prop} {before after : List α} {p p' : α} (h : ∀ q ∈ before ++ p :: after, P q)
    (hp : P p') : ∀ q ∈ before ++ p' :: after, P q := by
  intro q hq
  simp only [List.mem_append, List.mem_cons] at hq h
  rcases hq with hq | rfl | hq
  · exact h q (.inl hq)
  · exact hp
  · exact h q (.inr (.inr hq))

theorem map_filter_fst (held : List (Lock × Nat)) (l : Lock) :
    (held.filter fun h => decide (h.1 ≠ l)).map (·.1) = (held.map (·.1)).filter fun h => decide (h ≠ l) := by
  rw [List.filter_map]; rfl

theorem allOrdered_step (a : Allowed) (s t : State) (hs : AllOrdered s) (h : Step a s t) : AllOrdered t := by
  cases h with
  | start _ jobs _ =>
    intro p hp
    rcases List.mem_append.mp hp with hp | hp
    · exact hs p hp
    · rw [List.mem_singleton.mp hp]; exact ordered_jobs jobs
  | acquire before after p g l strict rest h1 h2 =>
    refine forall_replace hs ?_
    have := hs p (by simp)
    rw [h1] at this
    simp only [Ordered, Bool.and_eq_true] at this
    exact this.1.2
  | ignore before after p g l rest h0 h1 =>
    refine forall_replace hs ?_
    have := hs p (by simp)
    rw [h1] at this
    simp only [Ordered, Bool.and_eq_true, Bool.false_or] at this
    exact this.2
  | use before after p g l rest h1 =>
    refine forall_replace hs ?_
    have := hs p (by simp)
    rw [h1] at this
    exact this
  | release before after p g l rest h1 =>
    refine forall_replace hs ?_
    have := hs p (by simp)
    rw [h1] at this
    rw [map_filter_fst]
    exact this
  | clean before after p g rest h1 =>
    refine forall_replace hs ?_
    have := hs p (by simp)
    rw [h1] at this
    exact this
  | stop before after p g => exact forall_replace hs rfl

theorem reachable_ordered (a : Allowed) (s : State) (h : Reachable a s) : AllOrdered s := by
  induction h with
  | start => intro p hp; cases hp
  | step s t _ h2 ih => exact allOrdered_step a s t ih h2

/-- A process is done. -/
def Process.done (p : Process) : Prop := p.todo = []

/-- How much work is left. -/
def State.left (s : State) : Nat := (s.processes.map fun p => p.todo.length).sum

/-- What is left when nothing new starts and nothing goes wrong. -/
inductive Runs : State → State → Prop where
  | refl (s : State) : Runs s s
  | step (s t u : State) : Step ⟨false, true⟩ s t → t.left < s.left → Runs t u → Runs s u

theorem left_replace (before after : List Process) (p p' : Process) (g g' : Nat) (h : p'.todo.length < p.todo.length) :
    State.left ⟨before ++ p' :: after, g'⟩ < State.left ⟨before ++ p :: after, g⟩ := by
  simp only [State.left, List.map_append, List.map_cons, List.sum_append, List.sum_cons]
  omega

/-- The lock a process waits for. -/
def Process.wants (p : Process) : Option Lock :=
  match p.todo with
  | .acquire l _ :: _ => some l
  | _ => none

/-- In every state in which some process is not done, a process that is not done can take its next action. -/
theorem progress (s : State) (hs : AllOrdered s) (h : ∃ p ∈ s.processes, ¬ p.done) :
    ∃ t, Step ⟨false, true⟩ s t ∧ t.left < s.left := by
  obtain ⟨procs, g⟩ := s
  -- a process that waits for the highest lock of all those waited for is blocked by a process that waits for none
  by_cases hw : ∃ p ∈ procs, ¬ p.done ∧ p.wants = none
  · obtain ⟨p, hp, hd, hn⟩ := hw
    obtain ⟨before, after, rfl⟩ := List.append_of_mem hp
    obtain ⟨held, todo⟩ := p
    cases todo with
    | nil => exact absurd rfl hd
    | cons x rest =>
      cases x with
      | acquire l strict => simp [Process.wants] at hn
      | use l => exact ⟨_, .use before after _ g l rest rfl, left_replace _ _ _ _ _ _ (by simp)⟩
      | release l => exact ⟨_, .release before after _ g l rest rfl, left_replace _ _ _ _ _ _ (by simp)⟩
      | clean => exact ⟨_, .clean before after _ g rest rfl, left_replace _ _ _ _ _ _ (by simp)⟩
  · have hall : ∀ p ∈ procs, ¬ p.done → ∃ l, p.wants = some l := by
      intro p hp hd
      cases h : p.wants with
      | none => exact absurd ⟨p, hp, hd, h⟩ hw
      | some l => exact ⟨l, rfl⟩
    -- take the process with the highest wanted lock
    obtain ⟨p, hp, hd, hmax⟩ : ∃ p ∈ procs, ¬ p.done ∧ ∀ q ∈ procs, ¬ q.done → ∀ l l', p.wants = some l → q.wants = some l' →
        rank l' ≤ rank l := by
      clear hw hs
      induction procs with
      | nil => obtain ⟨p, hp, _⟩ := h; cases hp
      | cons p procs ih =>
        by_cases hrest : ∃ q ∈ procs, ¬ q.done
        · obtain ⟨q, h1, h2, h3⟩ := ih hrest fun r hr => hall r (by simp [hr])
          obtain ⟨lq, hlq⟩ := hall q (by simp [h1]) h2
          by_cases hp : p.done
          · refine ⟨q, by simp [h1], h2, fun r hr hrd => ?_⟩
            rcases List.mem_cons.mp hr with rfl | hr
            · exact absurd hp hrd
            · exact h3 r hr hrd
          · obtain ⟨lp, hlp⟩ := hall p (by simp) hp
            by_cases hle : rank lp ≤ rank lq
            · refine ⟨q, by simp [h1], h2, fun r hr hrd l l' e1 e2 => ?_⟩
              rcases List.mem_cons.mp hr with rfl | hr
              · rw [hlq] at e1; rw [hlp] at e2; cases e1; cases e2; exact hle
              · exact h3 r hr hrd l l' e1 e2
            · refine ⟨p, by simp, hp, fun r hr hrd l l' e1 e2 => ?_⟩
              rcases List.mem_cons.mp hr with rfl | hr
              · rw [e1] at e2; cases e2; exact Nat.le_refl _
              · have := h3 r hr hrd lq l' hlq e2
                rw [hlp] at e1; cases e1
                omega
        · obtain ⟨q, h1, h2⟩ := h
          rcases List.mem_cons.mp h1 with rfl | h1
          · refine ⟨q, by simp, h2, fun r hr hrd l l' e1 e2 => ?_⟩
            rcases List.mem_cons.mp hr with rfl | hr
            · rw [e1] at e2; cases e2; exact Nat.le_refl _
            · exact absurd ⟨r, hr, hrd⟩ hrest
          · exact absurd ⟨q, h1, h2⟩ hrest
    obtain ⟨l, hl⟩ := hall p hp hd
    have hfree : ∀ q ∈ procs, (l, g) ∉ q.held := by
      intro q hq hc
      have ho := hs q hq
      by_cases hqd : q.done
      · rw [hqd] at ho
        simp only [Ordered, List.isEmpty_iff, List.map_eq_nil_iff] at ho
        rw [ho] at hc
        cases hc
      · obtain ⟨lq, hlq⟩ := hall q hq hqd
        have h1 := hmax q hq hqd l lq hl hlq
        obtain ⟨held, todo⟩ := q
        cases todo with
        | nil => exact hqd rfl
        | cons x rest =>
          cases x with
          | acquire l' strict =>
            simp only [Process.wants, Option.some.injEq] at hlq
            subst hlq
            simp only [Ordered, Bool.and_eq_true, List.all_eq_true, decide_eq_true_eq] at ho
            have := ho.1.1 l (List.mem_map.mpr ⟨(l, g), hc, rfl⟩)
            omega
          | use l => simp [Process.wants] at hlq
          | release l => simp [Process.wants] at hlq
          | clean => simp [Process.wants] at hlq
    obtain ⟨before, after, rfl⟩ := List.append_of_mem hp
    obtain ⟨held, todo⟩ := p
    cases todo with
    | nil => exact absurd rfl hd
    | cons x rest =>
      cases x with
      | acquire l' strict =>
        simp only [Process.wants, Option.some.injEq] at hl
        subst hl
        exact ⟨_, .acquire before after _ g _ strict rest rfl hfree, left_replace _ _ _ _ _ _ (by simp)⟩
      | use l => simp [Process.wants] at hl
      | release l => simp [Process.wants] at hl
      | clean => simp [Process.wants] at hl

/-- **C36, no deadlock.** In every state that any number of processes can come to, with locking errors, crashes and `gleam clean` at
any time, some process that is not done can take a step, and all can be run to their end. -/
theorem no_deadlock (a : Allowed) (s : State) (hs : Reachable a s) :
    ((∃ p ∈ s.processes, ¬ p.done) → ∃ t, Step ⟨false, true⟩ s t ∧ t.left < s.left) ∧
    ∃ t, Runs s t ∧ ∀ p ∈ t.processes, p.done := by
  replace hs := reachable_ordered a s hs
  refine ⟨progress s hs, ?_⟩
  generalize hn : s.left = n
  induction n using Nat.strongRecOn generalizing s with
  | _ n ih =>
    by_cases h : ∃ p ∈ s.processes, ¬ p.done
    · obtain ⟨t, h1, h2⟩ := progress s hs h
      obtain ⟨u, h3, h4⟩ := ih t.left (by omega) t (allOrdered_step _ s t hs h1) rfl
      exact ⟨u, .step s t u h1 h2 h3, h4⟩
    · refine ⟨s, .refl s, fun p hp => Classical.byContradiction fun hc => h ⟨p, hp, hc⟩⟩

/-- One process has begun its build, another is about to start. -/
example : ∃ s, Reachable ⟨false, false⟩ s ∧ s.processes.length = 2 ∧ ∃ p ∈ s.processes, ∃ l, (l, 0) ∈ p.held := by
  refine ⟨_, .step _ _ (.step _ _ (.step _ _ .start (.start _ [.build .dev .erlang] (by decide)))
    (.start _ [.download, .build .dev .erlang] (by decide)))
    (.acquire [] [_] _ 0 (.target .dev .erlang) false _ rfl (by simp)), rfl, _, List.mem_cons_self .., _, List.mem_cons_self ..⟩

/-! ### Mutual exclusion -/

/-- A process is working in the directory a lock is for. -/
def Process.using (p : Process) (l : Lock) : Prop := ∃ rest, p.todo = .use l :: rest

/-- Every directory is only worked in while its lock is held. -/
def Covered : List Lock → List Action → Bool
  | _, [] => true
  | held, .acquire l _ :: rest => Covered (l :: held) rest
  | held, .use l :: rest => decide (l ∈ held) && Covered held rest
  | held, .release l :: rest => Covered (held.filter fun h => decide (h ≠ l)) rest
  | _, .clean :: _ => false

theorem covered_append (a b : List Action) (held : List Lock) (ha : Covered held a = true) (ho : Ordered held a = true)
    (hb : Covered [] b = true) : Covered held (a ++ b) = true := by
  induction a generalizing held with
  | nil =>
    simp only [Ordered, List.isEmpty_iff] at ho
    subst ho
    exact hb
  | cons x a ih =>
    cases x with
    | acquire l strict =>
      simp only [Ordered, Bool.and_eq_true] at ho
      exact ih _ ha ho.1.2
    | use l =>
      simp only [Covered, Bool.and_eq_true, List.cons_append] at ha ⊢
      exact ⟨ha.1, ih _ ha.2 ho⟩
    | release l => exact ih _ ha ho
    | clean => cases ha

theorem covered_jobs (jobs : List Job) (h : .clean ∉ jobs) : Covered [] (jobs.flatMap Job.script) = true := by
  induction jobs with
  | nil => rfl
  | cons j jobs ih =>
    simp only [List.mem_cons, not_or] at h
    refine covered_append _ _ _ ?_ (ordered_script j) (ih h.2)
    cases j with
    | build m t => cases m <;> cases t <;> decide
    | download => decide +kernel
    | cleanup c => cases c <;> decide +kernel
    | lsp t => cases t <;> decide
    | clean => exact absurd rfl h.1

/-- No two processes hold the same lock. -/
def Disjoint (s : State) : Prop := s.processes.Pairwise fun p q => ∀ h ∈ p.held, h ∉ q.held

theorem pairwise_replace {α : Type} {R : α → α → Prop} {before after : List α} {p p' : α}
    (h : (before ++ p :: after).Pairwise R) (h1 : ∀ q ∈ before, R q p → R q p') (h2 : ∀ q ∈ after, R p q → R p' q) :
    (before ++ p' :: after).Pairwise R := by
  simp only [List.pairwise_append, List.pairwise_cons, List.mem_cons] at h ⊢
  obtain ⟨ha, ⟨hb, hc⟩, hd⟩ := h
  refine ⟨ha, ⟨fun q hq => h2 q hq (hb q hq), hc⟩, ?_⟩
  rintro q hq r (rfl | hr)
  · exact h1 q hq (hd q hq p (.inl rfl))
  · exact hd q hq r (.inr hr)

theorem exclusion_invariant (s : State) (h : Reachable ⟨false, false⟩ s) :
    s.generation = 0 ∧ (∀ p ∈ s.processes, Covered (p.held.map (·.1)) p.todo = true ∧ ∀ e ∈ p.held, e.2 = 0) ∧ Disjoint s := by
  induction h with
  | start => exact ⟨rfl, by simp, .nil⟩
  | step s t _ h ih =>
    obtain ⟨hg, hc, hd⟩ := ih
    cases h with
    | start _ jobs hj =>
      refine ⟨hg, ?_, ?_⟩
      · intro p hp
        rcases List.mem_append.mp hp with hp | hp
        · exact hc p hp
        · rw [List.mem_singleton.mp hp]; exact ⟨covered_jobs jobs (hj rfl), by simp⟩
      · simp only [Disjoint, List.pairwise_append]
        refine ⟨hd, by simp, ?_⟩
        intro p _ q hq e _
        rw [List.mem_singleton.mp hq]; simp
    | acquire before after p g l strict rest h1 h2 =>
      have hg' : g = 0 := hg
      subst hg'
      have hp := hc p (by simp)
      rw [h1] at hp
      refine ⟨rfl, forall_replace hc ⟨hp.1, ?_⟩, pairwise_replace hd ?_ ?_⟩
      · intro e he
        rcases List.mem_cons.mp he with rfl | he
        · rfl
        · exact hp.2 e he
      · intro q hq hr e he hm
        rcases List.mem_cons.mp hm with rfl | hm
        · exact h2 q (by simp [hq]) he
        · exact hr e he hm
      · intro q hq hr e he hm
        rcases List.mem_cons.mp he with rfl | he
        · exact h2 q (by simp [hq]) hm
        · exact hr e he hm
    | ignore before after p g l rest h0 h1 => cases h0
    | use before after p g l rest h1 =>
      have hp := hc p (by simp)
      rw [h1] at hp
      simp only [Covered, Bool.and_eq_true] at hp
      exact ⟨hg, forall_replace hc ⟨hp.1.2, hp.2⟩, pairwise_replace hd (fun _ _ h => h) (fun _ _ h => h)⟩
    | release before after p g l rest h1 =>
      have hp := hc p (by simp)
      rw [h1] at hp
      refine ⟨hg, forall_replace hc ⟨?_, fun e he => hp.2 e (List.mem_filter.mp he).1⟩, pairwise_replace hd ?_ ?_⟩
      · rw [map_filter_fst]; exact hp.1
      · intro q _ hr e he hm; exact hr e he (List.mem_filter.mp hm).1
      · intro q _ hr e he hm; exact hr e (List.mem_filter.mp he).1 hm
    | clean before after p g rest h1 =>
      have hp := hc p (by simp)
      rw [h1] at hp
      cases hp.1
    | stop before after p g =>
      refine ⟨hg, forall_replace hc ⟨rfl, by simp⟩, pairwise_replace hd ?_ ?_⟩
      · intro q _ _ e _ hm; cases hm
      · intro q _ _ e he _; cases he

/-- **C36, mutual exclusion, partial.** As long as locking does not fail and `gleam clean` is not run, no two processes ever work in
the same target's directory, or in the packages directory, at the same time. What is missing: failures of locking, which
`gleam build` and the download of dependencies ignore (`lock_error_ignored`), and `gleam clean` (`clean_breaks_locks`). -/
theorem mutual_exclusion_partial (s : State) (h : Reachable ⟨false, false⟩ s) (l : Lock) (before between after : List Process)
    (p q : Process) (hs : s.processes = before ++ p :: between ++ q :: after) : ¬ (p.using l ∧ q.using l) := by
  obtain ⟨-, hc, hd⟩ := exclusion_invariant s h
  rintro ⟨⟨r1, h1⟩, r2, h2⟩
  have hp := hc p (by simp [hs])
  have hq := hc q (by simp [hs])
  rw [h1] at hp
  rw [h2] at hq
  simp only [Covered, Bool.and_eq_true, decide_eq_true_eq, List.mem_map] at hp hq
  obtain ⟨⟨⟨e1, m1, n1⟩, -⟩, z1⟩ := hp
  obtain ⟨⟨⟨e2, m2, n2⟩, -⟩, z2⟩ := hq
  have : e1 = e2 := Prod.ext (n1.trans n2.symm) ((z1 e1 m1).trans (z2 e2 m2).symm)
  subst this
  simp only [Disjoint, hs, List.pairwise_append, List.pairwise_cons, List.mem_append, List.mem_cons] at hd
  exact hd.2.2 p (.inr (.inl rfl)) q (.inl rfl) e1 m1 m2

/-- Deleting packages touches the build directories of all modes and targets, so that `mutual_exclusion_partial` says that nothing is
being built while packages are deleted. -/
theorem deletion_uses_all (m : Mode) (t : Target) (changes : Bool) :
    .use (.target m t) ∈ Job.download.script ∧ .use (.target m t) ∈ (Job.cleanup changes).script ∧
      .use .packages ∈ Job.download.script := by
  cases m <;> cases t <;> cases changes <;> decide +kernel

/-- While one process builds the other waits. -/
example : ∃ s, Reachable ⟨false, false⟩ s ∧ ∃ p q, s.processes = [] ++ p :: [] ++ q :: [] ∧
    p.using (.target .dev .erlang) ∧ q.wants = some (.target .dev .erlang) := by
  refine ⟨_, .step _ _ (.step _ _ (.step _ _ .start (.start _ [.build .dev .erlang] (by decide)))
    (.start _ [.build .dev .erlang] (by decide)))
    (.acquire [] [_] _ 0 (.target .dev .erlang) false _ rfl (by simp)), _, _, rfl, ⟨_, rfl⟩, rfl⟩

/-- **C36, false of the code.** When locking fails, two builds of one target run at the same time. -/
theorem lock_error_ignored : ∃ s, Reachable ⟨true, false⟩ s ∧ ∃ p q, s.processes = [p, q] ∧
    p.using (.target .dev .erlang) ∧ q.using (.target .dev .erlang) := by
  refine ⟨_, .step _ _ (.step _ _ (.step _ _ (.step _ _ .start (.start _ [.build .dev .erlang] (by decide)))
    (.start _ [.build .dev .erlang] (by decide)))
    (.acquire [] [_] _ 0 (.target .dev .erlang) false _ rfl (by simp)))
    (.ignore [_] [] _ 0 (.target .dev .erlang) _ rfl rfl), _, _, rfl, ⟨_, rfl⟩, ⟨_, rfl⟩⟩

/-- **C36, false of the code.** After `gleam clean` during a build, another build of the same target does not wait for it. -/
theorem clean_breaks_locks : ∃ s, Reachable ⟨false, true⟩ s ∧ ∃ p q r, s.processes = [p, q, r] ∧
    p.using (.target .dev .erlang) ∧ r.using (.target .dev .erlang) := by
  refine ⟨_, .step _ _ (.step _ _ (.step _ _ (.step _ _ (.step _ _ (.step _ _ .start (.start _ [.build .dev .erlang] (by decide)))
    (.start _ [.clean] (by decide))) (.start _ [.build .dev .erlang] (by decide)))
    (.acquire [] [_, _] _ 0 (.target .dev .erlang) false _ rfl (by simp)))
    (.clean [_] [_] _ 0 _ rfl))
    (.acquire [_, _] [] _ 1 (.target .dev .erlang) false _ rfl (by simp)), _, _, _, rfl, ⟨_, rfl⟩, ⟨_, rfl⟩⟩

end Verif.Locks
