import Verif.Build.Props

/-
Histories after which a build that succeeds differs from a clean build, and histories that are covered by the theorems.
-/
namespace Verif.Build

/-- `step` with another function in place of `toposort_deps`. -/
def stepWith (order : List (String × List String) → DepTree.Outcome) (names : List String)
    (σ : State (List String × Nat) Nat Nat) : Event (List String × Nat) → State (List String × Nat) Nat Nat
  | .write n t mt => { σ with sources := set σ.sources n (some ⟨t, mt⟩) }
  | .remove n => { σ with sources := set σ.sources n none }
  | .build codegen k =>
    { σ with disk := σ.disk.applyAll ((plan order toy codegen names σ.sources σ.disk [] (fun _ => none)).ops.take k) }

/-- The state after a history, computed with the looked up orders. -/
def afterWith (names : List String) (history : List (Event (List String × Nat))) : State (List String × Nat) Nat Nat :=
  history.foldl (stepWith order names) ⟨fun _ => none, Disk.empty⟩

theorem after_eq (names : List String) (history : List (Event (List String × Nat))) :
    after toy names history = afterWith names history := by
  unfold after afterWith
  congr 1
  funext σ e
  cases e with
  | write n t mt => rfl
  | remove n => rfl
  | build codegen k => simp only [step, stepWith, buildPlan, toposortDeps_eq]

/-- The last build of an example. -/
def last (names : List String) (codegen : Bool) (history : List (Event (List String × Nat))) : Plan (List String × Nat) Nat Nat :=
  plan order toy codegen names (afterWith names history).sources (afterWith names history).disk [] (fun _ => none)

theorem last_eq (names : List String) (codegen : Bool) (history : List (Event (List String × Nat))) :
    buildPlan toy codegen names (after toy names history).sources (after toy names history).disk = last names codegen history := by
  rw [after_eq]; unfold buildPlan last; rw [toposortDeps_eq]

/-- Many changes: a build that is not stopped. -/
def all : Nat := 100

/-- **C33 fails** when a file is changed without a later modification time: the change is not seen. -/
theorem change_not_seen :
    let history := [.write "a" ([], 1) 5, .build true all, .write "a" ([], 2) 5]
    let σ := after toy ["a"] history
    ((buildPlan toy true ["a"] σ.sources σ.disk).result.map fun r => r.1 "a") = some (some 1) ∧
    Interface toy σ.sources "a" 2 := by
  refine ⟨?_, ?_⟩
  · rw [last_eq]; decide +kernel
  · exact .mk "a" ⟨([], 2), 5⟩ [] (fun _ => 0) 2 (by simp [after, step, set]) rfl (by simp) rfl

/-- **C34 fails**: the build of a changed file is stopped after its code was written and before its metadata was; then the
change is undone. The next build takes the module from the cache, and leaves the code of the undone change. -/
theorem code_of_undone_change :
    let history := [.write "a" ([], 1) 1, .build true all, .write "a" ([], 2) 2, .build true 1, .write "a" ([], 1) 3]
    let σ := after toy ["a"] history
    ((buildPlan toy true ["a"] σ.sources σ.disk).result.map fun r => r.1 "a") = some (some 1) ∧
    (σ.disk.applyAll (buildPlan toy true ["a"] σ.sources σ.disk).ops).out "a" = some 2000 ∧
    Output toy σ.sources "a" 1000 := by
  refine ⟨?_, ?_, ?_⟩
  · rw [last_eq]; decide +kernel
  · rw [last_eq, after_eq]; decide +kernel
  · exact ⟨⟨([], 1), 3⟩, [], fun _ => 0, by simp [after, step, set], rfl, by simp, rfl⟩

/-- A module that imports a module without source has no interface. -/
theorem no_interface {sources : String → Option (Source (List String × Nat))} {n d : String} {i : Nat} {s : Source (List String × Nat)}
    (hs : sources n = some s) (hd : s.text.1 = [d]) (hm : sources d = none) : ¬ Interface toy sources n i := by
  rintro ⟨_, s', ds, f, _, hs', him, hf, _⟩
  rw [hs] at hs'; cases hs'
  simp only [toy] at him
  split at him
  · cases him
  · rw [hd] at him; cases him
    obtain ⟨_, s'', _, _, _, h, _⟩ := hf d (.head _)
    rw [hm] at h; cases h

/-- **C33 fails**: a module is removed and the module that imports it is changed to something that does not type check. After
the change is undone the build succeeds, although the import is of a module that does not exist. -/
theorem removed_import_accepted :
    let history := [.write "a" ([], 1) 1, .write "b" (["a"], 1) 2, .build true all,
      .remove "a", .write "b" ([], 13) 3, .build true all, .write "b" (["a"], 1) 4]
    let σ := after toy ["a", "b"] history
    ((buildPlan toy true ["a", "b"] σ.sources σ.disk).result.map fun r => r.1 "b") = some (some 2) ∧
    (∀ i, ¬ Interface toy σ.sources "b" i) := by
  refine ⟨?_, ?_⟩
  · rw [last_eq]; decide +kernel
  · intro i
    refine no_interface (d := "a") (s := ⟨(["a"], 1), 4⟩) ?_ rfl ?_ <;> simp [after, step, set]

/-- **C33 fails**: a build finds that a module was removed and then stops because of an import cycle elsewhere. When the cycle
is gone, the build succeeds although the removed module is imported. -/
theorem removed_import_accepted_after_cycle :
    let history := [.write "a" ([], 1) 1, .write "b" (["a"], 1) 2, .build true all,
      .remove "a", .write "c" (["c"], 1) 3, .build true all, .write "c" ([], 1) 4]
    let σ := after toy ["a", "b", "c"] history
    ((buildPlan toy true ["a", "b", "c"] σ.sources σ.disk).result.map fun r => r.1 "b") = some (some 2) ∧
    (∀ i, ¬ Interface toy σ.sources "b" i) := by
  refine ⟨?_, ?_⟩
  · rw [last_eq]; decide +kernel
  · intro i
    refine no_interface (d := "a") (s := ⟨(["a"], 1), 2⟩) ?_ rfl ?_ <;> simp [after, step, set]

/-- **C33 fails**: a failed build deletes the cache of a module because of a changed import; then the module is removed, and
the module that imports it is changed back to what it was. -/
theorem removed_import_accepted_after_failure :
    let history := [.write "a" ([], 1) 1, .write "b" (["a"], 1) 2, .write "c" (["b"], 1) 3, .build true all,
      .write "a" ([], 2) 4, .write "c" ([], 13) 5, .build true all, .remove "b", .write "c" (["b"], 1) 6]
    let σ := after toy ["a", "b", "c"] history
    ((buildPlan toy true ["a", "b", "c"] σ.sources σ.disk).result.map fun r => r.1 "c") = some (some 3) ∧
    (∀ i, ¬ Interface toy σ.sources "c" i) := by
  refine ⟨?_, ?_⟩
  · rw [last_eq]; decide +kernel
  · intro i
    refine no_interface (d := "b") (s := ⟨(["b"], 1), 6⟩) ?_ rfl ?_ <;> simp [after, step, set]

/-- **C34 fails**: after checking without generating code, a build is stopped when it has recorded a changed module but not
yet the module that imports it. Checking again takes the latter from the cache. -/
theorem stopped_before_importer :
    let history := [.write "a" ([], 1) 1, .write "b" (["a"], 1) 2, .build false all, .write "a" ([], 5) 3, .build true 4]
    let σ := after toy ["a", "b"] history
    ((buildPlan toy false ["a", "b"] σ.sources σ.disk).result.map fun r => r.1 "b") = some (some 2) ∧
    Interface toy σ.sources "b" 6 := by
  refine ⟨?_, ?_⟩
  · rw [last_eq]; decide +kernel
  · refine .mk "b" ⟨(["a"], 1), 2⟩ ["a"] (fun _ => 5) 6 (by simp [after, step, set]) rfl ?_ rfl
    intro d hd
    obtain rfl := List.mem_singleton.mp hd
    exact .mk "a" ⟨([], 5), 3⟩ [] (fun _ => 0) 5 (by simp [after, step, set]) rfl (by simp) rfl

/-- **C34 fails**: a build is stopped after it deleted a `.cache` file and before it deleted the `.cache_meta` file. If the
change that made the module stale is undone, then builds fail, although the sources compile. -/
theorem stopped_between_deletions :
    let history := [.write "a" ([], 1) 1, .write "b" (["a"], 1) 2, .build true all, .write "a" ([], 2) 3, .build true 1,
      .write "a" ([], 1) 4]
    let σ := after toy ["a", "b"] history
    (buildPlan toy true ["a", "b"] σ.sources σ.disk).result.isNone = true ∧
    (buildPlan toy true ["a", "b"] σ.sources (σ.disk.applyAll (buildPlan toy true ["a", "b"] σ.sources σ.disk).ops)).result.isNone
      = true ∧
    Interface toy σ.sources "a" 1 ∧ Interface toy σ.sources "b" 2 := by
  have ha : Interface toy (after toy ["a", "b"] [.write "a" ([], 1) 1, .write "b" (["a"], 1) 2, .build true all,
      .write "a" ([], 2) 3, .build true 1, .write "a" ([], 1) 4]).sources "a" 1 :=
    .mk "a" ⟨([], 1), 4⟩ [] (fun _ => 0) 1 (by simp [after, step, set]) rfl (by simp) rfl
  refine ⟨?_, ?_, ha, ?_⟩
  · rw [last_eq]; decide +kernel
  · rw [last_eq, after_eq]; unfold buildPlan; rw [toposortDeps_eq]; decide +kernel
  · refine .mk "b" ⟨(["a"], 1), 2⟩ ["a"] (fun _ => 1) 2 (by simp [after, step, set]) rfl ?_ rfl
    intro d hd
    obtain rfl := List.mem_singleton.mp hd
    exact ha

/-- **C33 fails** for the files left: the code of a removed module stays in the build directory. -/
theorem code_of_removed_module_left :
    let history := [.write "a" ([], 1) 1, .write "b" ([], 1) 2, .build true all, .remove "a"]
    let σ := after toy ["a", "b"] history
    (buildPlan toy true ["a", "b"] σ.sources σ.disk).result.isSome = true ∧
    (σ.disk.applyAll (buildPlan toy true ["a", "b"] σ.sources σ.disk).ops).out "a" = some 1000 ∧
    ((Disk.empty : Disk (List String × Nat) Nat Nat).applyAll (buildPlan toy true ["a", "b"] σ.sources Disk.empty).ops).out "a"
      = none := by
  refine ⟨?_, ?_, ?_⟩
  · rw [last_eq]; decide +kernel
  · rw [last_eq, after_eq]; decide +kernel
  · rw [after_eq]; unfold buildPlan; rw [toposortDeps_eq]; decide +kernel

/-- The claim in full is false. -/
theorem not_always_like_clean : ¬ AlwaysLikeClean toy ["a", "b"] := by
  intro h
  obtain ⟨h1, h2⟩ := removed_import_accepted
  cases hr : (buildPlan toy true ["a", "b"] (after toy ["a", "b"] [.write "a" ([], 1) 1, .write "b" (["a"], 1) 2, .build true all,
      .remove "a", .write "b" ([], 13) 3, .build true all, .write "b" (["a"], 1) 4]).sources
      (after toy ["a", "b"] [.write "a" ([], 1) 1, .write "b" (["a"], 1) 2, .build true all,
      .remove "a", .write "b" ([], 13) 3, .build true all, .write "b" (["a"], 1) 4]).disk).result with
  | none => rw [hr] at h1; cases h1
  | some r =>
    obtain ⟨env, stale⟩ := r
    obtain ⟨⟨i, _, hi⟩, _⟩ := h _ true env stale hr "b" ⟨(["a"], 1), 4⟩ (by simp [after, step, set])
    exact h2 i hi

/-! ### Several packages -/

/-- **C33 fails for a project with a dependency in the same repository**: package `a` is changed; the build compiles it and
then fails to parse the root package. When that is mended, the build takes `b` from the cache, although `a` has changed. -/
theorem changed_dependency_forgotten :
    let sources1 := set (set (fun _ => none) "a" (some ⟨([], 1), 1⟩)) "b" (some (⟨(["a"], 1), 2⟩ : Source (List String × Nat)))
    let sources2 := set (set sources1 "a" (some ⟨([], 5), 3⟩)) "c" (some ⟨([], 99), 4⟩)
    let sources3 := set sources2 "c" (some ⟨([], 1), 5⟩)
    let build (sources : String → Option (Source (List String × Nat))) (disk : Disk (List String × Nat) Nat Nat) :=
      projectPlan DepTree.toposortDeps toy true sources [["a"], ["b", "c"]] disk [] (fun _ => none)
    let disk1 := Disk.empty.applyAll (build sources1 Disk.empty).1
    let disk2 := disk1.applyAll (build sources2 disk1).1
    (build sources1 Disk.empty).2.isSome = true ∧ (build sources2 disk1).2.isSome = false ∧
    ((build sources3 disk2).2.map fun env => env "b") = some (some 2) ∧
    ((build sources3 Disk.empty).2.map fun env => env "b") = some (some 6) := by
  rw [toposortDeps_eq]
  decide +kernel

/-! ### The hypotheses are met -/

/-- A history with a failed build, after which modules are changed and removed, is one of those covered. -/
example : ∃ σ now careful, History toy ["a", "b", "c"] σ now careful ∧ (σ.sources "b").isSome = true ∧
    ((buildPlan toy true ["a", "b", "c"] σ.sources σ.disk).result.map fun r => r.1 "b") = some (some 8) := by
  have h0 := History.start (C := toy) (names := ["a", "b", "c"])
  have h1 := History.write "a" ([], 1) 1 h0 (by simp) (by omega) (by simp)
  have h2 := History.write "b" (["a"], 1) 2 h1 (by simp) (by omega) (by simp)
  have h3 := History.write "c" ([], 1) 3 h2 (by simp) (by omega) (by simp)
  have b0 := last_eq ["a", "b", "c"] true [.write "a" ([], 1) 1, .write "b" (["a"], 1) 2, .write "c" ([], 1) 3]
  have h4 := History.success true all h3 (by
    refine Eq.trans (congrArg (fun p => p.result.isSome) b0) ?_; decide +kernel) (by
    refine le_of_eq_of_le (congrArg (fun p => p.ops.length) b0) ?_; decide +kernel)
  -- a change that does not type check, and a build that fails
  have h5 := History.write "a" ([], 13) 4 h4 (by simp) (by omega) (by simp)
  have b1 := last_eq ["a", "b", "c"] true [.write "a" ([], 1) 1, .write "b" (["a"], 1) 2, .write "c" ([], 1) 3, .build true all,
    .write "a" ([], 13) 4]
  have h6 := History.stoppedWriting true all h5 (by
    refine Eq.trans (congrArg (fun p => p.loaded) b1) ?_; decide +kernel) (by
    refine le_of_eq_of_le (congrArg (fun p => p.deletions.length) b1) ?_; decide +kernel) (by
    intro _ n m hm
    have hn := (history_inv _ _ (by decide) _ _ _ h5).infoName n m hm
    have hall : ∀ n ∈ ["a", "b", "c"], ∀ c, ((after toy ["a", "b", "c"] [.write "a" ([], 1) 1, .write "b" (["a"], 1) 2,
        .write "c" ([], 1) 3, .build true all, .write "a" ([], 13) 4]).disk.info n).map (fun m => m.codegen) = some c → c = true := by
      rw [after_eq]; decide +kernel
    exact hall n hn m.codegen (by rw [show (after toy ["a", "b", "c"] [.write "a" ([], 1) 1, .write "b" (["a"], 1) 2,
        .write "c" ([], 1) 3, .build true all, .write "a" ([], 13) 4]).disk.info n = some m from hm]; rfl))
  -- a change, and a removal
  have h7 := History.write "a" ([], 7) 5 h6 (by simp) (by omega) (by
    intro _ m hm ht
    exfalso
    have hall : ((after toy ["a", "b", "c"] [.write "a" ([], 1) 1, .write "b" (["a"], 1) 2, .write "c" ([], 1) 3, .build true all,
      .write "a" ([], 13) 4, .build true all]).disk.info "a").map (fun m => m.text) = some ([], 1) := by
      rw [after_eq]; decide +kernel
    rw [show (after toy ["a", "b", "c"] [.write "a" ([], 1) 1, .write "b" (["a"], 1) 2, .write "c" ([], 1) 3, .build true all,
      .write "a" ([], 13) 4, .build true all]).disk.info "a" = some m from hm] at hall
    simp [ht] at hall)
  have h8 := History.remove "c" h7 (by
    intro h
    exfalso
    have : (after toy ["a", "b", "c"] [.write "a" ([], 1) 1, .write "b" (["a"], 1) 2, .write "c" ([], 1) 3, .build true all,
      .write "a" ([], 13) 4, .build true all, .write "a" ([], 7) 5]).disk.info "c" = none := h
    rw [after_eq] at this
    have h' : ((afterWith ["a", "b", "c"] [.write "a" ([], 1) 1, .write "b" (["a"], 1) 2, .write "c" ([], 1) 3, .build true all,
      .write "a" ([], 13) 4, .build true all, .write "a" ([], 7) 5]).disk.info "c").isSome = true := by decide +kernel
    rw [this] at h'
    cases h')
  refine ⟨_, _, _, h8, ?_, ?_⟩
  · simp [step, set]
  · refine Eq.trans (congrArg (fun p => p.result.map fun r => r.1 "b") (last_eq ["a", "b", "c"] true [.write "a" ([], 1) 1,
      .write "b" (["a"], 1) 2, .write "c" ([], 1) 3, .build true all, .write "a" ([], 13) 4, .build true all,
      .write "a" ([], 7) 5, .remove "c"])) ?_
    decide +kernel

end Verif.Build
