import Verif.Build.Complete

/-
**C33**, **C34**: incremental builds and interrupted builds compared with building from scratch.
-/
namespace Verif.Build

variable {Text Iface Out : Type} [DecidableEq Text]

/-- **C33, C34 (partial).** After a history of edits and builds as described by `History` (which may have failed and
interrupted builds), if a build succeeds, every module has the interface and, when code is generated, the code that the sources
have from scratch. Missing: the histories that `History` leaves out, for which it is false (below). -/
theorem incremental_correct_partial (C : Compiler Text Iface Out) (names : List String) (hnames : names.Nodup)
    (σ : State Text Iface Out) (now : Nat) (careful : Bool) (h : History C names σ now careful) (codegen : Bool)
    (env : String → Option Iface) (stale : List String)
    (hr : (buildPlan C codegen names σ.sources σ.disk).result = some (env, stale)) (n : String) (s : Source Text)
    (hs : σ.sources n = some s) :
    (∃ i, env n = some i ∧ Interface C σ.sources n i) ∧
    (codegen = true → ∃ o, (σ.disk.applyAll (buildPlan C codegen names σ.sources σ.disk).ops).out n = some o ∧
      Output C σ.sources n o) := by
  have inv := history_inv C names hnames σ now careful h
  have hl := loaded_of_result C codegen names σ (by rw [hr]; rfl)
  obtain ⟨dels, l, seq, f, hplan⟩ := facts C codegen names hnames σ now careful inv hl
  rw [hplan] at hr
  obtain ⟨hd, ⟨_, hnone⟩ | ⟨ms, env', hw, hres, r⟩⟩ := compileLoaded_result C codegen σ dels l seq f
  · rw [hnone] at hr; cases hr
  · rw [hres] at hr; cases hr
    obtain ⟨hall, hcorrect⟩ := result_correct C codegen σ dels l seq f ms env r
    obtain ⟨i, hi⟩ := hall n s hs
    refine ⟨⟨i, hi, hcorrect n i hi⟩, ?_⟩
    intro hcg
    have hops : (compileLoaded C codegen (fun _ => none) dels l).ops = dels ++ (codegenOps codegen ms ++ metadataOps codegen ms) := by
      unfold Plan.ops; rw [hd, hw]
    rw [hplan, hops, applyAll_append]
    have hnm := names_of_sources r.sources
    obtain ⟨pre, rest, hpr, hwr, hrest⟩ := writes_prefix codegen (σ.disk.applyAll dels) ms (by rw [hnm]; exact f.nodup)
      (codegenOps codegen ms ++ metadataOps codegen ms).length
    rw [List.take_length] at hwr
    rw [hrest (Nat.le_refl _), List.append_nil] at hpr
    subst hpr
    by_cases ht : n ∈ l.toCompile.map (·.name)
    · rw [← hnm] at ht
      obtain ⟨m, hm, rfl⟩ := List.mem_map.mp ht
      refine ⟨m.out, (hwr.done m hm).2.2 hcg, ?_⟩
      obtain ⟨he, is, hc, hgen, his⟩ := r.compiled m hm
      obtain ⟨e1, e2⟩ := interfaces_some env m.source.deps is his m.iface
      have hu : m.source ∈ l.toCompile := by rw [← r.sources]; exact List.mem_map.mpr ⟨m, hm, rfl⟩
      obtain ⟨s', hs', ht', _, him⟩ := f.src m.source hu
      refine ⟨s', m.source.deps, fun d => (env d).getD m.iface, hs', him, ?_, ?_⟩
      · intro d hd
        obtain ⟨j, hj⟩ := e2 d hd
        simp only [hj, Option.getD_some]
        exact hcorrect d j hj
      · rw [hgen, e1, ht']
    · rcases f.cover n s hs with h | ⟨j, hj⟩
      · exact absurd h ht
      · obtain ⟨_, s', m, hs', _, _, htx, hmc, him, used, _, hout, hdep⟩ := f.cached n j hj
        refine ⟨C.gen n m.text (m.deps.map used), ?_, s', m.deps, used, hs', htx ▸ him, ?_, by rw [htx]⟩
        · have hnn : n ∉ (ms ++ rest).map (·.source.name) := by
            rw [hrest (Nat.le_refl _), List.append_nil, hnm]; exact ht
          rw [(hwr.other n hnn).2.2, out_other]
          · exact hout (hmc hcg)
          · intro x hx
            obtain ⟨k, h | h, _⟩ := f.onlyDel _ hx <;> cases h
        · intro d hdm
          exact hcorrect d _ (r.cached d _ (hdep d hdm).1)

/-- **C33, C34 (partial), the other direction.** After such a history a build succeeds whenever the sources compile, if every
`.cache_meta` file has its `.cache` file (which is so unless a build was stopped between deleting the two). -/
theorem incremental_complete_partial (C : Compiler Text Iface Out) (names : List String) (hnames : names.Nodup)
    (σ : State Text Iface Out) (now : Nat) (careful : Bool) (h : History C names σ now careful) (codegen : Bool)
    (hw : Whole σ) (hc : Compiles C σ.sources) : (buildPlan C codegen names σ.sources σ.disk).result.isSome :=
  complete C codegen names hnames σ now careful (history_inv C names hnames σ now careful h) hw hc

/-- Edits, and builds that run to their end, keep every `.cache_meta` file with its `.cache` file. -/
theorem whole_kept (C : Compiler Text Iface Out) (names : List String) (σ : State Text Iface Out) (hw : Whole σ)
    (e : Event Text) (he : ∀ codegen k, e = .build codegen k → (buildPlan C codegen names σ.sources σ.disk).ops.length ≤ k) :
    Whole (step C names σ e) := by
  cases e with
  | write n t mt => exact hw
  | remove n => exact hw
  | build codegen k => exact whole_build C codegen names σ hw k (he codegen k rfl)

/-- **C33, C34 (partial), as a comparison of builds.** After such a history, if a build succeeds, then a build of the same
sources with an empty build directory succeeds too, and gives the same interfaces and the same code. -/
theorem like_clean_build_partial (C : Compiler Text Iface Out) (names : List String) (hnames : names.Nodup)
    (σ : State Text Iface Out) (now : Nat) (careful : Bool) (h : History C names σ now careful) (codegen : Bool)
    (env : String → Option Iface) (stale : List String)
    (hr : (buildPlan C codegen names σ.sources σ.disk).result = some (env, stale)) :
    ∃ cleanEnv cleanStale, (buildPlan C codegen names σ.sources Disk.empty).result = some (cleanEnv, cleanStale) ∧
      ∀ n s, σ.sources n = some s → env n = cleanEnv n ∧ (codegen = true →
        (σ.disk.applyAll (buildPlan C codegen names σ.sources σ.disk).ops).out n =
        ((Disk.empty : Disk Text Iface Out).applyAll (buildPlan C codegen names σ.sources Disk.empty).ops).out n) := by
  have inv := history_inv C names hnames σ now careful h
  have hmain := incremental_correct_partial C names hnames σ now careful h codegen env stale hr
  have hcomp : Compiles C σ.sources := by
    intro n s hs
    obtain ⟨i, _, hi⟩ := (hmain n s hs).1
    exact ⟨i, hi⟩
  have inv0 : Inv C names (⟨σ.sources, Disk.empty⟩ : State Text Iface Out) now careful := inv.empty
  have hsome := complete C codegen names hnames ⟨σ.sources, Disk.empty⟩ now careful inv0
    (by intro n m hm; simp [Disk.empty] at hm) hcomp
  cases hres : (buildPlan C codegen names σ.sources (Disk.empty : Disk Text Iface Out)).result with
  | none => simp only at hsome; rw [hres] at hsome; cases hsome
  | some p =>
    obtain ⟨cleanEnv, cleanStale⟩ := p
    refine ⟨cleanEnv, cleanStale, rfl, ?_⟩
    -- the clean build, as the end of a history
    have hl := loaded_of_result C codegen names ⟨σ.sources, Disk.empty⟩ hsome
    obtain ⟨dels, l, seq, f, hplan⟩ := facts C codegen names hnames ⟨σ.sources, Disk.empty⟩ now careful inv0 hl
    obtain ⟨hd, ⟨_, hnone⟩ | ⟨ms, env', hw, hres', r⟩⟩ := compileLoaded_result C codegen _ dels l seq f
    · simp only at hplan; rw [hplan, hnone] at hres; cases hres
    · simp only at hplan
      rw [hplan, hres'] at hres; cases hres
      obtain ⟨hall, hcorrect⟩ := result_correct C codegen _ dels l seq f ms cleanEnv r
      intro n s hs
      obtain ⟨⟨i, hi, hii⟩, hout⟩ := hmain n s hs
      obtain ⟨j, hj⟩ := hall n s hs
      refine ⟨by rw [hi, hj, hii.unique j (hcorrect n j hj)], ?_⟩
      intro hcg
      obtain ⟨o, ho, s1, ds, f1, hs1, hd1, hf1, rfl⟩ := hout hcg
      rw [ho]
      have hops : (compileLoaded C codegen (fun _ => none) dels l).ops = dels ++ (codegenOps codegen ms ++ metadataOps codegen ms) := by
        unfold Plan.ops; rw [hd, hw]
      rw [hplan, hops, applyAll_append]
      have hnm := names_of_sources r.sources
      obtain ⟨pre, rest, hpr, hwr, hrest⟩ := writes_prefix codegen ((Disk.empty : Disk Text Iface Out).applyAll dels) ms
        (by rw [hnm]; exact f.nodup) (codegenOps codegen ms ++ metadataOps codegen ms).length
      rw [List.take_length] at hwr
      rw [hrest (Nat.le_refl _), List.append_nil] at hpr
      subst hpr
      have ht : n ∈ l.toCompile.map (·.name) := by
        rcases f.cover n s hs with h | ⟨j, hj⟩
        · exact h
        · obtain ⟨_, _, m, _, hm, _⟩ := f.cached n j hj
          simp [Disk.empty] at hm
      rw [← hnm] at ht
      obtain ⟨m, hm, rfl⟩ := List.mem_map.mp ht
      rw [(hwr.done m hm).2.2 hcg]
      obtain ⟨_, is, _, hgen, his⟩ := r.compiled m hm
      obtain ⟨e1, e2⟩ := interfaces_some cleanEnv m.source.deps is his m.iface
      have hu : m.source ∈ l.toCompile := by rw [← r.sources]; exact List.mem_map.mpr ⟨m, hm, rfl⟩
      obtain ⟨s', hs', ht', _, him⟩ := f.src m.source hu
      simp only at hs'
      rw [hs1] at hs'; cases hs'
      rw [hd1] at him; cases him
      rw [hgen, ht', e1]
      congr 2
      apply List.map_congr_left
      intro d hdd
      obtain ⟨k, hk⟩ := e2 d hdd
      simp only [hk, Option.getD_some]
      exact (hcorrect d k hk).unique _ (hf1 d hdd)

/-! ### A concrete compiler -/

/-- A small language for examples: a module imports modules and has a number; its interface is the sum of its number and those
of its imports. The number 13 is a type error, 99 a parse error. -/
def toy : Compiler (List String × Nat) Nat Nat where
  imports t := if t.2 = 99 then none else some t.1
  check _ t is := if t.2 = 13 then none else some (t.2 + is.sum)
  gen _ t is := 1000 * t.2 + is.sum

/-- The orders of modules needed for the examples. -/
def orders : List (List (String × List String) × DepTree.Outcome) :=
  [([("a", [])], .ordered ["a"]),
   ([("a", []), ("b", ["a"])], .ordered ["a", "b"]),
   ([("b", ["a"])], .ordered ["b"]),
   ([("b", [])], .ordered ["b"]),
   ([("a", []), ("b", [])], .ordered ["a", "b"]),
   ([("b", ["a"]), ("c", ["c"])], .cycle ["c"]),
   ([("b", ["a"]), ("c", [])], .ordered ["b", "c"]),
   ([("a", []), ("c", ["b"])], .ordered ["a", "c"]),
   ([("a", []), ("b", ["a"]), ("c", ["b"])], .ordered ["a", "b", "c"]),
   ([("a", []), ("b", ["a"]), ("c", [])], .ordered ["a", "b", "c"])]

/-- `toposort_deps`, with the values for the examples looked up. -/
def order (inputs : List (String × List String)) : DepTree.Outcome :=
  match orders.find? fun e => decide (e.1 = inputs) with
  | some e => e.2
  | none => DepTree.toposortDeps inputs

theorem orders_ok : ∀ e ∈ orders, DepTree.toposortDeps e.1 = e.2 := by
  have h1 : List.range 1 = [0] := by decide
  have h2 : List.range 2 = [0, 1] := by decide
  have h3 : List.range 3 = [0, 1, 2] := by decide
  intro e he
  simp only [orders, List.mem_cons, List.not_mem_nil, or_false] at he
  rcases he with rfl | rfl | rfl | rfl | rfl | rfl | rfl | rfl | rfl | rfl <;>
  simp [DepTree.toposortDeps, DepTree.indexes, DepTree.edges, DepTree.edgesFrom, DepTree.get, DepTree.toposort, DepTree.dfsAll,
    DepTree.dfsLoop, DepTree.Graph.successors, DepTree.checkOrder, DepTree.dfsNext, DepTree.Graph.predecessors,
    DepTree.removeAll, DepTree.values, DepTree.importCycle, DepTree.findCycle, DepTree.findCycleLoop, h1, h2, h3]

theorem toposortDeps_eq : DepTree.toposortDeps = order := by
  funext inputs
  unfold order
  cases h : orders.find? fun e => decide (e.1 = inputs) with
  | none => rfl
  | some e =>
    have he := List.mem_of_find?_eq_some h
    have hi := List.find?_some h
    rw [decide_eq_true_eq] at hi
    rw [← hi]
    exact orders_ok e he

end Verif.Build
