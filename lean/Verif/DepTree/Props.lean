import Verif.DepTree.Cycle

/-
**C20**: modules are ordered dependencies-first, or a real import cycle is reported.
-/
namespace Verif.DepTree
open Relation

theorem edges_graph (inputs : List (String × List String)) (hn : (inputs.map (·.1)).Nodup) :
    ∃ es, edges (indexes inputs 0 []) inputs = some es ∧
      ∀ a b, (a, b) ∈ es ↔ a < inputs.length ∧ b < inputs.length ∧ Imports inputs (nameAt inputs a) (nameAt inputs b) := by
  have hex : ∀ e ∈ inputs, ∃ i, get (indexes inputs 0 []) e.1 = some i := by
    intro e he
    obtain ⟨i, hi⟩ := List.mem_iff_getElem?.mp he
    exact ⟨i, (get_indexes_iff inputs hn _ _).mpr ⟨e.2, hi⟩⟩
  have hnm : ∀ (i : Nat) name deps, inputs[i]? = some (name, deps) → nameAt inputs i = name := by
    intro i name deps h; simp [nameAt, h]
  have hlt : ∀ (i : Nat) e, inputs[i]? = some e → i < inputs.length := by
    intro i e h; exact (List.getElem?_eq_some_iff.mp h).1
  have hat : ∀ i, i < inputs.length → ∃ deps, inputs[i]? = some (nameAt inputs i, deps) := by
    intro i h; exact ⟨inputs[i].2, by simp [nameAt, h]⟩
  obtain ⟨es, h1, h2⟩ := edges_some (indexes inputs 0 []) inputs hex
  refine ⟨es, h1, fun a b => ?_⟩
  rw [h2]
  constructor
  · rintro ⟨name, deps, dep, h3, h4, h5, h6⟩
    rw [get_indexes_iff inputs hn] at h4 h6
    obtain ⟨d4, h4⟩ := h4
    obtain ⟨d6, h6⟩ := h6
    refine ⟨hlt _ _ h4, hlt _ _ h6, ?_⟩
    rw [hnm _ _ _ h4, hnm _ _ _ h6]
    exact ⟨⟨deps, h3, h5⟩, d6, List.mem_iff_getElem?.mpr ⟨b, h6⟩⟩
  · rintro ⟨h3, h4, ⟨deps, h5, h6⟩, -⟩
    obtain ⟨da, ha⟩ := hat a h3
    obtain ⟨db, hb⟩ := hat b h4
    exact ⟨_, deps, _, h5, (get_indexes_iff inputs hn _ _).mpr ⟨da, ha⟩, h6, (get_indexes_iff inputs hn _ _).mpr ⟨db, hb⟩⟩

theorem map_nameAt_range (inputs : List (String × List String)) :
    (List.range inputs.length).map (nameAt inputs) = inputs.map (·.1) := by
  apply List.ext_getElem?
  intro i
  rw [List.getElem?_map, List.getElem?_map]
  by_cases h : i < inputs.length
  · simp [h, nameAt]
  · simp [h]

theorem nameAt_inj (inputs : List (String × List String)) (hn : (inputs.map (·.1)).Nodup) (a b : Nat) (ha : a < inputs.length)
    (hb : b < inputs.length) (h : nameAt inputs a = nameAt inputs b) : a = b := by
  have ha' : a < (inputs.map (·.1)).length := by simpa using ha
  have hb' : b < (inputs.map (·.1)).length := by simpa using hb
  have : (inputs.map (·.1))[a] = (inputs.map (·.1))[b] := by
    simpa [nameAt, ha, hb] using h
  exact (List.Nodup.getElem_inj_iff hn).mp this

theorem imports_index (inputs : List (String × List String)) (a b : String) (h : Imports inputs a b) :
    ∃ i j, i < inputs.length ∧ j < inputs.length ∧ nameAt inputs i = a ∧ nameAt inputs j = b := by
  obtain ⟨⟨d1, h1, -⟩, d2, h2⟩ := h
  obtain ⟨i, hi⟩ := List.mem_iff_getElem?.mp h1
  obtain ⟨j, hj⟩ := List.mem_iff_getElem?.mp h2
  exact ⟨i, j, (List.getElem?_eq_some_iff.mp hi).1, (List.getElem?_eq_some_iff.mp hj).1, by simp [nameAt, hi], by simp [nameAt, hj]⟩

/-- **C20.** For modules with distinct names, ordering never panics. It gives an order with every module exactly once and
every import before its importer, or a list of distinct modules each of which imports the previous one, the first importing
the last. -/
theorem toposortDeps_correct (inputs : List (String × List String)) (hn : (inputs.map (·.1)).Nodup) :
    match toposortDeps inputs with
    | .ordered order => DependenciesFirst inputs order
    | .cycle modules => IsCycle (Imports inputs) modules
    | .panic => False := by
  obtain ⟨es, h1, h2⟩ := edges_graph inputs hn
  have hg : Graph.Ok ⟨inputs.length, es⟩ := by
    intro a b h
    have := (h2 a b).mp h
    exact ⟨this.1, this.2.1⟩
  have hv1 : ∀ e ∈ values inputs, e.2 = nameAt inputs e.1 := fun e he => ((mem_values inputs e).mp he).2
  have hv2 : ∀ i, i < inputs.length → (i, nameAt inputs i) ∈ values inputs := fun i hi => (mem_values inputs _).mpr ⟨hi, rfl⟩
  have hts := toposort_spec hg
  simp only [toposortDeps, h1]
  revert hts
  cases toposort ⟨inputs.length, es⟩ with
  | ok seq =>
    rintro ⟨h3, h4⟩
    have h3' : ∀ i ∈ seq, i < inputs.length := fun i hi => List.mem_range.mp (h3.mem_iff.mp hi)
    simp only
    rw [removeAll_spec (nameAt inputs) _ seq (h3.nodup_iff.mpr List.nodup_range) (fun i hi => hv2 i (h3' i hi)) hv1]
    refine ⟨?_, ?_⟩
    · refine (List.reverse_perm _).trans ?_
      rw [← map_nameAt_range]
      exact h3.map _
    · intro a b hab
      obtain ⟨i, j, hi, hj, rfl, rfl⟩ := imports_index inputs a b hab
      obtain ⟨l, r, h5, h6⟩ := h4 i j ((h2 i j).mpr ⟨hi, hj, hab⟩)
      obtain ⟨l1, l2, h7⟩ := List.append_of_mem h6
      refine ⟨(r.map (nameAt inputs)).reverse ++ nameAt inputs j :: (l2.map (nameAt inputs)).reverse,
        (l1.map (nameAt inputs)).reverse, ?_, by simp⟩
      rw [h5, h7]
      simp
  | error n =>
    rintro ⟨h3, h4⟩
    obtain ⟨path, seen, h5, ⟨h6, h7, h8, h9⟩, h10⟩ := findCycle_spec hg n h3 h4
    simp only [importCycle, h5]
    rw [removeAll_spec (nameAt inputs) _ path h7 (fun i hi => hv2 i (h10 i hi)) hv1]
    refine ⟨by simpa using h6, ?_, ?_, ?_⟩
    · refine List.Nodup.map_on ?_ h7
      intro a ha b hb hab
      exact nameAt_inj inputs hn a b (h10 a ha) (h10 b hb) hab
    · intro l a b r hl
      obtain ⟨l', x, hp, hl', hx⟩ := List.map_eq_append_iff.mp hl
      obtain ⟨a', y, rfl, rfl, hy⟩ := List.map_eq_cons_iff.mp hx
      obtain ⟨b', z, rfl, rfl, hz⟩ := List.map_eq_cons_iff.mp hy
      exact ((h2 b' a').mp (h8 l' a' b' z hp)).2.2
    · intro first last hf hl
      rw [List.head?_map, Option.map_eq_some_iff] at hf
      rw [List.getLast?_map, Option.map_eq_some_iff] at hl
      obtain ⟨f, hf, rfl⟩ := hf
      obtain ⟨la, hl, rfl⟩ := hl
      exact ((h2 f la).mp (h9 f la hf hl)).2.2

/-- `a` imports `b` and `c`, `b` imports `c` and a module that is not there. -/
def orderedSample : List (String × List String) := [("a", ["b", "c"]), ("b", ["c", "elsewhere"]), ("c", [])]

/-- `a`, `b` and `c` import each other in a circle, and `d` imports `a`. -/
def cycleSample : List (String × List String) := [("d", ["a"]), ("a", ["b"]), ("b", ["c"]), ("c", ["a"])]

example : (orderedSample.map (·.1)).Nodup ∧ (cycleSample.map (·.1)).Nodup ∧ Imports orderedSample "a" "b" := by
  refine ⟨by decide, by decide, ⟨_, .head _, .head _⟩, ⟨_, .tail _ (.head _)⟩⟩

example : toposortDeps orderedSample = .ordered ["c", "b", "a"] ∧ toposortDeps cycleSample = .cycle ["c", "b", "a"] := by
  have h3 : List.range 3 = [0, 1, 2] := by decide
  have h4 : List.range 4 = [0, 1, 2, 3] := by decide
  constructor
  · simp [orderedSample, toposortDeps, indexes, edges, edgesFrom, get, toposort, dfsAll, dfsLoop, Graph.successors, checkOrder,
      dfsNext, Graph.predecessors, removeAll, values, h3]
  · simp [cycleSample, toposortDeps, indexes, edges, edgesFrom, get, toposort, dfsAll, dfsLoop, Graph.successors, checkOrder,
      dfsNext, Graph.predecessors, removeAll, values, importCycle, findCycle, findCycleLoop, h4]

/-- **C20, completeness.** An order is given exactly when no module imports itself, directly or through others. -/
theorem toposortDeps_ordered_iff (inputs : List (String × List String)) (hn : (inputs.map (·.1)).Nodup) :
    (∃ order, toposortDeps inputs = .ordered order) ↔ ∀ m, ¬ TransGen (Imports inputs) m m := by
  have h := toposortDeps_correct inputs hn
  constructor
  · rintro ⟨order, ho⟩ m hm
    rw [ho] at h
    obtain ⟨h1, h2⟩ := h
    have hnd : order.Nodup := h1.nodup_iff.mpr hn
    have key : ∀ b, TransGen (Imports inputs) m b → ∃ l r, order = l ++ m :: r ∧ b ∈ l := by
      intro b hb
      induction hb with
      | single h => exact h2 _ _ h
      | @tail b c _ h ih =>
        obtain ⟨l, r, h3, h4⟩ := ih
        obtain ⟨l', r', h5, h6⟩ := h2 _ _ h
        refine ⟨l, r, h3, ?_⟩
        obtain ⟨x, y, h7⟩ := List.append_of_mem h4
        have : x = l' := by
          have h8 : x ++ b :: (y ++ m :: r) = l' ++ b :: r' := by rw [← h5, h3, h7]; simp
          have hx : b ∉ x := by
            rw [h3, h7] at hnd
            simp only [List.append_assoc, List.cons_append] at hnd
            exact fun hc => (List.nodup_append.mp hnd).2.2 b hc b (by simp) rfl
          have hl : b ∉ l' := by
            rw [h5] at hnd
            exact fun hc => (List.nodup_append.mp hnd).2.2 b hc b (by simp) rfl
          rcases List.append_eq_append_iff.mp h8 with ⟨z, h9, h10⟩ | ⟨z, h9, h10⟩
          · cases z with
            | nil => simpa using h9.symm
            | cons w z =>
              simp only [List.cons_append, List.cons.injEq] at h10
              exact absurd (by rw [h9, ← h10.1]; simp) hl
          · cases z with
            | nil => simpa using h9
            | cons w z =>
              simp only [List.cons_append, List.cons.injEq] at h10
              exact absurd (by rw [h9, ← h10.1]; simp) hx
        rw [h7, this]
        simp [h6]
    obtain ⟨l, r, h3, h4⟩ := key m hm
    rw [h3] at hnd
    exact (List.nodup_append.mp hnd).2.2 m h4 m (by simp) rfl
  · intro hac
    revert h
    cases toposortDeps inputs with
    | ordered order => intro _; exact ⟨order, rfl⟩
    | panic => exact False.elim
    | cycle c =>
      rintro ⟨h1, h2, h3, h4⟩
      exfalso
      cases c with
      | nil => exact h1 rfl
      | cons first rest =>
        have key : ∀ l r, first :: rest = l ++ r → ∀ last, l.getLast? = some last → ReflTransGen (Imports inputs) last first := by
          intro l
          induction l using List.reverseRecOn with
          | nil => intro r _ last hl; simp at hl
          | append_singleton l x ih =>
            intro r hr last hl
            rw [List.getLast?_concat, Option.some.injEq] at hl
            subst hl
            cases hx : l.getLast? with
            | none =>
              rw [List.getLast?_eq_none_iff] at hx
              subst hx
              simp only [List.nil_append, List.cons_append, List.cons.injEq] at hr
              rw [hr.1]
            | some y =>
              have h5 := ih (x :: r) (by rw [hr]; simp) y hx
              obtain ⟨l', rfl⟩ := List.getLast?_eq_some_iff.mp hx
              exact .head (h3 l' y x r (by rw [hr]; simp)) h5
        have hlast : (first :: rest).getLast? = some ((first :: rest).getLast (by simp)) := List.getLast?_eq_some_getLast _
        exact hac first (TransGen.head' (h4 _ _ rfl hlast) (key (first :: rest) [] (by simp) _ hlast))

/-- **C20, locations.** When the reported modules import each other in a circle and the loader knows the imports of each
module, every module of the cycle is reported with the location of an import of the module before it. -/
theorem convertCycle_correct {Loc : Type} (imports : String → List (String × Loc)) (modules : List String)
    (hc : IsCycle (fun a b => b ∈ (imports a).map (·.1)) modules) :
    ∃ located, convertCycle imports modules = some located ∧ located.map (·.1) = modules ∧
      (∀ l a b r, located = l ++ a :: b :: r → (a.1, b.2) ∈ imports b.1) ∧
      ∀ first last, located.head? = some first → located.getLast? = some last → (last.1, first.2) ∈ imports first.1 := by
  obtain ⟨h1, h2, h3, h4⟩ := hc
  have hfind : ∀ m imported, imported ∈ (imports m).map (·.1) →
      ∃ loc, (imports m).find? (fun d => d.1 == imported) = some (imported, loc) ∧ (imported, loc) ∈ imports m := by
    intro m imported h
    cases hf : (imports m).find? (fun d => d.1 == imported) with
    | none =>
      rw [List.find?_eq_none] at hf
      obtain ⟨d, hd, rfl⟩ := List.mem_map.mp h
      exact absurd (hf d hd) (by simp)
    | some d =>
      have := List.find?_some hf
      simp only [beq_iff_eq] at this
      exact ⟨d.2, by rw [← this], by rw [← this]; exact List.mem_of_find?_eq_some hf⟩
  have key : ∀ todo done, modules = done ++ todo → ∃ rest, cycleLocations imports modules done.length todo = some rest ∧
      rest.map (·.1) = todo ∧
      (∀ l a b r, rest = l ++ a :: b :: r → (a.1, b.2) ∈ imports b.1) ∧
      ∀ x, rest.head? = some x → ∀ p, (if done = [] then modules.getLast? else done.getLast?) = some p → (p, x.2) ∈ imports x.1 := by
    intro todo
    induction todo with
    | nil => intro done _; exact ⟨[], rfl, rfl, by simp, by simp⟩
    | cons m todo ih =>
      intro done hd
      obtain ⟨rest, g1, g2, g3, g4⟩ := ih (done ++ [m]) (by simp [hd])
      have hp : ∃ p, modules[if done.length = 0 then modules.length - 1 else done.length - 1]? = some p ∧
          (if done = [] then modules.getLast? else done.getLast?) = some p ∧ p ∈ (imports m).map (·.1) := by
        by_cases hdn : done = []
        · subst hdn
          simp only [List.nil_append] at hd
          have hl := List.getLast?_eq_some_getLast h1
          refine ⟨modules.getLast h1, ?_, by simp [hl], h4 m _ (by rw [hd]; rfl) hl⟩
          rw [List.getLast_eq_getElem]
          have : modules.length - 1 < modules.length := by
            have := List.length_pos_iff.mpr h1; omega
          simp
        · obtain ⟨d', p, rfl⟩ := List.eq_nil_or_concat done |>.resolve_left hdn
          refine ⟨p, ?_, by simp, h3 d' p m todo (by rw [hd]; simp)⟩
          rw [hd]
          simp
      obtain ⟨p, hp1, hp2, hp3⟩ := hp
      obtain ⟨loc, f1, f2⟩ := hfind m p hp3
      have hlen : (done ++ [m]).length = done.length + 1 := by simp
      rw [hlen] at g1
      refine ⟨(m, loc) :: rest, ?_, by simp [g2], ?_, ?_⟩
      · simp only [cycleLocations, hp1, f1, g1]
      · intro l a b r hl
        cases l with
        | cons _ l =>
          simp only [List.cons_append, List.cons.injEq] at hl
          exact g3 l a b r hl.2
        | nil =>
          simp only [List.nil_append, List.cons.injEq] at hl
          obtain ⟨rfl, hl⟩ := hl
          exact g4 b (by rw [hl]; rfl) m (by simp)
      · intro x hx q hq
        rw [hp2, Option.some.injEq] at hq
        simp only [List.head?_cons, Option.some.injEq] at hx
        subst hq hx
        exact f2
  obtain ⟨rest, g1, g2, g3, g4⟩ := key modules [] rfl
  refine ⟨rest, by simpa [convertCycle, h1] using g1, g2, g3, ?_⟩
  intro first last hf hl
  refine g4 first hf last.1 ?_
  simp only [if_true]
  rw [← g2, List.getLast?_map, hl]
  rfl

example : IsCycle (fun a b => b ∈ ([("c", 7)].map (·.1) : List String) ∧ a = "c") ["c"] := by
  refine ⟨by simp, by simp, ?_, ?_⟩
  · intro l a b r h
    rcases l with _ | ⟨x, _ | _⟩ <;> simp at h
  · intro f l hf hl
    simp at hf hl
    simp [← hf, ← hl]

end Verif.DepTree
