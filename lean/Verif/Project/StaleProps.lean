import Verif.Project.ManifestModel
import Verif.Project.ProductionProps

/-
**C22**: unlocking stale packages keeps the packages needed by unchanged requirements.
-/
namespace Verif.Project

theorem lookup_iff (packages : List (String × List String)) (hn : (packages.map (·.1)).Nodup) (name : String)
    (reqs : List String) : lookup packages name = some reqs ↔ (name, reqs) ∈ packages := by
  constructor
  · intro h
    simp only [lookup, Option.map_eq_some_iff] at h
    obtain ⟨e, h1, rfl⟩ := h
    have := List.find?_some h1
    simp only [beq_iff_eq] at this
    subst this
    exact List.mem_of_find?_eq_some h1
  · intro h
    simp [lookup, find_unique packages hn name reqs h]

theorem hasKey_iff {α : Type} (map : List (String × α)) (name : String) : hasKey map name = true ↔ ∃ a, (name, a) ∈ map := by
  simp only [hasKey, List.any_eq_true, beq_iff_eq]
  constructor
  · rintro ⟨e, h, rfl⟩; exact ⟨e.2, h⟩
  · rintro ⟨a, h⟩; exact ⟨_, h, rfl⟩

theorem needed_mono {r₁ r₂ : String → Prop} (h : ∀ x, r₁ x → r₂ x) {packages : List (String × List String)} {x : String}
    (hx : Needed r₁ packages x) : Needed r₂ packages x := by
  induction hx with
  | root hx => exact .root (h _ hx)
  | requirement _ hp hr ih => exact .requirement ih hp hr

theorem needed_trans {r₁ r₂ : String → Prop} {packages : List (String × List String)} (h : ∀ x, r₁ x → Needed r₂ packages x)
    {x : String} (hx : Needed r₁ packages x) : Needed r₂ packages x := by
  induction hx with
  | root hx => exact h _ hx
  | requirement _ hp hr ih => exact .requirement ih hp hr

theorem needed_one (packages : List (String × List String)) (name x : String) :
    Needed (· = name) packages x ↔ x = name ∨ ∃ reqs dep, (name, reqs) ∈ packages ∧ dep ∈ reqs ∧ Needed (· = dep) packages x := by
  constructor
  · intro h
    induction h with
    | root h => exact .inl h
    | @requirement a b reqs _ hp hr ih =>
      rcases ih with rfl | ⟨reqs', dep, h1, h2, h3⟩
      · exact .inr ⟨reqs, b, hp, hr, .root rfl⟩
      · exact .inr ⟨reqs', dep, h1, h2, .requirement h3 hp hr⟩
  · rintro (rfl | ⟨reqs, dep, h1, h2, h3⟩)
    · exact .root rfl
    · exact needed_trans (fun y hy => hy ▸ .requirement (.root rfl) h1 h2) h3

theorem foldlM_spec (f : List String → String → Option (List String)) (P : String → String → Prop)
    (hf : ∀ fresh name fresh', f fresh name = some fresh' → ∀ x, x ∈ fresh' ↔ x ∈ fresh ∨ P name x)
    (names fresh fresh' : List String) (h : names.foldlM f fresh = some fresh') (x : String) :
    x ∈ fresh' ↔ x ∈ fresh ∨ ∃ n ∈ names, P n x := by
  induction names generalizing fresh with
  | nil => simp only [List.foldlM_nil, Option.pure_def, Option.some.injEq] at h; subst h; simp
  | cons n names ih =>
    rw [List.foldlM_cons] at h
    cases hg : f fresh n with
    | none => rw [hg] at h; simp at h
    | some g =>
      rw [hg] at h
      rw [ih g h, hf _ _ _ hg]
      simp only [List.mem_cons, exists_eq_or_imp]
      grind

theorem recordTree_spec (locked : List (String × List String)) (hn : (locked.map (·.1)).Nodup) (fuel : Nat) (name : String)
    (fresh fresh' : List String) (h : recordTree locked fuel name fresh = some fresh') (x : String) :
    x ∈ fresh' ↔ x ∈ fresh ∨ Needed (· = name) locked x := by
  induction fuel generalizing name fresh fresh' x with
  | zero => simp [recordTree] at h
  | succ fuel ih =>
    unfold recordTree at h
    rw [needed_one]
    cases hl : lookup locked name with
    | none =>
      rw [hl] at h
      simp only [Option.some.injEq] at h
      subst h
      have : ∀ reqs, (name, reqs) ∉ locked := by
        intro reqs hc
        rw [(lookup_iff locked hn name reqs).mpr hc] at hl
        simp at hl
      simp only [List.mem_cons]
      constructor
      · rintro (h | h)
        · exact .inr (.inl h)
        · exact .inl h
      · rintro (h | h | ⟨reqs, _, h, _⟩)
        · exact .inr h
        · exact .inl h
        · exact absurd h (this reqs)
    | some deps =>
      rw [hl] at h
      simp only at h
      have hm := (lookup_iff locked hn name deps).mp hl
      rw [foldlM_spec (fun fresh dep => recordTree locked fuel dep fresh) (fun n x => Needed (· = n) locked x)
        (fun fresh n fresh' h x => ih n fresh fresh' h x) deps _ _ h x]
      simp only [List.mem_cons]
      constructor
      · rintro ((h | h) | ⟨n, h1, h2⟩)
        · exact .inr (.inl h)
        · exact .inl h
        · exact .inr (.inr ⟨deps, n, hm, h1, h2⟩)
      · rintro (h | h | ⟨reqs, dep, h1, h2, h3⟩)
        · exact .inl (.inr h)
        · exact .inl (.inl h)
        · rw [← lookup_iff locked hn, hl, Option.some.injEq] at h1
          subst h1
          exact .inr ⟨dep, h2, h3⟩

theorem foldlM_some (f : List String → String → Option (List String)) (names : List String)
    (hf : ∀ n ∈ names, ∀ fresh, ∃ fresh', f fresh n = some fresh') (fresh : List String) :
    ∃ fresh', names.foldlM f fresh = some fresh' := by
  induction names generalizing fresh with
  | nil => exact ⟨fresh, rfl⟩
  | cons n names ih =>
    obtain ⟨g, hg⟩ := hf n (by simp) fresh
    obtain ⟨r, hr⟩ := ih (fun m hm => hf m (by simp [hm])) g
    exact ⟨r, by rw [List.foldlM_cons, hg]; exact hr⟩

theorem recordTree_some (locked : List (String × List String)) (hn : (locked.map (·.1)).Nodup) (ha : Acyclic locked)
    (fuel : Nat) (path : List String) (name : String) (hp : ∀ a ∈ path, RequiresChain locked a name)
    (hf : unrecorded locked path < fuel) (fresh : List String) : ∃ fresh', recordTree locked fuel name fresh = some fresh' := by
  induction fuel generalizing path name fresh with
  | zero => omega
  | succ fuel ih =>
    unfold recordTree
    cases hl : lookup locked name with
    | none => exact ⟨_, rfl⟩
    | some deps =>
      have hm := (lookup_iff locked hn name deps).mp hl
      have hnp : name ∉ path := fun hc => ha name (hp name hc)
      have hlt := unrecorded_lt locked name path hnp _ (find_unique locked hn name deps hm)
      apply foldlM_some
      intro dep hdep fresh
      apply ih (name :: path) dep
      · intro a hap
        rcases List.mem_cons.mp hap with rfl | hap
        · exact .one ⟨deps, hm, hdep⟩
        · exact .more (hp a hap) ⟨deps, hm, hdep⟩
      · omega

theorem mem_unchanged {V R : Type} [DecidableEq R] (requirements : List (String × R)) (manifest : Manifest V R)
    (hm : (manifest.requirements.map (·.1)).Nodup) (name : String) :
    name ∈ unchanged requirements manifest ↔ ∃ r, (name, r) ∈ requirements ∧ (name, r) ∈ manifest.requirements := by
  have hl : ∀ n r, lookup manifest.requirements n = some r ↔ (n, r) ∈ manifest.requirements := by
    intro n r
    generalize manifest.requirements = l at hm ⊢
    induction l with
    | nil => simp [lookup]
    | cons e l ih =>
      simp only [List.map_cons, List.nodup_cons] at hm
      by_cases h : e.1 = n
      · subst h
        have : ∀ r, (e.1, r) ∉ l := fun r hc => hm.1 (List.mem_map.mpr ⟨_, hc, rfl⟩)
        simp only [lookup, List.find?_cons, beq_self_eq_true, Option.map_some, Option.some.injEq, List.mem_cons, this, or_false]
        constructor
        · rintro rfl; rfl
        · intro h; rw [← h]
      · have : (n, r) ≠ e := fun hc => h (by rw [← hc])
        have ih := ih hm.2
        simp only [lookup] at ih ⊢
        rw [List.find?_cons_of_neg (by simpa using h), ih]
        simp [this]
  simp only [unchanged, List.mem_map, List.mem_filter, decide_eq_true_eq]
  constructor
  · rintro ⟨⟨n, r⟩, ⟨h1, h2⟩, rfl⟩; exact ⟨r, h1, (hl _ _).mp h2⟩
  · rintro ⟨r, h1, h2⟩; exact ⟨(name, r), ⟨h1, (hl _ _).mpr h2⟩, rfl⟩

/-- The requirement of a package is the same in the project and in the lockfile. -/
def Unchanged {V R : Type} (requirements : List (String × R)) (manifest : Manifest V R) (name : String) : Prop :=
  ∃ r, (name, r) ∈ requirements ∧ (name, r) ∈ manifest.requirements

/-- The package is newly a direct requirement of the project. -/
def NewlyRequired {V R : Type} (requirements : List (String × R)) (manifest : Manifest V R) (name : String) : Prop :=
  (∃ r, (name, r) ∈ requirements) ∧ ∀ r, (name, r) ∉ manifest.requirements

/-- The names and requirements of the packages of a lockfile. -/
def Manifest.graph {V R : Type} (m : Manifest V R) : List (String × List String) := m.packages.map fun p => (p.name, p.requirements)

/-- **C22, partial.** For a lockfile without cyclic requirements the packages kept locked, each at its old version, are exactly
those that requirements which did not change need, directly or not, except those newly required directly. What is missing:
lockfiles with cycles, for which the code does not end (`freshAndLocked_cyclic`), and unlocking every package whose requirement
changed, which is not what the code does (`freshAndLocked_changed`). -/
theorem freshAndLocked_partial {V R : Type} [DecidableEq R] (requirements : List (String × R)) (manifest : Manifest V R)
    (hp : (manifest.packages.map (·.name)).Nodup) (hm : (manifest.requirements.map (·.1)).Nodup) (ha : Acyclic manifest.graph)
    (fuel : Nat) (hf : manifest.packages.length < fuel) :
    ∃ locked, freshAndLocked fuel requirements manifest = some locked ∧
      ∀ name version, (name, version) ∈ locked ↔ (∃ p ∈ manifest.packages, p.name = name ∧ p.version = version) ∧
        Needed (Unchanged requirements manifest) manifest.graph name ∧ ¬ NewlyRequired requirements manifest name := by
  have hn : (manifest.graph.map (·.1)).Nodup := by
    simp only [Manifest.graph, List.map_map]
    exact hp
  have hlen : unrecorded manifest.graph [] < fuel := by
    have := List.length_filter_le (fun p : String × List String => decide (p.1 ∉ ([] : List String))) manifest.graph
    simp only [unrecorded]
    simp only [Manifest.graph, List.length_map] at this ⊢
    omega
  obtain ⟨fresh, h1⟩ := foldlM_some (fun fresh name => recordTree (lockedRequirements manifest) fuel name fresh)
    (unchanged requirements manifest)
    (fun n _ fresh => recordTree_some manifest.graph hn ha fuel [] n (by simp) hlen fresh) []
  have h2 := foldlM_spec (fun fresh name => recordTree (lockedRequirements manifest) fuel name fresh)
    (fun n x => Needed (· = n) manifest.graph x) (fun fresh n fresh' h x => recordTree_spec manifest.graph hn fuel n fresh fresh' h x)
    _ _ _ h1
  have h3 : ∀ x, x ∈ fresh ↔ Needed (Unchanged requirements manifest) manifest.graph x := by
    intro x
    rw [h2]
    constructor
    · rintro (h | ⟨n, h3, h4⟩)
      · simp at h
      · exact needed_mono (fun y hy => hy ▸ (mem_unchanged requirements manifest hm n).mp h3) h4
    · intro h
      right
      induction h with
      | root h => exact ⟨_, (mem_unchanged requirements manifest hm _).mpr h, .root rfl⟩
      | requirement _ hp hr ih =>
        obtain ⟨n, h3, h4⟩ := ih
        exact ⟨n, h3, .requirement h4 hp hr⟩
  refine ⟨(manifest.packages.filter (staysLocked requirements manifest fresh)).map fun p => (p.name, p.version),
    by simp only [freshAndLocked, h1], ?_⟩
  intro name version
  simp only [List.mem_map, List.mem_filter, staysLocked, Bool.and_eq_true, decide_eq_true_eq, Bool.not_eq_true',
    Bool.and_eq_false_iff, Prod.mk.injEq, Bool.not_eq_false']
  have hnew : ∀ n, (hasKey requirements n = false ∨ hasKey manifest.requirements n = true) ↔
      ¬ NewlyRequired requirements manifest n := by
    intro n
    rw [hasKey_iff, ← Bool.not_eq_true, hasKey_iff]
    simp only [NewlyRequired, not_and, Classical.not_forall, Classical.not_not]
    constructor
    · rintro (h | h) hr
      · exact absurd hr h
      · exact h
    · intro h
      by_cases hr : ∃ a, (n, a) ∈ requirements
      · exact .inr (h hr)
      · exact .inl hr
  constructor
  · rintro ⟨p, ⟨h4, h5, h6⟩, rfl, rfl⟩
    exact ⟨⟨p, h4, rfl, rfl⟩, (h3 _).mp h6, (hnew _).mp h5⟩
  · rintro ⟨⟨p, h4, rfl, rfl⟩, h5, h6⟩
    exact ⟨p, ⟨h4, (hnew _).mpr h6, (h3 _).mpr h5⟩, rfl, rfl⟩

/-- A hex package. -/
def hexPackage (name : String) (version : Nat) (requirements : List String) : Package Nat :=
  { name, version, requirements, source := .hex [] }

/-- `web` and `http` are required, `web` requires `http`. -/
def staleSample : Manifest Nat String where
  requirements := [("web", "~> 1"), ("http", "~> 1"), ("json", "~> 1")]
  packages := [hexPackage "web" 1 ["http"], hexPackage "http" 1 [], hexPackage "json" 1 ["deep"], hexPackage "deep" 3 []]

theorem staleSample_acyclic : Acyclic staleSample.graph := by
  have hr : ∀ a b, Requires staleSample.graph a b → (a = "web" ∧ b = "http") ∨ (a = "json" ∧ b = "deep") := by
    rintro a b ⟨reqs, h1, h2⟩
    simp only [Manifest.graph, staleSample, hexPackage, List.map_cons, List.map_nil, List.mem_cons, Prod.mk.injEq,
      List.not_mem_nil, or_false] at h1
    rcases h1 with ⟨rfl, rfl⟩ | ⟨rfl, rfl⟩ | ⟨rfl, rfl⟩ | ⟨rfl, rfl⟩ <;> simp_all
  have : ∀ a b, RequiresChain staleSample.graph a b → (a = "web" ∨ a = "json") ∧ (b = "http" ∨ b = "deep") := by
    intro a b h
    induction h with
    | one h => rcases hr _ _ h with ⟨rfl, rfl⟩ | ⟨rfl, rfl⟩ <;> simp
    | more _ h ih => rcases hr _ _ h with ⟨rfl, rfl⟩ | ⟨rfl, rfl⟩ <;> simp_all
  intro a h
  rcases this a a h with ⟨rfl | rfl, h2⟩ <;> simp at h2

example : (staleSample.packages.map (·.name)).Nodup ∧ (staleSample.requirements.map (·.1)).Nodup ∧
    freshAndLocked 5 [("web", "~> 1"), ("http", "~> 1"), ("json", "~> 2")] staleSample = some [("web", 1), ("http", 1)] := by
  decide

/-- **C22, false of the code.** The requirement for `http` changes from `~> 1` to `~> 2`, yet `http` stays locked to its old
version, since `web` needs it. -/
theorem freshAndLocked_changed :
    ("http", "~> 2") ∈ [("web", "~> 1"), ("http", "~> 2")] ∧ ("http", "~> 1") ∈ staleSample.requirements ∧
    ∃ locked, freshAndLocked 5 [("web", "~> 1"), ("http", "~> 2")] staleSample = some locked ∧ ("http", 1) ∈ locked := by
  exact ⟨by decide, by decide, _, rfl, by decide⟩

/-- Two packages that require each other. -/
def cyclicSample : Manifest Nat String where
  requirements := [("a", "~> 1")]
  packages := [hexPackage "a" 1 ["b"], hexPackage "b" 1 ["a"]]

/-- **C22, false of the code.** With packages that require each other the recursion never ends, whatever the depth allowed. -/
theorem freshAndLocked_cyclic (fuel : Nat) : freshAndLocked fuel [("a", "~> 1")] cyclicSample = none := by
  have h : ∀ fuel fresh, recordTree (lockedRequirements cyclicSample) fuel "a" fresh = none ∧
      recordTree (lockedRequirements cyclicSample) fuel "b" fresh = none := by
    intro fuel
    have ha : lookup (lockedRequirements cyclicSample) "a" = some ["b"] := by decide
    have hb : lookup (lockedRequirements cyclicSample) "b" = some ["a"] := by decide
    induction fuel with
    | zero => intro fresh; simp [recordTree]
    | succ fuel ih =>
      intro fresh
      simp only [recordTree, ha, hb, List.foldlM_cons, (ih _).1, (ih _).2]
      simp
  have hu : unchanged [("a", "~> 1")] cyclicSample = ["a"] := by decide
  simp only [freshAndLocked, hu, List.foldlM_cons, (h fuel []).1]
  rfl

end Verif.Project
