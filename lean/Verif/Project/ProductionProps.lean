import Verif.Project.ProductionModel
import Verif.Project.Spec

/-
**C35**: a production build compiles exactly the packages reachable from the root's non-dev dependencies.
-/
namespace Verif.Project

theorem find_unique (packages : List (String × List String)) (hn : (packages.map (·.1)).Nodup) (name : String)
    (reqs : List String) (h : (name, reqs) ∈ packages) : packages.find? (fun e => e.1 == name) = some (name, reqs) := by
  induction packages with
  | nil => simp at h
  | cons p packages ih =>
    simp only [List.map_cons, List.nodup_cons] at hn
    rcases List.mem_cons.mp h with rfl | h
    · simp
    · have : p.1 ≠ name := by
        rintro rfl
        exact hn.1 (List.mem_map.mpr ⟨_, h, rfl⟩)
      rw [List.find?_cons_of_neg (by simpa using this)]
      exact ih hn.2 h

theorem collect_spec (roots : String → Prop) (packages : List (String × List String)) (hn : (packages.map (·.1)).Nodup)
    (queue production : List String)
    (h1 : ∀ x, x ∈ queue ∨ x ∈ production → Needed roots packages x)
    (h2 : ∀ x ∈ production, ∀ reqs, (x, reqs) ∈ packages → ∀ r ∈ reqs, r ∈ queue ∨ r ∈ production)
    (h3 : ∀ x, roots x → x ∈ queue ∨ x ∈ production) (x : String) :
    x ∈ collect packages queue production ↔ Needed roots packages x := by
  induction queue, production using collect.induct packages with
  | case1 production =>
    unfold collect
    refine ⟨fun h => h1 x (.inr h), fun h => ?_⟩
    induction h with
    | root h => simpa using h3 _ h
    | requirement _ hp hr ih => simpa using h2 _ ih _ hp _ hr
  | case2 production name queue hmem ih =>
    rw [collect_cons]
    simp only [hmem, if_true]
    apply ih
    · intro y hy; apply h1; rcases hy with hy | hy
      · exact .inl (by simp [hy])
      · exact .inr hy
    · intro y hy reqs hp r hr
      rcases h2 y hy reqs hp r hr with h | h
      · rcases List.mem_cons.mp h with rfl | h
        · exact .inr hmem
        · exact .inl h
      · exact .inr h
    · intro y hy
      rcases h3 y hy with h | h
      · rcases List.mem_cons.mp h with rfl | h
        · exact .inr hmem
        · exact .inl h
      · exact .inr h
  | case3 production name queue hmem hf ih =>
    rw [collect_cons]
    simp only [hmem, if_false, hf]
    apply ih
    · intro y hy; apply h1
      rcases hy with hy | hy
      · exact .inl (by simp [hy])
      · rcases List.mem_cons.mp hy with rfl | hy
        · exact .inl (by simp)
        · exact .inr hy
    · intro y hy reqs hp r hr
      rcases List.mem_cons.mp hy with rfl | hy
      · rw [find_unique packages hn _ _ hp] at hf; simp at hf
      · rcases h2 y hy reqs hp r hr with h | h
        · rcases List.mem_cons.mp h with rfl | h
          · exact .inr (by simp)
          · exact .inl h
        · exact .inr (by simp [h])
    · intro y hy
      rcases h3 y hy with h | h
      · rcases List.mem_cons.mp h with rfl | h
        · exact .inr (by simp)
        · exact .inl h
      · exact .inr (by simp [h])
  | case4 production name queue hmem e hf ih =>
    rw [collect_cons]
    simp only [hmem, if_false, hf]
    have he := List.mem_of_find?_eq_some hf
    have hen := List.find?_some hf
    simp only [beq_iff_eq] at hen
    subst hen
    apply ih
    · intro y hy
      rcases hy with hy | hy
      · rcases List.mem_append.mp hy with hy | hy
        · exact .requirement (h1 e.1 (.inl (by simp))) he (by simpa using hy)
        · exact h1 y (.inl (by simp [hy]))
      · rcases List.mem_cons.mp hy with rfl | hy
        · exact h1 _ (.inl (by simp))
        · exact h1 _ (.inr hy)
    · intro y hy reqs hp r hr
      rcases List.mem_cons.mp hy with rfl | hy
      · have := find_unique packages hn _ _ hp
        rw [hf, Option.some.injEq] at this
        rw [this]
        exact .inl (by simp [hr])
      · rcases h2 y hy reqs hp r hr with h | h
        · rcases List.mem_cons.mp h with rfl | h
          · exact .inr (by simp)
          · exact .inl (by simp [h])
        · exact .inr (by simp [h])
    · intro y hy
      rcases h3 y hy with h | h
      · rcases List.mem_cons.mp h with rfl | h
        · exact .inr (by simp)
        · exact .inl (by simp [h])
      · exact .inr (by simp [h])

/-- **C35.** The packages kept for a production build are exactly the needed ones, for every graph of requirements, cyclic or
not, and whatever the order of the hash map. -/
theorem retainProduction_correct (dependencies : List String) (packages : List (String × List String))
    (hn : (packages.map (·.1)).Nodup) (p : String × List String) :
    p ∈ retainProduction dependencies packages ↔ p ∈ packages ∧ Needed (· ∈ dependencies) packages p.1 := by
  simp only [retainProduction, List.mem_filter, decide_eq_true_eq]
  rw [collect_spec (· ∈ dependencies) packages hn]
  · intro x hx
    rcases hx with hx | hx
    · exact .root (by simpa using hx)
    · simp at hx
  · simp
  · intro x (hx : x ∈ dependencies); simp [hx]

/-- `app` needs `web`, which needs `http`, which needs `web`; `gleeunit` is a development package that needs `http`. -/
def productionSample : List (String × List String) :=
  [("web", ["http", "optional"]), ("http", ["web"]), ("gleeunit", ["http"])]

example : (productionSample.map (·.1)).Nodup ∧ Needed (· ∈ ["web"]) productionSample "http" ∧
    retainProduction ["web"] productionSample = [("web", ["http", "optional"]), ("http", ["web"])] := by
  refine ⟨by decide, .requirement (.root (by simp)) (.head _) (.head _), ?_⟩
  simp [productionSample, retainProduction, collect_cons, collect_nil]

/-- **C35.** The order in which the hash map of dependencies gives its keys does not matter. -/
theorem retainProduction_perm (d₁ d₂ : List String) (h : d₁.Perm d₂) (packages : List (String × List String))
    (hn : (packages.map (·.1)).Nodup) : retainProduction d₁ packages = retainProduction d₂ packages := by
  have hne : ∀ x, Needed (· ∈ d₁) packages x ↔ Needed (· ∈ d₂) packages x := by
    intro x
    constructor
    · intro hx; induction hx with
      | root hx => exact .root (h.mem_iff.mp hx)
      | requirement _ hp hr ih => exact .requirement ih hp hr
    · intro hx; induction hx with
      | root hx => exact .root (h.mem_iff.mpr hx)
      | requirement _ hp hr ih => exact .requirement ih hp hr
  simp only [retainProduction]
  apply List.filter_congr
  intro p hp
  have := retainProduction_correct d₁ packages hn p
  have h2 := retainProduction_correct d₂ packages hn p
  simp only [retainProduction, List.mem_filter, hp, true_and, decide_eq_true_eq] at this h2
  simp only [decide_eq_decide]
  rw [this, h2, hne]

example : ["web", "json"].Perm ["json", "web"] := .swap _ _ _

end Verif.Project
