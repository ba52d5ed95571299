/-
Model of the selection of production packages, `/repo/compiler-core/src/build/project_compiler.rs:175-187`.
-/
namespace Verif.Project

/-- `HashMap::get` on a map given as a list of entries. -/
def lookup {α : Type} (map : List (String × α)) (name : String) : Option α := (map.find? fun e => e.1 == name).map (·.2)

/-- The number of packages whose name has not been recorded: the measure of the loop below. -/
def unrecorded (packages : List (String × List String)) (production : List String) : Nat :=
  (packages.filter fun p => decide (p.1 ∉ production)).length

theorem unrecorded_le (packages : List (String × List String)) (name : String) (production : List String) :
    unrecorded packages (name :: production) ≤ unrecorded packages production := by
  unfold unrecorded
  have : packages.filter (fun p => decide (p.1 ∉ name :: production)) =
      (packages.filter fun p => decide (p.1 ∉ production)).filter fun p => decide (p.1 ≠ name) := by
    rw [List.filter_filter]; congr 1; funext p; simp
  rw [this]
  exact List.length_filter_le _ _

theorem unrecorded_lt (packages : List (String × List String)) (name : String) (production : List String)
    (h : name ∉ production) (e : String × List String) (he : packages.find? (fun e => e.1 == name) = some e) :
    unrecorded packages (name :: production) < unrecorded packages production := by
  unfold unrecorded
  have : packages.filter (fun p => decide (p.1 ∉ name :: production)) =
      (packages.filter fun p => decide (p.1 ∉ production)).filter fun p => decide (p.1 ≠ name) := by
    rw [List.filter_filter]; congr 1; funext p; simp
  rw [this]
  have h1 := List.find?_some he
  simp only [beq_iff_eq] at h1
  exact List.length_filter_lt_length_iff_exists.mpr ⟨e, by simp [List.mem_of_find?_eq_some he, h1, h], by simp [h1]⟩

/-- `project_compiler.rs:178-184`: the loop. The queue is a stack whose top is the head of the list. A package is its name and
its requirements. -/
def collect (packages : List (String × List String)) (queue production : List String) : List String :=
  match queue with
  | [] => production
  | name :: queue =>
    if name ∈ production then collect packages queue production
    else
      match he : packages.find? fun e => e.1 == name with
      | none => collect packages queue (name :: production)
      | some e => collect packages (e.2.reverse ++ queue) (name :: production)
termination_by (unrecorded packages production, queue.length)
decreasing_by
  · exact Prod.Lex.right _ (by simp)
  · rcases Nat.lt_or_eq_of_le (unrecorded_le packages name production) with h | h
    · exact Prod.Lex.left _ _ h
    · rw [h]; exact Prod.Lex.right _ (by simp)
  · exact Prod.Lex.left _ _ (unrecorded_lt packages name production (by assumption) _ he)

theorem collect_nil (packages : List (String × List String)) (production : List String) :
    collect packages [] production = production := by unfold collect; rfl

theorem collect_cons (packages : List (String × List String)) (name : String) (queue production : List String) :
    collect packages (name :: queue) production =
      if name ∈ production then collect packages queue production
      else
        match packages.find? fun e => e.1 == name with
        | none => collect packages queue (name :: production)
        | some e => collect packages (e.2.reverse ++ queue) (name :: production) := by
  conv => lhs; unfold collect
  split
  · rfl
  · cases h : packages.find? (fun e => e.1 == name) with
    | none => split <;> simp_all
    | some e =>
      split
      · simp_all
      · rename_i h'
        rw [Option.some.injEq] at h'
        rw [h']

/-- `project_compiler.rs:175-187` `retain_only_production_packages`. `dependencies` are the keys of the root's `dependencies`
in the order in which the hash map gives them. -/
def retainProduction (dependencies : List String) (packages : List (String × List String)) : List (String × List String) :=
  packages.filter fun p => decide (p.1 ∈ collect packages dependencies.reverse [])

end Verif.Project
