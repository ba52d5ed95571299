import Verif.Infer.EndsExpr
import Verif.Infer.PrincipalProps

/-!
# C69: type inference comes to an end

and with it the rest of C68: modules that can be given types are accepted.
-/

namespace Verif.Infer

open Verif.Unify

/-- **C69.** For every module, whatever is in it, type inference comes to an end: with enough steps for following links either it has types for
the functions, or it has found an error, and giving it more steps changes nothing. It does not panic, as it would if a variable were borrowed
twice, or if a new variable were not unbound. -/
theorem type_inference_ends (m : Module) :
    (∃ N values, ∀ n, N ≤ n → inferModule n m = .ok values) ∨ ∃ N, ∀ n, N ≤ n → inferModule n m = .error .rejected := by
  obtain ⟨N, r, h, hn⟩ := inferModule_ends m
  rcases r with (_ | _) | values
  · exact .inr ⟨N, hn⟩
  · exact absurd rfl h
  · exact .inl ⟨N, values, hn⟩

/-- **C68.** A module without annotations is accepted exactly if its functions can be given types.

Missing: modules with `x.field` or `x.0`. For these it is false (`typable_module_rejected`). -/
theorem accepted_iff_typable_partial (m : Module) (hm : m.Proper)
    (hnames : (m.funs.map (·.name) ++ (m.types.flatMap (·.variants)).map (·.name)).Nodup)
    (hlabels : ∀ ct ∈ m.types, ∀ v ∈ ct.variants, (v.fields.filterMap (·.1)).Nodup) (hb : ∀ f ∈ m.funs, f.bare = true)
    (hd : ∀ f ∈ m.funs, f.direct = true) : (∃ N values, ∀ n, N ≤ n → inferModule n m = .ok values) ↔ ∃ Δ, m.HasTypes Δ := by
  constructor
  · rintro ⟨N, values, h⟩
    exact ⟨_, (inferred_types_are_principal m N values hm hb (h N (Nat.le_refl _))).1⟩
  · rintro ⟨Δ, hΔ⟩
    rcases type_inference_ends m with h | ⟨N, h⟩
    · exact h
    · exact absurd (h N (Nat.le_refl _)) (typable_modules_are_not_rejected_partial m N hm hnames hlabels hb hd Δ hΔ)

/-! ### Cases -/

/-- A module that is accepted, and a typing of it. -/
example : (∃ N values, ∀ n, N ≤ n → inferModule n bareExample = .ok values) ∧ ∃ Δ, bareExample.HasTypes Δ := by
  obtain ⟨values, acc, _⟩ := bareExample_main
  have h := (inferred_types_are_principal bareExample 60 values bareExample_proper (by decide +kernel) acc).1
  exact ⟨(accepted_iff_typable_partial bareExample bareExample_proper (by decide +kernel) (by decide +kernel) (by decide +kernel) (by decide +kernel)).2 ⟨_, h⟩, _, h⟩

/--
```gleam
fn loop(f) { f(f) }
```
-/
def applyToItself : Module := ⟨"m", [], [[⟨"loop", [⟨some "f", none⟩], none, [.expr (.call (.var "f") [.var "f"])]⟩]]⟩

/-- The type of `f` would have to be a part of itself: this is found to be an error, and does not go on forever. -/
example : (∃ N, ∀ n, N ≤ n → inferModule n applyToItself = .error .rejected) ∧ ¬ ∃ Δ, applyToItself.HasTypes Δ := by
  have hm : applyToItself.Proper := by
    refine ⟨⟨fun ct hct => List.mem_append.2 (.inr hct), ?_, ?_, ?_, ?_⟩, ?_⟩
    all_goals simp [applyToItself, Module.allTypes, Module.funs, preludeTypes, Ty.Has]
  have h20 : inferModule 20 applyToItself = .error .rejected := by
    have : (match inferModule 20 applyToItself with | .error .rejected => true | _ => false) = true := by decide +kernel
    split at this
    · assumption
    · cases this
  have hr : ¬ ∃ Δ, applyToItself.HasTypes Δ := fun ⟨Δ, hΔ⟩ =>
    typable_modules_are_not_rejected_partial applyToItself 20 hm (by decide +kernel) (by decide +kernel) (by decide +kernel) (by decide +kernel) Δ hΔ h20
  refine ⟨?_, hr⟩
  rcases type_inference_ends applyToItself with h | h
  · exact absurd ((accepted_iff_typable_partial applyToItself hm (by decide +kernel) (by decide +kernel) (by decide +kernel) (by decide +kernel)).1 h) hr
  · exact h

end Verif.Infer
