import Verif.Infer.BareTyped
import Verif.Infer.Props

/-!
# C67 and C68: inferred types are the most general ones, and no typable program without `x.field` and `x.0` is rejected

Which types a module without annotations can be given is in `Verif/Infer/PrincipalSpec.lean`.
-/

namespace Verif.Infer

open Verif.Unify

theorem nodup_noDuplicates : ∀ {xs : List String}, xs.Nodup → noDuplicates xs = true
  | [], _ => rfl
  | x :: xs, h => by
    simp only [noDuplicates, Bool.and_eq_true, Bool.not_eq_true', List.contains_eq_mem, decide_eq_false_iff_not]
    exact ⟨(List.nodup_cons.1 h).1, nodup_noDuplicates (List.nodup_cons.1 h).2⟩

theorem start_fine (k : Nat) : Fine ⟨emptyHeap, k, ⟨[], []⟩⟩ ⟨fun c => .var (.unbound c), fun id => .var (.unbound id)⟩ :=
  ⟨emptyHeap_good, fun _ _ => rfl, rfl⟩

theorem module_best {strict : Prop} {m : Module} (n : Nat) (hm : m.Proper) (hb : ∀ f ∈ m.funs, f.bare = true)
    (hd : strict → ∀ f ∈ m.funs, f.direct = true) {Δ : String → Tree → Prop} (ht : m.HasTypes Δ) :
    FoundFor strict Δ (inferGroups n (registerTypes 0 m.allTypes).1 [] m.groups ⟨emptyHeap, (registerTypes 0 m.allTypes).2, ⟨[], []⟩⟩) := by
  have htypes := registerTypes_types 0 m.allTypes
  refine inferGroups_best (names := m.funs.map (·.name)) (by rw [htypes]; exact hm.types) m.groups (fun _ _ => False) Δ [] (start_fine _) (fun _ _ h => h.elim)
    (fun x hx => by cases hx) (fun f hf => List.mem_map_of_mem hf) hb hd ?_
  rw [htypes]
  exact ht

/-- **C67.** What the compiler infers for the functions of a module without annotations are types of them, and the most general ones: whichever
types the functions of the module can be given, they are instances of the inferred ones. -/
theorem inferred_types_are_principal (m : Module) (n : Nat) (values : List (String × Ty Nat)) (hm : m.Proper) (hb : ∀ f ∈ m.funs, f.bare = true)
    (acc : inferModule n m = .ok values) :
    m.HasTypes (fun x τ => ∃ T, values.lookup x = some T ∧ ∃ θ : Nat → Tree, τ = T.sub θ) ∧
    ∀ Δ, m.HasTypes Δ → ∀ x τ, Δ x τ → ∃ T, values.lookup x = some T ∧ ∃ θ : Nat → Tree, τ = T.sub θ := by
  unfold inferModule at acc
  simp only at acc
  split at acc
  case isFalse => cases acc
  next hc =>
  simp only [Bool.and_eq_true] at hc
  split at acc
  case h_2 => cases acc
  next F s' hF =>
  cases acc
  have hn : (m.funs.map (·.name)).Nodup := (List.nodup_append.1 (noDuplicates_nodup hc.1)).1
  have htypes := registerTypes_types 0 m.allTypes
  have hmem : ∀ r ∈ (registerTypes 0 m.allTypes).1, r.type ∈ m.allTypes := fun r hr => by
    rw [← htypes]; exact List.mem_map_of_mem hr
  constructor
  · have := inferGroups_typed (names := m.funs.map (·.name)) (n := n) (types := (registerTypes 0 m.allTypes).1)
      (fun x r v hf hx => by
        obtain ⟨hr, hv, rfl⟩ := findConstructor_some hf
        obtain ⟨f, hf1, hf2⟩ := List.mem_map.1 hx
        exact hm.names f hf1 _ (hmem r hr) v hv hf2)
      (fun r hr v hv => by
        have := hmem r hr
        unfold Module.allTypes at this
        rcases List.mem_append.1 this with ht | ht
        · exact List.all_eq_true.1 (List.all_eq_true.1 hc.2 _ ht) v hv
        · have : preludeTypes.all (fun ct => ct.variants.all distinctLabels) = true := by decide +kernel
          exact List.all_eq_true.1 (List.all_eq_true.1 this _ ht) v hv)
      m.groups [] values _ s' _ emptyHeap_good hb (fun x hx => by cases hx) (fun f hf => List.mem_map_of_mem hf) hn hF
    rw [htypes] at this
    have start : instancesOf [] = fun _ _ => False := by
      funext x τ
      refine propext ⟨?_, False.elim⟩
      rintro ⟨T, h, _⟩
      cases h
    rw [start] at this
    exact this
  · intro Δ hΔ
    have := module_best (strict := False) n hm hb (fun h => h.elim) hΔ
    rw [hF] at this
    exact this

/-- **C68.** A module without annotations whose functions can be given types is not rejected.

Missing: modules with `x.field` or `x.0`. For these it is false (`typable_module_rejected`). That they are accepted then follows from C69:
`accepted_iff_typable_partial`. -/
theorem typable_modules_are_not_rejected_partial (m : Module) (n : Nat) (hm : m.Proper)
    (hnames : (m.funs.map (·.name) ++ (m.types.flatMap (·.variants)).map (·.name)).Nodup)
    (hlabels : ∀ ct ∈ m.types, ∀ v ∈ ct.variants, (v.fields.filterMap (·.1)).Nodup) (hb : ∀ f ∈ m.funs, f.bare = true)
    (hd : ∀ f ∈ m.funs, f.direct = true) (Δ : String → Tree → Prop) (hΔ : m.HasTypes Δ) : inferModule n m ≠ .error .rejected := by
  have := module_best (strict := True) n hm hb (fun _ => hd) hΔ
  unfold inferModule
  simp only
  rw [if_pos]
  · intro h
    split at h
    · cases h
    · next e he =>
      cases h
      rw [he] at this
      exact this trivial
  · simp only [Bool.and_eq_true]
    exact ⟨nodup_noDuplicates hnames, List.all_eq_true.2 fun ct hct => List.all_eq_true.2 fun v hv => nodup_noDuplicates (hlabels ct hct v hv)⟩

/-! ### The conditions are met -/

private def param (x : String) : Param := ⟨some x, none⟩

/--
```gleam
type Tree(a) { Leaf  Node(left: Tree(a), value: a, right: Tree(a)) }

fn map(t, f) {
  case t {
    Leaf -> Leaf
    Node(l, x, r) -> Node(map(l, f), f(x), map(r, f))
  }
}

fn even(n) { case n { 0 -> True  _ -> odd(n - 1) } }
fn odd(n) { case n { 0 -> False  _ -> even(n - 1) } }

fn main(t, x) {
  let #(u, v) = #(map(t, fn(n) { #(even(n), x) }), map(t, fn(n) { n + 1 }))
  case u, v {
    Node(_, #(b, y), _), _ if b -> [y]
    Leaf, Node(_, 1 as n, _) | _, Node(_, n, _) if n == 2 -> [x]
    _, _ -> []
  }
}
```
-/
def bareExample : Module := ⟨"m", [treeType],
  [[⟨"map", [param "t", param "f"], none,
      [.expr (.case_ [.var "t"]
        [.mk [.ctor "Leaf" []] [] none (.var "Leaf"),
         .mk [.ctor "Node" [.var "l", .var "x", .var "r"]] [] none
          (.call (.var "Node") [.call (.var "map") [.var "l", .var "f"], .call (.var "f") [.var "x"], .call (.var "map") [.var "r", .var "f"]])])]⟩],
   [⟨"even", [param "n"], none, [.expr (.case_ [.var "n"]
      [.mk [.int 0] [] none (.var "True"), .mk [.discard] [] none (.call (.var "odd") [.bin .subInt (.var "n") (.int 1)])])]⟩,
    ⟨"odd", [param "n"], none, [.expr (.case_ [.var "n"]
      [.mk [.int 0] [] none (.var "False"), .mk [.discard] [] none (.call (.var "even") [.bin .subInt (.var "n") (.int 1)])])]⟩],
   [⟨"main", [param "t", param "x"], none,
      [.let_ (.tuple [.var "u", .var "v"]) none (.tuple
        [.call (.var "map") [.var "t", .fn [param "n"] none [.expr (.tuple [.call (.var "even") [.var "n"], .var "x"])]],
         .call (.var "map") [.var "t", .fn [param "n"] none [.expr (.bin .addInt (.var "n") (.int 1))]]]),
       .expr (.case_ [.var "u", .var "v"]
        [.mk [.ctor "Node" [.discard, .tuple [.var "b", .var "y"], .discard], .discard] [] (some (.var "b")) (.list [.var "y"] none),
         .mk [.ctor "Leaf" [], .ctor "Node" [.discard, .assign (.int 1) "n", .discard]] [[.discard, .ctor "Node" [.discard, .var "n", .discard]]]
          (some (.bin .eq (.var "n") (.int 2))) (.list [.var "x"] none),
         .mk [.discard, .discard] [] none (.list [] none)])]⟩]]⟩

theorem bareExample_proper : bareExample.Proper where
  types := by
    constructor
    · intro ct hct
      exact List.mem_append.2 (.inr hct)
    all_goals simp [bareExample, Module.allTypes, preludeTypes, treeType, Ty.Has]
    rintro a b (⟨-, rfl⟩ | ⟨-, rfl⟩ | ⟨-, rfl⟩) i hi <;> simpa [Ty.Has, Tys.Has, eq_comm] using hi
  names := by
    simp [bareExample, Module.allTypes, Module.funs, preludeTypes, treeType]

private def isMain : Option (Ty Nat) → Option Nat
  | some (.fn (.cons (.named "m" "Tree" (.cons (.named "gleam" "Int" .nil) .nil)) (.cons (.var a) .nil)) (.named "gleam" "List" (.cons (.var b) .nil))) =>
    if a = b then some a else none
  | _ => none

private theorem of_isMain {T : Option (Ty Nat)} {a : Nat} (h : isMain T = some a) :
    T = some (.fn (.cons (.named "m" "Tree" (.cons tInt .nil)) (.cons (.var a) .nil)) (tList (.var a))) := by
  unfold isMain at h
  split at h
  · split at h
    · next h' => cases h; cases h'; rfl
    · cases h
  · cases h

/-- `main` is found to be `fn(Tree(Int), a) -> List(a)`. -/
theorem bareExample_main : ∃ values, inferModule 60 bareExample = .ok values ∧
    ∃ a, values.lookup "main" = some (.fn (.cons (.named "m" "Tree" (.cons tInt .nil)) (.cons (.var a) .nil)) (tList (.var a))) := by
  have key : ∃ a, isMain ((inferModule 60 bareExample).toOption.bind (·.lookup "main")) = some a := by
    have : (isMain ((inferModule 60 bareExample).toOption.bind (·.lookup "main"))).isSome = true := by decide +kernel
    exact Option.isSome_iff_exists.1 this
  obtain ⟨a, h⟩ := key
  have h := of_isMain h
  cases hr : inferModule 60 bareExample with
  | error e => rw [hr] at h; cases h
  | ok values => rw [hr] at h; exact ⟨values, rfl, a, h⟩

/-- So in all typings of the module `main` is a function from trees of `Int` and something to a list of that, and each of these types is in one. -/
example : (∀ Δ, bareExample.HasTypes Δ → ∀ τ, Δ "main" τ → ∃ α, τ = .fn (.cons (.named "m" "Tree" (.cons tInt .nil)) (.cons α .nil)) (tList α)) ∧
    ∀ α, ∃ Δ, bareExample.HasTypes Δ ∧ Δ "main" (.fn (.cons (.named "m" "Tree" (.cons tInt .nil)) (.cons α .nil)) (tList α)) := by
  obtain ⟨values, acc, a, hl⟩ := bareExample_main
  obtain ⟨h1, h2⟩ := inferred_types_are_principal bareExample 60 values bareExample_proper (by decide +kernel) acc
  refine ⟨fun Δ hΔ τ hτ => ?_, fun α => ⟨_, h1, _, hl, fun _ => α, rfl⟩⟩
  obtain ⟨T, hT, θ, rfl⟩ := h2 Δ hΔ "main" τ hτ
  rw [hl] at hT
  cases hT
  exact ⟨θ a, rfl⟩

/-- The conditions of C68 are met by the example, for which there are typings. -/
example (n : Nat) : inferModule n bareExample ≠ .error .rejected := by
  obtain ⟨values, acc, _⟩ := bareExample_main
  obtain ⟨h1, _⟩ := inferred_types_are_principal bareExample 60 values bareExample_proper (by decide +kernel) acc
  exact typable_modules_are_not_rejected_partial bareExample n bareExample_proper (by decide +kernel) (by decide +kernel) (by decide +kernel)
    (by decide +kernel) _ h1

/-! ### With fields it is false -/

private def boxType : CustomType := ⟨"m", "Box", 1, [⟨"Box", [(some "content", .var 0)]⟩]⟩

/--
```gleam
type Box(a) { Box(content: a) }

fn unbox(b) { b.content }
```
-/
def unknownRecord : Module := ⟨"m", [boxType], [[⟨"unbox", [param "b"], none, [.expr (.field (.var "b") "content")]⟩]]⟩

theorem unknownRecord_proper : unknownRecord.Proper where
  types := by
    constructor
    · intro ct hct
      exact List.mem_append.2 (.inr hct)
    all_goals simp [unknownRecord, Module.allTypes, preludeTypes, boxType, Ty.Has]
  names := by
    simp [unknownRecord, Module.allTypes, Module.funs, preludeTypes, boxType]

theorem rejected_of {r : Except Stop (List (String × Ty Nat))} (h : (match r with | .error .rejected => true | _ => false) = true) : r = .error .rejected := by
  split at h
  · rfl
  · cases h

/-- **C68, the other part.** `unbox` can be given the type `fn(Box(Int)) -> Int`, and is rejected. -/
theorem typable_module_rejected : unknownRecord.Proper ∧ (∀ f ∈ unknownRecord.funs, f.bare = true) ∧
    unknownRecord.HasTypes (fun x τ => x = "unbox" ∧ τ = .fn (.cons (.named "m" "Box" (.cons tInt .nil)) .nil) tInt) ∧
    inferModule 60 unknownRecord = .error .rejected := by
  refine ⟨unknownRecord_proper, by decide +kernel, ?_, rejected_of (by decide +kernel)⟩
  refine ⟨fun σ => σ = fun _ => .fn (.cons (.named "m" "Box" (.cons tInt .nil)) .nil) tInt, ⟨_, rfl⟩, ?_, ?_⟩
  · rintro σ rfl f hf
    simp only [List.mem_singleton] at hf
    subst hf
    refine ⟨_, _, rfl, rfl, ?_⟩
    simp only [TypedStmts, TypedStmt, Typed]
    refine ⟨[], ⟨.named "m" "Box" (.cons tInt .nil), ?_, boxType, ?_, fun _ => tInt, rfl, ?_⟩, rfl⟩
    · unfold VarTy
      rfl
    · simp [unknownRecord, Module.allTypes]
    · intro v hv
      simp only [boxType, List.mem_singleton] at hv
      subst hv
      exact ⟨0, _, _, rfl, rfl, rfl⟩
  · rintro x τ ⟨rfl, rfl⟩
    simp

end Verif.Infer
