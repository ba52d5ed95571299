import Verif.Infer.GroupSound
import Verif.Infer.Safety
import Verif.Infer.Witness

/-!
# C65: accepted programs do not go wrong

"Go wrong" is what happens when an operation meets a value of a kind that it is not for: when `+` gets a string, when a number is called, when a
field is read from something that is no record (`Verif/Infer/Run.lean`). What a value of a type is, is in `Verif/Infer/Spec.lean`.
-/

namespace Verif.Infer

open Verif.Unify

theorem registerTypes_types : ∀ (base : Nat) (cts : List CustomType), (registerTypes base cts).1.map (·.type) = cts
  | _, [] => rfl
  | base, ct :: cts => by
    simp only [registerTypes, List.map_cons, registerTypes_types (base + ct.parameters) cts]

theorem noDuplicates_nodup : ∀ {xs : List String}, noDuplicates xs = true → xs.Nodup
  | [], _ => .nil
  | x :: xs, h => by
    simp only [noDuplicates, Bool.and_eq_true, Bool.not_eq_true', List.contains_eq_mem, decide_eq_false_iff_not] at h
    exact List.nodup_cons.2 ⟨h.1, noDuplicates_nodup h.2⟩

theorem emptyHeap_good : Good emptyHeap fun c => .var (.unbound c) where
  reading := ⟨fun c t h => (by cases h), fun c id h => (by cases h; rfl), fun c id h => (by cases h)⟩
  unique := fun c d id h h' => by cases h; cases h'; rfl
  chains := ⟨fun _ => 0, fun c d h => (by cases h)⟩

theorem find_of_nodup {f : Fun} : ∀ {fs : List Fun}, (fs.map (·.name)).Nodup → f ∈ fs → fs.find? (fun g => g.name = f.name) = some f
  | [], _, h => by cases h
  | g :: fs, hn, h => by
    simp only [List.map, List.nodup_cons] at hn
    rw [List.find?_cons]
    rcases List.mem_cons.1 h with rfl | h2
    · simp
    · have : g.name ≠ f.name := fun he => hn.1 (by rw [he]; exact List.mem_map_of_mem h2)
      simp only [this, decide_false]
      exact find_of_nodup hn.2 h2

/-- What the functions of a module can be used with. -/
def finalEnv (m : Module) (values : List (String × Ty Nat)) : TEnv :=
  ⟨m.allTypes, m.funs.map (·.name), fun x τ => ∃ T, values.lookup x = some T ∧ ∃ θ : Nat → Tree, τ = T.sub θ⟩

theorem accepted_typed {m : Module} {n : Nat} {values : List (String × Ty Nat)} (hm : m.Proper) (hg : m.groups.all soundGroup = true)
    (acc : inferModule n m = .ok values) : GoodEnv (finalEnv m values) m.funs ∧ (∀ f ∈ m.funs, ∃ T, values.lookup f.name = some T) ∧ ∀ x T, values.lookup x = some T → x ∈ m.funs.map (·.name) := by
  unfold inferModule at acc
  simp only at acc
  split at acc
  case isFalse => cases acc
  next hc =>
  simp only [Bool.and_eq_true] at hc
  split at acc
  case h_2 => cases acc
  next F s' hF =>
  cases acc
  have hn : (m.funs.map (·.name)).Nodup := (List.nodup_append.1 (noDuplicates_nodup hc.1)).1
  have htypes := registerTypes_types 0 m.allTypes
  have hmem : ∀ r ∈ (registerTypes 0 m.allTypes).1, r.type ∈ m.allTypes := fun r hr => by
    rw [← htypes]; exact List.mem_map_of_mem hr
  obtain ⟨_, h2, h3⟩ := inferGroups_right (names := m.funs.map (·.name))
    (fun x r v hf hx => by
      obtain ⟨hr, hv, rfl⟩ := findConstructor_some hf
      obtain ⟨f, hf1, hf2⟩ := List.mem_map.1 hx
      exact hm.names f hf1 _ (hmem r hr) v hv hf2)
    (fun r hr v hv => by
      have := hmem r hr
      unfold Module.allTypes at this
      rcases List.mem_append.1 this with ht | ht
      · exact List.all_eq_true.1 (List.all_eq_true.1 hc.2 _ ht) v hv
      · have : preludeTypes.all (fun ct => ct.variants.all distinctLabels) = true := by decide +kernel
        exact List.all_eq_true.1 (List.all_eq_true.1 this _ ht) v hv)
    m.groups [] values _ s' _ emptyHeap_good (fun fs hfs => List.all_eq_true.1 hg fs hfs) (fun x hx => by cases hx)
    (fun f hf => List.mem_map_of_mem hf) hn (fun f _ hx => by cases hx) hF
  have hE : Offers (finalEnv m values) ((registerTypes 0 m.allTypes).1.map (·.type)) (m.funs.map (·.name)) values :=
    ⟨htypes.symm, rfl, fun x T θ hl => ⟨T, hl, θ, rfl⟩⟩
  refine ⟨⟨hm.types, fun x => ?_, fun x τ hx hτ => ?_⟩, fun f hf => ?_, fun x T hl => ?_⟩
  · simp only [finalEnv, List.mem_map]
  · obtain ⟨f, hf, rfl⟩ := List.mem_map.1 hx
    obtain ⟨T, hl, θ, rfl⟩ := hτ
    obtain ⟨T', h4, h5⟩ := h3 _ hE f hf
    rw [hl] at h4
    cases h4
    obtain ⟨as, r, h6, h7, h8⟩ := h5 θ
    exact ⟨f, as, r, find_of_nodup hn hf, h6, h7, h8⟩
  · obtain ⟨T, h4, _⟩ := h3 _ hE f hf
    exact ⟨T, h4⟩
  · exact (h2 x (mem_of_lookup hl)).resolve_left (fun hx => by cases hx)

/-- **C65.** If the compiler accepts a module, then its functions, called with data of the types of their parameters, do not go wrong, and what
they give is of the type of their result: whatever the types that the type variables stand for, whatever the arguments, and however long it runs.

Missing: modules with type variables in annotations where `soundGroup` does not allow them. For these the claim is false
(`accepted_modules_may_go_wrong`). -/
theorem accepted_modules_are_safe_partial (m : Module) (n : Nat) (values : List (String × Ty Nat)) (hm : m.Proper) (hg : m.groups.all soundGroup = true)
    (acc : inferModule n m = .ok values) :
    (∀ f ∈ m.funs, ∃ T, values.lookup f.name = some T) ∧
    ∀ (f : String) (T : Ty Nat), values.lookup f = some T →
      ∀ (θ : Nat → Tree), ∃ as r, T.sub θ = .fn as r ∧
        ∀ (M : Machine) (vs : List Value), AllData vs → FitsAll m.allTypes m.funs vs as → ∀ k,
          m.call M k f vs ≠ .wrong ∧ ∀ v, m.call M k f vs = .ok v → Fits m.allTypes m.funs v r := by
  obtain ⟨hE, hall, hkeys⟩ := accepted_typed hm hg acc
  refine ⟨hall, fun f T hl θ => ?_⟩
  have hf := hkeys f T hl
  have hΔ : (finalEnv m values).Δ f (T.sub θ) := ⟨T, hl, θ, rfl⟩
  obtain ⟨_, as, r, _, h1, _⟩ := hE.body f _ hf hΔ
  refine ⟨as, r, h1, fun M vs hd hv k => ?_⟩
  have hfn : VT (finalEnv m values) (.fn f) (.fn as r) := by
    simp only [VT]
    rw [← h1]
    exact ⟨hf, hΔ⟩
  have hs := apply_safe hE M k (.fn f) vs as r hfn (FitsAll.vts vs as hd hv)
  unfold Module.call
  constructor
  · intro hw
    have : apply M (finalEnv m values).types m.funs k (.fn f) vs = .wrong := hw
    rw [this] at hs
    exact hs
  · intro v hr
    have : apply M (finalEnv m values).types m.funs k (.fn f) vs = .ok v := hr
    rw [this] at hs
    exact VT.fits hE v r hs

/-! ### The conditions are met by programs that use all of it, and the theorem says something about them -/

private def param (x : String) : Param := ⟨some x, none⟩
def treeOf (a : String) : TypeAst := .con "Tree" [.var a]
def treeType : CustomType := ⟨"m", "Tree", 1,
  [⟨"Leaf", []⟩, ⟨"Node", [(some "left", .named "m" "Tree" (.cons (.var 0) .nil)), (some "value", .var 0), (some "right", .named "m" "Tree" (.cons (.var 0) .nil))]⟩]⟩
private def boxType : CustomType := ⟨"m", "Box", 1, [⟨"Box", [(some "content", .var 0)]⟩]⟩

/--
```gleam
type Tree(a) { Leaf  Node(left: Tree(a), value: a, right: Tree(a)) }
type Box(a) { Box(content: a) }

fn map(t: Tree(a), f: fn(a) -> b) -> Tree(b) {
  case t {
    Leaf -> Leaf
    Node(l, x, r) -> Node(map(l, f), f(x), map(r, f))
  }
}

fn even(n) { case n { 0 -> True  _ -> odd(n - 1) } }
fn odd(n) { case n { 0 -> False  _ -> even(n - 1) } }

fn unbox(b: Box(a)) { b.content }

fn main(n) {
  let t = map(Node(Leaf, n, Leaf), fn(x) { #(even(x), "a") })
  case t {
    Node(_, #(b, s), _) if b -> unbox(Box(s <> "b"))
    _ -> "none"
  }
}
```
-/
def goodExample : Module := ⟨"m", [treeType, boxType],
  [[⟨"map", [⟨some "t", some (treeOf "a")⟩, ⟨some "f", some (.fn [.var "a"] (.var "b"))⟩], some (treeOf "b"),
      [.expr (.case_ [.var "t"]
        [.mk [.ctor "Leaf" []] [] none (.var "Leaf"),
         .mk [.ctor "Node" [.var "l", .var "x", .var "r"]] [] none
          (.call (.var "Node") [.call (.var "map") [.var "l", .var "f"], .call (.var "f") [.var "x"], .call (.var "map") [.var "r", .var "f"]])])]⟩],
   [⟨"even", [param "n"], none, [.expr (.case_ [.var "n"]
      [.mk [.int 0] [] none (.var "True"), .mk [.discard] [] none (.call (.var "odd") [.bin .subInt (.var "n") (.int 1)])])]⟩,
    ⟨"odd", [param "n"], none, [.expr (.case_ [.var "n"]
      [.mk [.int 0] [] none (.var "False"), .mk [.discard] [] none (.call (.var "even") [.bin .subInt (.var "n") (.int 1)])])]⟩],
   [⟨"unbox", [⟨some "b", some (.con "Box" [.var "a"])⟩], none, [.expr (.field (.var "b") "content")]⟩],
   [⟨"main", [param "n"], none,
      [.let_ (.var "t") none (.call (.var "map") [.call (.var "Node") [.var "Leaf", .var "n", .var "Leaf"],
        .fn [param "x"] none [.expr (.tuple [.call (.var "even") [.var "x"], .string ['a']])]]),
       .expr (.case_ [.var "t"]
        [.mk [.ctor "Node" [.discard, .tuple [.var "b", .var "s"], .discard]] [] (some (.var "b"))
            (.call (.var "unbox") [.call (.var "Box") [.bin .concat (.var "s") (.string ['b'])]]),
         .mk [.discard] [] none (.string ['n', 'o', 'n', 'e'])])]⟩]]⟩

theorem goodExample_proper : goodExample.Proper where
  types := by
    constructor
    · intro ct hct
      exact List.mem_append.2 (.inr hct)
    all_goals simp [goodExample, Module.allTypes, preludeTypes, treeType, boxType, Ty.Has]
    rintro a b (⟨-, rfl⟩ | ⟨-, rfl⟩ | ⟨-, rfl⟩) i hi <;> simpa [Ty.Has, Tys.Has, eq_comm] using hi
  names := by
    simp [goodExample, Module.allTypes, Module.funs, preludeTypes, treeType, boxType]

private def isIntToString : Option (Ty Nat) → Bool
  | some (.fn (.cons (.named "gleam" "Int" .nil) .nil) (.named "gleam" "String" .nil)) => true
  | _ => false

private theorem of_isIntToString {T : Option (Ty Nat)} (h : isIntToString T = true) : T = some (.fn (.cons tInt .nil) tString) := by
  unfold isIntToString at h
  split at h
  · rfl
  · cases h

/-- The example is accepted, and `main` is a function from `Int` to `String`. -/
theorem goodExample_main : ∃ values, inferModule 60 goodExample = .ok values ∧ values.lookup "main" = some (.fn (.cons tInt .nil) tString) :=
  typeOf_some (of_isIntToString (by decide +kernel))

/-- `main(n)` does not go wrong, for all `n`, and gives strings. -/
example (M : Machine) (i : Int) (k : Nat) : goodExample.call M k "main" [.int i] ≠ .wrong ∧
    ∀ v, goodExample.call M k "main" [.int i] = .ok v → ∃ s, v = .str s := by
  obtain ⟨values, acc, hl⟩ := goodExample_main
  obtain ⟨as, r, h1, h2⟩ := (accepted_modules_are_safe_partial goodExample 60 values goodExample_proper (by decide +kernel) acc).2 "main" _ hl
    fun _ => tInt
  cases h1
  obtain ⟨h3, h4⟩ := h2 M [.int i] (by simp [AllData, Value.IsData]) (by simp only [FitsAll, Fits]; exact ⟨_, _, rfl, rfl, rfl⟩) k
  refine ⟨h3, fun v hv => ?_⟩
  have := h4 v hv
  cases v with
  | str s => exact ⟨s, rfl⟩
  | int | float => simp [Fits, Ty.sub, Tys.sub, tString, tInt, tFloat, named0] at this
  | nil => simp only [Fits] at this; obtain ⟨a, h⟩ := this; simp [Ty.sub, Tys.sub, tString, tList, named0] at h
  | cons => simp only [Fits] at this; obtain ⟨a, h, _⟩ := this; simp [Ty.sub, Tys.sub, tString, tList, named0] at h
  | tuple => simp only [Fits] at this; obtain ⟨a, h, _⟩ := this; simp [Ty.sub, Tys.sub, tString, named0] at h
  | closure => simp only [Fits] at this; obtain ⟨a, r, h, _⟩ := this; simp [Ty.sub, Tys.sub, tString, named0] at h
  | fn => simp only [Fits] at this; obtain ⟨f, _, _, a, r, h, _⟩ := this; simp [Ty.sub, Tys.sub, tString, named0] at h
  | record =>
    simp only [Fits] at this
    obtain ⟨ct, hct, v, _, _, f, h, _⟩ := this
    have := goodExample_proper.types.builtin ct hct
    simp only [Ty.sub, Tys.sub, tString, named0, CustomType.result, Ty.named.injEq] at h
    exact absurd h.2.1.symm (this h.1.symm).2.2.1
  | ctor =>
    simp only [Fits] at this
    obtain ⟨ct, _, v, _, _, hne, f, h⟩ := this
    unfold constructorType at h
    split at h
    · next hn => exact absurd hn hne
    · simp [Ty.sub, Tys.sub, tString, named0] at h

private def isStr (s : List Char) : Res Value → Bool
  | .ok (.str t) => t == s
  | _ => false

/-- And it really runs. -/
example (M : Machine) : isStr ['a', 'b'] (goodExample.call M 40 "main" [.int 4]) = true := rfl

example (M : Machine) : isStr ['n', 'o', 'n', 'e'] (goodExample.call M 40 "main" [.int 3]) = true := rfl

/-! ### Where type variables are written elsewhere, it is false -/

theorem prelude_proper (m : Module) (hm : m.types = []) (hf : ∀ f ∈ m.funs, f.name ∉ ["True", "False", "Nil", "Ok", "Error"]) : m.Proper where
  types := by
    constructor
    · intro ct hct
      exact List.mem_append.2 (.inr hct)
    all_goals simp [hm, Module.allTypes, preludeTypes]
    exact ⟨fun i hi => by simp only [Ty.Has] at hi; omega, fun i hi => by simp only [Ty.Has] at hi; omega⟩
  names := by
    intro f h
    have := hf f h
    simp only [List.mem_cons, List.not_mem_nil, or_false, not_or] at this
    simp [hm, Module.allTypes, preludeTypes, this]

/-- **C65, the other part.** Without the condition on type variables accepted modules go wrong: each of three programs, that break the
condition in three ways, is accepted, and running its `main` adds a number to a string. -/
theorem accepted_modules_may_go_wrong :
    (forgottenVariable.Proper ∧ AcceptedAndWrong forgottenVariable) ∧ (variableOfAnother.Proper ∧ AcceptedAndWrong variableOfAnother) ∧
      (instanceTooEarly.Proper ∧ AcceptedAndWrong instanceTooEarly) :=
  ⟨⟨prelude_proper _ rfl (by decide +kernel), forgottenVariable_wrong⟩, ⟨prelude_proper _ rfl (by decide +kernel), variableOfAnother_wrong⟩,
    ⟨prelude_proper _ rfl (by decide +kernel), instanceTooEarly_wrong⟩⟩

example : forgottenVariable.groups.all soundGroup = false ∧ variableOfAnother.groups.all soundGroup = false ∧
    instanceTooEarly.groups.all soundGroup = false := by decide +kernel

end Verif.Infer
