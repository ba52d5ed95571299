import Verif.Unused.Result

/-
C71: code is left out for exactly the functions, constants and types that no public definition uses, and C72: what is reported
as unused is not used by a public definition.
-/
namespace Verif.Unused

/-- C71. A definition of a module is reported as unused if and only if no public definition is or uses it, itself or by others.
The public entities and all entities are visited in any order. -/
theorem definition_is_unused_iff (p : Program) (hp : p.Ok) (publics all : List Entity)
    (hpublics : ∀ e, e ∈ publics ↔ e ∈ (analyse p).public_) (hall : ∀ e, e ∈ all ↔ e ∈ (analyse p).entities.map (·.1))
    (a : Nat) (d : Def) (hd : (uses p).defs[a]? = some d) (hk : d.kind.isDefinition = true) :
    (⟨d.name, d.layer⟩, ⟨d.origin, d.kind⟩) ∈ (analyse p).unused publics all ↔ ¬ (uses p).Needed a := by
  obtain ⟨ν, h, _⟩ := state_analyse p hp
  obtain ⟨hsub, hsound, hcomplete, _, _⟩ := h.unused publics all hpublics hall
  have hent := (h.scopeEnt _ _ (h.stay a d hd (by simp) hk)).2.1
  constructor
  · intro hmem hneed
    exact hsound a _ hneed hent (List.mem_map.mpr ⟨_, hmem, rfl⟩)
  · intro hneed
    have hkm : d.kind.isModule = false := by
      cases hm : d.kind.isModule with
      | false => rfl
      | true => rw [Kind.not_definition_of_isModule hm] at hk; cases hk
    have hin : d.entity ∈ keys ((analyse p).unused publics all) := by
      by_contra hc
      exact hneed (hcomplete a d _ hd hkm hent hc)
    obtain ⟨⟨x, i⟩, h1, h2⟩ := List.mem_map.mp hin
    dsimp only at h2
    subst h2
    obtain ⟨b, d', h3, h4, h5⟩ := (h.info _ i).mp (hsub.subset h1)
    have := h.inj a b (lt_of_get hd) (lt_of_get h3) (h.left_unique hent h4)
    subst this
    rw [hd] at h3
    cases h3
    rw [h5] at h1
    exact h1

/-- C71. If the definitions are at different places, then no code is generated for a function, a constant or a type if and only
if no public definition is or uses it, itself or by others. -/
theorem code_is_left_out_iff (p : Program) (hp : p.Ok) (publics all : List Entity)
    (hpublics : ∀ e, e ∈ publics ↔ e ∈ (analyse p).public_) (hall : ∀ e, e ∈ all ↔ e ∈ (analyse p).entities.map (·.1))
    (hplaces : ∀ (a b : Nat) (d d' : Def), (uses p).defs[a]? = some d → (uses p).defs[b]? = some d' →
      d.kind.isDefinition = true → d'.kind.isDefinition = true → d.kind ≠ .constructor → d'.kind ≠ .constructor →
      d.origin = d'.origin → a = b)
    (a : Nat) (d : Def) (hd : (uses p).defs[a]? = some d) (hk : d.kind = .function ∨ d.kind = .constant ∨ d.kind = .type) :
    d.origin ∈ positions ((analyse p).unused publics all) ↔ ¬ (uses p).Needed a := by
  have hdef : ∀ k : Kind, k = .function ∨ k = .constant ∨ k = .type → k.isDefinition = true ∧ k ≠ .constructor := by
    rintro k (rfl | rfl | rfl) <;> simp [Kind.isDefinition]
  constructor
  · intro hpos
    obtain ⟨⟨x, i⟩, h1, h2⟩ := List.mem_map.mp hpos
    obtain ⟨h3, h4⟩ := List.mem_filter.mp h1
    have h4 : i.kind = .function ∨ i.kind = .constant ∨ i.kind = .type := by simpa using h4
    obtain ⟨ν, h, _⟩ := state_analyse p hp
    obtain ⟨hsub, hsound, _, _, _⟩ := h.unused publics all hpublics hall
    obtain ⟨b, d', h5, h6, rfl⟩ := (h.info x i).mp (hsub.subset h3)
    have hab := hplaces b a d' d h5 hd (hdef _ h4).1 (hdef _ hk).1 (hdef _ h4).2 (hdef _ hk).2 h2
    subst hab
    intro hneed
    exact hsound _ _ hneed h6 (List.mem_map.mpr ⟨_, h3, rfl⟩)
  · intro hneed
    have := (definition_is_unused_iff p hp publics all hpublics hall a d hd (hdef _ hk).1).mpr hneed
    exact List.mem_map.mpr ⟨_, List.mem_filter.mpr ⟨this, by simpa using hk⟩, rfl⟩

/-- C72. Everything that is reported as unused is a definition or an import of the module, and no public definition is or uses
it, itself or by others. -/
theorem reported_is_not_needed (p : Program) (hp : p.Ok) (publics all : List Entity)
    (hpublics : ∀ e, e ∈ publics ↔ e ∈ (analyse p).public_) (hall : ∀ e, e ∈ all ↔ e ∈ (analyse p).entities.map (·.1))
    (e : Entity) (i : Info) (hi : (e, i) ∈ (analyse p).unused publics all) :
    ∃ (a : Nat) (d : Def), (uses p).defs[a]? = some d ∧ d.name = e.name ∧ i = ⟨d.origin, d.kind⟩ ∧ ¬ (uses p).Needed a := by
  obtain ⟨ν, h, _⟩ := state_analyse p hp
  obtain ⟨hsub, hsound, _, _, _⟩ := h.unused publics all hpublics hall
  obtain ⟨a, d, h1, h2, h3⟩ := (h.info e i).mp (hsub.subset hi)
  refine ⟨a, d, h1, ?_, h3, fun hneed => hsound a e hneed h2 (List.mem_map.mpr ⟨_, hi, rfl⟩)⟩
  by_cases hl : e.layer = .shadowed
  · obtain ⟨x, l⟩ := e
    dsimp only at hl
    subst hl
    obtain ⟨b, d', h4, h5, _, h6, _⟩ := h.entShadow x _ h2
    have := h.inj a b (lt_of_get h1) (lt_of_get h4) h5
    subst this
    rw [h1] at h4
    cases h4
    exact h6
  · rcases h.entScope e _ h2 hl with ⟨b, h4, h5⟩ | ⟨_, h4⟩
    · obtain ⟨_, _, d', h6, h7⟩ := h.scopeEnt e b h4
      have := h.inj a b (lt_of_get h1) (lt_of_get h6) h5
      subst this
      rw [h1] at h6
      cases h6
      rw [← h7]
      rfl
    · exact absurd rfl (h4 a (lt_of_get h1))

/-- C72. A type or a value that is imported by name and that no public definition uses is reported, also when a definition of
the module has its name. -/
theorem unneeded_import_is_reported (p : Program) (hp : p.Ok) (publics all : List Entity)
    (hpublics : ∀ e, e ∈ publics ↔ e ∈ (analyse p).public_) (hall : ∀ e, e ∈ all ↔ e ∈ (analyse p).entities.map (·.1))
    (a : Nat) (d : Def) (hd : (uses p).defs[a]? = some d)
    (hk : (∃ m, d.kind = .importedType m) ∨ (∃ m, d.kind = .importedValue m) ∨ ∃ m, d.kind = .importedConstructor m)
    (hneed : ¬ (uses p).Needed a) : ∃ e, (e, ⟨d.origin, d.kind⟩) ∈ (analyse p).unused publics all := by
  obtain ⟨ν, h, _⟩ := state_analyse p hp
  obtain ⟨hsub, _, hcomplete, _, _⟩ := h.unused publics all hpublics hall
  have hkm : d.kind.isModule = false ∧ d.kind.isImport = false := by
    rcases hk with ⟨m, hk⟩ | ⟨m, hk⟩ | ⟨m, hk⟩ <;> rw [hk] <;> exact ⟨rfl, rfl⟩
  rcases h.alive a d hd (by simp) with h1 | ⟨e, he⟩
  · rw [hkm.2] at h1; cases h1
  · have hin : e ∈ keys ((analyse p).unused publics all) := by
      by_contra hc
      exact hneed (hcomplete a d _ hd hkm.1 he hc)
    obtain ⟨⟨x, i⟩, h1, h2⟩ := List.mem_map.mp hin
    dsimp only at h2
    subst h2
    obtain ⟨b, d', h3, h4, h5⟩ := (h.info _ i).mp (hsub.subset h1)
    have := h.inj a b (lt_of_get hd) (lt_of_get h3) (h.left_unique he h4)
    subst this
    rw [hd] at h3
    cases h3
    rw [h5] at h1
    exact ⟨_, h1⟩

/-- C72. A module that a definition refers to, public or not, is not reported as unused, unless the module here mentions
something with the name of that definition from a module whose full name is the name of the imported module here. Without the
last condition it is false: see `Witnesses.lean`. -/
theorem referenced_module_is_not_reported_partial (p : Program) (hp : p.Ok) (publics all : List Entity)
    (hpublics : ∀ e, e ∈ publics ↔ e ∈ (analyse p).public_) (hall : ∀ e, e ∈ all ↔ e ∈ (analyse p).entities.map (·.1))
    (a c : Nat) (d : Def) (name : String) (hd : (uses p).defs[c]? = some d) (hk : d.kind.isDefinition = true)
    (ha : (uses p).scope ⟨name, .module_⟩ = some a) (huse : (c, a) ∈ (uses p).uses) (hname : (name, d.name) ∉ p.mentions)
    (i : Info) : (⟨name, .module_⟩, i) ∉ (analyse p).unused publics all := by
  obtain ⟨ν, h, _⟩ := state_analyse p hp
  obtain ⟨_, _, _, hmodule, _⟩ := h.unused publics all hpublics hall
  have hkm : d.kind.isModule = false := by
    cases hm : d.kind.isModule with
    | false => rfl
    | true => rw [Kind.not_definition_of_isModule hm] at hk; cases hk
  have hent := (h.scopeEnt _ _ (h.stay c d hd (by simp) hk)).2.1
  have hment := mt (mentions_analyse p (name, d.name)).mp hname
  intro hi
  refine hmodule a c d d.entity ⟨name, .module_⟩ hd hkm huse hent ?_ (h.scopeEnt _ _ ha).2.1 rfl
    (fun hc => hment (.inl hc)) (fun hc => hment (.inr hc)) (List.mem_map.mpr ⟨_, hi, rfl⟩)
  intro hc
  have := (h.layer c d hd).2.mp hc
  rw [hkm] at this
  cases this

/-- C72. An imported module, or the alias of one, that nothing in the module uses is reported, also if it is used by other
imports of modules. -/
theorem unreferenced_module_is_reported (p : Program) (hp : p.Ok) (publics all : List Entity)
    (hpublics : ∀ e, e ∈ publics ↔ e ∈ (analyse p).public_) (hall : ∀ e, e ∈ all ↔ e ∈ (analyse p).entities.map (·.1))
    (a : Nat) (d : Def) (hd : (uses p).defs[a]? = some d) (ha : (uses p).scope ⟨d.name, .module_⟩ = some a)
    (hno : ∀ (c : Nat) (d' : Def), (uses p).defs[c]? = some d' → (uses p).Reaches c a → d'.layer = .module_) :
    (⟨d.name, .module_⟩, ⟨d.origin, d.kind⟩) ∈ (analyse p).unused publics all := by
  obtain ⟨ν, h, _⟩ := state_analyse p hp
  obtain ⟨hsub, _, _, _, hcomplete⟩ := h.unused publics all hpublics hall
  have he := (h.scopeEnt _ _ ha).2.1
  have hin : (⟨d.name, .module_⟩ : Entity) ∈ keys ((analyse p).unused publics all) := by
    by_contra hc
    obtain ⟨c, d', h1, h2, h3⟩ := hcomplete a d _ hd he hc
    have := (h.layer c d' h1).2.mp (hno c d' h1 h3)
    rw [h2] at this
    cases this
  obtain ⟨⟨x, i⟩, h1, h2⟩ := List.mem_map.mp hin
  dsimp only at h2
  subst h2
  obtain ⟨b, d', h3, h4, h5⟩ := (h.info _ i).mp (hsub.subset h1)
  have := h.inj a b (lt_of_get hd) (lt_of_get h3) (h.left_unique he h4)
  subst this
  rw [hd] at h3
  cases h3
  rw [h5] at h1
  exact h1

/-! ### A module that meets the hypotheses -/

namespace Example

/--
```
import gleam/list.{map}
import wibble as w
type Shape { Circle(Float) }
fn helper() { pi  Circle }
fn dead() { w.go  helper }
pub fn area() -> Shape { helper }
const pi = 3
pub const map = map
```
The constants are analysed before the functions that use them.
-/
def program : Program where
  imports := [.module_ "list" "gleam/list" 0, .value "map" "gleam/list" "gleam/list" "map" 19, .aliased "w" "wibble" 25 39]
  items := [.type "Shape" false 45 [], .function "helper" false 75 [], .function "dead" false 100 [],
    .function "area" true 130 [.type "Shape" "example" "Shape"], .constructor "Circle" "Shape" false 58 [.type "Float" "gleam" "Float"],
    .constant "pi" false 160 [], .constant "map" true 180 [.value "map" "gleam/list" "map"],
    .body "helper" [.value "pi" "example" "pi", .value "Circle" "example" "Circle"],
    .body "dead" [.qualifiedValue "w" "wibble" "go", .value "helper" "example" "helper"],
    .body "area" [.value "helper" "example" "helper"]]

theorem program_ok : program.Ok where
  modules := by decide +kernel
  types := by decide +kernel
  imported := by decide +kernel
  values := by decide +kernel
  bodies := by
    intro before f refs after h
    have hpre : before <+: program.items := ⟨_, h.symm⟩
    have hlen : before = program.items.take before.length := List.prefix_iff_eq_take.mp hpre
    have hget : program.items[before.length]? = some (.body f refs) := by rw [h]; simp
    have hlt : before.length < 10 := by
      have := congrArg List.length h
      simp [program] at this
      omega
    rw [hlen]
    generalize before.length = n at hget hlt
    match n, hlt with
    | 0, _ | 1, _ | 2, _ | 3, _ | 4, _ | 5, _ | 6, _ => simp [program] at hget
    | 7, _ | 8, _ | 9, _ =>
      simp only [program, List.getElem?_cons_succ, List.getElem?_cons_zero, Option.some.injEq, Item.body.injEq] at hget
      rw [← hget.1]
      decide +kernel

/-- The definitions by number: the import of `list`, the value, the import and the alias of `wibble`, and then the items. -/
theorem places : (uses program).defs.map (fun d => (d.name, d.origin)) =
    [("list", 0), ("map", 19), ("w", 25), ("w", 39), ("Shape", 45), ("helper", 75), ("dead", 100), ("area", 130), ("Circle", 58),
      ("pi", 160), ("map", 180)] := by decide +kernel

/-- Only `dead` is left out: `pi`, `helper` and `Shape` are private, and public definitions use them by others. -/
example : positions ((analyse program).unused (analyse program).public_ ((analyse program).entities.map (·.1))) = [100] := by
  decide +kernel

/-- Nothing else is reported: the value `map` is used by the constant that has its name, and the private and unused `dead`
refers to `w`. -/
example : ((analyse program).unused (analyse program).public_ ((analyse program).entities.map (·.1))).map (·.1.name) = ["dead"] := by
  decide +kernel

/-- The constant `pi`, number 9, is needed by `area`, number 7. -/
theorem pi_needed : (uses program).Needed 9 := by
  refine ⟨7, ⟨"area", .value, .function, true, 130⟩, by decide +kernel, rfl, ?_⟩
  exact (Relation.ReflTransGen.single (show (7, 5) ∈ (uses program).uses by decide +kernel)).tail
    (show (5, 9) ∈ (uses program).uses by decide +kernel)

example : 160 ∉ positions ((analyse program).unused (analyse program).public_ ((analyse program).entities.map (·.1))) := by
  have hdefs : (uses program).defs.length = 11 := by decide +kernel
  have hplaces : ∀ a < 11, ∀ b < 11, ∀ d d', (uses program).defs[a]? = some d → (uses program).defs[b]? = some d' →
      d.origin = d'.origin → a = b := by
    have key : ∀ a < 11, ∀ b < 11, ((uses program).defs[a]?.map (·.origin)) = ((uses program).defs[b]?.map (·.origin)) → a = b := by
      decide +kernel
    intro a ha b hb d d' h1 h2 h3
    exact key a ha b hb (by rw [h1, h2]; simp [h3])
  have := (code_is_left_out_iff program program_ok _ _ (fun _ => Iff.rfl) (fun _ => Iff.rfl)
    (fun a b d d' h1 h2 _ _ _ _ h3 => hplaces a (hdefs ▸ lt_of_get h1) b (hdefs ▸ lt_of_get h2) d d' h1 h2 h3)
    9 ⟨"pi", .value, .constant, false, 160⟩ (by decide +kernel) (.inr (.inl rfl))).not
  exact this.mpr (not_not.mpr pi_needed)

/-- The module that `dead` refers to is in scope, and nothing is called `dead` in a module `w`. -/
example (i : Info) : (⟨"w", .module_⟩, i) ∉
    (analyse program).unused (analyse program).public_ ((analyse program).entities.map (·.1)) :=
  referenced_module_is_not_reported_partial program program_ok _ _ (fun _ => Iff.rfl) (fun _ => Iff.rfl) 3 6
    ⟨"dead", .value, .function, false, 100⟩ "w" (by decide +kernel) rfl (by decide +kernel) (by decide +kernel) (by decide +kernel) i

/-- `import wibble as w` alone: nothing but itself uses the alias. -/
example : (⟨"w", .module_⟩, ⟨14, .moduleAlias "wibble"⟩) ∈
    (analyse ⟨[.aliased "w" "wibble" 0 14], []⟩).unused [] [⟨"w", .module_⟩, ⟨"w", .shadowed⟩] := by
  have hdefs : (uses ⟨[.aliased "w" "wibble" 0 14], []⟩).defs =
      [⟨"w", .module_, .importedModule "wibble", false, 0⟩, ⟨"w", .module_, .moduleAlias "wibble", false, 14⟩] := by decide +kernel
  refine unreferenced_module_is_reported ⟨[.aliased "w" "wibble" 0 14], []⟩
    ⟨by decide +kernel, by decide +kernel, by decide +kernel, by decide +kernel, by simp⟩ _ _ ?_ ?_ 1
    ⟨"w", .module_, .moduleAlias "wibble", false, 14⟩ (by rw [hdefs]; rfl) (by decide +kernel) ?_
  · rw [show (analyse ⟨[.aliased "w" "wibble" 0 14], []⟩).public_ = [] by decide +kernel]; simp
  · rw [show (analyse ⟨[.aliased "w" "wibble" 0 14], []⟩).entities.map (·.1) = [⟨"w", .shadowed⟩, ⟨"w", .module_⟩] by decide +kernel]
    simp [or_comm]
  · intro c d' hc _
    rw [hdefs] at hc
    match c, hc with
    | 0, hc => simp at hc; rw [← hc]
    | 1, hc => simp at hc; rw [← hc]

end Example

end Verif.Unused
