import Verif.TypeText.Read

/-
C70: a type that the compiler prints for a reader of a module (in an error, in a hover, in an annotation that it writes) is
read in that module as the type it was printed from.
-/
namespace Verif.TypeText
open Lexer Lexer.Spec

section
variable {facts : Facts} {world : World} {current : Name} {order : List (Name × Name)} {next : Nat} {decls : List Decl} {env : Env}

/-- A type is printed after others by one printer, for a module whose names are `env.names`, and with names for variables
that are those of any part of the module. Every type in it has a name in the module. Then the text, read in the module as
an annotation, is the type, up to the numbers of its variables: different variables stay different and a variable whose name
is known where the text is read is the variable of that name.

Missing: types that have no name in the module (`unimported_type_is_another_type` and `reexport_hides_imported_type` show
what is printed for them), more variables than there are names before `as` (`forty_five_variables`), variables that were
given the same name (`instantiations_share_a_name`), and types of the prelude that are imported by name. -/
theorem printed_type_is_read_partial (hw : Analysed facts world) (hc : world current = none)
    (hd : ∀ d ∈ decls, DeclOk facts current d) (ha : analyse facts world current order next decls = some env)
    (ho : ∀ m a m' n, Reexports facts world m a m' n → (m, a) ∈ order)
    (given : List (Nat × Name)) (earlier : List Ty) (type : Ty)
    (hn : type.All fun m n _ => Nameable facts world env m n) (ht : type.WellFormed facts)
    (hv : VariablesOk given type) (hl : given.length + (varsAll (earlier ++ [type])).dedup.length ≤ 44)
    (h : Hydrator) (ok : HydratorOk h) (hp : h.permitNew = true) :
    let names := { env.names with typeVariables := given }
    let printed := print names (printAll names (Printer.new names) earlier) type
    ∃ read h' f, readType env world h printed.1 = some (read, h') ∧
      IsRead type read (fun i => (print names printed.2 (.var i)).1) h f := by
  intro names printed
  have inv := analyse_inv (analysed_inv hw) hc hd ha
  obtain ⟨i1, l1⟩ := printAll_spec (n := names) earlier _ (pinv_new names)
  obtain ⟨i2, l2, n2, t2⟩ := print_spec (n := names) type _ i1
  have hvars : varsAll (earlier ++ [type]) = varsAll earlier ++ type.vars := by
    clear * -
    induction earlier with
    | nil => simp [varsAll]
    | cons t ts ih => simp [varsAll, ih]
  have hcount : printed.2.uid ≤ 44 := by
    have h1 := uid_le i2
    have h2 := variables_le i2 (vs := varsAll (earlier ++ [type])) fun e he => by
      rcases (l1.trans l2).only e he with h3 | h3
      · cases h3
      · rw [hvars]; exact h3
    have h3 : names.typeVariables.length = given.length := rfl
    show (print names _ type).2.uid ≤ 44
    omega
  have hreads : ∀ i ∈ type.vars, Reads (.name (nameOf names printed.2 i)) (nameOf names printed.2 i) := by
    intro i hi
    obtain ⟨s, hs⟩ := n2 i hi
    have h1 : nameOf names printed.2 i = s := by unfold nameOf; rw [hs]; rfl
    rw [h1]
    unfold nameIn at hs
    cases hg : names.typeVariables.lookup i with
    | some s' =>
      rw [hg] at hs
      cases hs
      exact hv.valid i hi _ hg
    | none =>
      rw [hg] at hs
      obtain ⟨k, hk, hk'⟩ := i2.letter _ (lookup_mem hs)
      simp only at hk'
      rw [hk']
      exact letters_name (Nat.lt_of_lt_of_le hk hcount)
  have hvar : ∀ i ∈ type.vars, (print names printed.2 (.var i)).1 = nameOf names printed.2 i := by
    intro i hi
    obtain ⟨s, hs⟩ := n2 i hi
    have h1 : nameOf names printed.2 i = s := by unfold nameOf; rw [hs]; rfl
    rw [h1, print]
    unfold nameIn at hs
    unfold typeVariable
    cases hg : names.typeVariables.lookup i with
    | some s' => rw [hg] at hs; cases hs; rfl
    | none =>
      rw [hg] at hs
      have hs' : printed.2.variables.lookup i = some s := hs
      simp only
      rw [hs']
  obtain ⟨read, h', r1, r2, r3, r4, r5⟩ := text_read (nt := writtenAs names) (nv := nameOf names printed.2) (env := env)
    (world := world) type (all_and type hn ht) (fun m n k hk => nameable_denotes (analysed_inv hw) inv ho hk.1 hk.2) hreads h ok hp
  refine ⟨read, h', numbers h' (nameOf names printed.2), ?_, r5, ?_, ?_⟩
  · rw [← r1]
    exact congrArg _ t2
  · intro i hi j hj hij
    obtain ⟨x, hx⟩ := r4 i hi
    obtain ⟨y, hy⟩ := r4 j hj
    have : x = y := by
      unfold numbers at hij
      rw [hx, hy] at hij
      exact hij
    subst this
    have hname := r2.distinct _ _ _ hx hy
    obtain ⟨s, hs⟩ := n2 i hi
    obtain ⟨s', hs'⟩ := n2 j hj
    have e1 : nameOf names printed.2 i = s := by unfold nameOf; rw [hs]; rfl
    have e2 : nameOf names printed.2 j = s' := by unfold nameOf; rw [hs']; rfl
    rw [e1, e2] at hname
    subst hname
    exact nameIn_inj i2 (hv.distinct i hi j hj s) hs hs'
  · intro i hi j hj
    rw [hvar i hi] at hj
    unfold numbers
    rw [r3.keeps _ _ hj]
    rfl

end

/-! A library has an internal type, `Raw`, and another module of it has the public name `Shown` for it. The module `main`
imports the second one, has a type of its own, and a function whose type is printed with the names `x` and `a`. -/

namespace Example

/-- The library's and the module's types. -/
def facts : Facts :=
  { arity := fun m n =>
      if m = preludeName then (preludeTypes.lookup n).getD 0
      else if n = "Raw".toList then 1 else if n = "Mine".toList then 2 else 0
    internal := fun m n => m = "lib/raw".toList ∧ n = "Raw".toList
    package := fun _ => "lib".toList }

/-- `lib/raw.gleam`: `@internal pub type Raw(x)`. -/
def raw : List Decl := [.customType "Raw".toList ["x".toList] .internal_]

/-- `lib.gleam`: `import lib/raw`, `pub type Shown(x) = raw.Raw(x)`. -/
def lib : List Decl :=
  [.importModule "lib/raw".toList (some "raw".toList),
   .typeAlias "Shown".toList ["x".toList] (.constructor (some "raw".toList) (some "Raw".toList) [.var "x".toList] true) .public_]

/-- `main.gleam`: `import lib as the_lib`, `type Mine(x, y)`. -/
def main : List Decl :=
  [.importModule "lib".toList (some "the_lib".toList), .customType "Mine".toList ["x".toList, "y".toList] .private_]

def world0 : World := fun m => if m = preludeName then some prelude else none
def order : List (Name × Name) := [("lib".toList, "Shown".toList)]
def rawEnv : Env := (analyse facts world0 "lib/raw".toList [] 0 raw).get (by decide +kernel)
def world1 : World := put world0 "lib/raw".toList (rawEnv.interface false)
def libEnv : Env := (analyse facts world1 "lib".toList [] 0 lib).get (by decide +kernel)
def world : World := put world1 "lib".toList (libEnv.interface false)
def env : Env := (analyse facts world "main".toList order 0 main).get (by decide +kernel)

/-- `fn(Shown(x), List(b)) -> #(Mine(x, b), a)`, where 7 is called `x`, 8 is called `a`, 9 has no name. -/
def type : Ty :=
  .fn [.named "lib/raw".toList "Raw".toList [.var 7], .named preludeName "List".toList [.link (.var 9)]]
    (.tuple [.named "main".toList "Mine".toList [.var 7, .var 9], .var 8])

def given : List (Nat × Name) := [(7, "x".toList), (8, "a".toList)]

def names : Names := { env.names with typeVariables := given }

example : (print names (Printer.new names) type).1 =
    "fn(the_lib.Shown(x), List(b)) -> #(Mine(x, b), a)".toList := by decide +kernel

theorem raw_some : analyse facts world0 "lib/raw".toList [] 0 raw = some rawEnv := (Option.some_get _).symm
theorem lib_some : analyse facts world1 "lib".toList [] 0 lib = some libEnv := (Option.some_get _).symm
theorem env_some : analyse facts world "main".toList order 0 main = some env := (Option.some_get _).symm

theorem up {c : Char} {r : List Char} (hc : 'A' ≤ c ∧ c ≤ 'Z') (hr : ∀ d ∈ c :: r, NameChar d) : Reads (.upName (c :: r)) (c :: r) :=
  ⟨rfl, ⟨c, r, rfl, hc⟩, hr⟩

theorem low {c : Char} {r : List Char} (hc : 'a' ≤ c ∧ c ≤ 'z') (hr : ∀ d ∈ c :: r, NameChar d)
    (hk : ∀ k, c :: r ≠ keywordText k) : Reads (.name (c :: r)) (c :: r) :=
  ⟨rfl, ⟨c, r, rfl, hc⟩, hr, hk⟩

theorem analysed : Analysed facts world := by
  refine .module false (.module false (.prelude ?_) ?_ ?_ raw_some) ?_ ?_ lib_some
  · decide +kernel
  · decide +kernel
  · intro d hd
    simp only [raw, List.mem_singleton] at hd
    subst hd
    exact ⟨up (by decide) (by unfold NameChar; decide), by decide +kernel⟩
  · decide +kernel
  · intro d hd
    simp only [lib, List.mem_cons, List.not_mem_nil, or_false] at hd
    rcases hd with rfl | rfl
    · rintro _ ⟨⟩
      exact low (by decide) (by unfold NameChar; decide) (by intro k; cases k <;> decide)
    · exact up (by decide) (by unfold NameChar; decide)

theorem declOk : ∀ d ∈ main, DeclOk facts "main".toList d := by
  intro d hd
  simp only [main, List.mem_cons, List.not_mem_nil, or_false] at hd
  rcases hd with rfl | rfl
  · rintro _ ⟨⟩
    exact low (by decide) (by unfold NameChar; decide) (by intro k; cases k <;> decide)
  · exact ⟨up (by decide) (by unfold NameChar; decide), by decide +kernel⟩

/-- `Shown` is the only public name for an internal type. -/
theorem reexports {m a m' n : Name} (h : Reexports facts world m a m' n) :
    m = "lib".toList ∧ a = "Shown".toList ∧ m' = "lib/raw".toList ∧ n = "Raw".toList := by
  obtain ⟨i, c, h1, _, h3, _, _, _, h7⟩ := h
  have h8 : m' = "lib/raw".toList ∧ n = "Raw".toList := by simpa [facts] using h7
  refine ⟨?_, ?_, h8⟩
  · simp only [world, put] at h1
    split at h1
    · assumption
    · simp only [world1, put] at h1
      split at h1
      · cases h1
        cases h3
      · simp only [world0] at h1
        split at h1
        · cases h1; cases h3
        · cases h1
  · simp only [world, put] at h1
    split at h1
    · cases h1
      have h9 : (libEnv.interface false).aliases = put (fun _ => none) "Shown".toList _ := rfl
      rw [h9] at h3
      simp only [put] at h3
      split at h3
      · assumption
      · cases h3
    · simp only [world1, put] at h1
      split at h1
      · cases h1
        cases h3
      · simp only [world0] at h1
        split at h1
        · cases h1; cases h3
        · cases h1

theorem type_nameable : type.All fun m n _ => Nameable facts world env m n := by
  have hmod : Imported env "lib".toList := ⟨"the_lib".toList, by decide +kernel⟩
  have hraw : Nameable facts world env "lib/raw".toList "Raw".toList := by
    refine .inr ⟨fun m a h => by rw [(reexports h).1]; exact hmod, .inl ⟨"lib".toList, "Shown".toList, ?_⟩⟩
    exact ⟨libEnv.interface false, ⟨"lib".toList, [0], .named "lib/raw".toList "Raw".toList [.link (.var 0)], .public_⟩, rfl, rfl,
      rfl, rfl, ⟨_, rfl, rfl⟩, rfl, by decide⟩
  have hlist : Nameable facts world env preludeName "List".toList :=
    .inl ⟨"List".toList, preludeConstructor "List".toList 1, rfl, _, rfl, rfl⟩
  have hmine : Nameable facts world env "main".toList "Mine".toList :=
    .inl ⟨"Mine".toList, ⟨"main".toList, [0, 1], .named "main".toList "Mine".toList [.var 0, .var 1], .private_⟩, rfl, _, rfl, rfl⟩
  simp only [type, Ty.All, AllIn, and_true]
  exact ⟨⟨hraw, hlist⟩, hmine⟩

theorem type_wellFormed : type.WellFormed facts := by
  simp only [Ty.WellFormed, type, Ty.All, AllIn, and_true]
  decide +kernel

theorem type_vars : type.vars = [7, 9, 7, 9, 8] := by simp [type, Ty.vars, varsAll]

theorem variablesOk : VariablesOk given type := by
  refine ⟨?_, ?_⟩
  · intro i hi s hs
    rw [type_vars] at hi
    simp only [List.mem_cons, List.not_mem_nil, or_false] at hi
    rcases hi with rfl | rfl | rfl | rfl | rfl <;> cases hs <;>
      exact low (by decide) (by unfold NameChar; decide) (by intro k; cases k <;> decide)
  · intro i hi j hj s hs ht
    rw [type_vars] at hi hj
    simp only [List.mem_cons, List.not_mem_nil, or_false] at hi hj
    rcases hi with rfl | rfl | rfl | rfl | rfl <;> rcases hj with rfl | rfl | rfl | rfl | rfl <;>
      first | rfl | (cases hs; done) | (cases hs; cases ht)

/-- The text is read where `x` is the variable 3 and no other variable has a name. -/
example : ∃ read h' f, readType env world ⟨[("x".toList, 3)], 4, true, false⟩
      "fn(the_lib.Shown(x), List(b)) -> #(Mine(x, b), a)".toList = some (read, h') ∧ read.strip = type.rename f ∧ f 7 = 3 := by
  obtain ⟨read, h', f, h1, h2⟩ := printed_type_is_read_partial analysed (by decide +kernel) declOk env_some
    (fun m a m' n h => by obtain ⟨rfl, rfl, _⟩ := reexports h; simp [order]) given [] type type_nameable type_wellFormed
    variablesOk (by decide +kernel) ⟨[("x".toList, 3)], 4, true, false⟩
    ⟨by simp, fun m n i h1 h2 => by
      simp only [List.lookup_cons, List.lookup_nil] at h1 h2
      split at h1
      · split at h2
        · simp_all
        · cases h2
      · cases h1⟩ rfl
  refine ⟨read, h', f, ?_, h2.same, h2.known 7 (by simp [type_vars]) 3 (by decide +kernel)⟩
  rw [← h1]
  exact congrArg _ (by decide +kernel)

end Example

/-- The names that one printer gives to variables: two variables do not get the same name, unless both were given it in the
source; a variable has the name that it was given; and a name that is made up is not one that was given to any variable. -/
theorem variables_have_their_own_names (given : List (Nat × Name)) (names : Names) (hg : names.typeVariables = given)
    (types : List Ty) (i j : Nat) (hi : i ∈ varsAll types) (hj : j ∈ varsAll types) :
    let printer := printAll names (Printer.new names) types
    let name := fun k => (print names printer (.var k)).1
    (name i = name j → i = j ∨ (given.lookup i = some (name i) ∧ given.lookup j = some (name i))) ∧
      (∀ s, given.lookup i = some s → name i = s) ∧ (given.lookup i = none → ∀ k, given.lookup k ≠ some (name i)) := by
  subst hg
  intro printer name
  obtain ⟨i1, l1⟩ := printAll_spec (n := names) types _ (pinv_new names)
  have named := printAll_named types _ (pinv_new names)
  have hname : ∀ k ∈ varsAll types, nameIn names printer k = some (name k) := by
    intro k hk
    obtain ⟨s, hs⟩ := named k hk
    have : name k = s := by
      show (print names printer (.var k)).1 = s
      rw [print]
      unfold nameIn at hs
      unfold typeVariable
      cases hg : names.typeVariables.lookup k with
      | some s' => rw [hg] at hs; cases hs; rfl
      | none =>
        rw [hg] at hs
        have hs' : printer.variables.lookup k = some s := hs
        simp only
        rw [hs']
    rw [this]
    exact hs
  refine ⟨fun hij => ?_, fun s hs => ?_, fun hi0 k hk => ?_⟩
  · by_cases hb : names.typeVariables.lookup i = some (name i) ∧ names.typeVariables.lookup j = some (name i)
    · exact .inr hb
    · exact .inl (nameIn_inj i1 (fun h1 h2 => absurd ⟨h1, h2⟩ hb) (hname i hi) (by rw [hij]; exact hname j hj))
  · have h1 := hname i hi
    unfold nameIn at h1
    rw [hs] at h1
    exact (Option.some.inj h1).symm
  · have h1 := hname i hi
    unfold nameIn at h1
    rw [hi0] at h1
    exact i1.fresh _ (lookup_mem h1) _ (lookup_mem hk) rfl

/-- The variable without a name is called `b`, as `a` is the name of another one. -/
example : 9 ∈ varsAll [Example.type] ∧ Example.given.lookup 9 = none ∧
    (print Example.names (printAll Example.names (Printer.new Example.names) [Example.type]) (.var 9)).1 = "b".toList := by
  decide +kernel

end Verif.TypeText
