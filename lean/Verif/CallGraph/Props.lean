import Verif.CallGraph.Lemmas

/-
C21: definitions are analysed after everything they refer to.
-/
namespace Verif.CallGraph

/-- C21, for modules in which the graph is exact (`Plain`). What is missing is shown false below: names of assertion patterns hide what the
message refers to, alternative patterns are not looked at, and names bound beside a bit array hide what its sizes refer to. -/
theorem dependency_order_partial (definitions : List Definition) (edges groups : List (List Nat)) (h : graph definitions = some edges)
    (hp : ∀ d ∈ definitions, d.Plain) (hg : Components edges groups) : InOrder definitions groups := by
  have hlen : edges.length = definitions.length := by
    unfold graph at h
    cases hr : register (fun _ => none) 0 definitions with
    | none => simp [hr] at h
    | some names => simp only [hr, Option.map_some, Option.some.injEq] at h; subst h; simp
  have he := graph_edges definitions edges h hp
  refine ⟨by rw [← hlen]; exact hg.complete, ?_, ?_⟩
  · intro before group after hgr i hi j hij
    obtain ⟨targets, h1, h2⟩ := (he i j).2 hij
    exact hg.earlier before group after hgr i hi targets h1 j h2
  · intro group hgr i hi j hj
    have := hg.connected group hgr i hi j hj
    have e : (fun a b => ∃ targets, edges[a]? = some targets ∧ b ∈ targets) = RefersTo definitions := by
      funext a b; exact propext (he a b)
    rwa [e] at this

theorem register_some : ∀ (ds : List Definition) (names : Names) (next : Nat),
    (register names next ds).isSome ↔ (ds.map Definition.name).Nodup ∧ ∀ d ∈ ds, ∀ t, names d.name ≠ some (some t)
  | [], names, next => by simp [register]
  | d :: rest, names, next => by
    have hstep : (∃ t, names d.name = some (some t)) ∨ register names next (d :: rest) =
        register (fun x => if x = d.name then some (some next) else names x) (next + 1) rest := by
      cases hd : names d.name with
      | none => right; simp only [register, hd]
      | some v =>
        cases v with
        | none => right; simp only [register, hd]
        | some t => left; exact ⟨t, rfl⟩
    rcases hstep with ⟨t, ht⟩ | hstep
    · constructor
      · intro h; simp [register, ht] at h
      · intro h; exact (h.2 d (by simp) t ht).elim
    · by_cases ht : ∃ t, names d.name = some (some t)
      · obtain ⟨t, ht⟩ := ht
        constructor
        · intro h; simp [register, ht] at h
        · intro h; exact (h.2 d (by simp) t ht).elim
      · rw [hstep, register_some rest]
        simp only [List.map_cons, List.nodup_cons, List.mem_map, not_exists, not_and, List.mem_cons, forall_eq_or_imp]
        constructor
        · rintro ⟨h1, h2⟩
          refine ⟨⟨fun e he hn => ?_, h1⟩, fun t h => ht ⟨t, h⟩, ?_⟩
          · have := h2 e he next; rw [if_pos hn] at this; exact this rfl
          · intro e he t h
            by_cases hn : e.name = d.name
            · exact h2 e he next (by rw [if_pos hn])
            · exact h2 e he t (by rw [if_neg hn]; exact h)
        · rintro ⟨⟨h1, h2⟩, _, h4⟩
          refine ⟨h2, fun e he t => ?_⟩
          rw [if_neg (h1 e he)]
          exact h4 e he t

/-- A module is refused exactly when two of its definitions have the same name. -/
theorem duplicates_refused (definitions : List Definition) : graph definitions = none ↔ ¬ (definitions.map Definition.name).Nodup := by
  have := register_some definitions (fun _ => none) 0
  unfold graph
  cases hr : register (fun _ => none) 0 definitions with
  | none => simp [hr] at this ⊢; exact this
  | some names => simp [hr] at this ⊢; exact this

/-! ### Where the graph is wrong -/

/-- `let assert Ok(message) = x as message`, where the message is a constant of the module. -/
def messageModule : List Definition :=
  [.function "main" ["x"] (.assignment (.variable "x") (.node (.cons (.variable "message") .nil)) (.cons (.variable "message") .nil) .nil),
   .constant "message" .leaf]

/-- `case x { <<_:size(8)>> | <<_:size(width)>> -> 1 }` with a constant `width`. -/
def alternativeModule : List Definition :=
  [.function "main" ["x"] (.expression (.case (.cons (.variable "x") .nil)
      (.cons (.cons (.bitArray (.cons (.cons (.size .int) .nil) (.node .nil) .nil)) .nil)
        [.cons (.bitArray (.cons (.cons (.size (.variable "width")) .nil) (.node .nil) .nil)) .nil] none (.node .nil) .nil)) .nil),
   .constant "width" .leaf]

/-- `case x, y { width, <<_:size(width)>> -> 1 }`: the size is the constant's, not that of the variable beside. -/
def besideModule : List Definition :=
  [.function "main" ["x", "y"] (.expression (.case (.cons (.variable "x") (.cons (.variable "y") .nil))
      (.cons (.cons (.variable "width") (.cons (.bitArray (.cons (.cons (.size (.variable "width")) .nil) (.node .nil) .nil)) .nil)) [] none (.node .nil) .nil)) .nil),
   .constant "width" .leaf]

/-- `case x { "a" as other <> _ -> other }` in a function that `other` calls: no mutual recursion, but one group. -/
def prefixModule : List Definition :=
  [.function "main" ["x"] (.expression (.case (.cons (.variable "x") .nil) (.cons (.cons (.stringPrefix (some "other") none) .nil) [] none (.variable "other") .nil)) .nil),
   .function "other" [] (.expression (.variable "main") .nil)]

theorem two_apart : Components [[], []] [[0], [1]] := by
  refine ⟨by decide, ?_, ?_⟩
  · intro before group after hgr i hi targets ht j hj
    have : targets = [] := by
      match i, ht with
      | 0, ht => simp at ht; exact ht
      | 1, ht => simp at ht; exact ht
      | n + 2, ht => simp at ht
    subst this; simp at hj
  · intro group hg i hi j hj
    simp only [List.mem_cons, List.not_mem_nil, or_false] at hg
    rcases hg with rfl | rfl <;> simp only [List.mem_cons, List.not_mem_nil, or_false] at hi hj <;> subst hi <;> subst hj <;>
      exact Relation.ReflTransGen.refl

theorem not_in_order (ds : List Definition) (h : RefersTo ds 0 1) : ¬ InOrder ds [[0], [1]] := by
  intro hi
  rcases hi.earlier [] [0] [[1]] rfl 0 (by simp) 1 h with h | h <;> simp at h

/-- The main function comes first although it refers to the constant, in all three. -/
theorem references_missed :
    (graph messageModule = some [[], []] ∧ ¬ InOrder messageModule [[0], [1]]) ∧
    (graph alternativeModule = some [[], []] ∧ ¬ InOrder alternativeModule [[0], [1]]) ∧
    (graph besideModule = some [[], []] ∧ ¬ InOrder besideModule [[0], [1]]) ∧ Components [[], []] [[0], [1]] := by
  refine ⟨⟨by decide +kernel, not_in_order _ ⟨_, _, rfl, rfl, ?_⟩⟩, ⟨by decide +kernel, not_in_order _ ⟨_, _, rfl, rfl, ?_⟩⟩,
    ⟨by decide +kernel, not_in_order _ ⟨_, _, rfl, rfl, ?_⟩⟩, two_apart⟩
  · exact ⟨by decide, Or.inr (Or.inr (Or.inl (Or.inl rfl)))⟩
  · refine ⟨by decide, Or.inl (Or.inr (Or.inr (Or.inl ⟨_, List.mem_singleton.2 rfl, ?_⟩)))⟩
    exact Or.inl (Or.inl (Or.inl rfl))
  · refine ⟨by decide, Or.inl (Or.inr (Or.inl ?_))⟩
    exact Or.inr (Or.inl (Or.inl (Or.inl rfl)))

/-- The graph says that the two functions refer to each other, but `main` refers to nothing. -/
theorem reference_invented : graph prefixModule = some [[1], [0]] ∧ ∀ j, ¬ RefersTo prefixModule 0 j := by
  refine ⟨by decide +kernel, ?_⟩
  rintro j ⟨d, e, hd, he, hu⟩
  simp only [prefixModule, List.getElem?_cons_zero, Option.some.injEq] at hd
  subst hd
  match j, he with
  | 0, he =>
    simp only [prefixModule, List.getElem?_cons_zero, Option.some.injEq] at he
    subst he
    simp [Definition.Uses, Stmts.Uses, Expr.Uses, Exprs.Uses, Clauses.Uses, Pats.Uses, Pats.Binds, Pat.Uses, Pat.Binds, Definition.name] at hu
  | 1, he =>
    simp only [prefixModule, List.getElem?_cons_succ, List.getElem?_cons_zero, Option.some.injEq] at he
    subst he
    simp [Definition.Uses, Stmts.Uses, Expr.Uses, Exprs.Uses, Clauses.Uses, Pats.Uses, Pats.Binds, Pat.Uses, Pat.Binds, Definition.name] at hu
  | n + 2, he => simp [prefixModule] at he

/-! ### A concrete case -/

/-- Two functions that call each other, a third that uses them with a local of the same name as the first, and a constant. -/
def sampleModule : List Definition :=
  [.function "a" ["n"] (.expression (.node (.cons (.variable "b") (.cons (.variable "n") .nil))) .nil),
   .function "b" [] (.expression (.node (.cons (.variable "a") (.cons (.variable "limit") .nil))) .nil),
   .function "c" [] (.assignment (.variable "b") (.variable "a") .nil (.expression (.variable "a") .nil)),
   .constant "limit" .leaf]

example : graph sampleModule = some [[1], [0, 3], [1], []] := by decide +kernel
example : ∀ d ∈ sampleModule, d.Plain := by
  simp [sampleModule, Definition.Plain, Stmts.Plain, Expr.Plain, Exprs.Plain, Pat.Plain, Pat.Apart, Pat.Uses, Exprs.Uses]
example : Components [[1], [0, 3], [1], []] [[3], [1, 0], [2]] := by
  refine ⟨by decide, ?_, ?_⟩
  · intro before group after hgr i hi targets ht j hj
    match before, hgr with
    | [], hgr =>
      simp only [List.nil_append, List.cons.injEq] at hgr
      obtain ⟨rfl, _⟩ := hgr
      simp only [List.mem_singleton] at hi
      subst hi
      simp at ht
      subst ht
      simp at hj
    | [b1], hgr =>
      simp only [List.cons_append, List.nil_append, List.cons.injEq] at hgr
      obtain ⟨rfl, rfl, _⟩ := hgr
      simp only [List.mem_cons, List.not_mem_nil, or_false] at hi
      rcases hi with rfl | rfl <;> simp at ht <;> subst ht <;> simp at hj ⊢ <;> omega
    | [b1, b2], hgr =>
      simp only [List.cons_append, List.nil_append, List.cons.injEq] at hgr
      obtain ⟨rfl, rfl, rfl, _⟩ := hgr
      simp only [List.mem_cons, List.not_mem_nil, or_false] at hi
      subst hi; simp at ht; subst ht; simp at hj ⊢; omega
    | b1 :: b2 :: b3 :: before, hgr =>
      have := congrArg List.length hgr
      simp at this
  · intro group hg i hi j hj
    have e01 : (fun a b => ∃ targets, ([[1], [0, 3], [1], []] : List (List Nat))[a]? = some targets ∧ b ∈ targets) 0 1 := ⟨[1], rfl, by simp⟩
    have e10 : (fun a b => ∃ targets, ([[1], [0, 3], [1], []] : List (List Nat))[a]? = some targets ∧ b ∈ targets) 1 0 := ⟨[0, 3], rfl, by simp⟩
    simp only [List.mem_cons, List.not_mem_nil, or_false] at hg
    rcases hg with rfl | rfl | rfl
    · simp at hi hj; subst hi; subst hj; exact .refl
    · simp only [List.mem_cons, List.not_mem_nil, or_false] at hi hj
      rcases hi with rfl | rfl <;> rcases hj with rfl | rfl
      · exact .refl
      · exact .single e10
      · exact .single e01
      · exact .refl
    · simp at hi hj; subst hi; subst hj; exact .refl

end Verif.CallGraph
