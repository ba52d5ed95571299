import Verif.CallGraph.Spec
import Mathlib.Tactic.Common
import Mathlib.Order.Nat

namespace Verif.CallGraph

theorem mem_referenced (names : Names) (name : String) (k : Nat) : k ∈ referenced names name ↔ names name = some (some k) := by
  unfold referenced
  cases h : names name with
  | none => simp
  | some v =>
    cases v with
    | none => simp
    | some t => simp [eq_comm]

theorem define_node (names : Names) (name x : String) (k : Nat) :
    define names name x = some (some k) ↔ name ≠ x ∧ names x = some (some k) := by
  unfold define
  by_cases h : x = name
  · subst h; simp
  · rw [if_neg h]; simp [Ne.symm h]

theorem defines_node : ∀ (ps : List String) (names : Names) (x : String) (k : Nat),
    ps.foldl define names x = some (some k) ↔ x ∉ ps ∧ names x = some (some k)
  | [], names, x, k => by simp
  | p :: ps, names, x, k => by
    rw [List.foldl_cons, defines_node ps, define_node]
    simp only [List.mem_cons, not_or]
    constructor
    · rintro ⟨a, b, c⟩; exact ⟨⟨Ne.symm b, a⟩, c⟩
    · rintro ⟨⟨a, b⟩, c⟩; exact ⟨b, Ne.symm a, c⟩

mutual
theorem patNames_node (names : Names) (x : String) (k : Nat) : ∀ p : Pat, p.Plain →
    (patNames names p x = some (some k) ↔ ¬ p.Binds x ∧ names x = some (some k))
  | .variable name, _ => by simp only [patNames, Pat.Binds]; exact define_node names name x k
  | .stringPrefix left right, h => by
    simp only [Pat.Plain] at h
    subst h
    cases right with
    | none => simp [patNames, Pat.Binds]
    | some name => simp only [patNames, Pat.Binds, define_node]; simp
  | .node children, h => patsNames_node names x k children h
  | .size _, _ => by simp [patNames, Pat.Binds]
  | .assign name pattern, h => by
    simp only [patNames, Pat.Binds]
    rw [patNames_node (define names name) x k pattern h, define_node, not_or]
    constructor
    · rintro ⟨a, b, c⟩; exact ⟨⟨b, a⟩, c⟩
    · rintro ⟨⟨a, b⟩, c⟩; exact ⟨b, a, c⟩
  | .bitArray segments, h => segmentsNames_node names x k segments h
theorem patsNames_node (names : Names) (x : String) (k : Nat) : ∀ p : Pats, p.Plain →
    (patsNames names p x = some (some k) ↔ ¬ p.Binds x ∧ names x = some (some k))
  | .nil, _ => by simp [patsNames, Pats.Binds]
  | .cons head tail, h => by
    simp only [patsNames, Pats.Binds]
    rw [patsNames_node _ x k tail h.2, patNames_node names x k head h.1, not_or]
    constructor
    · rintro ⟨a, b, c⟩; exact ⟨⟨b, a⟩, c⟩
    · rintro ⟨⟨a, b⟩, c⟩; exact ⟨b, a, c⟩
theorem segmentsNames_node (names : Names) (x : String) (k : Nat) : ∀ p : Segments, p.Plain →
    (segmentsNames names p x = some (some k) ↔ ¬ p.Binds x ∧ names x = some (some k))
  | .nil, _ => by simp [segmentsNames, Segments.Binds]
  | .cons sizes value rest, h => by
    obtain ⟨h1, h2, h3, h4⟩ := h
    simp only [segmentsNames, Segments.Binds]
    rw [segmentsNames_node _ x k rest h4, patNames_node _ x k value h3, patsNames_node names x k sizes h1, not_or]
    have := h2 x
    constructor
    · rintro ⟨a, b, _, c⟩; exact ⟨⟨b, a⟩, c⟩
    · rintro ⟨⟨a, b⟩, c⟩; exact ⟨b, a, this, c⟩
end

theorem mem_sizeEdges (names : Names) (k : Nat) : ∀ s : Size, k ∈ sizeEdges names s ↔ ∃ x, s.Uses x ∧ names x = some (some k)
  | .int => by simp [sizeEdges, Size.Uses]
  | .variable name => by simp [sizeEdges, Size.Uses, mem_referenced]
  | .binary left right => by
    simp only [sizeEdges, List.mem_append, Size.Uses, mem_sizeEdges names k left, mem_sizeEdges names k right, or_and_right, exists_or]
  | .block inner => mem_sizeEdges names k inner

mutual
theorem mem_patEdges (names : Names) (k : Nat) : ∀ p : Pat, p.Plain → (∀ x, p.Uses x → names x = some (some k) → ¬ p.Binds x) →
    (k ∈ patEdges names p ↔ ∃ x, p.Uses x ∧ names x = some (some k))
  | .variable name, _, _ => by simp [patEdges, Pat.Uses]
  | .stringPrefix left right, _, _ => by simp [patEdges, Pat.Uses]
  | .node children, h, ha => mem_patsEdges names k children h ha
  | .size s, _, _ => mem_sizeEdges names k s
  | .assign name pattern, h, ha => by
    simp only [patEdges, Pat.Uses]
    rw [mem_patEdges (define names name) k pattern h (fun x hu hn => fun hb => ha x hu ((define_node _ _ _ _).1 hn).2 (Or.inr hb))]
    constructor
    · rintro ⟨x, hu, hn⟩; exact ⟨x, hu, ((define_node _ _ _ _).1 hn).2⟩
    · rintro ⟨x, hu, hn⟩; exact ⟨x, hu, (define_node _ _ _ _).2 ⟨fun e => ha x hu hn (Or.inl e), hn⟩⟩
  | .bitArray segments, h, ha => mem_segmentsEdges names k segments h ha
theorem mem_patsEdges (names : Names) (k : Nat) : ∀ p : Pats, p.Plain → (∀ x, p.Uses x → names x = some (some k) → ¬ p.Binds x) →
    (k ∈ patsEdges names p ↔ ∃ x, p.Uses x ∧ names x = some (some k))
  | .nil, _, _ => by simp [patsEdges, Pats.Uses]
  | .cons head tail, h, ha => by
    simp only [patsEdges, List.mem_append, Pats.Uses]
    rw [mem_patEdges names k head h.1 (fun x hu hn hb => ha x (Or.inl hu) hn (Or.inl hb)),
      mem_patsEdges _ k tail h.2 (fun x hu hn hb => ha x (Or.inr hu) ((patNames_node _ _ _ _ h.1).1 hn).2 (Or.inr hb))]
    constructor
    · rintro (⟨x, hu, hn⟩ | ⟨x, hu, hn⟩)
      · exact ⟨x, Or.inl hu, hn⟩
      · exact ⟨x, Or.inr hu, ((patNames_node _ _ _ _ h.1).1 hn).2⟩
    · rintro ⟨x, hu | hu, hn⟩
      · exact Or.inl ⟨x, hu, hn⟩
      · exact Or.inr ⟨x, hu, (patNames_node _ _ _ _ h.1).2 ⟨fun hb => ha x (Or.inr hu) hn (Or.inl hb), hn⟩⟩
theorem mem_segmentsEdges (names : Names) (k : Nat) : ∀ p : Segments, p.Plain →
    (∀ x, p.Uses x → names x = some (some k) → ¬ p.Binds x) → (k ∈ segmentsEdges names p ↔ ∃ x, p.Uses x ∧ names x = some (some k))
  | .nil, _, _ => by simp [segmentsEdges, Segments.Uses]
  | .cons sizes value rest, h, ha => by
    obtain ⟨h1, h2, h3, h4⟩ := h
    have e1 : ∀ x, patsNames names sizes x = some (some k) ↔ names x = some (some k) := by
      intro x; rw [patsNames_node names x k sizes h1]; simp [h2 x]
    have e2 : ∀ x, patNames (patsNames names sizes) value x = some (some k) ↔ ¬ value.Binds x ∧ names x = some (some k) := by
      intro x; rw [patNames_node _ x k value h3, e1]
    simp only [segmentsEdges, List.mem_append, Segments.Uses]
    rw [mem_patsEdges names k sizes h1 (fun x _ _ => h2 x),
      mem_patEdges _ k value h3 (fun x hu hn hb => ha x (Or.inr (Or.inl hu)) ((e1 x).1 hn) (Or.inl hb)),
      mem_segmentsEdges _ k rest h4 (fun x hu hn hb => ha x (Or.inr (Or.inr ⟨((e2 x).1 hn).1, hu⟩)) ((e2 x).1 hn).2 (Or.inr hb))]
    constructor
    · rintro (⟨x, hu, hn⟩ | ⟨x, hu, hn⟩ | ⟨x, hu, hn⟩)
      · exact ⟨x, Or.inl hu, hn⟩
      · exact ⟨x, Or.inr (Or.inl hu), (e1 x).1 hn⟩
      · exact ⟨x, Or.inr (Or.inr ⟨((e2 x).1 hn).1, hu⟩), ((e2 x).1 hn).2⟩
    · rintro ⟨x, hu | hu | ⟨hb, hu⟩, hn⟩
      · exact Or.inl ⟨x, hu, hn⟩
      · exact Or.inr (Or.inl ⟨x, hu, (e1 x).2 hn⟩)
      · exact Or.inr (Or.inr ⟨x, hu, (e2 x).2 ⟨hb, hn⟩⟩)
end

theorem mem_constEdges (names : Names) (k : Nat) : ∀ c : Const, k ∈ constEdges names c ↔ ∃ x, c.Uses x ∧ names x = some (some k)
  | .variable name => by simp [constEdges, Const.Uses, mem_referenced]
  | .qualified _ _ => by simp [constEdges, Const.Uses]
  | .leaf => by simp [constEdges, Const.Uses]
  | .both left right => by
    simp only [constEdges, List.mem_append, Const.Uses, mem_constEdges names k left, mem_constEdges names k right, or_and_right, exists_or]

theorem mem_guardEdges (names : Names) (k : Nat) : ∀ g : Guard, g.Plain → (k ∈ guardEdges names g ↔ ∃ x, g.Uses x ∧ names x = some (some k))
  | .invalid, _ => by simp [guardEdges, Guard.Uses]
  | .binary left right, h => by
    simp only [guardEdges, List.mem_append, Guard.Uses, mem_guardEdges names k left h.1, mem_guardEdges names k right h.2, or_and_right, exists_or]
  | .inner g, h => mem_guardEdges names k g h
  | .variable name, _ => by simp [guardEdges, Guard.Uses, mem_referenced]
  | .moduleSelect _ _, h => h.elim
  | .constant c, _ => mem_constEdges names k c

mutual
theorem mem_exprEdges (names : Names) (k : Nat) : ∀ e : Expr, e.Plain → (k ∈ exprEdges names e ↔ ∃ x, e.Uses x ∧ names x = some (some k))
  | .variable name, _ => by simp [exprEdges, Expr.Uses, mem_referenced]
  | .node children, h => mem_exprsEdges names k children h
  | .block statements, h => mem_stmtsEdges names k statements h
  | .fn parameters body, h => by
    simp only [exprEdges, Expr.Uses]
    rw [mem_stmtsEdges _ k body h]
    constructor
    · rintro ⟨x, hu, hn⟩
      have := (defines_node _ _ _ _).1 hn
      exact ⟨x, ⟨this.1, hu⟩, this.2⟩
    · rintro ⟨x, ⟨hp, hu⟩, hn⟩
      exact ⟨x, hu, (defines_node _ _ _ _).2 ⟨hp, hn⟩⟩
  | .case subjects clauses, h => by
    simp only [exprEdges, List.mem_append, Expr.Uses, mem_exprsEdges names k subjects h.1, mem_clausesEdges names k clauses h.2, or_and_right,
      exists_or]
theorem mem_exprsEdges (names : Names) (k : Nat) : ∀ e : Exprs, e.Plain → (k ∈ exprsEdges names e ↔ ∃ x, e.Uses x ∧ names x = some (some k))
  | .nil, _ => by simp [exprsEdges, Exprs.Uses]
  | .cons head tail, h => by
    simp only [exprsEdges, List.mem_append, Exprs.Uses, mem_exprEdges names k head h.1, mem_exprsEdges names k tail h.2, or_and_right, exists_or]
theorem mem_stmtsEdges (names : Names) (k : Nat) : ∀ e : Stmts, e.Plain → (k ∈ stmtsEdges names e ↔ ∃ x, e.Uses x ∧ names x = some (some k))
  | .nil, _ => by simp [stmtsEdges, Stmts.Uses]
  | .expression value rest, h => by
    simp only [stmtsEdges, List.mem_append, Stmts.Uses, mem_exprEdges names k value h.1, mem_stmtsEdges names k rest h.2, or_and_right, exists_or]
  | .assignment value pattern message rest, h => by
    obtain ⟨h1, h2, h3, h4, h5, h6⟩ := h
    simp only [stmtsEdges, List.mem_append, Stmts.Uses]
    rw [mem_exprEdges names k value h1, mem_patEdges names k pattern h2 (fun x hu _ => h3 x hu), mem_exprsEdges _ k message h4,
      mem_stmtsEdges _ k rest h6]
    constructor
    · rintro (⟨x, hu, hn⟩ | ⟨x, hu, hn⟩ | ⟨x, hu, hn⟩ | ⟨x, hu, hn⟩)
      · exact ⟨x, Or.inl hu, hn⟩
      · exact ⟨x, Or.inr (Or.inl hu), hn⟩
      · exact ⟨x, Or.inr (Or.inr (Or.inl hu)), ((patNames_node _ _ _ _ h2).1 hn).2⟩
      · have := (patNames_node _ _ _ _ h2).1 hn
        exact ⟨x, Or.inr (Or.inr (Or.inr ⟨this.1, hu⟩)), this.2⟩
    · rintro ⟨x, hu | hu | hu | ⟨hb, hu⟩, hn⟩
      · exact Or.inl ⟨x, hu, hn⟩
      · exact Or.inr (Or.inl ⟨x, hu, hn⟩)
      · exact Or.inr (Or.inr (Or.inl ⟨x, hu, (patNames_node _ _ _ _ h2).2 ⟨h5 x hu, hn⟩⟩))
      · exact Or.inr (Or.inr (Or.inr ⟨x, hu, (patNames_node _ _ _ _ h2).2 ⟨hb, hn⟩⟩))
  | .use call patterns rest, h => by
    obtain ⟨h1, h2, h3, h4⟩ := h
    simp only [stmtsEdges, List.mem_append, Stmts.Uses]
    rw [mem_exprEdges names k call h1, mem_patsEdges names k patterns h2 (fun x hu _ => h3 x hu), mem_stmtsEdges _ k rest h4]
    constructor
    · rintro (⟨x, hu, hn⟩ | ⟨x, hu, hn⟩ | ⟨x, hu, hn⟩)
      · exact ⟨x, Or.inl hu, hn⟩
      · exact ⟨x, Or.inr (Or.inl hu), hn⟩
      · have := (patsNames_node _ _ _ _ h2).1 hn
        exact ⟨x, Or.inr (Or.inr ⟨this.1, hu⟩), this.2⟩
    · rintro ⟨x, hu | hu | ⟨hb, hu⟩, hn⟩
      · exact Or.inl ⟨x, hu, hn⟩
      · exact Or.inr (Or.inl ⟨x, hu, hn⟩)
      · exact Or.inr (Or.inr ⟨x, hu, (patsNames_node _ _ _ _ h2).2 ⟨hb, hn⟩⟩)
theorem mem_clausesEdges (names : Names) (k : Nat) : ∀ e : Clauses, e.Plain →
    (k ∈ clausesEdges names e ↔ ∃ x, e.Uses x ∧ names x = some (some k))
  | .nil, _ => by simp [clausesEdges, Clauses.Uses]
  | .cons pattern alternatives guard body rest, h => by
    obtain ⟨h1, h2, h3, h4, h5, h6⟩ := h
    have hg : k ∈ optionalGuardEdges (patsNames names pattern) guard ↔
        ∃ x, (∃ g, guard = some g ∧ g.Uses x) ∧ patsNames names pattern x = some (some k) := by
      cases guard with
      | none => simp [optionalGuardEdges]
      | some g => simp [optionalGuardEdges, mem_guardEdges _ k g (h4 g rfl)]
    simp only [clausesEdges, List.mem_append, Clauses.Uses]
    rw [mem_patsEdges names k pattern h1 (fun x hu _ => h2 x hu), hg, mem_exprEdges _ k body h5, mem_clausesEdges names k rest h6]
    constructor
    · rintro (⟨x, hu, hn⟩ | ⟨x, hu, hn⟩ | ⟨x, hu, hn⟩ | ⟨x, hu, hn⟩)
      · exact ⟨x, Or.inl hu, hn⟩
      · have := (patsNames_node _ _ _ _ h1).1 hn
        exact ⟨x, Or.inr (Or.inr (Or.inl ⟨this.1, Or.inl hu⟩)), this.2⟩
      · have := (patsNames_node _ _ _ _ h1).1 hn
        exact ⟨x, Or.inr (Or.inr (Or.inl ⟨this.1, Or.inr hu⟩)), this.2⟩
      · exact ⟨x, Or.inr (Or.inr (Or.inr hu)), hn⟩
    · rintro ⟨x, hu | ⟨p, hp, hu⟩ | ⟨hb, hu | hu⟩ | hu, hn⟩
      · exact Or.inl ⟨x, hu, hn⟩
      · exact (h3 p hp x hu).elim
      · exact Or.inr (Or.inl ⟨x, hu, (patsNames_node _ _ _ _ h1).2 ⟨hb, hn⟩⟩)
      · exact Or.inr (Or.inr (Or.inl ⟨x, hu, (patsNames_node _ _ _ _ h1).2 ⟨hb, hn⟩⟩))
      · exact Or.inr (Or.inr (Or.inr ⟨x, hu, hn⟩))
end

theorem mem_definitionEdges (names : Names) (k : Nat) (d : Definition) (h : d.Plain) :
    k ∈ definitionEdges names d ↔ ∃ x, d.Uses x ∧ names x = some (some k) := by
  cases d with
  | function name parameters body =>
    simp only [definitionEdges, Definition.Uses]
    rw [mem_stmtsEdges _ k body h]
    constructor
    · rintro ⟨x, hu, hn⟩
      have := (defines_node _ _ _ _).1 hn
      exact ⟨x, ⟨this.1, hu⟩, this.2⟩
    · rintro ⟨x, ⟨hp, hu⟩, hn⟩
      exact ⟨x, hu, (defines_node _ _ _ _).2 ⟨hp, hn⟩⟩
  | constant name value => exact mem_constEdges names k value

/-- The map of names after registration: the place of the definition with the name. -/
theorem register_names : ∀ (ds : List Definition) (names : Names) (next : Nat) (names' : Names), register names next ds = some names' →
    (∀ x k, names' x = some (some k) ↔ names x = some (some k) ∨ ∃ i d, ds[i]? = some d ∧ d.name = x ∧ k = next + i)
  | [], names, next, names', h => by
    simp only [register, Option.some.injEq] at h
    subst h
    intro x k
    simp
  | d :: rest, names, next, names', h => by
    intro x k
    simp only [register] at h
    have hn : ∀ t, names d.name ≠ some (some t) := by
      intro t ht; simp [ht] at h
    have h' : register (fun x => if x = d.name then some (some next) else names x) (next + 1) rest = some names' := by
      cases hd : names d.name with
      | none => simpa [hd] using h
      | some v =>
        cases v with
        | none => simpa [hd] using h
        | some t => exact (hn t hd).elim
    rw [register_names rest _ _ _ h' x k]
    constructor
    · rintro (h1 | ⟨i, e, hi, he, hk⟩)
      · by_cases hx : x = d.name
        · rw [if_pos hx] at h1
          simp only [Option.some.injEq] at h1
          exact Or.inr ⟨0, d, by simp, hx.symm, by omega⟩
        · rw [if_neg hx] at h1; exact Or.inl h1
      · exact Or.inr ⟨i + 1, e, by simpa using hi, he, by omega⟩
    · rintro (h1 | ⟨i, e, hi, he, hk⟩)
      · left
        have hx : x ≠ d.name := by rintro rfl; exact hn k h1
        rw [if_neg hx]; exact h1
      · cases i with
        | zero =>
          simp only [List.getElem?_cons_zero, Option.some.injEq] at hi
          subst hi
          left
          rw [if_pos he.symm]
          simp only [Option.some.injEq]
          omega
        | succ i => exact Or.inr ⟨i, e, by simpa using hi, he, by omega⟩

theorem graph_edges (ds : List Definition) (edges : List (List Nat)) (h : graph ds = some edges) (hp : ∀ d ∈ ds, d.Plain) (i j : Nat) :
    (∃ targets, edges[i]? = some targets ∧ j ∈ targets) ↔ RefersTo ds i j := by
  unfold graph at h
  cases hr : register (fun _ => none) 0 ds with
  | none => simp [hr] at h
  | some names =>
    simp only [hr, Option.map_some, Option.some.injEq] at h
    subst h
    have hn := register_names ds _ 0 names hr
    unfold RefersTo
    constructor
    · rintro ⟨targets, h1, h2⟩
      rw [List.getElem?_map] at h1
      cases hd : ds[i]? with
      | none => simp [hd] at h1
      | some d =>
        simp only [hd, Option.map_some, Option.some.injEq] at h1
        subst h1
        obtain ⟨x, hu, hx⟩ := (mem_definitionEdges names j d (hp d (List.mem_of_getElem? hd))).1 h2
        rcases (hn x j).1 hx with h3 | ⟨i', e, hi, he, hk⟩
        · simp at h3
        · simp only [Nat.zero_add] at hk
          subst hk
          exact ⟨d, e, rfl, hi, he ▸ hu⟩
    · rintro ⟨d, e, hd, he, hu⟩
      refine ⟨definitionEdges names d, by simp [hd], ?_⟩
      rw [mem_definitionEdges names j d (hp d (List.mem_of_getElem? hd))]
      exact ⟨e.name, hu, (hn e.name j).2 (Or.inr ⟨j, e, he, rfl, by omega⟩)⟩

end Verif.CallGraph
