import Verif.ErlGen.Tree
import Verif.ErlGen.Names

/-!
# What generating an expression does to the state of the generator
-/

namespace Verif.ErlGen

open Verif.ErlText (Text Term)
open Verif.Strings.Spec (Piece text)

/-! ### Patterns -/

mutual

/-- The variables that the pattern of Erlang binds: all but the aliases. -/
def Pattern.now : Pattern → List (Text × Loc)
  | .discard => []
  | .int _ => []
  | .string _ => []
  | .var x l => [(x, l)]
  | .assign p x l => p.now ++ [(x, l)]
  | .tuple ps => nowAll ps
  | .nil => []
  | .cons p q => p.now ++ q.now
  | .ctor _ ps => nowAll ps
  | .prefix _ _ right => right.toList

def nowAll : List Pattern → List (Text × Loc)
  | [] => []
  | p :: ps => p.now ++ nowAll ps

end

/-- The variables of aliases. -/
def aliasVars (as : List (Text × Loc × List Piece)) : List (Text × Loc) := as.map fun a => (a.1, a.2.1)

/-- What is stored for the aliases. -/
def storedAliases (as : List (Text × Loc × List Piece)) : Later := as.map fun a => (a.1, a.2.1, text a.2.2)

theorem aliasVars_append (as bs : List (Text × Loc × List Piece)) :
    aliasVars (as ++ bs) = aliasVars as ++ aliasVars bs := by simp [aliasVars]

theorem storedAliases_append (as bs : List (Text × Loc × List Piece)) :
    storedAliases (as ++ bs) = storedAliases as ++ storedAliases bs := by simp [storedAliases]

theorem storedAliases_fst (as : List (Text × Loc × List Piece)) :
    ((storedAliases as).map fun e => e.1) = as.map fun a => a.1 := by
  unfold storedAliases
  rw [List.map_map]
  rfl

mutual

theorem vars_perm : ∀ p : Pattern, p.vars.Perm (p.now ++ aliasVars p.aliases)
  | .discard => by simp [Pattern.vars, Pattern.now, Pattern.aliases, aliasVars]
  | .int _ => by simp [Pattern.vars, Pattern.now, Pattern.aliases, aliasVars]
  | .string _ => by simp [Pattern.vars, Pattern.now, Pattern.aliases, aliasVars]
  | .var _ _ => by simp [Pattern.vars, Pattern.now, Pattern.aliases, aliasVars]
  | .assign p x l => by
    simp only [Pattern.vars, Pattern.now, Pattern.aliases]
    refine ((vars_perm p).append_right _).trans ?_
    simp only [List.append_assoc]
    exact List.Perm.append_left _ List.perm_append_comm
  | .tuple ps => by
    simp only [Pattern.vars, Pattern.now, Pattern.aliases]
    exact varsAll_perm ps
  | .nil => by simp [Pattern.vars, Pattern.now, Pattern.aliases, aliasVars]
  | .cons p q => by
    simp only [Pattern.vars, Pattern.now, Pattern.aliases, aliasVars_append]
    refine ((vars_perm p).append (vars_perm q)).trans ?_
    simp only [List.append_assoc]
    refine List.Perm.append_left _ ?_
    rw [← List.append_assoc, ← List.append_assoc]
    exact List.perm_append_comm.append_right _
  | .ctor _ ps => by
    simp only [Pattern.vars, Pattern.now, Pattern.aliases]
    exact varsAll_perm ps
  | .prefix _ left right => by
    simp only [Pattern.vars, Pattern.now, Pattern.aliases, aliasVars, List.map_map]
    refine List.perm_append_comm.trans ?_
    cases left <;> simp

theorem varsAll_perm : ∀ ps : List Pattern, (varsAll ps).Perm (nowAll ps ++ aliasVars (aliasesAll ps))
  | [] => by simp [varsAll, nowAll, aliasesAll, aliasVars]
  | p :: ps => by
    simp only [varsAll, nowAll, aliasesAll, aliasVars_append]
    refine ((vars_perm p).append (varsAll_perm ps)).trans ?_
    simp only [List.append_assoc]
    refine List.Perm.append_left _ ?_
    rw [← List.append_assoc, ← List.append_assoc]
    exact List.perm_append_comm.append_right _

end

/-- Several variables, one after the other. -/
def defineAll (s : State) : List (Text × Loc) → State
  | [] => s
  | (x, l) :: vs => defineAll (s.newVar x l).2 vs

theorem defineAll_append (s : State) (vs ws : List (Text × Loc)) :
    defineAll s (vs ++ ws) = defineAll (defineAll s vs) ws := by
  induction vs generalizing s with
  | nil => rfl
  | cons v vs ih => exact ih _

theorem defineAll_step (s : State) (vs : List (Text × Loc)) :
    Step s (defineAll s vs) (vs.map Prod.fst) (vs.map Prod.snd) := by
  induction vs generalizing s with
  | nil => exact Step.refl s
  | cons v vs ih =>
    exact (newVar_step s v.1 v.2).trans (ih (s.newVar v.1 v.2).2)

/-- Names are given to the variables one after the other. -/
theorem defineAll_names (s : State) (vs : List (Text × Loc)) (hx : ∀ x ∈ vs.map Prod.fst, VariableName x)
    (hn : (vs.map Prod.fst).Nodup) (hl : (vs.map Prod.snd).Nodup) :
    ∀ x l, (x, l) ∈ vs → (defineAll s vs).names l = some (nameOf x (s.count x)) := by
  induction vs generalizing s with
  | nil => intro x l h; simp at h
  | cons v vs ih =>
    obtain ⟨y, m⟩ := v
    simp only [List.map_cons, List.nodup_cons, List.mem_cons, forall_eq_or_imp] at hx hn hl
    intro x l h0
    simp only [defineAll]
    rcases List.mem_cons.1 h0 with h | h
    · cases h
      rw [(defineAll_step _ vs).names m hl.1, newVar_names, newVar_name s hx.1]
    · rw [ih _ hx.2 hn.2 hl.2 x l h]
      have hne : x ≠ y := by
        intro he
        rw [← he] at hn
        exact hn.1 (List.mem_map.2 ⟨(x, l), (by assumption), rfl⟩)
      have hxv := hx.2 x (List.mem_map.2 ⟨(x, l), h, rfl⟩)
      congr 2
      have hr : x ≠ reserved := hxv.2
      simp only [State.count, if_neg hr, (newVar_step s y m).taken]
      simp [Ne.symm hne]

/-- The names are new, and used afterwards. -/
theorem defineAll_between (s : State) (vs : List (Text × Loc)) (hx : ∀ x ∈ vs.map Prod.fst, VariableName x) :
    Between s (defineAll s vs) (vs.map fun v => nameOf v.1 (s.count v.1)) := by
  intro n hn
  obtain ⟨v, hv, rfl⟩ := List.mem_map.1 hn
  have hxv := hx v.1 (List.mem_map.2 ⟨v, hv, rfl⟩)
  refine ⟨State.not_taken hxv.1 (Nat.le_refl _), State.taken_of hxv.1 ?_⟩
  have hr : v.1 ≠ reserved := hxv.2
  simp only [State.count, if_neg hr, (defineAll_step s vs).taken]
  have : 0 < (vs.map Prod.fst).count v.1 := List.count_pos_iff.2 (List.mem_map.2 ⟨v, hv, rfl⟩)
  omega

/-- Names that are not stored already. -/
theorem insert_new {later : Later} {x : Text} {l : Loc} {t : Text} (h : x ∉ later.map fun e => e.1) :
    later.insert x l t = later ++ [(x, l, t)] := by
  unfold Later.insert
  congr 1
  rw [List.filter_eq_self]
  intro e he
  simp only [ne_eq, decide_not, Bool.not_eq_true', decide_eq_false_iff_not]
  rintro rfl
  exact h (List.mem_map.2 ⟨e, he, rfl⟩)

mutual

/-- The state and the stored aliases after a pattern. -/
theorem tPattern_state (s : State) (later : Later) : ∀ p : Pattern,
    ((later.map fun e => e.1) ++ p.aliases.map fun a => a.1).Nodup →
    (tPattern s later p).2 = (defineAll s p.now, later ++ storedAliases p.aliases)
  | .discard, _ => by simp [tPattern, Pattern.now, Pattern.aliases, defineAll, storedAliases]
  | .int _, _ => by simp [tPattern, Pattern.now, Pattern.aliases, defineAll, storedAliases]
  | .string _, _ => by simp [tPattern, Pattern.now, Pattern.aliases, defineAll, storedAliases]
  | .var _ _, _ => by simp [tPattern, Pattern.now, Pattern.aliases, defineAll, storedAliases]
  | .assign p x l, h => by
    simp only [Pattern.aliases] at h
    simp only [tPattern, Pattern.now, Pattern.aliases, tPattern_state s later p h, defineAll_append, defineAll]
  | .tuple ps, h => by
    simp only [Pattern.aliases] at h
    simp only [tPattern, Pattern.now, Pattern.aliases, tPatterns_state s later ps h]
  | .nil, _ => by simp [tPattern, Pattern.now, Pattern.aliases, defineAll, storedAliases]
  | .cons p q, h => by
    simp only [Pattern.aliases, List.map_append, ← List.append_assoc] at h
    have h1 := tPattern_state s later p (List.nodup_append.1 h).1
    have h2 := tPattern_state (defineAll s p.now) (later ++ storedAliases p.aliases) q (by
      rw [List.map_append, storedAliases_fst]; exact h)
    simp only [tPattern, Pattern.now, Pattern.aliases, h1, h2, defineAll_append, storedAliases_append, List.append_assoc]
  | .ctor _ [], h => by simp [tPattern, Pattern.now, Pattern.aliases, defineAll, storedAliases, nowAll, aliasesAll]
  | .ctor _ (p :: ps), h => by
    simp only [Pattern.aliases, aliasesAll, List.map_append, ← List.append_assoc] at h
    have h1 := tPattern_state s later p (List.nodup_append.1 h).1
    have h2 := tPatterns_state (defineAll s p.now) (later ++ storedAliases p.aliases) ps (by
      rw [List.map_append, storedAliases_fst]; exact h)
    simp only [tPattern, Pattern.now, nowAll, aliasesAll, Pattern.aliases, h1, h2, defineAll_append,
      storedAliases_append, List.append_assoc]
  | .prefix ps left right, h => by
    cases left with
    | none =>
      cases right <;>
        simp [tPattern, Pattern.now, Pattern.aliases, defineAll, storedAliases, tRight, laterOf]
    | some v =>
      have hn : v.1 ∉ later.map fun e => e.1 := by
        simp only [Pattern.aliases, Option.toList, List.map_cons, List.map_nil] at h
        intro hc
        exact (List.nodup_append.1 h).2.2 _ hc _ (by simp) rfl
      cases right <;>
        simp [tPattern, Pattern.now, Pattern.aliases, defineAll, storedAliases, tRight, laterOf, insert_new hn]

theorem tPatterns_state (s : State) (later : Later) : ∀ ps : List Pattern,
    ((later.map fun e => e.1) ++ (aliasesAll ps).map fun a => a.1).Nodup →
    (tPatterns s later ps).2 = (defineAll s (nowAll ps), later ++ storedAliases (aliasesAll ps))
  | [], _ => by simp [tPatterns, nowAll, aliasesAll, defineAll, storedAliases]
  | p :: ps, h => by
    simp only [aliasesAll, List.map_append, ← List.append_assoc] at h
    have h1 := tPattern_state s later p (List.nodup_append.1 h).1
    have h2 := tPatterns_state (defineAll s p.now) (later ++ storedAliases p.aliases) ps (by
      rw [List.map_append, storedAliases_fst]; exact h)
    simp only [tPatterns, nowAll, aliasesAll, h1, h2, defineAll_append, storedAliases_append, List.append_assoc]

end

theorem tSubjectPatterns_state (s : State) (later : Later) (ps : List Pattern)
    (h : ((later.map fun e => e.1) ++ (aliasesAll ps).map fun a => a.1).Nodup) :
    (tSubjectPatterns s later ps).2 = (defineAll s (nowAll ps), later ++ storedAliases (aliasesAll ps)) := by
  match ps with
  | [] => simp [tSubjectPatterns, tPatterns_state _ _ _ h]
  | [p] =>
    simp only [aliasesAll, List.append_nil] at h
    simp [tSubjectPatterns, tPattern_state _ _ _ h, nowAll, aliasesAll]
  | p :: q :: ps => simp [tSubjectPatterns, tPatterns_state _ _ _ h]

theorem tAssignments_state (s : State) (later : Later) :
    (tAssignments s later).2 = defineAll s (later.map fun e => (e.1, e.2.1)) := by
  induction later generalizing s with
  | nil => rfl
  | cons e rest ih =>
    obtain ⟨x, l, t⟩ := e
    simp [tAssignments, defineAll, ih]

/-- The variables of patterns in the order of their definitions. -/
def ordered (ps : List Pattern) : List (Text × Loc) :=
  nowAll ps ++ (sortLater (storedAliases (aliasesAll ps))).map fun e => (e.1, e.2.1)

theorem sortLater_perm (later : Later) : (sortLater later).Perm later := List.mergeSort_perm _ _

theorem ordered_perm (ps : List Pattern) : (ordered ps).Perm (varsAll ps) := by
  refine List.Perm.trans ?_ (varsAll_perm ps).symm
  unfold ordered
  refine List.Perm.append_left _ ?_
  refine ((sortLater_perm _).map _).trans ?_
  unfold storedAliases aliasVars
  rw [List.map_map]
  exact List.Perm.refl _

theorem aliases_nodup {ps : List Pattern} (h : ((varsAll ps).map Prod.fst).Nodup) :
    ((aliasesAll ps).map fun a => a.1).Nodup := by
  have := ((varsAll_perm ps).map Prod.fst).nodup_iff.1 h
  rw [List.map_append] at this
  have := (List.nodup_append.1 this).2.1
  unfold aliasVars at this
  rw [List.map_map] at this
  exact this

/-! ### Binders -/

/-- The variables of a `let assert`; aliases are not defined if nothing follows. -/
def asserted (p : Pattern) (ss : List Stmt) : List (Text × Loc) := if ss.isEmpty then p.now else p.vars

mutual

/-- The names that are defined by an expression, and remain taken. -/
def Expr.binders : Expr → List Text
  | .int _ => []
  | .string _ => []
  | .var _ _ => []
  | .ctor _ _ => []
  | .fnRef _ _ _ => []
  | .const _ => []
  | .block body => stmtsBinders body
  | .not e => e.binders
  | .neg e => e.binders
  | .bin _ l r => l.binders ++ r.binders
  | .nil => []
  | .cons h t => h.binders ++ t.binders
  | .tuple es => exprsBinders es
  | .index e _ => e.binders
  | .field e _ => e.binders
  | .update (some (x, _)) record _ es => [x] ++ (record.binders ++ exprsBinders es)
  | .update none _ _ es => exprsBinders es
  | .fn _ _ => []
  | .call f es => f.binders ++ exprsBinders es
  | .pipe x _ value rest => [x] ++ (value.binders ++ rest.binders)
  | .fail _ _ none => []
  | .fail _ _ (some e) => e.binders
  | .case_ subjects cs => exprsBinders subjects ++ clausesBinders cs

def exprsBinders : List Expr → List Text
  | [] => []
  | e :: es => e.binders ++ exprsBinders es

def stmtsBinders : List Stmt → List Text
  | [] => []
  | .expr e :: ss => e.binders ++ stmtsBinders ss
  | .let_ p e :: ss => p.vars.map Prod.fst ++ (e.binders ++ stmtsBinders ss)
  | .letAssert p e _ none :: ss => (asserted p ss).map Prod.fst ++ (e.binders ++ stmtsBinders ss)
  | .letAssert p e _ (some m) :: ss => (asserted p ss).map Prod.fst ++ (e.binders ++ (stmtsBinders ss ++ if p.alwaysMatches then [] else m.binders))

def clausesBinders : List Clause → List Text
  | [] => []
  | .mk ps _ _ body :: cs => ((varsAll ps).map Prod.fst ++ body.binders) ++ clausesBinders cs

end

end Verif.ErlGen
