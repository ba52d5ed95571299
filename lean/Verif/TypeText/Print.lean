import Verif.TypeText.Letters
import Verif.TypeText.Hydrate
import Mathlib.Data.List.Dedup

/-!
# What the printer writes, and the names it gives to variables
-/
namespace Verif.TypeText
open Lexer Lexer.Spec

/-- The name that a variable has been printed by. -/
def nameIn (n : Names) (p : Printer) (i : Nat) : Option Name :=
  match n.typeVariables.lookup i with
  | some s => some s
  | none => p.variables.lookup i

/-- The name that a variable has been printed by. -/
def nameOf (n : Names) (p : Printer) (i : Nat) : Name := (nameIn n p i).getD []

/-- What holds of a printer that was made by `Printer::new`. -/
structure PInv (n : Names) (p : Printer) : Prop where
  given : ∀ e ∈ n.typeVariables, e.2 ∈ p.used
  made : ∀ e ∈ p.variables, e.2 ∈ p.used
  letter : ∀ e ∈ p.variables, ∃ k < p.uid, e.2 = letters k
  names : (p.variables.map (·.2)).Nodup
  keys : (p.variables.map (·.1)).Nodup
  fresh : ∀ e ∈ p.variables, ∀ f ∈ n.typeVariables, e.2 ≠ f.2
  tried : ∀ k < p.uid, letters k ∈ p.used
  count : p.used.length = n.typeVariables.length + p.variables.length

/-- A printer later on: the names it has given are kept. -/
structure Later (p p' : Printer) (vs : List Nat) : Prop where
  keeps : ∀ i s, p.variables.lookup i = some s → p'.variables.lookup i = some s
  only : ∀ e ∈ p'.variables, e ∈ p.variables ∨ e.1 ∈ vs

theorem Later.refl (p : Printer) (vs : List Nat) : Later p p vs := ⟨fun _ _ h => h, fun _ h => .inl h⟩

theorem Later.trans {p q r : Printer} {vs ws : List Nat} (h1 : Later p q vs) (h2 : Later q r ws) : Later p r (vs ++ ws) := by
  refine ⟨fun i s h => h2.keeps i s (h1.keeps i s h), fun e he => ?_⟩
  rcases h2.only e he with h | h
  · rcases h1.only e h with h | h
    · exact .inl h
    · exact .inr (by simp [h])
  · exact .inr (by simp [h])

theorem nameIn_later {n : Names} {p p' : Printer} {vs : List Nat} {i : Nat} {s : Name} (h : Later p p' vs)
    (hi : nameIn n p i = some s) : nameIn n p' i = some s := by
  unfold nameIn at hi ⊢
  split
  · rename_i t ht
    rw [ht] at hi
    exact hi
  · rename_i ht
    rw [ht] at hi
    exact h.keeps i s hi

theorem pinv_new (n : Names) : PInv n (Printer.new n) := by
  refine ⟨?_, by simp [Printer.new], by simp [Printer.new], by simp [Printer.new], by simp [Printer.new],
    by simp [Printer.new], by simp [Printer.new], by simp [Printer.new]⟩
  intro e he
  exact List.mem_map_of_mem he

theorem lookup_none {α β : Type} [BEq α] [LawfulBEq α] {a : α} : {l : List (α × β)} → l.lookup a = none → ∀ e ∈ l, e.1 ≠ a
  | [], _, _, h => by cases h
  | (x, y) :: l, h, e, he => by
    rw [List.lookup_cons] at h
    split at h
    · cases h
    · rename_i hx
      rcases List.mem_cons.1 he with rfl | he
      · rintro rfl
        simp at hx
      · exact lookup_none h e he

theorem typeVariable_spec {n : Names} {p : Printer} (inv : PInv n p) (i : Nat) :
    PInv n (typeVariable n p i).2 ∧ Later p (typeVariable n p i).2 [i] ∧
      nameIn n (typeVariable n p i).2 i = some (typeVariable n p i).1 := by
  unfold typeVariable
  cases h1 : n.typeVariables.lookup i with
  | some s => exact ⟨inv, Later.refl _ _, by simp only [nameIn, h1]⟩
  | none =>
    cases h2 : p.variables.lookup i with
    | some s => exact ⟨inv, Later.refl _ _, by simp only [nameIn, h1, h2]⟩
    | none =>
      obtain ⟨k, hk, hfree, hbefore⟩ := letters_free p.used p.uid
      simp only [hk]
      refine ⟨⟨?_, ?_, ?_, ?_, ?_, ?_, ?_, ?_⟩, ⟨?_, ?_⟩, ?_⟩
      · intro e he
        exact List.mem_cons_of_mem _ (inv.given e he)
      · intro e he
        rcases List.mem_cons.1 he with rfl | he
        · simp
        · exact List.mem_cons_of_mem _ (inv.made e he)
      · intro e he
        rcases List.mem_cons.1 he with rfl | he
        · exact ⟨p.uid + k, Nat.lt_succ_self _, rfl⟩
        · obtain ⟨j, hj, h⟩ := inv.letter e he
          exact ⟨j, Nat.lt_of_lt_of_le hj (by simp only; omega), h⟩
      · rw [List.map_cons, List.nodup_cons]
        refine ⟨fun h => hfree ?_, inv.names⟩
        obtain ⟨e, he, h⟩ := List.mem_map.1 h
        have h3 := inv.made e he
        rw [h] at h3
        exact h3
      · rw [List.map_cons, List.nodup_cons]
        refine ⟨fun h => ?_, inv.keys⟩
        obtain ⟨e, he, h⟩ := List.mem_map.1 h
        exact lookup_none h2 e he h
      · intro e he f hf
        rcases List.mem_cons.1 he with rfl | he
        · intro h
          have h3 := inv.given f hf
          rw [← h] at h3
          exact hfree h3
        · exact inv.fresh e he f hf
      · intro j hj
        simp only [List.mem_cons] at hj ⊢
        by_cases h3 : j < p.uid
        · exact .inr (inv.tried j h3)
        · obtain ⟨l, rfl⟩ : ∃ l, j = p.uid + l := ⟨j - p.uid, by omega⟩
          by_cases h4 : l = k
          · exact .inl (by rw [h4])
          · exact .inr (hbefore l (by omega))
      · simp only [List.length_cons, inv.count]
        omega
      · intro j s hj
        simp only [List.lookup_cons]
        split
        · rename_i h3
          rw [eq_of_beq h3, h2] at hj
          cases hj
        · exact hj
      · intro e he
        rcases List.mem_cons.1 he with rfl | he
        · exact .inr (by simp)
        · exact .inl he
      · simp only [nameIn, h1, List.lookup_cons, beq_self_eq_true]

mutual
theorem textOf_congr {nt : Name → Name → Option Name × Name} {f g : Nat → Name} : (t : Ty) → (∀ i ∈ t.vars, f i = g i) →
    textOf nt f t = textOf nt g t
  | .named m n ts, h => by rw [textOf, textOf, textsOf_congr ts h]
  | .fn ts r, h => by
    rw [Ty.vars] at h
    rw [textOf, textOf, textsOf_congr ts fun i hi => h i (by simp [hi]), textOf_congr r fun i hi => h i (by simp [hi])]
  | .tuple ts, h => by rw [textOf, textOf, textsOf_congr ts h]
  | .var i, h => by rw [textOf, textOf, h i (by simp [Ty.vars])]
  | .link t, h => by rw [textOf, textOf, textOf_congr t h]

theorem textsOf_congr {nt : Name → Name → Option Name × Name} {f g : Nat → Name} : (ts : List Ty) →
    (∀ i ∈ varsAll ts, f i = g i) → textsOf nt f ts = textsOf nt g ts
  | [], _ => by rw [textsOf, textsOf]
  | [t], h => by
    rw [textsOf, textsOf]
    exact textOf_congr t fun i hi => h i (by simp [varsAll, hi])
  | t :: u :: ts, h => by
    rw [varsAll] at h
    rw [textsOf, textsOf, textOf_congr t fun i hi => h i (by simp [hi]),
      textsOf_congr (u :: ts) fun i hi => h i (List.mem_append_right _ hi)]
end

/-- How named types are written. -/
def writtenAs (n : Names) (m t : Name) : Option Name × Name := (n.namedType m t).parts

theorem nameOf_later {n : Names} {p p' : Printer} {vs : List Nat} {i : Nat} (h : Later p p' vs)
    (hi : ∃ s, nameIn n p i = some s) : nameOf n p i = nameOf n p' i := by
  obtain ⟨s, hs⟩ := hi
  unfold nameOf
  rw [hs, nameIn_later h hs]

/-- What printing a type does. -/
structure Prints (n : Names) (p : Printer) (vs : List Nat) (text : (Nat → Name) → List Char) (r : List Char × Printer) :
    Prop where
  inv : PInv n r.2
  later : Later p r.2 vs
  named : ∀ i ∈ vs, ∃ s, nameIn n r.2 i = some s
  text : r.1 = text (nameOf n r.2)

mutual
theorem print_spec {n : Names} : (t : Ty) → ∀ p, PInv n p →
    Prints n p t.vars (fun nv => textOf (writtenAs n) nv t) (print n p t)
  | .named m t ts, p, inv => by
    obtain ⟨h1, h2, h3, h4⟩ := printArguments_spec ts p inv
    rw [print]
    refine ⟨h1, h2, h3, ?_⟩
    rw [textOf]
    simp only [h4]
    rfl
  | .fn ts r, p, inv => by
    obtain ⟨h1, h2, h3, h4⟩ := printArguments_spec ts p inv
    obtain ⟨g1, g2, g3, g4⟩ := print_spec r _ h1
    rw [print]
    refine ⟨g1, h2.trans g2, ?_, ?_⟩
    · intro i hi
      rw [Ty.vars, List.mem_append] at hi
      rcases hi with hi | hi
      · obtain ⟨s, hs⟩ := h3 i hi
        exact ⟨s, nameIn_later g2 hs⟩
      · exact g3 i hi
    · rw [textOf]
      simp only [g4, h4]
      rw [textsOf_congr ts fun i hi => nameOf_later g2 (h3 i hi)]
  | .tuple ts, p, inv => by
    obtain ⟨h1, h2, h3, h4⟩ := printArguments_spec ts p inv
    rw [print]
    refine ⟨h1, h2, h3, ?_⟩
    rw [textOf]
    simp only [h4]
  | .var i, p, inv => by
    obtain ⟨h1, h2, h3⟩ := typeVariable_spec inv i
    rw [print, Ty.vars]
    refine ⟨h1, h2, ?_, ?_⟩
    · intro j hj
      rw [List.mem_singleton] at hj
      subst hj
      exact ⟨_, h3⟩
    · simp only [textOf, nameOf, h3, Option.getD_some]
  | .link t, p, inv => by
    simp only [print, Ty.vars, textOf]
    exact print_spec t p inv

theorem printArguments_spec {n : Names} : (ts : List Ty) → ∀ p, PInv n p →
    Prints n p (varsAll ts) (fun nv => textsOf (writtenAs n) nv ts) (printArguments n p ts)
  | [], p, inv => ⟨by rw [printArguments]; exact inv, by rw [printArguments]; exact Later.refl _ _, by simp [varsAll],
      by simp only [printArguments, textsOf]⟩
  | [t], p, inv => by
    have h := print_spec t p inv
    simp only [printArguments, varsAll, List.append_nil, textsOf]
    exact h
  | t :: u :: ts, p, inv => by
    obtain ⟨h1, h2, h3, h4⟩ := print_spec t p inv
    obtain ⟨g1, g2, g3, g4⟩ := printArguments_spec (u :: ts) _ h1
    rw [printArguments, varsAll]
    refine ⟨g1, h2.trans g2, ?_, ?_⟩
    · intro i hi
      rw [List.mem_append] at hi
      rcases hi with hi | hi
      · obtain ⟨s, hs⟩ := h3 i hi
        exact ⟨s, nameIn_later g2 hs⟩
      · exact g3 i hi
    · rw [textsOf]
      simp only [g4, h4]
      rw [textOf_congr t fun i hi => nameOf_later g2 (h3 i hi)]
end

theorem printAll_spec {n : Names} : (ts : List Ty) → ∀ p, PInv n p →
    PInv n (printAll n p ts) ∧ Later p (printAll n p ts) (varsAll ts)
  | [], p, inv => ⟨inv, Later.refl _ _⟩
  | t :: ts, p, inv => by
    obtain ⟨h1, h2, h3, h4⟩ := print_spec t p inv
    obtain ⟨g1, g2⟩ := printAll_spec ts _ h1
    rw [varsAll]
    exact ⟨g1, h2.trans g2⟩

theorem printAll_named {n : Names} : (ts : List Ty) → ∀ p, PInv n p →
    ∀ i ∈ varsAll ts, ∃ s, nameIn n (printAll n p ts) i = some s
  | [], _, _, i, hi => by simp [varsAll] at hi
  | t :: ts, p, inv, i, hi => by
    obtain ⟨h1, h2, h3, h4⟩ := print_spec t p inv
    obtain ⟨g1, g2⟩ := printAll_spec ts _ h1
    rw [varsAll, List.mem_append] at hi
    rcases hi with hi | hi
    · obtain ⟨s, hs⟩ := h3 i hi
      exact ⟨s, nameIn_later g2 hs⟩
    · exact printAll_named ts _ h1 i hi

/-- Two variables do not have the same name, unless they were given it. -/
theorem nameIn_inj {n : Names} {p : Printer} (inv : PInv n p) {i j : Nat} {s : Name}
    (hg : n.typeVariables.lookup i = some s → n.typeVariables.lookup j = some s → i = j)
    (hi : nameIn n p i = some s) (hj : nameIn n p j = some s) : i = j := by
  unfold nameIn at hi hj
  cases h1 : n.typeVariables.lookup i with
  | some a =>
    rw [h1] at hi
    cases hi
    cases h2 : n.typeVariables.lookup j with
    | some b =>
      rw [h2] at hj
      cases hj
      exact hg h1 h2
    | none =>
      rw [h2] at hj
      exact (inv.fresh _ (lookup_mem hj) _ (lookup_mem h1) rfl).elim
  | none =>
    rw [h1] at hi
    cases h2 : n.typeVariables.lookup j with
    | some b =>
      rw [h2] at hj
      cases hj
      exact (inv.fresh _ (lookup_mem hi) _ (lookup_mem h2) rfl).elim
    | none =>
      rw [h2] at hj
      have := List.inj_on_of_nodup_map inv.names (lookup_mem hi) (lookup_mem hj) rfl
      exact congrArg Prod.fst this

/-- How many names have been tried. -/
theorem uid_le {n : Names} {p : Printer} (inv : PInv n p) : p.uid ≤ n.typeVariables.length + p.variables.length := by
  have := letters_count (used := p.used) (l := List.range p.uid) List.nodup_range fun k hk => inv.tried k (by simpa using hk)
  rw [inv.count] at this
  simpa using this

theorem variables_le {n : Names} {p : Printer} (inv : PInv n p) {vs : List Nat} (h : ∀ e ∈ p.variables, e.1 ∈ vs) :
    p.variables.length ≤ vs.dedup.length := by
  have h1 : (p.variables.map (·.1)).Subperm vs.dedup := List.subperm_of_subset inv.keys fun x hx => by
    obtain ⟨e, he, rfl⟩ := List.mem_map.1 hx
    exact List.mem_dedup.2 (h e he)
  simpa using h1.length_le

end Verif.TypeText
