import Verif.Operators.Model
import Verif.Operators.Spec
/-! Lemmas on operator parsing. -/
namespace Verif.Operators

open Spec

/-- Priority of an operator token. -/
def prio (prec : Tok → Option Nat) (t : Tok) : Nat := (prec t).getD 0

section
variable {A U : Type} (prec : Tok → Option Nat) (combine : Tok → A → A → Option A) (view : A → Tree Tok U)

/-- Combining two operands with an operator of the table gives the node. -/
def Combines : Prop := ∀ t p l r, prec t = some p → ∃ x, combine t l r = some x ∧ view x = .node t (view l) (view r)

/-- The stacks hold, from bottom to top, the text read so far. `first`/`rest` is that text. -/
inductive Stacked : List (Tok × Nat) → List A → U → List (Tok × U) → Prop
  | base {a : A} : Grouped (prio prec) (view a) → Stacked [] [a] (view a).first (view a).rest
  | push {ops es a b f rs t p} : Stacked ops (a :: es) f rs →
      prec t = some p →
      Grouped (prio prec) (view b) →
      (∀ o ∈ (view a).ops, p ≤ prio prec o) →
      (∀ q, ops.head? = some q → q.2 < p) →
      (∀ o ∈ (view b).ops, p < prio prec o) →
      Stacked ((t, p) :: ops) (b :: a :: es) f (rs ++ (t, (view b).first) :: (view b).rest)

variable {prec combine view}

/-- All operators of the topmost operand bind more tightly than the topmost operator. -/
theorem Stacked.top_grouped {ops es a f rs} (h : Stacked prec view ops (a :: es) f rs) : Grouped (prio prec) (view a) := by
  cases h with
  | base h => exact h
  | push _ _ hg _ _ _ => exact hg

theorem Stacked.top_ops {t p ops es a f rs} (h : Stacked prec view ((t, p) :: ops) (a :: es) f rs) :
    ∀ o ∈ (view a).ops, p < prio prec o := by
  cases h with
  | push _ _ _ _ _ h => exact h

theorem Stacked.nonempty {ops es f rs} (h : Stacked (A := A) prec view ops es f rs) : es ≠ [] := by
  cases h <;> simp

/-- One reduction. -/
theorem Stacked.reduce (hc : Combines prec combine view) {t p ops es f rs}
    (h : Stacked prec view ((t, p) :: ops) es f rs) :
    ∃ x a b es', es = b :: a :: es' ∧ doReduce combine t es = some (x :: es') ∧
      Stacked prec view ops (x :: es') f rs ∧ view x = .node t (view a) (view b) ∧
      (∀ o ∈ (view a).ops, p ≤ prio prec o) ∧ (∀ o ∈ (view b).ops, p < prio prec o) ∧ prio prec t = p := by
  cases h with
  | @push ops es a b f rs t p h0 hp hg ha hop hb =>
    obtain ⟨x, hx, hv⟩ := hc t p a b hp
    have hpr : prio prec t = p := by simp [prio, hp]
    refine ⟨x, a, b, es, rfl, by simp [doReduce, hx], ?_, hv, ha, hb, hpr⟩
    have hgx : Grouped (prio prec) (view x) := by
      rw [hv]
      exact ⟨h0.top_grouped, hg, by rw [hpr]; exact ha, by rw [hpr]; exact hb⟩
    cases h0 with
    | base hga =>
      have e1 : (view a).first = (view x).first := by rw [hv]; rfl
      have e2 : (view a).rest ++ (t, (view b).first) :: (view b).rest = (view x).rest := by rw [hv]; rfl
      rw [e1, e2]
      exact .base hgx
    | @push ops' es' a' _ _ rs' t' p' h1 hp' hg' ha' hop' hb' =>
      have e : (rs' ++ (t', (view a).first) :: (view a).rest) ++ (t, (view b).first) :: (view b).rest =
          rs' ++ (t', (view x).first) :: (view x).rest := by rw [hv]; simp [Tree.first, Tree.rest]
      rw [e]
      have hlt : p' < p := hop (t', p') rfl
      refine .push h1 hp' hgx ha' hop' ?_
      rw [hv]
      intro o ho
      simp only [Tree.ops, List.mem_append, List.mem_cons] at ho
      rcases ho with ho | rfl | ho
      · exact hb' o ho
      · rw [hpr]; exact hlt
      · have := hb o ho; omega

/-- Seeing an operator leaves stacks ready for its right operand. -/
theorem handleNext_spec (hc : Combines prec combine view) (t : Tok) (p : Nat) (ops : List (Tok × Nat))
    (es : List A) (f : U) (rs : List (Tok × U)) (h : Stacked prec view ops es f rs)
    (htop : ∀ a, es.head? = some a → ∀ o ∈ (view a).ops, p ≤ prio prec o) :
    ∃ ops' a es', handleNext combine (t, p) ops es = some (none, (t, p) :: ops', a :: es') ∧
      Stacked prec view ops' (a :: es') f rs ∧ (∀ o ∈ (view a).ops, p ≤ prio prec o) ∧
      (∀ q, ops'.head? = some q → q.2 < p) := by
  induction ops generalizing es with
  | nil =>
    cases es with
    | nil => exact absurd rfl h.nonempty
    | cons a es => exact ⟨[], a, es, rfl, h, htop a rfl, by simp⟩
  | cons o ops ih =>
    obtain ⟨t', p'⟩ := o
    rw [handleNext]
    by_cases hle : p ≤ p'
    · rw [if_pos hle]
      obtain ⟨x, a, b, es', rfl, hr, hs, hv, h1, h2, h3⟩ := h.reduce hc
      rw [hr]
      apply ih _ hs
      intro x' hx' o ho
      simp only [List.head?_cons, Option.some.injEq] at hx'
      subst hx'
      rw [hv] at ho
      simp only [Tree.ops, List.mem_append, List.mem_cons] at ho
      rcases ho with ho | rfl | ho
      · have := h1 o ho; omega
      · omega
      · have := h2 o ho; omega
    · rw [if_neg hle]
      cases es with
      | nil => exact absurd rfl h.nonempty
      | cons a es =>
        refine ⟨(t', p') :: ops, a, es, rfl, h, htop a rfl, ?_⟩
        intro q hq
        simp only [List.head?_cons, Option.some.injEq] at hq
        subst hq
        simp only
        omega

/-- Reaching the end yields the whole tree. -/
theorem handleEnd_spec (hc : Combines prec combine view) (ops : List (Tok × Nat)) (es : List A) (f : U)
    (rs : List (Tok × U)) (h : Stacked prec view ops es f rs) :
    ∃ a, handleEnd combine ops es = some (some a, [], []) ∧ Grouped (prio prec) (view a) ∧
      (view a).first = f ∧ (view a).rest = rs := by
  induction ops generalizing es with
  | nil =>
    cases h with
    | base hg => exact ⟨_, rfl, hg, rfl, rfl⟩
  | cons o ops ih =>
    obtain ⟨t, p⟩ := o
    obtain ⟨x, a, b, es', rfl, hr, hs, -⟩ := h.reduce hc
    rw [handleEnd, hr]
    exact ih _ hs

/-- The operands and operators a token sequence consists of, as read by an operand parser. -/
inductive Chain (unit : List Tok → UnitResult A) (prec : Tok → Option Nat) (view : A → Tree Tok U) :
    List Tok → U → List (Tok × U) → List Tok → Prop
  | last {toks a rest u} : unit toks = .found a rest → view a = .leaf u → (∀ t, rest.head? = some t → prec t = none) →
      Chain unit prec view toks u [] rest
  | more {toks a t p r u v ps rest} : unit toks = .found a (t :: r) → view a = .leaf u → prec t = some p →
      Chain unit prec view r v ps rest → Chain unit prec view toks u ((t, v) :: ps) rest

/-- State of the loop before an operand. -/
inductive Ready (prec : Tok → Option Nat) (view : A → Tree Tok U) :
    List (Tok × Nat) → List A → (U → U × List (Tok × U)) → Prop
  | start : Ready prec view [] [] (fun u => (u, []))
  | after {ops a es f rs t p} : Stacked prec view ops (a :: es) f rs → prec t = some p →
      (∀ o ∈ (view a).ops, p ≤ prio prec o) → (∀ q, ops.head? = some q → q.2 < p) →
      Ready prec view ((t, p) :: ops) (a :: es) (fun u => (f, rs ++ [(t, u)]))

theorem Ready.push {ops es k a u} (h : Ready prec view ops es k) (ha : view a = .leaf u) :
    Stacked prec view ops (a :: es) (k u).1 (k u).2 := by
  cases h with
  | start =>
    have := @Stacked.base A U prec view a (by rw [ha]; trivial)
    simpa [ha, Tree.first, Tree.rest] using this
  | after hs hp h1 h2 =>
    have := Stacked.push (b := a) hs hp (by rw [ha]; trivial) h1 h2 (by rw [ha]; simp [Tree.ops])
    simpa [ha, Tree.first, Tree.rest] using this

theorem loop_spec (unit : List Tok → UnitResult A) (hc : Combines prec combine view)
    {toks : List Tok} {u : U} {ps : List (Tok × U)} {rest : List Tok} (hch : Chain unit prec view toks u ps rest)
    (ops : List (Tok × Nat)) (es : List A) (k : U → U × List (Tok × U)) (hr : Ready prec view ops es k) (fuel : Nat)
    (hf : ps.length < fuel) :
    ∃ a, loop unit prec combine fuel ops es toks = .ok a rest ∧ Grouped (prio prec) (view a) ∧
      (view a).first = (k u).1 ∧ (view a).rest = (k u).2 ++ ps := by
  induction hch generalizing ops es k fuel with
  | @last toks a rest u hu hv hend =>
    obtain ⟨fuel, rfl⟩ : ∃ n, fuel = n + 1 := ⟨fuel - 1, by omega⟩
    have hs := hr.push hv
    obtain ⟨x, hx, hg, h1, h2⟩ := handleEnd_spec hc _ _ _ _ hs
    refine ⟨x, ?_, hg, h1, by simpa using h2⟩
    rw [loop, hu]
    cases rest with
    | nil => simp [finish, hx]
    | cons t rest => simp [hend t rfl, finish, hx]
  | @more toks a t p r u v ps rest hu hv hp hch ih =>
    obtain ⟨fuel, rfl⟩ : ∃ n, fuel = n + 1 := ⟨fuel - 1, by omega⟩
    have hs := hr.push hv
    obtain ⟨ops', b, es', hh, hst, h1, h2⟩ := handleNext_spec hc t p _ _ _ _ hs (by
      intro a' ha' o ho
      simp only [List.head?_cons, Option.some.injEq] at ha'
      subst ha'
      rw [hv] at ho; simp [Tree.ops] at ho)
    rw [loop, hu]
    simp only [hp, hh]
    obtain ⟨x, hx, hg, e1, e2⟩ := ih _ _ _ (Ready.after hst hp h1 h2) fuel (by simpa using hf)
    exact ⟨x, hx, hg, e1, by simpa using e2⟩

/-- Whatever the loop accepts is a chain. -/
theorem loop_chain (unit : List Tok → UnitResult A) (hleaf : ∀ toks a rest, unit toks = .found a rest → ∃ u, view a = .leaf u)
    (fuel : Nat) (ops : List (Tok × Nat)) (es : List A) (toks : List Tok) (a : A) (rest : List Tok)
    (h : loop unit prec combine fuel ops es toks = .ok a rest) : ∃ u ps, Chain unit prec view toks u ps rest := by
  induction fuel generalizing ops es toks with
  | zero => simp [loop] at h
  | succ fuel ih =>
    rw [loop] at h
    cases hu : unit toks with
    | error => simp [hu] at h
    | missing => simp only [hu] at h; split at h <;> simp at h
    | found b r =>
      simp only [hu] at h
      obtain ⟨u, hv⟩ := hleaf _ _ _ hu
      cases r with
      | nil =>
        simp only [finish] at h
        split at h <;> simp at h
        obtain ⟨rfl, rfl⟩ := h
        exact ⟨u, [], .last hu hv (by simp)⟩
      | cons t r =>
        simp only at h
        cases hp : prec t with
        | none =>
          simp only [hp, finish] at h
          split at h <;> simp at h
          obtain ⟨rfl, rfl⟩ := h
          exact ⟨u, [], .last hu hv (by simp [hp])⟩
        | some p =>
          simp only [hp] at h
          split at h
          · simp at h
          · obtain ⟨v, ps, hch⟩ := ih _ _ _ h
            exact ⟨u, _, .more hu hv hp hch⟩

/-- Each element of a chain uses up at least one token, given an operand parser that does. -/
theorem Chain.length {unit : List Tok → UnitResult A} (hcons : ∀ toks a rest, unit toks = .found a rest → rest.length < toks.length)
    {toks u ps rest} (h : Chain unit prec view toks u ps rest) : ps.length + rest.length < toks.length := by
  induction h with
  | last hu _ _ => have := hcons _ _ _ hu; simpa using this
  | more hu _ _ _ ih => have := hcons _ _ _ hu; simp at this ⊢; omega

theorem parseWith_spec (unit : List Tok → UnitResult A) (hc : Combines prec combine view)
    (hcons : ∀ toks a rest, unit toks = .found a rest → rest.length < toks.length)
    {toks : List Tok} {u : U} {ps : List (Tok × U)} {rest : List Tok} (hch : Chain unit prec view toks u ps rest) :
    ∃ a, parseWith unit prec combine toks = .ok a rest ∧ Grouped (prio prec) (view a) ∧
      (view a).first = u ∧ (view a).rest = ps := by
  have := hch.length hcons
  obtain ⟨a, h1, h2, h3, h4⟩ := loop_spec unit hc hch [] [] _ .start (toks.length + 1) (by omega)
  exact ⟨a, h1, h2, h3, by simpa using h4⟩

end

/-! ### Uniqueness -/

section
variable {Op U : Type} (pr : Op → Nat)

theorem rest_ops (t : Tree Op U) : t.rest.map Prod.fst = t.ops := by
  induction t with
  | leaf u => rfl
  | node op l r ihl ihr => simp [Tree.rest, Tree.ops, ihl, ihr]

/-- The root of a grouped tree is the last operator of lowest priority. -/
theorem grouped_unique (s t : Tree Op U) (hs : Grouped pr s) (ht : Grouped pr t) (h1 : s.first = t.first)
    (h2 : s.rest = t.rest) : s = t := by
  induction s generalizing t with
  | leaf u =>
    cases t with
    | leaf v => simp [Tree.first] at h1; rw [h1]
    | node op l r => simp [Tree.rest] at h2
  | node op l r ihl ihr =>
    cases t with
    | leaf v => simp [Tree.rest] at h2
    | node op' l' r' =>
      obtain ⟨gl, gr, hl, hr⟩ := hs
      obtain ⟨gl', gr', hl', hr'⟩ := ht
      have hlen : l.rest.length = l'.rest.length := by
        have key : ∀ (op op' : Op) (l r l' r' : Tree Op U),
            (∀ o ∈ l.ops, pr op ≤ pr o) → (∀ o ∈ r.ops, pr op < pr o) →
            (∀ o ∈ l'.ops, pr op' ≤ pr o) → (∀ o ∈ r'.ops, pr op' < pr o) →
            (Tree.node op l r).rest = (Tree.node op' l' r').rest → ¬ l.rest.length < l'.rest.length := by
          intro op op' l r l' r' hl hr hl' hr' h2 hlt
          -- `op'` lies inside `r`, and `op` inside `l'`
          have h2 := congrArg (List.map Prod.fst) h2
          simp only [Tree.rest, List.map_append, List.map_cons, rest_ops] at h2
          have hlt' : l.ops.length < l'.ops.length := by
            rw [← rest_ops l, ← rest_ops l']; simpa using hlt
          rw [List.append_eq_append_iff] at h2
          rcases h2 with ⟨a, ha, hb⟩ | ⟨a, ha, hb⟩
          · cases a with
            | nil => rw [ha] at hlt'; simp at hlt'
            | cons x a =>
              simp only [List.cons_append, List.cons.injEq] at hb
              have m1 : op ∈ l'.ops := by rw [ha, hb.1]; simp
              have m2 : op' ∈ r.ops := by rw [hb.2]; simp
              have := hl' _ m1
              have := hr _ m2
              omega
          · rw [ha] at hlt'; simp at hlt'; omega
        have a1 := key op op' l r l' r' hl hr hl' hr' h2
        have a2 := key op' op l' r' l r hl' hr' hl hr h2.symm
        omega
      have h2' := h2
      simp only [Tree.rest] at h2'
      obtain ⟨e1, e2⟩ := List.append_inj h2' hlen
      simp only [List.cons.injEq, Prod.mk.injEq] at e2
      obtain ⟨⟨e3, e4⟩, e5⟩ := e2
      rw [e3, ihl l' gl gl' h1 e1, ihr r' gr gr' e4 e5]

end

end Verif.Operators
