import Verif.Infer.Ends

/-!
Inference of patterns, expressions and functions comes to an end.
-/

namespace Verif.Infer

open Verif.Unify

/-- The types of the variables are known. -/
def Scope (N : Nat) (l : List (String × Ty Cell)) : Prop := ∀ x t, (x, t) ∈ l → Within N t

theorem Scope.nil {N : Nat} : Scope N [] := fun x t h => by cases h

theorem Scope.mono {N N' : Nat} {l : List (String × Ty Cell)} (h : Scope N l) (hN : N ≤ N') : Scope N' l := fun x t hx => (h x t hx).mono hN

theorem Scope.append {N : Nat} {l l' : List (String × Ty Cell)} (h : Scope N l) (h' : Scope N l') : Scope N (l ++ l') := fun x t hx =>
  (List.mem_append.1 hx).elim (h x t) (h' x t)

theorem Scope.cons {N : Nat} {x : String} {t : Ty Cell} {l : List (String × Ty Cell)} (ht : Within N t) (h : Scope N l) : Scope N ((x, t) :: l) :=
  fun y u hy => by
    rcases List.mem_cons.1 hy with e | hy
    · cases e; exact ht
    · exact h y u hy

theorem lookup_member {α : Type} {x : String} {a : α} : ∀ {l : List (String × α)}, l.lookup x = some a → (x, a) ∈ l
  | [], h => by cases h
  | (y, b) :: l, h => by
    rw [List.lookup_cons] at h
    split at h
    · next hy => cases h; rw [eq_of_beq hy]; exact List.mem_cons_self
    · exact List.mem_cons_of_mem _ (lookup_member h)

theorem Scope.get {N : Nat} {l : List (String × Ty Cell)} (h : Scope N l) {x : String} {t : Ty Cell} (hx : l.lookup x = some t) : Within N t :=
  h x t (lookup_member hx)

theorem Within.zero {N : Nat} (x : String) : Within N (named0 x) := fun c h => h.elim

theorem Within.list {N : Nat} {a : Ty Cell} (h : Within N a) : Within N (tList a) := fun c hc => by
  rcases hc with hc | hc
  · exact h c hc
  · exact hc.elim

theorem Withins.get {N : Nat} : ∀ {ts : Tys Cell}, Withins N ts → ∀ {i : Nat} {t : Ty Cell}, (Tys.list ts)[i]? = some t → Within N t
  | .nil, h, i, t, hi => by cases hi
  | .cons a as, h, 0, t, hi => by cases hi; exact (Withins.cons.1 h).1
  | .cons a as, h, i + 1, t, hi => Withins.get (Withins.cons.1 h).2 (i := i) hi

theorem inferVar_total {g : Globals} {locals : Locals} {x : String} {s : St} (hs : Live s) (hg : Scope s.next g.group) (hl : Scope s.next locals) :
    Total (fun n => inferVar n g locals x) s fun t s' => Within s'.next t := by
  unfold inferVar
  cases h1 : locals.lookup x with
  | some t =>
    simp only
    exact Total.bind (Total.instantiate hs (hl.get h1)) fun ⟨u, _⟩ s₁ l₁ m₁ w₁ => .pure l₁ w₁
  | none =>
    simp only
    cases h2 : g.group.lookup x with
    | some t =>
      simp only
      exact Total.bind (Total.instantiate hs (hg.get h2)) fun ⟨u, _⟩ s₁ l₁ m₁ w₁ => .pure l₁ w₁
    | none =>
      simp only
      cases g.values.lookup x with
      | some t =>
        simp only
        exact Total.bind (instScheme_total t [] s hs .nil) fun ⟨u, _⟩ s₁ l₁ m₁ w₁ => .pure l₁ w₁.1
      | none =>
        simp only
        cases findConstructor g.types x with
        | none => exact .reject
        | some p =>
          obtain ⟨r, v⟩ := p
          simp only
          exact Total.bind (instScheme_total _ [] s hs .nil) fun ⟨u, _⟩ s₁ l₁ m₁ w₁ => .pure l₁ w₁.1

/-! ### Patterns -/

def PMode.Known (N : Nat) : PMode → Prop
  | .initial => True
  | .alternative l => Scope N l

theorem PMode.Known.mono {N N' : Nat} {mode : PMode} (h : mode.Known N) (hN : N ≤ N') : mode.Known N' := by
  cases mode with
  | initial => trivial
  | alternative l => exact Scope.mono h hN

theorem insertVariable_total {mode : PMode} {x : String} {t : Ty Cell} {vars : Locals} {s : St} (hs : Live s) (hm : mode.Known s.next) (ht : Within s.next t)
    (hv : Scope s.next vars) : Total (fun n => insertVariable n mode x t vars) s fun vars' s' => Scope s'.next vars' := by
  unfold insertVariable
  have hv' : Scope s.next (vars ++ [(x, t)]) := hv.append (.cons ht .nil)
  cases (vars.lookup x).isSome with
  | true => exact .reject
  | false =>
    cases mode with
    | initial => exact .pure hs hv'
    | alternative initial =>
      simp only
      cases h1 : initial.lookup x with
      | none => exact .reject
      | some u =>
        refine Total.bind (Total.unify hs (Scope.get hm h1) ht) fun _ s₁ l₁ m₁ e₁ => ?_
        exact .pure l₁ (hv'.mono m₁)

theorem insertOption_total {mode : PMode} {x : Option String} {t : Ty Cell} {vars : Locals} {s : St} (hs : Live s) (hm : mode.Known s.next) (ht : Within s.next t)
    (hv : Scope s.next vars) : Total (fun n => insertOption n mode x t vars) s fun vars' s' => Scope s'.next vars' := by
  unfold insertOption
  cases x with
  | none => exact .pure hs hv
  | some x => exact insertVariable_total hs hm ht hv

/-- New variables do not occur in older ones. -/
theorem occurs_new {H : Heap} {ρ : Cell → Tree} {N : Nat} (g : Good H ρ) (hlater : ∀ c, N ≤ c → H c = .unbound c) {c : Cell} {id : Nat} (hc : H c = .unbound id) (hlt : c < N)
    {t : Ty Cell} (ht : ∀ d, t.Has d → N ≤ d) : ∃ M, ∀ n, M ≤ n → occurs n H id t = some false := by
  obtain ⟨M, b, h⟩ := occurs_total g id t
  refine ⟨M, fun n hn => ?_⟩
  have hb := (occurs_right H ρ g.reading id M t b h).1
  cases b with
  | false => exact occurs_mono H id hn h
  | true =>
    obtain ⟨d, hd, hd'⟩ := (Ty.has_sub _ _ t).1 (hb rfl)
    have h1 := hlater d (ht d hd)
    rw [g.reading.unbound d d h1] at hd'
    have hid : id = d := by cases hd'; rfl
    rw [hid] at hc
    have := g.unique c d _ hc h1
    rw [this] at hlt
    exact absurd hlt (Nat.not_lt.2 (ht d hd))

theorem listElement_total {t : Ty Cell} {s : St} (hs : Live s) (ht : Within s.next t) : Total (fun n => listElement n t) s fun a s' => Within s'.next a := by
  unfold listElement
  refine Total.bind (Total.collapse hs ht) fun u s₁ l₁ m₁ ⟨e₁, w₁, n₁⟩ => ?_
  subst e₁
  cases h1 : listArgument u with
  | some a =>
    refine .pure l₁ ?_
    unfold listArgument at h1
    split at h1
    · split at h1
      · cases h1; exact (Withins.cons.1 w₁).1
      · cases h1
    · cases h1
  | none =>
    simp only
    cases u with
    | named | fn | tuple => exact .reject
    | var c =>
      simp only
      refine Total.bind (Total.getHeap l₁) fun h s₂ l₂ m₂ ⟨e₂, e₂'⟩ => ?_
      subst e₂ e₂'
      cases hc : s₂.heap c with
      | link | generic => exact .reject
      | unbound id =>
        simp only
        refine Total.bind (Total.fresh l₁) fun a s₃ l₃ m₃ ⟨e₃, h₃, n₃⟩ => ?_
        obtain ⟨ρ, g⟩ := l₁.good
        have hlt : c < s₂.next := Within.var.1 w₁
        obtain ⟨M, hM⟩ := occurs_new g l₁.later hc hlt (t := a) (by rw [e₃]; intro d hd; cases hd; exact Nat.le_refl _)
        have hw : Within s₃.next a := by rw [e₃, Within.var, n₃]; exact Nat.lt_succ_self _
        refine Total.congr M (y := fun _ => do linkTo c (tList a); pure a) (fun n hn => by simp only [hM n hn]) ?_
        refine Total.bind (Total.link l₃ (h₃ ▸ hc) (Nat.lt_of_lt_of_le hlt m₃) hw.list trivial ?_) fun _ s₄ l₄ m₄ e₄ => ?_
        · obtain ⟨M', hM'⟩ := occurs_new g l₁.later hc hlt (t := tList a) (by
            rw [e₃]; intro d hd
            rcases hd with hd | hd
            · cases hd; exact Nat.le_refl _
            · exact hd.elim)
          exact ⟨M', by rw [h₃]; exact hM' M' (Nat.le_refl _)⟩
        · exact .pure l₄ (hw.mono m₄)

theorem constructor_shape {ct : CustomType} {v : Variant} {f : Nat → Ty Nat} {t : Ty Cell} (h : SameShape (constructorType ct v f) t) :
    (∃ as r, t = .fn as r) ∨ ∃ m x as, t = .named m x as := by
  unfold constructorType at h
  split at h
  · cases t with
    | named m x as => exact .inr ⟨_, _, _, rfl⟩
    | var | fn | tuple => exact h.elim
  · cases t with
    | fn as r => exact .inl ⟨_, _, rfl⟩
    | var | named | tuple => exact h.elim

mutual

theorem inferPattern_total {g : Globals} {mode : PMode} : ∀ (p : Pattern) (t : Ty Cell) (vars : Locals) (s : St), Live s → mode.Known s.next → Within s.next t →
    Scope s.next vars → Total (fun n => inferPattern n g mode p t vars) s fun q s' => Within s'.next q.1 ∧ Scope s'.next q.2
  | .discard, t, vars, s, hs, hm, ht, hv => by
    simp only [inferPattern]
    exact .pure hs ⟨ht, hv⟩
  | .var x, t, vars, s, hs, hm, ht, hv => by
    simp only [inferPattern]
    exact Total.bind (insertVariable_total hs hm ht hv) fun vars₁ s₁ l₁ m₁ w₁ => .pure l₁ ⟨ht.mono m₁, w₁⟩
  | .int _, t, vars, s, hs, hm, ht, hv => by
    simp only [inferPattern]
    exact Total.bind (Total.unify hs ht (.zero _)) fun _ s₁ l₁ m₁ _ => .pure l₁ ⟨.zero _, hv.mono m₁⟩
  | .float _, t, vars, s, hs, hm, ht, hv => by
    simp only [inferPattern]
    exact Total.bind (Total.unify hs ht (.zero _)) fun _ s₁ l₁ m₁ _ => .pure l₁ ⟨.zero _, hv.mono m₁⟩
  | .string _, t, vars, s, hs, hm, ht, hv => by
    simp only [inferPattern]
    exact Total.bind (Total.unify hs ht (.zero _)) fun _ s₁ l₁ m₁ _ => .pure l₁ ⟨.zero _, hv.mono m₁⟩
  | .prefix _ left right, t, vars, s, hs, hm, ht, hv => by
    simp only [inferPattern]
    refine Total.bind (Total.unify hs ht (.zero _)) fun _ s₁ l₁ m₁ _ => ?_
    have hm₁ := hm.mono m₁
    refine Total.bind (insertOption_total l₁ hm₁ (.zero _) (hv.mono m₁)) fun vars₂ s₂ l₂ m₂ w₂ => ?_
    refine Total.bind (insertOption_total l₂ (hm₁.mono m₂) (.zero _) w₂) fun vars₃ s₃ l₃ m₃ w₃ => ?_
    exact .pure l₃ ⟨.zero _, w₃⟩
  | .assign p x, t, vars, s, hs, hm, ht, hv => by
    simp only [inferPattern]
    refine Total.bind (inferPattern_total p t vars s hs hm ht hv) fun ⟨u, vars₁⟩ s₁ l₁ m₁ ⟨a₁, w₁⟩ => ?_
    refine Total.bind (insertVariable_total l₁ (hm.mono m₁) a₁ w₁) fun vars₂ s₂ l₂ m₂ w₂ => ?_
    exact .pure l₂ ⟨a₁.mono m₂, w₂⟩
  | .list ps none, t, vars, s, hs, hm, ht, hv => by
    simp only [inferPattern]
    refine Total.bind (listElement_total hs ht) fun a s₁ l₁ m₁ w₁ => ?_
    refine Total.bind (inferPatternsAt_total ps a vars s₁ l₁ (hm.mono m₁) w₁ (hv.mono m₁)) fun vars₂ s₂ l₂ m₂ w₂ => ?_
    exact .pure l₂ ⟨(w₁.mono m₂).list, w₂⟩
  | .list ps (some q), t, vars, s, hs, hm, ht, hv => by
    simp only [inferPattern]
    refine Total.bind (listElement_total hs ht) fun a s₁ l₁ m₁ w₁ => ?_
    have hm₁ := hm.mono m₁
    refine Total.bind (inferPatternsAt_total ps a vars s₁ l₁ hm₁ w₁ (hv.mono m₁)) fun vars₂ s₂ l₂ m₂ w₂ => ?_
    refine Total.bind (inferPattern_total q (tList a) vars₂ s₂ l₂ (hm₁.mono m₂) (w₁.mono m₂).list w₂) fun ⟨_, vars₃⟩ s₃ l₃ m₃ ⟨_, w₃⟩ => ?_
    exact .pure l₃ ⟨((w₁.mono m₂).mono m₃).list, w₃⟩
  | .tuple ps, t, vars, s, hs, hm, ht, hv => by
    simp only [inferPattern]
    refine Total.bind (Total.collapse hs ht) fun u s₁ l₁ m₁ ⟨e₁, w₁, n₁⟩ => ?_
    subst e₁
    cases u with
    | named | fn => exact .reject
    | tuple ts =>
      simp only
      split
      · refine Total.bind (inferPatterns_total ps ts vars s₁ l₁ hm w₁ hv) fun ⟨us, vars₂⟩ s₂ l₂ m₂ ⟨a₂, w₂⟩ => ?_
        exact .pure l₂ ⟨a₂, w₂⟩
      · exact .reject
    | var c =>
      simp only
      refine Total.bind (Total.freshes ps.length l₁) fun ts s₂ l₂ m₂ ⟨w₂, _, _⟩ => ?_
      refine Total.bind (Total.unify l₂ (t := .tuple ts) w₂ (ht.mono m₂)) fun _ s₃ l₃ m₃ _ => ?_
      refine Total.bind (inferPatterns_total ps ts vars s₃ l₃ ((hm.mono m₂).mono m₃) (w₂.mono m₃) ((hv.mono m₂).mono m₃)) fun ⟨us, vars₄⟩ s₄ l₄ m₄ ⟨a₄, w₄⟩ => ?_
      exact .pure l₄ ⟨a₄, w₄⟩
  | .ctor name ps, t, vars, s, hs, hm, ht, hv => by
    simp only [inferPattern]
    cases findConstructor g.types name with
    | none => exact .reject
    | some p =>
      obtain ⟨r, v⟩ := p
      simp only
      refine Total.bind (instScheme_total _ [] s hs .nil) fun ⟨c, _⟩ s₁ l₁ m₁ ⟨w₁, _, sh⟩ => ?_
      simp only at w₁ sh
      rcases constructor_shape sh with ⟨ts, u, rfl⟩ | ⟨m, x, as, rfl⟩
      · simp only
        have w₁ := Within.fn.1 w₁
        refine Total.bind (Total.unify l₁ (ht.mono m₁) w₁.2) fun _ s₂ l₂ m₂ _ => ?_
        refine Total.bind (Total.check l₂) fun _ s₃ l₃ m₃ e₃ => ?_
        subst e₃
        refine Total.bind (inferPatterns_total ps ts vars s₃ l₃ ((hm.mono m₁).mono m₂) (w₁.1.mono m₂) ((hv.mono m₁).mono m₂)) fun ⟨us, vars₄⟩ s₄ l₄ m₄ ⟨a₄, w₄⟩ => ?_
        exact .pure l₄ ⟨(w₁.2.mono m₂).mono m₄, w₄⟩
      · simp only
        refine Total.bind (Total.unify l₁ (ht.mono m₁) w₁) fun _ s₂ l₂ m₂ _ => ?_
        refine Total.bind (Total.check l₂) fun _ s₃ l₃ m₃ e₃ => ?_
        subst e₃
        exact .pure l₃ ⟨w₁.mono m₂, (hv.mono m₁).mono m₂⟩

theorem inferPatterns_total {g : Globals} {mode : PMode} : ∀ (ps : List Pattern) (ts : Tys Cell) (vars : Locals) (s : St), Live s → mode.Known s.next → Withins s.next ts →
    Scope s.next vars → Total (fun n => inferPatterns n g mode ps ts vars) s fun q s' => Withins s'.next q.1 ∧ Scope s'.next q.2
  | [], .nil, vars, s, hs, hm, ht, hv => by
    simp only [inferPatterns]
    exact .pure hs ⟨.nil, hv⟩
  | p :: ps, .cons t ts, vars, s, hs, hm, ht, hv => by
    have ht := Withins.cons.1 ht
    simp only [inferPatterns]
    refine Total.bind (inferPattern_total p t vars s hs hm ht.1 hv) fun ⟨u, vars₁⟩ s₁ l₁ m₁ ⟨a₁, w₁⟩ => ?_
    refine Total.bind (inferPatterns_total ps ts vars₁ s₁ l₁ (hm.mono m₁) (ht.2.mono m₁) w₁) fun ⟨us, vars₂⟩ s₂ l₂ m₂ ⟨a₂, w₂⟩ => ?_
    exact .pure l₂ ⟨Withins.cons.2 ⟨a₁.mono m₂, a₂⟩, w₂⟩
  | [], .cons .., vars, s, hs, hm, ht, hv => by
    simp only [inferPatterns]
    exact .reject
  | _ :: _, .nil, vars, s, hs, hm, ht, hv => by
    simp only [inferPatterns]
    exact .reject

theorem inferPatternsAt_total {g : Globals} {mode : PMode} : ∀ (ps : List Pattern) (t : Ty Cell) (vars : Locals) (s : St), Live s → mode.Known s.next → Within s.next t →
    Scope s.next vars → Total (fun n => inferPatternsAt n g mode ps t vars) s fun vars' s' => Scope s'.next vars'
  | [], t, vars, s, hs, hm, ht, hv => by
    simp only [inferPatternsAt]
    exact .pure hs hv
  | p :: ps, t, vars, s, hs, hm, ht, hv => by
    simp only [inferPatternsAt]
    refine Total.bind (inferPattern_total p t vars s hs hm ht hv) fun ⟨u, vars₁⟩ s₁ l₁ m₁ ⟨a₁, w₁⟩ => ?_
    exact inferPatternsAt_total ps t vars₁ s₁ l₁ (hm.mono m₁) (ht.mono m₁) w₁

end

theorem inferAlternatives_total {g : Globals} {initial : Locals} {ts : Tys Cell} : ∀ (pss : List (List Pattern)) (s : St), Live s → Scope s.next initial →
    Withins s.next ts → Total (fun n => inferAlternatives n g initial ts pss) s fun _ _ => True
  | [], s, hs, hi, ht => by
    simp only [inferAlternatives]
    exact .pure hs trivial
  | ps :: rest, s, hs, hi, ht => by
    simp only [inferAlternatives]
    refine Total.bind (inferPatterns_total (mode := .alternative initial) ps ts [] s hs hi ht .nil) fun ⟨_, vars₁⟩ s₁ l₁ m₁ _ => ?_
    refine Total.bind (Total.check l₁) fun _ s₂ l₂ m₂ e₂ => ?_
    subst e₂
    exact inferAlternatives_total rest s₂ l₂ (hi.mono m₁) (ht.mono m₁)

/-! ### Operators and guards -/

theorem op_within {op : Op} {N : Nat} {a b : Ty Cell} (h : op.types = some (a, b)) : Within N a ∧ Within N b := by
  cases op <;> simp only [Op.types, Option.some.injEq, Prod.mk.injEq, reduceCtorEq] at h <;> obtain ⟨rfl, rfl⟩ := h <;> exact ⟨.zero _, .zero _⟩

theorem inferOperator_total {op : Op} {l r : Ty Cell} {s : St} (hs : Live s) (hl : Within s.next l) (hr : Within s.next r) :
    Total (fun n => inferOperator n op l r) s fun t s' => Within s'.next t := by
  unfold inferOperator
  cases h : (op.types : Option (Ty Cell × Ty Cell)) with
  | none => exact Total.bind (Total.unify hs hl hr) fun _ s₁ l₁ m₁ _ => .pure l₁ (.zero _)
  | some p =>
    obtain ⟨a, b⟩ := p
    obtain ⟨ha, hb⟩ := op_within (N := s.next) h
    refine Total.bind (Total.unify hs ha hl) fun _ s₁ l₁ m₁ _ => ?_
    refine Total.bind (Total.unify l₁ (ha.mono m₁) (hr.mono m₁)) fun _ s₂ l₂ m₂ _ => ?_
    exact .pure l₂ ((hb.mono m₁).mono m₂)

theorem inferGuard_total {locals : Locals} : ∀ (g : Guard) (s : St), Live s → Scope s.next locals → Total (fun n => inferGuard n locals g) s fun t s' => Within s'.next t
  | .var x, s, hs, hl => by
    simp only [inferGuard]
    cases h : locals.lookup x with
    | none => exact .reject
    | some t => exact Total.bind (Total.instantiate hs (hl.get h)) fun ⟨u, _⟩ s₁ l₁ m₁ w₁ => .pure l₁ w₁
  | .int _, s, hs, hl => by simp only [inferGuard]; exact .pure hs (.zero _)
  | .float _, s, hs, hl => by simp only [inferGuard]; exact .pure hs (.zero _)
  | .string _, s, hs, hl => by simp only [inferGuard]; exact .pure hs (.zero _)
  | .block g, s, hs, hl => by simp only [inferGuard]; exact inferGuard_total g s hs hl
  | .not g, s, hs, hl => by
    simp only [inferGuard]
    refine Total.bind (inferGuard_total g s hs hl) fun t s₁ l₁ m₁ w₁ => ?_
    exact Total.bind (Total.unify l₁ (.zero _) w₁) fun _ s₂ l₂ m₂ _ => .pure l₂ (.zero _)
  | .bin op l r, s, hs, hl => by
    simp only [inferGuard]
    refine Total.bind (inferGuard_total l s hs hl) fun t s₁ l₁ m₁ w₁ => ?_
    refine Total.bind (inferGuard_total r s₁ l₁ (hl.mono m₁)) fun u s₂ l₂ m₂ w₂ => ?_
    exact inferOperator_total l₂ (w₁.mono m₂) w₂
  | .index g i, s, hs, hl => by
    simp only [inferGuard]
    refine Total.bind (inferGuard_total g s hs hl) fun t s₁ l₁ m₁ w₁ => ?_
    cases t with
    | tuple ts => exact Total.expect l₁ fun a ha => Withins.get w₁ ha
    | var | named | fn => exact .reject

theorem inferOptionalGuard_total {locals : Locals} (g : Option Guard) {s : St} (hs : Live s) (hl : Scope s.next locals) :
    Total (fun n => inferOptionalGuard n locals g) s fun _ _ => True := by
  cases g with
  | none => exact .pure hs trivial
  | some g =>
    simp only [inferOptionalGuard]
    refine Total.bind (inferGuard_total g s hs hl) fun t s₁ l₁ m₁ w₁ => ?_
    exact (Total.unify l₁ (.zero _) w₁).mono fun _ _ _ _ => trivial

/-! ### Expressions -/

theorem matchFunction_total {t : Ty Cell} {k : Nat} {s : St} (hs : Live s) (ht : Within s.next t) :
    Total (fun n => matchFunction n t k) s fun p s' => Withins s'.next p.1 ∧ Within s'.next p.2 := by
  unfold matchFunction
  refine Total.bind (Total.collapse hs ht) fun u s₁ l₁ m₁ ⟨e₁, w₁, n₁⟩ => ?_
  subst e₁
  cases u with
  | named | tuple => exact .reject
  | fn as r =>
    simp only
    split
    · exact .pure l₁ (Within.fn.1 w₁)
    · exact .reject
  | var c =>
    simp only
    refine Total.bind (Total.getHeap l₁) fun h s₂ l₂ m₂ ⟨e₂, e₂'⟩ => ?_
    subst e₂ e₂'
    cases hc : s₂.heap c with
    | link | generic => exact .reject
    | unbound id =>
      simp only
      refine Total.bind (Total.freshes k l₁) fun as s₃ l₃ m₃ ⟨w₃, h₃, n₃⟩ => ?_
      refine Total.bind (Total.fresh l₃) fun r s₄ l₄ m₄ ⟨e₄, h₄, n₄⟩ => ?_
      refine Total.bind (Total.getHeap l₄) fun h s₅ l₅ m₅ ⟨e₅, e₅'⟩ => ?_
      subst e₅ e₅'
      obtain ⟨ρ, g⟩ := l₄.good
      have hlt : c < s₂.next := Within.var.1 w₁
      have hh : s₅.heap = s₂.heap := h₄.trans h₃
      obtain ⟨M, hM⟩ := occurs_new g (N := s₂.next) (fun c hc => by rw [hh]; exact l₁.later c hc) (hh ▸ hc) hlt (t := .fn as r) (by
        rintro d (hd | hd)
        · exact n₃ d hd
        · rw [e₄] at hd; cases hd; exact m₃)
      have hw : Within s₅.next r := by rw [e₄, Within.var, n₄]; exact Nat.lt_succ_self _
      refine Total.congr M (y := fun _ => do linkTo c (.fn as r); pure (as, r)) (fun n hn => by simp only [hM n hn]) ?_
      refine Total.bind (Total.link l₄ (hh ▸ hc) (Nat.lt_of_lt_of_le hlt (Nat.le_trans m₃ m₄)) (Within.fn.2 ⟨w₃.mono m₄, hw⟩) trivial
        ⟨M, hM M (Nat.le_refl _)⟩) fun _ s₆ l₆ m₆ e₆ => ?_
      exact .pure l₆ ⟨(w₃.mono m₄).mono m₆, hw.mono m₆⟩

theorem inferParameters_total {types : List CustomType} : ∀ (ps : List Param) (es : Tys Cell) (s : St), Live s → Withins s.next es →
    Total (fun n => inferParameters n types ps es) s fun ts s' => Withins s'.next ts
  | [], _, s, hs, he => by
    simp only [inferParameters]
    exact .pure hs .nil
  | p :: ps, .nil, s, hs, he => by
    simp only [inferParameters]
    refine Total.bind (hydrateOption_total types p.annotation s hs) fun t s₁ l₁ m₁ w₁ => ?_
    refine Total.bind (inferParameters_total ps .nil s₁ l₁ .nil) fun ts s₂ l₂ m₂ w₂ => ?_
    exact .pure l₂ (Withins.cons.2 ⟨w₁.mono m₂, w₂⟩)
  | p :: ps, .cons e es, s, hs, he => by
    have he := Withins.cons.1 he
    simp only [inferParameters]
    refine Total.bind (hydrateOption_total types p.annotation s hs) fun t s₁ l₁ m₁ w₁ => ?_
    refine Total.bind (Total.unify l₁ (he.1.mono m₁) w₁) fun _ s₂ l₂ m₂ _ => ?_
    refine Total.bind (inferParameters_total ps es s₂ l₂ ((he.2.mono m₁).mono m₂)) fun ts s₃ l₃ m₃ w₃ => ?_
    exact .pure l₃ (Withins.cons.2 ⟨(w₁.mono m₂).mono m₃, w₃⟩)

theorem bindTypes_scope {N : Nat} : ∀ (ps : List Param) (ts : Tys Cell) (vars : Locals), Withins N ts → bindTypes ps ts = some vars → Scope N vars
  | [], .nil, vars, _, h => by cases h; exact .nil
  | [], .cons .., vars, _, h => by cases h
  | _ :: _, .nil, vars, _, h => by cases h
  | p :: ps, .cons t ts, vars, ht, h => by
    have ht := Withins.cons.1 ht
    simp only [bindTypes] at h
    split at h
    · cases h
    · next vs hv =>
      have ih := bindTypes_scope ps ts vs ht.2 hv
      split at h
      · cases h; exact ih
      · split at h
        · cases h
        · cases h; exact .cons ht.1 ih

theorem hydrateReturn_total {types : List CustomType} (a : Option TypeAst) {s : St} (hs : Live s) :
    Total (fun _ => hydrateReturn types a) s fun o s' => ∀ t, o = some t → Within s'.next t := by
  cases a with
  | none => exact .pure hs fun t h => by cases h
  | some a =>
    simp only [hydrateReturn]
    refine Total.bind (hydrate_total types a s hs) fun t s₁ l₁ m₁ w₁ => ?_
    exact .pure l₁ fun u h => by cases h; exact w₁

theorem inferBody_total {locals : Locals} {ps : List Param} {ts : Tys Cell} {ret : Option (Ty Cell)} {body : Nat → Locals → I (Ty Cell)} {s : St} (hs : Live s)
    (hl : Scope s.next locals) (ht : Withins s.next ts) (hr : ∀ t, ret = some t → Within s.next t)
    (hb : ∀ vars, Scope s.next vars → Total (fun n => body n vars) s fun t s' => Within s'.next t) :
    Total (fun n => inferBody n locals ps ts ret (body n)) s fun t s' => Within s'.next t := by
  unfold inferBody
  refine Total.inScope hs ?_ fun _ _ _ h => h
  refine Total.bind (Total.expect (Q := fun vars s' => s' = s ∧ Scope s.next vars) hs fun vars h => ⟨rfl, bindTypes_scope ps ts vars ht h⟩) fun vars s₁ l₁ m₁ ⟨e₁, w₁⟩ => ?_
  subst e₁
  refine Total.bind (hb (vars ++ locals) (w₁.append hl)) fun t s₂ l₂ m₂ w₂ => ?_
  cases ret with
  | none => exact .pure l₂ w₂
  | some r => exact Total.bind (Total.unify l₂ ((hr r rfl).mono m₂) w₂) fun _ s₃ l₃ m₃ _ => .pure l₃ (w₂.mono m₃)

theorem expectedOf_within {N : Nat} {t : Ty Cell} (e : Expr) (h : Within N t) : Withins N (expectedOf t e) := by
  unfold expectedOf
  split
  · split
    · exact (Within.fn.1 h).1
    · exact .nil
  · exact .nil

theorem inferField_total {g : Globals} {t : Ty Cell} {label : String} {s : St} (hs : Live s) (ht : Within s.next t) :
    Total (fun n => inferField n g t label) s fun u s' => Within s'.next u := by
  unfold inferField
  refine Total.bind (Total.collapse hs ht) fun u s₁ l₁ m₁ ⟨e₁, w₁, n₁⟩ => ?_
  subst e₁
  cases u with
  | var | fn | tuple => exact .reject
  | named m x as =>
    simp only
    cases g.types.find? fun r => decide (r.type.module = m ∧ r.type.name = x) with
    | none => exact .reject
    | some r =>
      simp only
      cases accessor r.type label with
      | none => exact .reject
      | some f =>
        simp only
        refine Total.bind (instScheme_total _ [] s₁ l₁ .nil) fun ⟨record, ids⟩ s₂ l₂ m₂ ⟨w₂, k₂, _⟩ => ?_
        refine Total.bind (instScheme_total _ ids s₂ l₂ k₂) fun ⟨f', _⟩ s₃ l₃ m₃ ⟨w₃, _, _⟩ => ?_
        refine Total.bind (Total.unify l₃ (w₂.mono m₃) ((ht.mono m₂).mono m₃)) fun _ s₄ l₄ m₄ _ => ?_
        exact .pure l₄ (w₃.mono m₄)

theorem inferAnnotation_total {g : Globals} (a : Option TypeAst) {t : Ty Cell} {s : St} (hs : Live s) (ht : Within s.next t) :
    Total (fun n => inferAnnotation n g a t) s fun _ _ => True := by
  cases a with
  | none => exact .pure hs trivial
  | some a =>
    simp only [inferAnnotation]
    refine Total.bind (hydrate_total g.customTypes a s hs) fun u s₁ l₁ m₁ w₁ => ?_
    refine Total.bind (Total.instantiate l₁ w₁) fun ⟨u', _⟩ s₂ l₂ m₂ w₂ => ?_
    exact (Total.unify l₂ w₂ ((ht.mono m₁).mono m₂)).mono fun _ _ _ _ => trivial

mutual

theorem infer_total {g : Globals} : ∀ (e : Expr) (locals : Locals) (expected : Tys Cell) (s : St), Live s → Scope s.next g.group → Scope s.next locals →
    Withins s.next expected → Total (fun n => infer n g locals expected e) s fun t s' => Within s'.next t
  | .int _, locals, expected, s, hs, hg, hl, he => by simp only [infer]; exact .pure hs (.zero _)
  | .float _, locals, expected, s, hs, hg, hl, he => by simp only [infer]; exact .pure hs (.zero _)
  | .string _, locals, expected, s, hs, hg, hl, he => by simp only [infer]; exact .pure hs (.zero _)
  | .var x, locals, expected, s, hs, hg, hl, he => by simp only [infer]; exact inferVar_total hs hg hl
  | .fn ps ret body, locals, expected, s, hs, hg, hl, he => by
    simp only [infer]
    refine Total.bind (inferParameters_total ps expected s hs he) fun ts s₁ l₁ m₁ w₁ => ?_
    refine Total.bind (hydrateReturn_total ret l₁) fun r s₂ l₂ m₂ w₂ => ?_
    refine Total.bind (inferBody_total (body := fun n locals => inferStmts n g locals body) l₂ ((hl.mono m₁).mono m₂) (w₁.mono m₂) w₂ fun vars hv =>
      inferStmts_total body vars s₂ l₂ ((hg.mono m₁).mono m₂) hv) fun t s₃ l₃ m₃ w₃ => ?_
    exact .pure l₃ (Within.fn.2 ⟨(w₁.mono m₂).mono m₃, w₃⟩)
  | .call f es, locals, expected, s, hs, hg, hl, he => by
    simp only [infer]
    have h1 : Total (fun n => if f.literalArity = some es.length then inferAll n g locals es else pure .nil) s fun ts s' => Withins s'.next ts := by
      split
      · exact inferAll_total es locals s hs hg hl
      · exact .pure hs .nil
    refine Total.bind h1 fun ts s₁ l₁ m₁ w₁ => ?_
    refine Total.bind (infer_total f locals ts s₁ l₁ (hg.mono m₁) (hl.mono m₁) w₁) fun t s₂ l₂ m₂ w₂ => ?_
    refine Total.bind (matchFunction_total l₂ w₂) fun ⟨us, r⟩ s₃ l₃ m₃ ⟨a₃, w₃⟩ => ?_
    refine Total.bind (inferArguments_total es us locals s₃ l₃ (((hg.mono m₁).mono m₂).mono m₃) (((hl.mono m₁).mono m₂).mono m₃) a₃) fun _ s₄ l₄ m₄ _ => ?_
    exact .pure l₄ (w₃.mono m₄)
  | .bin op l r, locals, expected, s, hs, hg, hl, he => by
    simp only [infer]
    refine Total.bind (infer_total l locals .nil s hs hg hl .nil) fun t s₁ l₁ m₁ w₁ => ?_
    refine Total.bind (infer_total r locals .nil s₁ l₁ (hg.mono m₁) (hl.mono m₁) .nil) fun u s₂ l₂ m₂ w₂ => ?_
    exact inferOperator_total l₂ (w₁.mono m₂) w₂
  | .not e, locals, expected, s, hs, hg, hl, he => by
    simp only [infer]
    refine Total.bind (infer_total e locals .nil s hs hg hl .nil) fun t s₁ l₁ m₁ w₁ => ?_
    exact Total.bind (Total.unify l₁ (.zero _) w₁) fun _ s₂ l₂ m₂ _ => .pure l₂ (.zero _)
  | .neg e, locals, expected, s, hs, hg, hl, he => by
    simp only [infer]
    refine Total.bind (infer_total e locals .nil s hs hg hl .nil) fun t s₁ l₁ m₁ w₁ => ?_
    exact Total.bind (Total.unify l₁ (.zero _) w₁) fun _ s₂ l₂ m₂ _ => .pure l₂ (.zero _)
  | .block body, locals, expected, s, hs, hg, hl, he => by
    simp only [infer]
    exact Total.inScope hs (inferStmts_total body locals s hs hg hl) fun _ _ _ h => h
  | .tuple es, locals, expected, s, hs, hg, hl, he => by
    simp only [infer]
    exact Total.bind (inferAll_total es locals s hs hg hl) fun ts s₁ l₁ m₁ w₁ => .pure l₁ w₁
  | .index e i, locals, expected, s, hs, hg, hl, he => by
    simp only [infer]
    refine Total.bind (infer_total e locals .nil s hs hg hl .nil) fun t s₁ l₁ m₁ w₁ => ?_
    refine Total.bind (Total.collapse l₁ w₁) fun u s₂ l₂ m₂ ⟨e₂, w₂, _⟩ => ?_
    subst e₂
    cases u with
    | tuple ts => exact Total.expect l₂ fun a ha => Withins.get w₂ ha
    | var | named | fn => exact .reject
  | .list es none, locals, expected, s, hs, hg, hl, he => by
    simp only [infer]
    refine Total.bind (Total.fresh' hs) fun a s₁ l₁ m₁ w₁ => ?_
    refine Total.bind (inferItems_total es a locals s₁ l₁ (hg.mono m₁) (hl.mono m₁) w₁) fun _ s₂ l₂ m₂ _ => ?_
    exact .pure l₂ (w₁.mono m₂).list
  | .list es (some e), locals, expected, s, hs, hg, hl, he => by
    simp only [infer]
    refine Total.bind (Total.fresh' hs) fun a s₁ l₁ m₁ w₁ => ?_
    refine Total.bind (inferItems_total es a locals s₁ l₁ (hg.mono m₁) (hl.mono m₁) w₁) fun _ s₂ l₂ m₂ _ => ?_
    refine Total.bind (infer_total e locals .nil s₂ l₂ ((hg.mono m₁).mono m₂) ((hl.mono m₁).mono m₂) .nil) fun t s₃ l₃ m₃ w₃ => ?_
    have wa := (w₁.mono m₂).mono m₃
    exact Total.bind (Total.unify l₃ wa.list w₃) fun _ s₄ l₄ m₄ _ => .pure l₄ (wa.mono m₄).list
  | .field e label, locals, expected, s, hs, hg, hl, he => by
    simp only [infer]
    refine Total.bind (infer_total e locals .nil s hs hg hl .nil) fun t s₁ l₁ m₁ w₁ => ?_
    exact inferField_total l₁ w₁
  | .case_ subjects cs, locals, expected, s, hs, hg, hl, he => by
    simp only [infer]
    refine Total.bind (Total.fresh' hs) fun r s₁ l₁ m₁ w₁ => ?_
    refine Total.bind (inferSubjects_total subjects locals s₁ l₁ (hg.mono m₁) (hl.mono m₁)) fun ts s₂ l₂ m₂ w₂ => ?_
    refine Total.bind (inferClauses_total cs locals ts r s₂ l₂ ((hg.mono m₁).mono m₂) ((hl.mono m₁).mono m₂) w₂ (w₁.mono m₂)) fun _ s₃ l₃ m₃ _ => ?_
    exact .pure l₃ ((w₁.mono m₂).mono m₃)
  | .fail none, locals, expected, s, hs, hg, hl, he => by simp only [infer]; exact Total.fresh' hs
  | .fail (some e), locals, expected, s, hs, hg, hl, he => by
    simp only [infer]
    refine Total.bind (Total.fresh' hs) fun r s₁ l₁ m₁ w₁ => ?_
    refine Total.bind (infer_total e locals .nil s₁ l₁ (hg.mono m₁) (hl.mono m₁) .nil) fun t s₂ l₂ m₂ w₂ => ?_
    exact Total.bind (Total.unify l₂ (.zero _) w₂) fun _ s₃ l₃ m₃ _ => .pure l₃ ((w₁.mono m₂).mono m₃)

theorem inferAll_total {g : Globals} : ∀ (es : List Expr) (locals : Locals) (s : St), Live s → Scope s.next g.group → Scope s.next locals →
    Total (fun n => inferAll n g locals es) s fun ts s' => Withins s'.next ts
  | [], locals, s, hs, hg, hl => by simp only [inferAll]; exact .pure hs .nil
  | e :: es, locals, s, hs, hg, hl => by
    simp only [inferAll]
    refine Total.bind (infer_total e locals .nil s hs hg hl .nil) fun t s₁ l₁ m₁ w₁ => ?_
    refine Total.bind (inferAll_total es locals s₁ l₁ (hg.mono m₁) (hl.mono m₁)) fun ts s₂ l₂ m₂ w₂ => ?_
    exact .pure l₂ (Withins.cons.2 ⟨w₁.mono m₂, w₂⟩)

theorem inferSubjects_total {g : Globals} : ∀ (es : List Expr) (locals : Locals) (s : St), Live s → Scope s.next g.group → Scope s.next locals →
    Total (fun n => inferSubjects n g locals es) s fun ts s' => Withins s'.next ts
  | [], locals, s, hs, hg, hl => by simp only [inferSubjects]; exact .pure hs .nil
  | e :: es, locals, s, hs, hg, hl => by
    simp only [inferSubjects]
    refine Total.bind (Total.inScope hs (infer_total e locals .nil s hs hg hl .nil) fun _ _ _ h => h) fun t s₁ l₁ m₁ w₁ => ?_
    refine Total.bind (inferSubjects_total es locals s₁ l₁ (hg.mono m₁) (hl.mono m₁)) fun ts s₂ l₂ m₂ w₂ => ?_
    exact .pure l₂ (Withins.cons.2 ⟨w₁.mono m₂, w₂⟩)

theorem inferItems_total {g : Globals} : ∀ (es : List Expr) (a : Ty Cell) (locals : Locals) (s : St), Live s → Scope s.next g.group → Scope s.next locals → Within s.next a →
    Total (fun n => inferItems n g locals a es) s fun _ _ => True
  | [], a, locals, s, hs, hg, hl, ha => by simp only [inferItems]; exact .pure hs trivial
  | e :: es, a, locals, s, hs, hg, hl, ha => by
    simp only [inferItems]
    refine Total.bind (infer_total e locals .nil s hs hg hl .nil) fun t s₁ l₁ m₁ w₁ => ?_
    refine Total.bind (Total.unify l₁ (ha.mono m₁) w₁) fun _ s₂ l₂ m₂ _ => ?_
    exact inferItems_total es a locals s₂ l₂ ((hg.mono m₁).mono m₂) ((hl.mono m₁).mono m₂) ((ha.mono m₁).mono m₂)

theorem inferArguments_total {g : Globals} : ∀ (es : List Expr) (ts : Tys Cell) (locals : Locals) (s : St), Live s → Scope s.next g.group → Scope s.next locals →
    Withins s.next ts → Total (fun n => inferArguments n g locals es ts) s fun _ _ => True
  | [], .nil, locals, s, hs, hg, hl, ht => by simp only [inferArguments]; exact .pure hs trivial
  | [], .cons .., locals, s, hs, hg, hl, ht => by simp only [inferArguments]; exact .reject
  | _ :: _, .nil, locals, s, hs, hg, hl, ht => by simp only [inferArguments]; exact .reject
  | e :: es, .cons t ts, locals, s, hs, hg, hl, ht => by
    have ht := Withins.cons.1 ht
    simp only [inferArguments]
    refine Total.bind (Total.collapse hs ht.1) fun u s₁ l₁ m₁ ⟨e₁, w₁, _⟩ => ?_
    subst e₁
    refine Total.bind (infer_total e locals _ s₁ l₁ hg hl (expectedOf_within e w₁)) fun v s₂ l₂ m₂ w₂ => ?_
    refine Total.bind (Total.unify l₂ (w₁.mono m₂) w₂) fun _ s₃ l₃ m₃ _ => ?_
    exact inferArguments_total es ts locals s₃ l₃ ((hg.mono m₂).mono m₃) ((hl.mono m₂).mono m₃) ((ht.2.mono m₂).mono m₃)

theorem inferStmts_total {g : Globals} : ∀ (ss : List Stmt) (locals : Locals) (s : St), Live s → Scope s.next g.group → Scope s.next locals →
    Total (fun n => inferStmts n g locals ss) s fun t s' => Within s'.next t
  | [], locals, s, hs, hg, hl => by simp only [inferStmts]; exact .reject
  | [st], locals, s, hs, hg, hl => by
    simp only [inferStmts]
    exact Total.bind (inferStmt_total st locals s hs hg hl) fun ⟨t, _⟩ s₁ l₁ m₁ ⟨w₁, _⟩ => .pure l₁ w₁
  | st :: st' :: ss, locals, s, hs, hg, hl => by
    simp only [inferStmts]
    refine Total.bind (inferStmt_total st locals s hs hg hl) fun ⟨t, vars⟩ s₁ l₁ m₁ ⟨_, w₁⟩ => ?_
    exact inferStmts_total (st' :: ss) (vars ++ locals) s₁ l₁ (hg.mono m₁) (w₁.append (hl.mono m₁))

theorem inferStmt_total {g : Globals} : ∀ (st : Stmt) (locals : Locals) (s : St), Live s → Scope s.next g.group → Scope s.next locals →
    Total (fun n => inferStmt n g locals st) s fun p s' => Within s'.next p.1 ∧ Scope s'.next p.2
  | .expr e, locals, s, hs, hg, hl => by
    simp only [inferStmt]
    exact Total.bind (infer_total e locals .nil s hs hg hl .nil) fun t s₁ l₁ m₁ w₁ => .pure l₁ ⟨w₁, .nil⟩
  | .let_ p a e, locals, s, hs, hg, hl => by
    simp only [inferStmt]
    refine Total.bind (Total.inScope hs (infer_total e locals .nil s hs hg hl .nil) fun _ _ _ h => h) fun t s₁ l₁ m₁ w₁ => ?_
    refine Total.bind (inferPattern_total (mode := .initial) p t [] s₁ l₁ trivial w₁ .nil) fun ⟨_, vars⟩ s₂ l₂ m₂ ⟨_, w₂⟩ => ?_
    refine Total.bind (inferAnnotation_total a l₂ (w₁.mono m₂)) fun _ s₃ l₃ m₃ _ => ?_
    exact .pure l₃ ⟨(w₁.mono m₂).mono m₃, w₂.mono m₃⟩
  | .letAssert p a e message, locals, s, hs, hg, hl => by
    simp only [inferStmt]
    refine Total.bind (Total.inScope hs (infer_total e locals .nil s hs hg hl .nil) fun _ _ _ h => h) fun t s₁ l₁ m₁ w₁ => ?_
    refine Total.bind (inferMessage_total message locals s₁ l₁ (hg.mono m₁) (hl.mono m₁)) fun _ s₂ l₂ m₂ _ => ?_
    have w := w₁.mono m₂
    refine Total.bind (inferPattern_total (mode := .initial) p t [] s₂ l₂ trivial w .nil) fun ⟨_, vars⟩ s₃ l₃ m₃ ⟨_, w₃⟩ => ?_
    refine Total.bind (inferAnnotation_total a l₃ (w.mono m₃)) fun _ s₄ l₄ m₄ _ => ?_
    exact .pure l₄ ⟨(w.mono m₃).mono m₄, w₃.mono m₄⟩
  | .assert e message, locals, s, hs, hg, hl => by
    simp only [inferStmt]
    refine Total.bind (infer_total e locals .nil s hs hg hl .nil) fun t s₁ l₁ m₁ w₁ => ?_
    refine Total.bind (Total.unify l₁ (.zero _) w₁) fun _ s₂ l₂ m₂ _ => ?_
    refine Total.bind (inferMessage_total message locals s₂ l₂ ((hg.mono m₁).mono m₂) ((hl.mono m₁).mono m₂)) fun _ s₃ l₃ m₃ _ => ?_
    exact .pure l₃ ⟨.zero _, .nil⟩

theorem inferMessage_total {g : Globals} : ∀ (message : Option Expr) (locals : Locals) (s : St), Live s → Scope s.next g.group → Scope s.next locals →
    Total (fun n => inferMessage n g locals message) s fun _ _ => True
  | none, locals, s, hs, hg, hl => by simp only [inferMessage]; exact .pure hs trivial
  | some e, locals, s, hs, hg, hl => by
    simp only [inferMessage]
    refine Total.bind (infer_total e locals .nil s hs hg hl .nil) fun t s₁ l₁ m₁ w₁ => ?_
    exact (Total.unify l₁ (.zero _) w₁).mono fun _ _ _ _ => trivial

theorem inferClauses_total {g : Globals} : ∀ (cs : List Clause) (locals : Locals) (ts : Tys Cell) (r : Ty Cell) (s : St), Live s → Scope s.next g.group → Scope s.next locals →
    Withins s.next ts → Within s.next r → Total (fun n => inferClauses n g locals ts r cs) s fun _ _ => True
  | [], locals, ts, r, s, hs, hg, hl, ht, hr => by simp only [inferClauses]; exact .pure hs trivial
  | .mk ps alternatives guard body :: cs, locals, ts, r, s, hs, hg, hl, ht, hr => by
    simp only [inferClauses]
    refine Total.bind (Q := fun t s' => Within s'.next t) (Total.inScope hs ?_ fun _ _ _ h => h) fun t s₁ l₁ m₁ w₁ => ?_
    · refine Total.bind (inferPatterns_total (mode := .initial) ps ts [] s hs trivial ht .nil) fun ⟨_, vars⟩ s₁ l₁ m₁ ⟨_, w₁⟩ => ?_
      refine Total.bind (inferAlternatives_total alternatives s₁ l₁ w₁ (ht.mono m₁)) fun _ s₂ l₂ m₂ _ => ?_
      have hv : Scope s₂.next (vars ++ locals) := (w₁.mono m₂).append ((hl.mono m₁).mono m₂)
      refine Total.bind (inferOptionalGuard_total guard l₂ hv) fun _ s₃ l₃ m₃ _ => ?_
      exact infer_total body (vars ++ locals) .nil s₃ l₃ (((hg.mono m₁).mono m₂).mono m₃) (hv.mono m₃) .nil
    · refine Total.bind (Total.unify l₁ (hr.mono m₁) w₁) fun _ s₂ l₂ m₂ _ => ?_
      exact inferClauses_total cs locals ts r s₂ l₂ ((hg.mono m₁).mono m₂) ((hl.mono m₁).mono m₂) ((ht.mono m₁).mono m₂) ((hr.mono m₁).mono m₂)

end

/-! ### Functions -/

/-- The types of the head are known. -/
structure Head.Known (N : Nat) (h : Head) : Prop where
  parameters : Withins N h.parameters
  return_ : Within N h.return_
  created : ∀ x t, h.hydrator.created.lookup x = some t → Within N t

theorem Head.Known.mono {N N' : Nat} {h : Head} (hk : h.Known N) (hN : N ≤ N') : h.Known N' :=
  ⟨hk.parameters.mono hN, hk.return_.mono hN, fun x t hx => (hk.created x t hx).mono hN⟩

theorem Head.Known.type {N : Nat} {h : Head} (hk : h.Known N) : Within N h.type := Within.fn.2 ⟨hk.parameters, hk.return_⟩

theorem registerFunction_total {types : List CustomType} {f : Fun} {s : St} (hs : Live s) : Total (fun _ => registerFunction types f) s fun h s' => h.Known s'.next := by
  unfold registerFunction
  refine Total.bind (Total.setHydrator hs fun x t h => by cases h) fun _ s₁ l₁ m₁ _ => ?_
  refine Total.bind (hydrateParameters_total types f.parameters s₁ l₁) fun ts s₂ l₂ m₂ w₂ => ?_
  refine Total.bind (hydrateOption_total types f.return_ s₂ l₂) fun r s₃ l₃ m₃ w₃ => ?_
  refine Total.bind (Total.getHydrator l₃) fun hy s₄ l₄ m₄ ⟨e₄, e₄'⟩ => ?_
  subst e₄ e₄'
  exact .pure l₄ ⟨w₂.mono m₃, w₃, l₄.created⟩

theorem registerAll_total {types : List CustomType} : ∀ (fs : List Fun) (s : St), Live s → Total (fun _ => registerAll types fs) s fun hs s' => ∀ h ∈ hs, h.Known s'.next
  | [], s, hs => by simp only [registerAll]; exact .pure hs fun h hh => by cases hh
  | f :: fs, s, hs => by
    simp only [registerAll]
    refine Total.bind (registerFunction_total hs) fun h s₁ l₁ m₁ w₁ => ?_
    refine Total.bind (registerAll_total fs s₁ l₁) fun hs' s₂ l₂ m₂ w₂ => ?_
    refine .pure l₂ fun k hk => ?_
    rcases List.mem_cons.1 hk with rfl | hk
    · exact w₁.mono m₂
    · exact w₂ k hk

theorem inferFunction_total {g : Globals} {h : Head} {s : St} (hs : Live s) (hg : Scope s.next g.group) (hk : h.Known s.next) :
    Total (fun n => inferFunction n g h) s fun _ _ => True := by
  unfold inferFunction
  refine Total.bind (Total.setHydrator hs hk.created) fun _ s₁ l₁ m₁ _ => ?_
  have hk := hk.mono m₁
  refine Total.bind (inferBody_total (body := fun n locals => inferStmts n g locals h.fun_.body) l₁ .nil hk.parameters (fun t ht => by cases ht; exact hk.return_) fun vars hv =>
    inferStmts_total h.fun_.body vars s₁ l₁ (hg.mono m₁) hv) fun t s₂ l₂ m₂ w₂ => ?_
  exact (Total.unify l₂ (hk.type.mono m₂) (Within.fn.2 ⟨hk.parameters.mono m₂, w₂⟩)).mono fun _ _ _ _ => trivial

theorem inferFunctions_total {g : Globals} : ∀ (hs : List Head) (s : St), Live s → Scope s.next g.group → (∀ h ∈ hs, h.Known s.next) →
    Total (fun n => inferFunctions n g hs) s fun _ _ => True
  | [], s, hs, hg, hk => by simp only [inferFunctions]; exact .pure hs trivial
  | h :: hs, s, hl, hg, hk => by
    simp only [inferFunctions]
    refine Total.bind (inferFunction_total hl hg (hk h List.mem_cons_self)) fun _ s₁ l₁ m₁ _ => ?_
    exact inferFunctions_total hs s₁ l₁ (hg.mono m₁) fun k hm => (hk k (List.mem_cons_of_mem _ hm)).mono m₁

theorem generaliseHeads_total : ∀ (hs : List Head) (s : St), Live s → Total (fun n => generaliseHeads n hs) s fun _ _ => True
  | [], s, hl => by simp only [generaliseHeads]; exact .pure hl trivial
  | h :: hs, s, hl => by
    simp only [generaliseHeads]
    refine Total.bind (Total.getHeap hl) fun heap s₁ l₁ m₁ ⟨e₁, e₁'⟩ => ?_
    subst e₁ e₁'
    obtain ⟨ρ, g⟩ := l₁.good
    obtain ⟨N, T, hT⟩ := generalise_total g h.type
    have h1 : Total (fun n => ofFuel (generalise n s₁.heap h.type)) s₁ fun _ _ => True :=
      .congr N (y := fun _ => pure T) (fun n hn => by rw [hT n hn]; rfl) (.pure l₁ trivial)
    refine Total.bind h1 fun T s₂ l₂ m₂ _ => ?_
    refine Total.bind (generaliseHeads_total hs s₂ l₂) fun Ts s₃ l₃ m₃ _ => ?_
    exact .pure l₃ trivial

theorem inferGroups_total {types : List Registered} : ∀ (groups : List (List Fun)) (values : List (String × Ty Nat)) (s : St), Live s →
    Total (fun n => inferGroups n types values groups) s fun _ _ => True
  | [], values, s, hs => by simp only [inferGroups]; exact .pure hs trivial
  | fs :: rest, values, s, hs => by
    simp only [inferGroups]
    refine Total.bind (registerAll_total fs s hs) fun heads s₁ l₁ m₁ w₁ => ?_
    refine Total.bind (inferFunctions_total heads s₁ l₁ (fun x t h => ?_) w₁) fun _ s₂ l₂ m₂ _ => ?_
    · obtain ⟨k, hk, e⟩ := List.mem_map.1 h
      cases e
      exact (w₁ k hk).type
    · refine Total.bind (generaliseHeads_total heads s₂ l₂) fun new s₃ l₃ m₃ _ => ?_
      exact inferGroups_total rest (new ++ values) s₃ l₃

theorem empty_live (k : Nat) : Live ⟨emptyHeap, k, ⟨[], []⟩⟩ where
  good := ⟨fun c => .var (.unbound c), ⟨(fun c t h => by cases h), (fun c id h => by cases h; rfl), (fun c id h => by cases h)⟩, (fun c d id h h' => by cases h; cases h'; rfl),
    ⟨fun _ => 0, fun c d h => by cases h⟩⟩
  later := fun c _ => rfl
  inside := fun c t _ h => by cases h
  created := fun x t h => by cases h

/-- Inference of a module has one outcome, with every fuel that is large enough. -/
theorem inferModule_ends (m : Module) : ∃ N r, r ≠ .error .fuel ∧ ∀ n, N ≤ n → inferModule n m = r := by
  unfold inferModule
  simp only
  split
  · obtain ⟨N, ⟨values, s', _, _, _, h⟩ | h⟩ := inferGroups_total (types := (registerTypes 0 m.allTypes).1) m.groups [] _ (empty_live (registerTypes 0 m.allTypes).2)
    · exact ⟨N, .ok values, by simp, fun n hn => by have := h n hn; simp only at this; rw [this]⟩
    · exact ⟨N, .error .rejected, by simp, fun n hn => by have := h n hn; simp only at this; rw [this]⟩
  · exact ⟨0, .error .rejected, by simp, fun _ _ => rfl⟩

end Verif.Infer
