import Verif.Infer.Best

/-!
Typed patterns keep the solution.
-/

namespace Verif.Infer

open Verif.Unify

/-! ### Variables -/

/-- The types of variables in the solution. -/
def Sol.reads (S : Sol) (ls : Locals) : TLocals := ls.map fun b => (b.1, S.of b.2)

def MadeLocals (s : St) (S : Sol) (ls : Locals) : Prop := ∀ b ∈ ls, Made s S b.2

theorem Sol.reads_append (S : Sol) (a b : Locals) : S.reads (a ++ b) = S.reads a ++ S.reads b := by simp [Sol.reads]

theorem Sol.reads_keys (S : Sol) (a : Locals) : (S.reads a).map (·.1) = a.map (·.1) := by simp [Sol.reads]

theorem Sol.reads_lookup (S : Sol) (x : String) : ∀ ls : Locals, (S.reads ls).lookup x = (ls.lookup x).map S.of
  | [] => rfl
  | (y, t) :: ls => by
    have ih := Sol.reads_lookup S x ls
    simp only [Sol.reads, List.map] at ih ⊢
    rw [List.lookup_cons, List.lookup_cons]
    cases x == y with
    | true => rfl
    | false => exact ih

theorem MadeLocals.nil {s : St} {S : Sol} : MadeLocals s S [] := fun b h => by cases h

theorem MadeLocals.append {s : St} {S : Sol} {a b : Locals} (ha : MadeLocals s S a) (hb : MadeLocals s S b) : MadeLocals s S (a ++ b) := by
  intro x hx
  rcases List.mem_append.1 hx with hx | hx
  · exact ha x hx
  · exact hb x hx

theorem MadeLocals.next {s s' : St} {S S' : Sol} {ls : Locals} (h : MadeLocals s S ls) (hn : Next s S s' S') : MadeLocals s' S' ls :=
  fun b hb => hn.made _ (h b hb)

theorem MadeLocals.lookup {s : St} {S : Sol} {ls : Locals} (h : MadeLocals s S ls) {x : String} {t : Ty Cell} (hx : ls.lookup x = some t) :
    Made s S t := h _ (lookup_mem hx)

theorem Next.reads {s s' : St} {S S' : Sol} (hn : Next s S s' S') {ls : Locals} (h : MadeLocals s S ls) : S'.reads ls = S.reads ls := by
  unfold Sol.reads
  refine List.map_congr_left fun b hb => ?_
  rw [hn.same _ (h b hb)]

/-! ### Variables of patterns -/

/-- Variables of an alternative can have the types they have in the first one. -/
def AltFits (S : Sol) (vars : Locals) (B : TLocals) : PMode → Prop
  | .initial => True
  | .alternative first => ∀ x τ, x ∉ vars.map (·.1) → B.lookup x = some τ → ∃ u, first.lookup x = some u ∧ S.of u = τ

def MadeMode (s : St) (S : Sol) : PMode → Prop
  | .initial => True
  | .alternative first => MadeLocals s S first

/-- There is place for the variables `B` after `vars`. -/
structure Room (strict : Prop) (mode : PMode) (s : St) (S : Sol) (vars : Locals) (B : TLocals) : Prop where
  made : MadeMode s S mode
  alt : AltFits S vars B mode
  nodup : strict → (vars.map (·.1) ++ B.map (·.1)).Nodup

theorem Room.next {strict : Prop} {mode : PMode} {s s' : St} {S S' : Sol} {vars : Locals} {B : TLocals} (h : Room strict mode s S vars B)
    (hn : Next s S s' S') : Room strict mode s' S' vars B := by
  refine ⟨?_, ?_, h.nodup⟩
  · have := h.made
    cases mode with
    | initial => trivial
    | alternative first => exact MadeLocals.next this hn
  · have h1 := h.made
    have h2 := h.alt
    cases mode with
    | initial => trivial
    | alternative first =>
      intro x τ hx hB
      obtain ⟨u, h3, h4⟩ := h2 x τ hx hB
      exact ⟨u, h3, by rw [hn.same u (MadeLocals.lookup h1 h3), h4]⟩

theorem lookup_append_left {α : Type} {x : String} {a : α} : ∀ {l l' : List (String × α)}, l.lookup x = some a → (l ++ l').lookup x = some a
  | [], l', h => by cases h
  | (y, b) :: l, l', h => by
    rw [List.cons_append, List.lookup_cons]
    rw [List.lookup_cons] at h
    split
    · next he => rw [he] at h; exact h
    · next he => rw [he] at h; exact lookup_append_left h

theorem lookup_append_right {α : Type} {x : String} {l' : List (String × α)} : ∀ {l : List (String × α)}, x ∉ l.map (·.1) → (l ++ l').lookup x = l'.lookup x
  | [], h => rfl
  | (y, b) :: l, h => by
    simp only [List.map, List.mem_cons, not_or] at h
    rw [List.cons_append, List.lookup_cons]
    have : (x == y) = false := by simpa using h.1
    rw [this]
    exact lookup_append_right h.2

theorem Room.left {strict : Prop} {mode : PMode} {s : St} {S : Sol} {vars : Locals} {B C : TLocals} (h : Room strict mode s S vars (B ++ C)) :
    Room strict mode s S vars B := by
  refine ⟨h.made, ?_, fun hs => ?_⟩
  · have h2 := h.alt
    cases mode with
    | initial => trivial
    | alternative first => exact fun x τ hx hB => h2 x τ hx (lookup_append_left hB)
  · have := h.nodup hs
    rw [List.map_append, ← List.append_assoc] at this
    exact (List.nodup_append.1 this).1

/-- What a pattern adds to the variables. -/
def Gets (s : St) (S : Sol) (vars : Locals) (B : TLocals) (vars' : Locals) : Prop :=
  ∃ new, vars' = vars ++ new ∧ MadeLocals s S new ∧ S.reads new = B

theorem Gets.nil {s : St} {S : Sol} {vars : Locals} : Gets s S vars [] vars := ⟨[], by simp, .nil, rfl⟩

theorem Gets.next {s s' : St} {S S' : Sol} {vars vars' : Locals} {B : TLocals} (h : Gets s S vars B vars') (hn : Next s S s' S') :
    Gets s' S' vars B vars' := by
  obtain ⟨new, h1, h2, h3⟩ := h
  exact ⟨new, h1, h2.next hn, by rw [hn.reads h2, h3]⟩

theorem Gets.trans {s : St} {S : Sol} {vars vars' vars'' : Locals} {B C : TLocals} (h : Gets s S vars B vars') (h' : Gets s S vars' C vars'') :
    Gets s S vars (B ++ C) vars'' := by
  obtain ⟨new, rfl, h2, h3⟩ := h
  obtain ⟨new', rfl, h4, h5⟩ := h'
  exact ⟨new ++ new', by simp, h2.append h4, by rw [Sol.reads_append, h3, h5]⟩

theorem Room.right {strict : Prop} {mode : PMode} {s s' : St} {S S' : Sol} {vars vars' : Locals} {B C : TLocals} (h : Room strict mode s S vars (B ++ C))
    (hn : Next s S s' S') (hg : Gets s' S' vars B vars') : Room strict mode s' S' vars' C := by
  obtain ⟨new, rfl, h2, rfl⟩ := hg
  have h' := h.next hn
  refine ⟨h'.made, ?_, fun hs => ?_⟩
  · have h2 := h'.alt
    cases mode with
    | initial => trivial
    | alternative first =>
      intro x τ hx hB
      simp only [List.map_append, List.mem_append, not_or] at hx
      refine h2 x τ hx.1 ?_
      rw [lookup_append_right (by rw [Sol.reads_keys]; exact hx.2)]
      exact hB
  · have := h.nodup hs
    rw [List.map_append, ← List.append_assoc, Sol.reads_keys] at this
    rw [List.map_append]
    exact this

section
variable {strict : Prop}

theorem insertVariable_best {n : Nat} {mode : PMode} {x : String} {t : Ty Cell} {τ : Tree} {vars : Locals} {s : St} {S : Sol}
    (hi : Fine s S) (ht : Made s S t) (hτ : S.of t = τ) (hr : Room strict mode s S vars [(x, τ)]) :
    Best strict (insertVariable n mode x t vars) s S fun vars' s' S' => Gets s' S' vars [(x, τ)] vars' := by
  unfold insertVariable
  by_cases hs : (vars.lookup x).isSome = true
  · rw [if_pos hs]
    refine Best.reject fun h => ?_
    have := hr.nodup h
    rw [List.nodup_append] at this
    cases hl : vars.lookup x with
    | none => rw [hl] at hs; cases hs
    | some a => exact this.2.2 x (List.mem_map_of_mem (lookup_mem hl)) x (by simp) rfl
  rw [if_neg hs]
  have gets : ∀ {s' S'}, Next s S s' S' → Gets s' S' vars [(x, τ)] (vars ++ [(x, t)]) := fun {s' S'} hn =>
    ⟨[(x, t)], rfl, fun b hb => by simp only [List.mem_singleton] at hb; subst hb; exact hn.made t ht, by
      simp only [Sol.reads, List.map, hn.same t ht, hτ]⟩
  cases mode with
  | initial => exact Best.pure hi (gets (.refl hi))
  | alternative first =>
    obtain ⟨u, h1, h2⟩ := hr.alt x τ (lookup_none_notMem hs) (by simp [List.lookup_cons])
    simp only [h1]
    refine Best.bind (unifyI_best hi (MadeLocals.lookup hr.made h1) ht (h2.trans hτ.symm)) fun _ s₁ S₁ n₁ _ => ?_
    exact Best.pure n₁.fine (gets n₁)

theorem insertOption_best {n : Nat} {mode : PMode} {x : Option String} {t : Ty Cell} {τ : Tree} {vars : Locals} {s : St} {S : Sol}
    (hi : Fine s S) (ht : Made s S t) (hτ : S.of t = τ) (hr : Room strict mode s S vars (optB x τ)) :
    Best strict (insertOption n mode x t vars) s S fun vars' s' S' => Gets s' S' vars (optB x τ) vars' := by
  cases x with
  | none => exact Best.pure hi .nil
  | some x => exact insertVariable_best hi ht hτ hr

theorem Made.zero (s : St) (S : Sol) (x : String) : Made s S (named0 x) := Low.zero _ x

theorem Made.eq {s : St} {S : Sol} {t u : Ty Cell} (h : Made s S t) (he : u.sub S.ρ = t.sub S.ρ) : Made s S u := by
  unfold Made at h ⊢
  rw [he]; exact h

theorem Sol.of_eq {S : Sol} {t u : Ty Cell} (he : u.sub S.ρ = t.sub S.ρ) : S.of u = S.of t := by
  unfold Sol.of
  rw [he]

theorem listElement_best {n : Nat} {t : Ty Cell} {α : Tree} {s : St} {S : Sol} (hi : Fine s S) (ht : Made s S t) (hτ : S.of t = tList α) :
    Best strict (listElement n t) s S fun a s' S' => Made s' S' a ∧ S'.of a = α := by
  unfold listElement
  refine Best.bind (collapseI_best hi) fun u s₁ S₁ _ hq => ?_
  obtain ⟨rfl, rfl, e1, nl⟩ := hq
  have mu := ht.eq e1
  have hu : S₁.of u = tList α := (Sol.of_eq e1).trans hτ
  cases hl : listArgument u with
  | some a =>
    unfold listArgument at hl
    split at hl
    case h_2 => cases hl
    next m x a' =>
    split at hl
    case isFalse => cases hl
    next hm =>
    cases hl
    obtain ⟨rfl, rfl⟩ := hm
    refine Best.pure hi ⟨Low.list.1 mu, ?_⟩
    have : tList (S₁.of a) = tList α := hu
    simp only [tList, Ty.named.injEq, Tys.cons.injEq, true_and, and_true] at this
    exact this
  | none =>
    cases u with
    | var c =>
      refine Best.bind (getHeap_best hi) fun hp s₂ S₂ _ hq => ?_
      obtain ⟨rfl, rfl, rfl⟩ := hq
      cases hv : s₂.heap c with
      | link v => exact absurd hv (nl v)
      | generic id =>
        have e := hi.good.reading.generic c id hv
        obtain ⟨_, _, h2⟩ := mu (.generic id) (by simp only [Ty.sub, e, Ty.Has])
        cases h2
      | unbound id =>
        refine Best.bind (fresh_best hi α) fun a s₃ S₃ n₃ ⟨m₃, e₃, p₃, r₃⟩ => ?_
        cases hoc : occurs n s₂.heap id a with
        | none => exact Best.outOfFuel
        | some b =>
          cases b with
          | true => exact Best.outOfFuel
          | false =>
            have ho := occurs_right s₂.heap S₂.ρ hi.good.reading id n a false hoc
            refine Best.bind (linkTo_best (id := id) n₃.fine (by rw [p₃]; exact hv) trivial ?_ (Low.list.2 m₃) (n₃.made _ mu) ?_) fun _ s₄ S₄ n₄ _ => ?_
            · rw [r₃]
              simp only [tList, Ty.sub, Tys.sub, Ty.Has, Tys.Has, or_false]
              exact fun hh => by simpa using ho.2 hh
            · rw [n₃.same _ mu, hu, Sol.of_list, e₃]
            · exact Best.pure n₄.fine ⟨n₄.made _ m₃, (n₄.same _ m₃).trans e₃⟩
    | named m x as =>
      exfalso
      rw [Sol.of_named, tList, Ty.named.injEq] at hu
      obtain ⟨rfl, rfl, h3⟩ := hu
      cases as with
      | nil => cases h3
      | cons a as =>
        cases as with
        | nil => simp [listArgument] at hl
        | cons b as =>
          simp only [Sol.ofs_cons, Tys.cons.injEq] at h3
          exact nomatch h3.2
    | fn | tuple => cases hu

theorem findConstructor_none {x : String} : ∀ {rs : List Registered}, findConstructor rs x = none → ∀ r ∈ rs, ∀ v ∈ r.type.variants, v.name ≠ x
  | [], _, r, hr, _, _ => by cases hr
  | q :: rs, h, r, hr, v, hv => by
    unfold findConstructor at h
    split at h
    · cases h
    · next hn =>
      rcases List.mem_cons.1 hr with rfl | hr
      · simpa using List.find?_eq_none.1 hn v hv
      · exact findConstructor_none h r hr v hv

theorem PTypedAll.length {types : List CustomType} : ∀ {ps : List Pattern} {ts : Tys Leaf} {B : TLocals}, PTypedAll types ps ts B → ps.length = ts.length
  | [], ts, B, h => by
    simp only [PTypedAll] at h
    rw [h.1]; rfl
  | p :: ps, ts, B, h => by
    simp only [PTypedAll] at h
    obtain ⟨t, us, B₁, B₂, rfl, _, h2, _⟩ := h
    simp only [List.length, Tys.length, PTypedAll.length h2]

/-- A constructor that is found is the one that is meant. -/
theorem findConstructor_is {g : Globals} (hg : GoodTypes g.customTypes) {x : String} {ct : CustomType} {v : Variant} (hct : ct ∈ g.customTypes)
    (hv : v ∈ ct.variants) (hx : v.name = x) : ∃ r, findConstructor g.types x = some (r, v) ∧ r.type = ct := by
  cases hf : findConstructor g.types x with
  | none =>
    obtain ⟨r, hr, rfl⟩ := List.mem_map.1 hct
    exact absurd hx (findConstructor_none hf r hr v hv)
  | some p =>
    obtain ⟨r, w⟩ := p
    obtain ⟨h1, h2, h3⟩ := findConstructor_some hf
    obtain ⟨e1, e2⟩ := hg.constructors ct hct v hv r.type (List.mem_map_of_mem h1) w h2 (hx.trans h3.symm)
    subst e2
    exact ⟨r, rfl, e1.symm⟩

theorem constructor_at (r : Registered) (v : Variant) (f : Nat → Tree) :
    (constructorType r.type v r.id).sub (fun j => f (j - r.base)) = constructorType r.type v f := by
  rw [constructor_sub]
  congr 1
  funext i
  congr 1
  omega

mutual

theorem inferPattern_best {n : Nat} {g : Globals} (hg : GoodTypes g.customTypes) {mode : PMode} : ∀ (p : Pattern) (t : Ty Cell) (τ : Tree) (B : TLocals)
    (vars : Locals) (s : St) (S : Sol), Fine s S → Made s S t → S.of t = τ → PTyped g.customTypes p τ B → Room strict mode s S vars B →
    Best strict (inferPattern n g mode p t vars) s S fun r s' S' => (Made s' S' r.1 ∧ S'.of r.1 = τ) ∧ Gets s' S' vars B r.2
  | .discard, t, τ, B, vars, s, S, hi, ht, hτ, h, hr => by
    simp only [PTyped] at h
    subst h
    unfold inferPattern
    exact Best.pure hi ⟨⟨ht, hτ⟩, .nil⟩
  | .var x, t, τ, B, vars, s, S, hi, ht, hτ, h, hr => by
    simp only [PTyped] at h
    subst h
    unfold inferPattern
    refine Best.bind (insertVariable_best hi ht hτ hr) fun vars' s₁ S₁ n₁ g₁ => ?_
    exact Best.pure n₁.fine ⟨⟨n₁.made t ht, (n₁.same t ht).trans hτ⟩, g₁⟩
  | .int _, t, τ, B, vars, s, S, hi, ht, hτ, h, hr => by
    simp only [PTyped] at h
    obtain ⟨rfl, rfl⟩ := h
    unfold inferPattern
    refine Best.bind (unifyI_best hi ht (Made.zero s S _) hτ) fun _ s₁ S₁ n₁ _ => ?_
    exact Best.pure n₁.fine ⟨⟨Made.zero _ _ _, rfl⟩, .nil⟩
  | .float _, t, τ, B, vars, s, S, hi, ht, hτ, h, hr => by
    simp only [PTyped] at h
    obtain ⟨rfl, rfl⟩ := h
    unfold inferPattern
    refine Best.bind (unifyI_best hi ht (Made.zero s S _) hτ) fun _ s₁ S₁ n₁ _ => ?_
    exact Best.pure n₁.fine ⟨⟨Made.zero _ _ _, rfl⟩, .nil⟩
  | .string _, t, τ, B, vars, s, S, hi, ht, hτ, h, hr => by
    simp only [PTyped] at h
    obtain ⟨rfl, rfl⟩ := h
    unfold inferPattern
    refine Best.bind (unifyI_best hi ht (Made.zero s S _) hτ) fun _ s₁ S₁ n₁ _ => ?_
    exact Best.pure n₁.fine ⟨⟨Made.zero _ _ _, rfl⟩, .nil⟩
  | .prefix _ left right, t, τ, B, vars, s, S, hi, ht, hτ, h, hr => by
    simp only [PTyped] at h
    obtain ⟨rfl, rfl⟩ := h
    unfold inferPattern
    refine Best.bind (unifyI_best hi ht (Made.zero s S _) hτ) fun _ s₁ S₁ n₁ _ => ?_
    have hr₁ := hr.next n₁
    refine Best.bind (insertOption_best n₁.fine (Made.zero _ _ _) rfl hr₁.left) fun vars₂ s₂ S₂ n₂ g₂ => ?_
    refine Best.bind (insertOption_best n₂.fine (Made.zero _ _ _) rfl (hr₁.right n₂ g₂)) fun vars₃ s₃ S₃ n₃ g₃ => ?_
    exact Best.pure n₃.fine ⟨⟨Made.zero _ _ _, rfl⟩, (g₂.next n₃).trans g₃⟩
  | .assign p x, t, τ, B, vars, s, S, hi, ht, hτ, h, hr => by
    simp only [PTyped] at h
    obtain ⟨C, h, rfl⟩ := h
    unfold inferPattern
    refine Best.bind (inferPattern_best hg p t τ C vars s S hi ht hτ h hr.left) fun r s₁ S₁ n₁ ⟨⟨m₁, e₁⟩, g₁⟩ => ?_
    refine Best.bind (insertVariable_best n₁.fine m₁ e₁ (hr.right n₁ g₁)) fun vars₂ s₂ S₂ n₂ g₂ => ?_
    exact Best.pure n₂.fine ⟨⟨n₂.made _ m₁, (n₂.same _ m₁).trans e₁⟩, (g₁.next n₂).trans g₂⟩
  | .list ps none, t, τ, B, vars, s, S, hi, ht, hτ, h, hr => by
    simp only [PTyped] at h
    obtain ⟨α, rfl, h⟩ := h
    unfold inferPattern
    refine Best.bind (listElement_best hi ht hτ) fun a s₁ S₁ n₁ ⟨m₁, e₁⟩ => ?_
    refine Best.bind (inferPatternsAt_best hg ps a α B vars s₁ S₁ n₁.fine m₁ e₁ h (hr.next n₁)) fun vars₂ s₂ S₂ n₂ g₂ => ?_
    exact Best.pure n₂.fine ⟨⟨Low.list.2 (n₂.made _ m₁), by rw [Sol.of_list, n₂.same _ m₁, e₁]⟩, g₂⟩
  | .list ps (some q), t, τ, B, vars, s, S, hi, ht, hτ, h, hr => by
    simp only [PTyped] at h
    obtain ⟨α, B₁, B₂, rfl, h1, h2, rfl⟩ := h
    unfold inferPattern
    refine Best.bind (listElement_best hi ht hτ) fun a s₁ S₁ n₁ ⟨m₁, e₁⟩ => ?_
    have hr₁ := hr.next n₁
    refine Best.bind (inferPatternsAt_best hg ps a α B₁ vars s₁ S₁ n₁.fine m₁ e₁ h1 hr₁.left) fun vars₂ s₂ S₂ n₂ g₂ => ?_
    have m₂ := n₂.made _ m₁
    have e₂ := (n₂.same _ m₁).trans e₁
    refine Best.bind (inferPattern_best hg q (tList a) (tList α) B₂ vars₂ s₂ S₂ n₂.fine (Low.list.2 m₂) (by rw [Sol.of_list, e₂]) h2 (hr₁.right n₂ g₂))
      fun r s₃ S₃ n₃ ⟨_, g₃⟩ => ?_
    exact Best.pure n₃.fine ⟨⟨Low.list.2 (n₃.made _ m₂), by rw [Sol.of_list, n₃.same _ m₂, e₂]⟩, (g₂.next n₃).trans g₃⟩
  | .tuple ps, t, τ, B, vars, s, S, hi, ht, hτ, h, hr => by
    simp only [PTyped] at h
    obtain ⟨τs, rfl, h⟩ := h
    unfold inferPattern
    refine Best.bind (collapseI_best hi) fun u s₁ S₁ _ hq => ?_
    obtain ⟨rfl, rfl, e1, nl⟩ := hq
    have mu := ht.eq e1
    have hu : S₁.of u = .tuple τs := (Sol.of_eq e1).trans hτ
    cases u with
    | tuple ts =>
      rw [Sol.of_tuple, Ty.tuple.injEq] at hu
      simp only
      rw [if_pos (by rw [h.length, ← hu, Sol.ofs_length])]
      refine Best.bind (inferPatterns_best hg ps ts τs B vars s₁ S₁ hi mu hu h hr) fun r s₂ S₂ n₂ ⟨⟨m₂, e₂⟩, g₂⟩ => ?_
      exact Best.pure n₂.fine ⟨⟨m₂, by rw [Sol.of_tuple, e₂]⟩, g₂⟩
    | var c =>
      refine Best.bind (freshes_best ps.length hi τs h.length.symm) fun ts s₂ S₂ n₂ ⟨m₂, e₂, _, _⟩ => ?_
      refine Best.bind (unifyI_best n₂.fine (Low.tuple.2 m₂) (n₂.made _ ht) (by rw [Sol.of_tuple, e₂, n₂.same _ ht, hτ])) fun _ s₃ S₃ n₃ _ => ?_
      refine Best.bind (inferPatterns_best hg ps ts τs B vars s₃ S₃ n₃.fine (n₃.mades _ m₂) ((n₃.sames _ m₂).trans e₂) h ((hr.next n₂).next n₃))
        fun r s₄ S₄ n₄ ⟨⟨m₄, e₄⟩, g₄⟩ => ?_
      exact Best.pure n₄.fine ⟨⟨m₄, by rw [Sol.of_tuple, e₄]⟩, g₄⟩
    | named | fn => cases hu
  | .ctor x ps, t, τ, B, vars, s, S, hi, ht, hτ, h, hr => by
    simp only [PTyped] at h
    obtain ⟨ct, hct, v, hv, hx, f, rfl, h⟩ := h
    obtain ⟨r, hf, rfl⟩ := findConstructor_is hg hct hv hx
    unfold inferPattern
    simp only [hf]
    refine Best.bind (instScheme_best (fun j => f (j - r.base)) _ [] hi (fun _ _ h => by cases h)) fun q s₁ S₁ n₁ ⟨m₁, e₁, _⟩ => ?_
    rw [constructor_at] at e₁
    have ht₁ := n₁.made _ ht
    have hτ₁ := (n₁.same _ ht).trans hτ
    obtain ⟨c, ids⟩ := q
    simp only at e₁ m₁ ⊢
    cases c with
    | fn ts w =>
      unfold constructorType at e₁
      split at e₁
      · cases e₁
      rw [Sol.of_fn, Ty.fn.injEq] at e₁
      have m₁' := Low.fn.1 m₁
      refine Best.bind (unifyI_best n₁.fine ht₁ m₁'.2 (hτ₁.trans e₁.2.symm)) fun _ s₂ S₂ n₂ _ => ?_
      have hl : ts.length = ps.length := by rw [h.length, ← e₁.1, Sol.ofs_length]
      refine Best.bind (Q := fun _ s' S' => s' = s₂ ∧ S' = S₂) (Best.check n₂.fine (fun _ => ⟨rfl, rfl⟩) (fun _ => by simpa using hl)) fun _ s₃ S₃ _ hq => ?_
      obtain ⟨rfl, rfl⟩ := hq
      refine Best.bind (inferPatterns_best hg ps ts _ B vars s₃ S₃ n₂.fine (n₂.mades _ m₁'.1) ((n₂.sames _ m₁'.1).trans e₁.1) h
        ((hr.next n₁).next n₂)) fun q s₄ S₄ n₄ ⟨_, g₄⟩ => ?_
      have m₂ := n₂.made _ m₁'.2
      exact Best.pure n₄.fine ⟨⟨n₄.made _ m₂, (n₄.same _ m₂).trans ((n₂.same _ m₁'.2).trans e₁.2)⟩, g₄⟩
    | named m x as =>
      unfold constructorType at e₁
      split at e₁
      case h_2 => cases e₁
      next hn =>
      refine Best.bind (unifyI_best n₁.fine ht₁ m₁ (hτ₁.trans e₁.symm)) fun _ s₂ S₂ n₂ _ => ?_
      rw [hn] at h
      have hps : ps = [] := by
        have := h.length
        simp only [fieldTypes, Tys.length] at this
        exact List.length_eq_zero_iff.1 this
      subst hps
      simp only [PTypedAll] at h
      obtain ⟨_, rfl⟩ := h
      refine Best.bind (Q := fun _ s' S' => s' = s₂ ∧ S' = S₂) (Best.check n₂.fine (fun _ => ⟨rfl, rfl⟩) (fun _ => rfl)) fun _ s₃ S₃ _ hq => ?_
      obtain ⟨rfl, rfl⟩ := hq
      exact Best.pure n₂.fine ⟨⟨n₂.made _ m₁, (n₂.same _ m₁).trans e₁⟩, .nil⟩
    | var | tuple => exact Best.outOfFuel

theorem inferPatterns_best {n : Nat} {g : Globals} (hg : GoodTypes g.customTypes) {mode : PMode} : ∀ (ps : List Pattern) (ts : Tys Cell) (τs : Tys Leaf)
    (B : TLocals) (vars : Locals) (s : St) (S : Sol), Fine s S → Mades s S ts → S.ofs ts = τs → PTypedAll g.customTypes ps τs B →
    Room strict mode s S vars B →
    Best strict (inferPatterns n g mode ps ts vars) s S fun r s' S' => (Mades s' S' r.1 ∧ S'.ofs r.1 = τs) ∧ Gets s' S' vars B r.2
  | [], ts, τs, B, vars, s, S, hi, ht, hτ, h, hr => by
    simp only [PTypedAll] at h
    obtain ⟨rfl, rfl⟩ := h
    cases ts with
    | cons => cases hτ
    | nil =>
      unfold inferPatterns
      exact Best.pure hi ⟨⟨.nil, rfl⟩, .nil⟩
  | p :: ps, ts, τs, B, vars, s, S, hi, ht, hτ, h, hr => by
    simp only [PTypedAll] at h
    obtain ⟨τ, τs', B₁, B₂, rfl, h1, h2, rfl⟩ := h
    cases ts with
    | nil => cases hτ
    | cons t ts =>
      rw [Sol.ofs_cons, Tys.cons.injEq] at hτ
      have hc := Lows.cons.1 ht
      unfold inferPatterns
      refine Best.bind (inferPattern_best hg p t τ B₁ vars s S hi hc.1 hτ.1 h1 hr.left) fun r s₁ S₁ n₁ ⟨⟨m₁, e₁⟩, g₁⟩ => ?_
      refine Best.bind (inferPatterns_best hg ps ts τs' B₂ r.2 s₁ S₁ n₁.fine (n₁.mades _ hc.2) ((n₁.sames _ hc.2).trans hτ.2) h2 (hr.right n₁ g₁))
        fun q s₂ S₂ n₂ ⟨⟨m₂, e₂⟩, g₂⟩ => ?_
      exact Best.pure n₂.fine ⟨⟨Lows.cons.2 ⟨n₂.made _ m₁, m₂⟩, by rw [Sol.ofs_cons, n₂.same _ m₁, e₁, e₂]⟩, (g₁.next n₂).trans g₂⟩

theorem inferPatternsAt_best {n : Nat} {g : Globals} (hg : GoodTypes g.customTypes) {mode : PMode} : ∀ (ps : List Pattern) (t : Ty Cell) (τ : Tree)
    (B : TLocals) (vars : Locals) (s : St) (S : Sol), Fine s S → Made s S t → S.of t = τ → PTypedAt g.customTypes ps τ B →
    Room strict mode s S vars B → Best strict (inferPatternsAt n g mode ps t vars) s S fun vars' s' S' => Gets s' S' vars B vars'
  | [], t, τ, B, vars, s, S, hi, ht, hτ, h, hr => by
    simp only [PTypedAt] at h
    subst h
    unfold inferPatternsAt
    exact Best.pure hi .nil
  | p :: ps, t, τ, B, vars, s, S, hi, ht, hτ, h, hr => by
    simp only [PTypedAt] at h
    obtain ⟨B₁, B₂, h1, h2, rfl⟩ := h
    unfold inferPatternsAt
    refine Best.bind (inferPattern_best hg p t τ B₁ vars s S hi ht hτ h1 hr.left) fun r s₁ S₁ n₁ ⟨_, g₁⟩ => ?_
    refine Best.mono (inferPatternsAt_best hg ps t τ B₂ r.2 s₁ S₁ n₁.fine (n₁.made _ ht) ((n₁.same _ ht).trans hτ) h2 (hr.right n₁ g₁))
      fun vars₂ s₂ S₂ n₂ g₂ => ?_
    exact (g₁.next n₂).trans g₂

end

end
end Verif.Infer
