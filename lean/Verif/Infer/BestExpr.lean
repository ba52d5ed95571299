import Verif.Infer.BestPattern
import Verif.Infer.PrincipalSpec
import Mathlib.Data.List.Perm.Subperm

/-!
Typed expressions keep the solution.
-/

namespace Verif.Infer

open Verif.Unify

/-! ### Names that are different -/

theorem nodup_of_different : ∀ {l : List String}, different l = true → l.Nodup
  | [], _ => List.nodup_nil
  | x :: l, h => by
    simp only [different, Bool.and_eq_true, Bool.not_eq_true', List.contains_eq_mem, decide_eq_false_iff_not] at h
    exact List.nodup_cons.2 ⟨h.1, nodup_of_different h.2⟩

theorem optB_keys (x : Option String) (τ : Tree) : (optB x τ).map (·.1) = x.toList := by
  cases x <;> rfl

mutual

theorem PTyped.keys {types : List CustomType} : ∀ (p : Pattern) (τ : Tree) (B : TLocals), PTyped types p τ B → B.map (·.1) = p.binds
  | .discard, τ, B, h => by simp only [PTyped] at h; subst h; rfl
  | .var x, τ, B, h => by simp only [PTyped] at h; subst h; rfl
  | .int _, τ, B, h => by simp only [PTyped] at h; rw [h.2]; rfl
  | .float _, τ, B, h => by simp only [PTyped] at h; rw [h.2]; rfl
  | .string _, τ, B, h => by simp only [PTyped] at h; rw [h.2]; rfl
  | .assign p x, τ, B, h => by
    simp only [PTyped] at h
    obtain ⟨C, h, rfl⟩ := h
    rw [List.map_append, PTyped.keys p τ C h]; rfl
  | .tuple ps, τ, B, h => by
    simp only [PTyped] at h
    obtain ⟨ts, _, h⟩ := h
    exact PTypedAll.keys ps ts B h
  | .list ps none, τ, B, h => by
    simp only [PTyped] at h
    obtain ⟨a, _, h⟩ := h
    exact PTypedAt.keys ps a B h
  | .list ps (some q), τ, B, h => by
    simp only [PTyped] at h
    obtain ⟨a, B₁, B₂, _, h1, h2, rfl⟩ := h
    rw [List.map_append, PTypedAt.keys ps a B₁ h1, PTyped.keys q _ B₂ h2]; rfl
  | .ctor x ps, τ, B, h => by
    simp only [PTyped] at h
    obtain ⟨_, _, _, _, _, f, _, h⟩ := h
    exact PTypedAll.keys ps _ B h
  | .prefix _ l r, τ, B, h => by
    simp only [PTyped] at h
    rw [h.2, List.map_append, optB_keys, optB_keys]; rfl

theorem PTypedAll.keys {types : List CustomType} : ∀ (ps : List Pattern) (ts : Tys Leaf) (B : TLocals), PTypedAll types ps ts B → B.map (·.1) = patternsBind ps
  | [], ts, B, h => by simp only [PTypedAll] at h; rw [h.2]; rfl
  | p :: ps, ts, B, h => by
    simp only [PTypedAll] at h
    obtain ⟨t, us, B₁, B₂, _, h1, h2, rfl⟩ := h
    rw [List.map_append, PTyped.keys p t B₁ h1, PTypedAll.keys ps us B₂ h2]; rfl

theorem PTypedAt.keys {types : List CustomType} : ∀ (ps : List Pattern) (t : Tree) (B : TLocals), PTypedAt types ps t B → B.map (·.1) = patternsBind ps
  | [], t, B, h => by simp only [PTypedAt] at h; rw [h]; rfl
  | p :: ps, t, B, h => by
    simp only [PTypedAt] at h
    obtain ⟨B₁, B₂, h1, h2, rfl⟩ := h
    rw [List.map_append, PTyped.keys p t B₁ h1, PTypedAt.keys ps t B₂ h2]; rfl

end

/-! ### Names of functions -/

/-- What functions and constructors the typing and the inference know. -/
structure Knows (E : TEnv) (g : Globals) (s : St) (S : Sol) : Prop where
  types : E.types = g.customTypes
  good : GoodTypes g.customTypes
  group : ∀ x t, g.group.lookup x = some t → x ∈ E.names ∧ Made s S t ∧ ∀ τ, E.Δ x τ → τ = S.of t
  values : ∀ x T, g.group.lookup x = none → g.values.lookup x = some T → x ∈ E.names ∧ ∀ τ, E.Δ x τ → ∃ θ : Nat → Tree, τ = T.sub θ
  other : ∀ x, g.group.lookup x = none → g.values.lookup x = none → x ∈ E.names → ∀ τ, ¬ E.Δ x τ

/-- The state at an expression. -/
structure At (E : TEnv) (g : Globals) (s : St) (S : Sol) (locals : Locals) (Γ : TLocals) : Prop where
  fine : Fine s S
  knows : Knows E g s S
  made : MadeLocals s S locals
  reads : S.reads locals = Γ

section
variable {strict : Prop} {E : TEnv} {n : Nat} {g : Globals}

theorem Knows.next {s s' : St} {S S' : Sol} (h : Knows E g s S) (hn : Next s S s' S') : Knows E g s' S' :=
  ⟨h.types, h.good, fun x t hx => ⟨(h.group x t hx).1, hn.made _ (h.group x t hx).2.1, fun τ hτ => by
    rw [hn.same _ (h.group x t hx).2.1]; exact (h.group x t hx).2.2 τ hτ⟩, h.values, h.other⟩

theorem At.next {s s' : St} {S S' : Sol} {locals : Locals} {Γ : TLocals} (h : At E g s S locals Γ) (hn : Next s S s' S') : At E g s' S' locals Γ :=
  ⟨hn.fine, h.knows.next hn, h.made.next hn, (hn.reads h.made).trans h.reads⟩

theorem At.more {s : St} {S : Sol} {locals vars : Locals} {Γ B : TLocals} (h : At E g s S locals Γ) (hm : MadeLocals s S vars) (hB : S.reads vars = B) :
    At E g s S (vars ++ locals) (B ++ Γ) :=
  ⟨h.fine, h.knows, hm.append h.made, by rw [Sol.reads_append, hB, h.reads]⟩

theorem At.gets {s : St} {S : Sol} {locals vars : Locals} {Γ B : TLocals} (h : At E g s S locals Γ) (hg : Gets s S [] B vars) :
    At E g s S (vars ++ locals) (B ++ Γ) := by
  obtain ⟨new, rfl, h1, h2⟩ := hg
  exact h.more h1 h2

/-- What a computation of a type gives. -/
abbrev Type' (τ : Tree) : Ty Cell → St → Sol → Prop := fun t s S => Made s S t ∧ S.of t = τ

abbrev Types' (τs : Tys Leaf) : Tys Cell → St → Sol → Prop := fun ts s S => Mades s S ts ∧ S.ofs ts = τs

theorem Next.type {s s' : St} {S S' : Sol} (hn : Next s S s' S') {t : Ty Cell} {τ : Tree} (h : Made s S t ∧ S.of t = τ) : Made s' S' t ∧ S'.of t = τ :=
  ⟨hn.made t h.1, (hn.same t h.1).trans h.2⟩

theorem Next.types {s s' : St} {S S' : Sol} (hn : Next s S s' S') {ts : Tys Cell} {τs : Tys Leaf} (h : Mades s S ts ∧ S.ofs ts = τs) :
    Mades s' S' ts ∧ S'.ofs ts = τs :=
  ⟨hn.mades ts h.1, (hn.sames ts h.1).trans h.2⟩

theorem instantiate_type {t : Ty Cell} {τ : Tree} {s : St} {S : Sol} (hi : Fine s S) (h : Made s S t ∧ S.of t = τ) :
    Best strict (do let (t, _) ← instantiate n t []; pure t : I (Ty Cell)) s S (Type' τ) := by
  refine Best.bind (instantiate_best hi n t [] h.1) fun p s₁ S₁ _ hq => ?_
  obtain ⟨rfl, rfl, e⟩ := hq
  exact Best.pure hi ⟨h.1.eq e, (Sol.of_eq e).trans h.2⟩

theorem instScheme_type {T : Ty Nat} (f : Nat → Tree) {τ : Tree} {s : St} {S : Sol} (hi : Fine s S) (h : T.sub f = τ) :
    Best strict (do let (t, _) ← instScheme T []; pure t : I (Ty Cell)) s S (Type' τ) := by
  refine Best.bind (instScheme_best f T [] hi (fun _ _ h => by cases h)) fun p s₁ S₁ n₁ ⟨m₁, e₁, _⟩ => ?_
  exact Best.pure n₁.fine ⟨m₁, e₁.trans h⟩

theorem inferVar_best {locals : Locals} {Γ : TLocals} {x : String} {τ : Tree} {s : St} {S : Sol} (ha : At E g s S locals Γ) (h : VarTy E Γ x τ) :
    Best strict (inferVar n g locals x) s S (Type' τ) := by
  unfold VarTy at h
  rw [← ha.reads, Sol.reads_lookup] at h
  unfold inferVar
  cases hl : locals.lookup x with
  | some t =>
    rw [hl] at h
    exact instantiate_type ha.fine ⟨ha.made.lookup hl, h.symm⟩
  | none =>
    rw [hl] at h
    simp only [Option.map_none] at h
    cases hg : g.group.lookup x with
    | some t =>
      obtain ⟨h1, h2, h3⟩ := ha.knows.group x t hg
      rw [if_pos h1] at h
      exact instantiate_type ha.fine ⟨h2, (h3 τ h).symm⟩
    | none =>
      cases hv : g.values.lookup x with
      | some T =>
        obtain ⟨h1, h2⟩ := ha.knows.values x T hg hv
        rw [if_pos h1] at h
        obtain ⟨θ, h3⟩ := h2 τ h
        exact instScheme_type θ ha.fine h3.symm
      | none =>
        split at h
        · next hx => exact absurd h (ha.knows.other x hg hv hx τ)
        · obtain ⟨ct, hct, v, hv, hx, f, rfl⟩ := h
          rw [ha.knows.types] at hct
          obtain ⟨r, hf, rfl⟩ := findConstructor_is ha.knows.good hct hv hx
          simp only [hf]
          exact instScheme_type _ ha.fine (constructor_at r v f)

/-! ### Operators and guards -/

theorem op_types (op : Op) : (∀ V : Type, (op.types : Option (Ty V × Ty V)) = none) ∨
    ∃ i o, ∀ V : Type, (op.types : Option (Ty V × Ty V)) = some (named0 i, named0 o) := by
  cases op
  case eq | notEq => exact .inl fun V => rfl
  all_goals exact .inr ⟨_, _, fun V => rfl⟩

theorem inferOperator_best {op : Op} {l r : Ty Cell} {a b τ : Tree} {s : St} {S : Sol} (hi : Fine s S) (hl : Made s S l ∧ S.of l = a)
    (hr : Made s S r ∧ S.of r = b) (h : OpTy op a b τ) : Best strict (inferOperator n op l r) s S (Type' τ) := by
  unfold inferOperator
  unfold OpTy at h
  rcases op_types op with ho | ⟨i, o, ho⟩
  · rw [ho] at h ⊢
    obtain ⟨rfl, rfl⟩ := h
    refine Best.bind (unifyI_best hi hl.1 hr.1 (hl.2.trans hr.2.symm)) fun _ s₁ S₁ n₁ _ => ?_
    exact Best.pure n₁.fine ⟨Made.zero _ _ _, rfl⟩
  · rw [ho] at h ⊢
    obtain ⟨rfl, rfl, rfl⟩ := h
    refine Best.bind (unifyI_best hi (Made.zero _ _ _) hl.1 hl.2.symm) fun _ s₁ S₁ n₁ _ => ?_
    have hr₁ := n₁.type hr
    refine Best.bind (unifyI_best n₁.fine (Made.zero _ _ _) hr₁.1 hr₁.2.symm) fun _ s₂ S₂ n₂ _ => ?_
    exact Best.pure n₂.fine ⟨Made.zero _ _ _, rfl⟩

theorem inferGuard_best {locals : Locals} {Γ : TLocals} : ∀ (e : Guard) (τ : Tree) {s : St} {S : Sol}, At E g s S locals Γ → GTyped Γ e τ →
    (strict → e.direct = true) → Best strict (inferGuard n locals e) s S (Type' τ)
  | .var x, τ, s, S, ha, h, hd => by
    simp only [GTyped] at h
    rw [← ha.reads, Sol.reads_lookup] at h
    unfold inferGuard
    cases hl : locals.lookup x with
    | some t =>
      rw [hl] at h
      simp only [Option.map_some, Option.some.injEq] at h
      exact instantiate_type ha.fine ⟨ha.made.lookup hl, h⟩
    | none => rw [hl] at h; cases h
  | .int _, τ, s, S, ha, h, hd => by
    simp only [GTyped] at h
    subst h
    exact Best.pure ha.fine ⟨Made.zero _ _ _, rfl⟩
  | .float _, τ, s, S, ha, h, hd => by
    simp only [GTyped] at h
    subst h
    exact Best.pure ha.fine ⟨Made.zero _ _ _, rfl⟩
  | .string _, τ, s, S, ha, h, hd => by
    simp only [GTyped] at h
    subst h
    exact Best.pure ha.fine ⟨Made.zero _ _ _, rfl⟩
  | .block e, τ, s, S, ha, h, hd => inferGuard_best e τ ha h hd
  | .not e, τ, s, S, ha, h, hd => by
    simp only [GTyped] at h
    obtain ⟨h, rfl⟩ := h
    unfold inferGuard
    refine Best.bind (inferGuard_best e _ ha h hd) fun t s₁ S₁ n₁ h₁ => ?_
    refine Best.bind (unifyI_best n₁.fine (Made.zero _ _ _) h₁.1 h₁.2.symm) fun _ s₂ S₂ n₂ _ => ?_
    exact Best.pure n₂.fine ⟨Made.zero _ _ _, rfl⟩
  | .bin op l r, τ, s, S, ha, h, hd => by
    simp only [GTyped] at h
    obtain ⟨a, b, h1, h2, h3⟩ := h
    unfold inferGuard
    have hd' : strict → l.direct = true ∧ r.direct = true := fun hs => by simpa [Guard.direct] using hd hs
    refine Best.bind (inferGuard_best l a ha h1 fun hs => (hd' hs).1) fun t s₁ S₁ n₁ h₁ => ?_
    refine Best.bind (inferGuard_best r b (ha.next n₁) h2 fun hs => (hd' hs).2) fun u s₂ S₂ n₂ h₂ => ?_
    exact inferOperator_best n₂.fine (n₂.type h₁) h₂ h3
  | .index e i, τ, s, S, ha, h, hd => by
    have hs : ¬ strict := fun hs => by simpa [Guard.direct] using hd hs
    simp only [GTyped] at h
    obtain ⟨τs, h1, h2⟩ := h
    unfold inferGuard
    refine Best.bind (inferGuard_best e _ ha h1 fun h => absurd h hs) fun t s₁ S₁ n₁ h₁ => ?_
    cases t with
    | tuple ts =>
      have h3 := h₁.2
      rw [Sol.of_tuple, Ty.tuple.injEq] at h3
      refine Best.expect n₁.fine (fun u hu => ?_) fun h => absurd h hs
      have h4 := Sol.ofs_get S₁ ts i
      rw [h3, h2, hu] at h4
      simp only [Option.map_some, Option.some.injEq] at h4
      exact ⟨Lows.get h₁.1 (i := i) (by rw [list_sub, hu]; rfl), h4.symm⟩
    | var | named | fn => exact Best.reject hs
where
  list_sub {ρ : Cell → Tree} : ∀ {ts : Tys Cell} {i : Nat}, (Tys.list (ts.sub ρ))[i]? = ((Tys.list ts)[i]?).map (·.sub ρ)
    | .nil, i => rfl
    | .cons a as, 0 => rfl
    | .cons a as, i + 1 => list_sub (ts := as) (i := i)

theorem inferOptionalGuard_best {locals : Locals} {Γ : TLocals} {e : Option Guard} {s : St} {S : Sol} (ha : At E g s S locals Γ) (h : GuardTyped Γ e)
    (hd : strict → optionalDirect e = true) : Best strict (inferOptionalGuard n locals e) s S fun _ _ _ => True := by
  cases e with
  | none => exact Best.pure ha.fine trivial
  | some e =>
    unfold inferOptionalGuard
    refine Best.bind (inferGuard_best e _ ha h hd) fun t s₁ S₁ n₁ h₁ => ?_
    exact unifyI_best n₁.fine (Made.zero _ _ _) h₁.1 h₁.2.symm

/-! ### Functions -/

theorem matchFunction_best {t : Ty Cell} {k : Nat} {τs : Tys Leaf} {τ : Tree} {s : St} {S : Sol} (hi : Fine s S) (h : Made s S t ∧ S.of t = .fn τs τ)
    (hk : τs.length = k) : Best strict (matchFunction n t k) s S fun p s' S' => Types' τs p.1 s' S' ∧ Type' τ p.2 s' S' := by
  unfold matchFunction
  refine Best.bind (collapseI_best hi) fun u s₁ S₁ _ hq => ?_
  obtain ⟨rfl, rfl, e1, nl⟩ := hq
  have mu := h.1.eq e1
  have hu : S₁.of u = .fn τs τ := (Sol.of_eq e1).trans h.2
  cases u with
  | fn as r =>
    rw [Sol.of_fn, Ty.fn.injEq] at hu
    simp only
    rw [if_pos (by rw [← hk, ← hu.1, Sol.ofs_length])]
    have m := Low.fn.1 mu
    exact Best.pure hi ⟨⟨m.1, hu.1⟩, m.2, hu.2⟩
  | var c =>
    refine Best.bind (getHeap_best hi) fun hp s₂ S₂ _ hq => ?_
    obtain ⟨rfl, rfl, rfl⟩ := hq
    cases hv : s₂.heap c with
    | link v => exact absurd hv (nl v)
    | generic id =>
      have e := hi.good.reading.generic c id hv
      obtain ⟨_, _, h2⟩ := mu (.generic id) (by simp only [Ty.sub, e, Ty.Has])
      cases h2
    | unbound id =>
      refine Best.bind (freshes_best k hi τs hk) fun as s₃ S₃ n₃ ⟨m₃, e₃, p₃, r₃⟩ => ?_
      refine Best.bind (fresh_best n₃.fine τ) fun r s₄ S₄ n₄ ⟨m₄, e₄, p₄, r₄⟩ => ?_
      refine Best.bind (getHeap_best n₄.fine) fun hp s₅ S₅ _ hq => ?_
      obtain ⟨rfl, rfl, rfl⟩ := hq
      have h₃ := n₄.types (⟨m₃, e₃⟩ : Mades s₃ S₃ as ∧ S₃.ofs as = τs)
      cases hoc : occurs n s₅.heap id (.fn as r) with
      | none => exact Best.outOfFuel
      | some b =>
        cases b with
        | true => exact Best.outOfFuel
        | false =>
          have ho := occurs_right s₅.heap S₅.ρ n₄.fine.good.reading id n _ false hoc
          have hnn := n₃.trans n₄
          refine Best.bind (linkTo_best (id := id) n₄.fine (by rw [p₄, p₃]; exact hv) trivial (fun hh => by simpa using ho.2 hh)
            (Low.fn.2 ⟨h₃.1, m₄⟩) (hnn.made _ mu) ?_) fun _ s₆ S₆ n₆ _ => ?_
          · rw [hnn.same _ mu, hu, Sol.of_fn, h₃.2, e₄]
          · exact Best.pure n₆.fine ⟨n₆.types h₃, n₆.type ⟨m₄, e₄⟩⟩
  | named | tuple => cases hu

/-- What is expected of the parameters is what the typing says. -/
def Expects (s : St) (S : Sol) (expected : Tys Cell) (τs : Tys Leaf) : Prop := expected = .nil ∨ (Mades s S expected ∧ S.ofs expected = τs)

theorem inferParameters_best {types : List CustomType} : ∀ (ps : List Param) (es : Tys Cell) (τs : Tys Leaf) {s : St} {S : Sol}, Fine s S →
    ps.all (fun p => p.annotation.isNone) = true → ps.length = τs.length → Expects s S es τs →
    Best strict (inferParameters n types ps es) s S (Types' τs)
  | [], es, τs, s, S, hi, hb, hl, he => by
    cases τs with
    | cons => cases hl
    | nil => exact Best.pure hi ⟨.nil, rfl⟩
  | p :: ps, es, τs, s, S, hi, hb, hl, he => by
    cases τs with
    | nil => cases hl
    | cons τ τs =>
      simp only [List.all_cons, Bool.and_eq_true, Option.isNone_iff_eq_none] at hb
      simp only [List.length, Tys.length, Nat.add_right_cancel_iff] at hl
      cases es with
      | nil =>
        unfold inferParameters
        rw [hb.1]
        refine Best.bind (fresh_best hi τ) fun t s₁ S₁ n₁ ⟨m₁, e₁, _, _⟩ => ?_
        refine Best.bind (inferParameters_best ps .nil τs n₁.fine hb.2 hl (.inl rfl)) fun ts s₂ S₂ n₂ h₂ => ?_
        have h₁ := n₂.type ⟨m₁, e₁⟩
        exact Best.pure n₂.fine ⟨Lows.cons.2 ⟨h₁.1, h₂.1⟩, by rw [Sol.ofs_cons, h₁.2, h₂.2]⟩
      | cons e es =>
        rcases he with he | ⟨hm, he⟩
        · cases he
        rw [Sol.ofs_cons, Tys.cons.injEq] at he
        have hc := Lows.cons.1 hm
        unfold inferParameters
        rw [hb.1]
        refine Best.bind (fresh_best hi τ) fun t s₁ S₁ n₁ ⟨m₁, e₁, _, _⟩ => ?_
        have hh := n₁.type ⟨hc.1, he.1⟩
        refine Best.bind (unifyI_best n₁.fine hh.1 m₁ (hh.2.trans e₁.symm)) fun _ s₂ S₂ n₂ _ => ?_
        have he' := n₂.types (n₁.types ⟨hc.2, he.2⟩)
        have h₂ := n₂.type ⟨m₁, e₁⟩
        refine Best.bind (inferParameters_best ps es τs n₂.fine hb.2 hl (.inr he')) fun ts s₃ S₃ n₃ h₃ => ?_
        have h₂ := n₃.type h₂
        exact Best.pure n₃.fine ⟨Lows.cons.2 ⟨h₂.1, h₃.1⟩, by rw [Sol.ofs_cons, h₂.2, h₃.2]⟩

theorem bindTypes_some {s : St} {S : Sol} : ∀ (ps : List Param) (ts : Tys Cell) (vars : Locals), Mades s S ts → bindTypes ps ts = some vars →
    MadeLocals s S vars ∧ S.reads vars = paramB ps (S.ofs ts)
  | [], .nil, vars, hm, h => by cases h; exact ⟨.nil, rfl⟩
  | [], .cons t ts, vars, hm, h => by cases h
  | p :: ps, .nil, vars, hm, h => by cases h
  | p :: ps, .cons t ts, vars, hm, h => by
    have hc := Lows.cons.1 hm
    unfold bindTypes at h
    split at h
    · cases h
    · next vars' hv =>
      obtain ⟨h1, h2⟩ := bindTypes_some ps ts vars' hc.2 hv
      rw [Sol.ofs_cons]
      split at h
      · next hn =>
        cases h
        exact ⟨h1, by rw [h2]; simp only [paramB, hn, optB, List.nil_append]⟩
      · next x hn =>
        split at h
        · cases h
        · cases h
          refine ⟨fun b hb => ?_, ?_⟩
          · rcases List.mem_cons.1 hb with rfl | hb
            · exact hc.1
            · exact h1 b hb
          · simp only [paramB, hn, optB, ← h2]; rfl

theorem bindTypes_keys : ∀ (ps : List Param) (ts : Tys Cell) (vars : Locals), bindTypes ps ts = some vars → vars.map (·.1) = ps.filterMap (·.name)
  | [], .nil, vars, h => by cases h; rfl
  | [], .cons t ts, vars, h => by cases h
  | p :: ps, .nil, vars, h => by cases h
  | p :: ps, .cons t ts, vars, h => by
    unfold bindTypes at h
    split at h
    · cases h
    · next vars' hv =>
      have ih := bindTypes_keys ps ts vars' hv
      split at h
      · next hn => cases h; rw [List.filterMap_cons, hn]; exact ih
      · next x hn =>
        split at h
        · cases h
        · cases h; rw [List.filterMap_cons, hn]; simp only [List.map, ih]

theorem bindTypes_ne : ∀ (ps : List Param) (ts : Tys Cell), ps.length = ts.length → (ps.filterMap (·.name)).Nodup → bindTypes ps ts ≠ none
  | [], .nil, _, _ => by simp [bindTypes]
  | [], .cons .., h, _ => by cases h
  | _ :: _, .nil, h, _ => by cases h
  | p :: ps, .cons t ts, hl, hd => by
    simp only [List.length, Tys.length, Nat.add_right_cancel_iff] at hl
    unfold bindTypes
    cases hv : bindTypes ps ts with
    | none =>
      refine absurd hv (bindTypes_ne ps ts hl ?_)
      rw [List.filterMap_cons] at hd
      split at hd
      · exact hd
      · exact (List.nodup_cons.1 hd).2
    | some vars =>
      simp only
      split
      · simp
      · next x hn =>
        rw [List.filterMap_cons, hn] at hd
        have hx := (List.nodup_cons.1 hd).1
        rw [if_neg]
        · simp
        · intro hs
          cases hl : vars.lookup x with
          | none => rw [hl] at hs; cases hs
          | some a =>
            refine hx ?_
            rw [← bindTypes_keys ps ts vars hv]
            exact List.mem_map_of_mem (lookup_mem hl)

theorem inferBody_best {locals : Locals} {Γ : TLocals} {ps : List Param} {ts : Tys Cell} {τs : Tys Leaf} {τ : Tree} {ret : Option (Ty Cell)}
    {body : Locals → I (Ty Cell)} {s : St} {S : Sol} (ha : At E g s S locals Γ) (hl : ps.length = τs.length)
    (ht : Mades s S ts ∧ S.ofs ts = τs) (hr : ∀ r, ret = some r → Made s S r ∧ S.of r = τ) (hd : strict → different (ps.filterMap (·.name)) = true)
    (hb : ∀ vars, At E g s S (vars ++ locals) (paramB ps τs ++ Γ) → Best strict (body (vars ++ locals)) s S (Type' τ)) :
    Best strict (inferBody n locals ps ts ret body) s S (Type' τ) := by
  unfold inferBody
  refine Best.inScope ha.fine ?_ (fun _ _ _ h => h)
  refine Best.bind (Q := fun vars s' S' => s' = s ∧ S' = S ∧ bindTypes ps ts = some vars) (Best.expect ha.fine (fun vars hv => ⟨rfl, rfl, hv⟩) fun hs =>
    bindTypes_ne ps ts (by rw [hl, ← ht.2, Sol.ofs_length]) (nodup_of_different (hd hs))) fun vars s₁ S₁ _ hq => ?_
  obtain ⟨rfl, rfl, hv⟩ := hq
  obtain ⟨h1, h2⟩ := bindTypes_some ps ts vars ht.1 hv
  rw [ht.2] at h2
  refine Best.bind (hb vars (ha.more h1 h2)) fun t s₂ S₂ n₂ h₂ => ?_
  cases ret with
  | none => exact Best.pure n₂.fine h₂
  | some r =>
    have hr' := n₂.type (hr r rfl)
    refine Best.bind (unifyI_best n₂.fine hr'.1 h₂.1 (hr'.2.trans h₂.2.symm)) fun _ s₃ S₃ n₃ _ => ?_
    exact Best.pure n₃.fine (n₃.type h₂)

/-! ### Fields and alternatives -/

theorem inferField_best {t : Ty Cell} {label : String} {α τ : Tree} {s : St} {S : Sol} (hi : Fine s S) (hk : Knows E g s S) (h : Made s S t ∧ S.of t = α)
    (hf : FieldTy E.types label α τ) (hs : ¬ strict) : Best strict (inferField n g t label) s S (Type' τ) := by
  obtain ⟨ct, hct, f, rfl, hv⟩ := hf
  rw [hk.types] at hct
  unfold inferField
  refine Best.bind (collapseI_best hi) fun u s₁ S₁ _ hq => ?_
  obtain ⟨rfl, rfl, e1, nl⟩ := hq
  have hu : S₁.of u = ct.result f := (Sol.of_eq e1).trans h.2
  cases u with
  | named m x as =>
    simp only
    cases hr : g.types.find? fun r => decide (r.type.module = m ∧ r.type.name = x) with
    | none => exact Best.reject hs
    | some r =>
      have hr1 := List.mem_of_find?_eq_some hr
      have hr2 : r.type.module = m ∧ r.type.name = x := by simpa using List.find?_some hr
      rw [Sol.of_named, CustomType.result, Ty.named.injEq] at hu
      have hrt : r.type = ct := hk.good.names r.type (List.mem_map_of_mem hr1) ct hct (hr2.1.trans hu.1) (hr2.2.trans hu.2.1)
      subst hrt
      simp only
      cases hac : accessor r.type label with
      | none => exact Best.reject hs
      | some F =>
        have hF : F.sub f = τ := by
          unfold accessor at hac
          split at hac
          · cases hac
          next v vs hvs =>
          obtain ⟨i, l, ft, h1, h2, h3⟩ := hv v (by rw [hvs]; simp)
          rw [h1] at hac
          simp only [h2] at hac
          split at hac
          · cases hac; exact h3
          · cases hac
        have base : (fun i => (r.id i).sub fun j => f (j - r.base)) = f := by
          funext i
          simp only [Registered.id, Ty.sub]
          congr 1
          omega
        refine Best.bind (instScheme_best (fun j => f (j - r.base)) _ [] hi (fun _ _ h => by cases h)) fun p s₂ S₂ n₂ ⟨m₂, e₂, i₂⟩ => ?_
        refine Best.bind (instScheme_best (fun j => f (j - r.base)) _ p.2 n₂.fine i₂) fun q s₃ S₃ n₃ ⟨m₃, e₃, _⟩ => ?_
        have h₂ := n₃.type ⟨m₂, e₂⟩
        have hh := n₃.type (n₂.type h)
        refine Best.bind (unifyI_best n₃.fine h₂.1 hh.1 ?_) fun _ s₄ S₄ n₄ _ => ?_
        · rw [h₂.2, hh.2, result_sub, base]
        · refine Best.pure n₄.fine (n₄.type ⟨m₃, ?_⟩)
          rw [e₃, Ty.sub_sub, base, hF]
  | var | fn | tuple => exact Best.reject hs

theorem inferAlternatives_best (hg : GoodTypes g.customTypes) {vars : Locals} {B : TLocals} (hB : strict → (B.map (·.1)).Nodup) :
    ∀ (alts : List (List Pattern)) (ts : Tys Cell) (τs : Tys Leaf) {s : St} {S : Sol}, Fine s S → MadeLocals s S vars → S.reads vars = B →
    (Mades s S ts ∧ S.ofs ts = τs) → (strict → alts.all (fun qs => different (patternsBind qs)) = true) →
    (∀ qs ∈ alts, ∃ B', PTypedAll g.customTypes qs τs B' ∧ ∀ x, B'.lookup x = B.lookup x) →
    Best strict (inferAlternatives n g vars ts alts) s S fun _ _ _ => True
  | [], ts, τs, s, S, hi, hm, hr, ht, hd, h => Best.pure hi trivial
  | qs :: alts, ts, τs, s, S, hi, hm, hr, ht, hd, h => by
    have hd' : strict → different (patternsBind qs) = true ∧ alts.all (fun qs => different (patternsBind qs)) = true := fun hs => by
      simpa using hd hs
    obtain ⟨C, h1, h2⟩ := h qs (by simp)
    have hnd : strict → (C.map (·.1)).Nodup := fun hs => by rw [PTypedAll.keys qs τs C h1]; exact nodup_of_different (hd' hs).1
    have room : Room strict (.alternative vars) s S [] C := by
      refine ⟨hm, fun x τ _ hx => ?_, fun hs => by simpa using hnd hs⟩
      rw [h2, ← hr, Sol.reads_lookup] at hx
      cases hl : vars.lookup x with
      | none => rw [hl] at hx; cases hx
      | some u => rw [hl] at hx; exact ⟨u, rfl, by simpa using hx⟩
    unfold inferAlternatives
    refine Best.bind (inferPatterns_best hg qs ts τs C [] s S hi ht.1 ht.2 h1 room) fun p s₁ S₁ n₁ ⟨_, g₁⟩ => ?_
    refine Best.bind (Q := fun _ s' S' => s' = s₁ ∧ S' = S₁) (Best.check n₁.fine (fun _ => ⟨rfl, rfl⟩) fun hs => ?_) fun _ s₂ S₂ _ hq => ?_
    · obtain ⟨new, hnew, _, hC⟩ := g₁
      simp only [Bool.not_eq_true', decide_eq_false_iff_not, not_lt]
      rw [hnew, List.nil_append]
      have l1 : vars.length = (B.map (·.1)).length := by rw [← hr, Sol.reads_keys, List.length_map]
      have l2 : new.length = (C.map (·.1)).length := by rw [← hC, Sol.reads_keys, List.length_map]
      rw [l1, l2]
      refine List.Subperm.length_le (List.Nodup.subperm (hB hs) fun x hx => ?_)
      obtain ⟨⟨y, τ⟩, hy, rfl⟩ := List.mem_map.1 hx
      obtain ⟨τ', hl⟩ := lookup_of_mem hx
      rw [← h2] at hl
      exact List.mem_map.2 ⟨_, lookup_mem hl, rfl⟩
    · obtain ⟨rfl, rfl⟩ := hq
      exact inferAlternatives_best hg hB alts ts τs n₁.fine (hm.next n₁) ((n₁.reads hm).trans hr) (n₁.types ht) (fun hs => (hd' hs).2)
        fun qs hq => h qs (by simp [hq])

/-! ### Expressions -/

/-- What is expected of a function literal is its type. -/
def ExpectsFn (s : St) (S : Sol) (expected : Tys Cell) (τ : Tree) : Prop := expected = .nil ∨ ∃ τs r, τ = .fn τs r ∧ Mades s S expected ∧ S.ofs expected = τs

theorem expectedOf_fn {u : Ty Cell} {e : Expr} {τ : Tree} {s : St} {S : Sol} (h : Made s S u ∧ S.of u = τ) : ExpectsFn s S (expectedOf u e) τ := by
  unfold expectedOf
  split
  · next as r k _ =>
    split
    · obtain ⟨h1, rfl⟩ := h
      exact .inr ⟨_, _, rfl, (Low.fn.1 h1).1, rfl⟩
    · exact .inl rfl
  · exact .inl rfl

theorem TypedAll.length {Γ : TLocals} : ∀ {es : List Expr} {ts : Tys Leaf}, TypedAll E Γ es ts → es.length = ts.length
  | [], ts, h => by simp only [TypedAll] at h; rw [h]; rfl
  | e :: es, ts, h => by
    simp only [TypedAll] at h
    obtain ⟨t, us, rfl, _, h⟩ := h
    simp only [List.length, Tys.length, TypedAll.length h]

mutual

theorem infer_best : ∀ (e : Expr) (locals : Locals) (expected : Tys Cell) (Γ : TLocals) (τ : Tree) (s : St) (S : Sol), At E g s S locals Γ →
    ExpectsFn s S expected τ → e.bare = true → (strict → e.direct = true) → Typed E Γ e τ → Best strict (infer n g locals expected e) s S (Type' τ)
  | .int _, locals, expected, Γ, τ, s, S, ha, he, hb, hd, h => by
    simp only [Typed] at h
    subst h
    unfold infer
    exact Best.pure ha.fine ⟨Made.zero _ _ _, rfl⟩
  | .float _, locals, expected, Γ, τ, s, S, ha, he, hb, hd, h => by
    simp only [Typed] at h
    subst h
    unfold infer
    exact Best.pure ha.fine ⟨Made.zero _ _ _, rfl⟩
  | .string _, locals, expected, Γ, τ, s, S, ha, he, hb, hd, h => by
    simp only [Typed] at h
    subst h
    unfold infer
    exact Best.pure ha.fine ⟨Made.zero _ _ _, rfl⟩
  | .var x, locals, expected, Γ, τ, s, S, ha, he, hb, hd, h => by
    simp only [Typed] at h
    unfold infer
    exact inferVar_best ha h
  | .fn ps ret body, locals, expected, Γ, τ, s, S, ha, he, hb, hd, h => by
    simp only [Typed] at h
    obtain ⟨τs, r, rfl, hl, h⟩ := h
    simp only [Expr.bare, Bool.and_eq_true, Option.isNone_iff_eq_none] at hb
    obtain ⟨⟨hb1, rfl⟩, hb2⟩ := hb
    have hd' : strict → different (ps.filterMap (·.name)) = true ∧ stmtsDirect body = true := fun hs => by
      simpa [Expr.direct] using hd hs
    have he' : Expects s S expected τs := by
      rcases he with he | ⟨_, _, h1, h2, h3⟩
      · exact .inl he
      · cases h1; exact .inr ⟨h2, h3⟩
    unfold infer
    refine Best.bind (inferParameters_best ps expected τs ha.fine hb1 hl he') fun ts s₁ S₁ n₁ h₁ => ?_
    refine Best.bind (Q := fun r s' S' => r = none ∧ s' = s₁ ∧ S' = S₁) (Best.pure n₁.fine ⟨rfl, rfl, rfl⟩) fun r' s₂ S₂ _ hq => ?_
    obtain ⟨rfl, rfl, rfl⟩ := hq
    refine Best.bind (inferBody_best (ha.next n₁) hl h₁ (fun r hr => by cases hr) (fun hs => (hd' hs).1)
      fun vars hv => inferStmts_best body _ _ r _ _ hv hb2 (fun hs => (hd' hs).2) h) fun t s₃ S₃ n₃ h₃ => ?_
    have h₁' := n₃.types h₁
    exact Best.pure n₃.fine ⟨Low.fn.2 ⟨h₁'.1, h₃.1⟩, by rw [Sol.of_fn, h₁'.2, h₃.2]⟩
  | .call f es, locals, expected, Γ, τ, s, S, ha, he, hb, hd, h => by
    simp only [Typed] at h
    obtain ⟨τs, hf, hes⟩ := h
    simp only [Expr.bare, Bool.and_eq_true] at hb
    have hd' : strict → f.direct = true ∧ exprsDirect es = true := fun hs => by simpa [Expr.direct] using hd hs
    unfold infer
    have first : Best strict (if f.literalArity = some es.length then inferAll n g locals es else pure .nil : I (Tys Cell)) s S
        fun us s' S' => ExpectsFn s' S' us (.fn τs τ) := by
      split
      · refine Best.mono (inferAll_best es locals Γ τs s S ha hb.2 (fun hs => (hd' hs).2) hes) fun us s' S' _ hu => ?_
        exact .inr ⟨_, _, rfl, hu.1, hu.2⟩
      · exact Best.pure ha.fine (.inl rfl)
    refine Best.bind first fun us s₁ S₁ n₁ he₁ => ?_
    have ha₁ := ha.next n₁
    refine Best.bind (infer_best f locals us Γ _ s₁ S₁ ha₁ he₁ hb.1 (fun hs => (hd' hs).1) hf) fun t s₂ S₂ n₂ h₂ => ?_
    have ha₂ := ha₁.next n₂
    refine Best.bind (matchFunction_best ha₂.fine h₂ hes.length.symm) fun p s₃ S₃ n₃ h₃ => ?_
    have ha₃ := ha₂.next n₃
    refine Best.bind (inferArguments_best es p.1 locals Γ τs s₃ S₃ ha₃ h₃.1 hb.2 (fun hs => (hd' hs).2) hes) fun _ s₄ S₄ n₄ _ => ?_
    exact Best.pure n₄.fine (n₄.type h₃.2)
  | .bin op l r, locals, expected, Γ, τ, s, S, ha, he, hb, hd, h => by
    simp only [Typed] at h
    obtain ⟨a, b, h1, h2, h3⟩ := h
    simp only [Expr.bare, Bool.and_eq_true] at hb
    have hd' : strict → l.direct = true ∧ r.direct = true := fun hs => by simpa [Expr.direct] using hd hs
    unfold infer
    refine Best.bind (infer_best l locals .nil Γ a s S ha (.inl rfl) hb.1 (fun hs => (hd' hs).1) h1) fun t s₁ S₁ n₁ h₁ => ?_
    refine Best.bind (infer_best r locals .nil Γ b s₁ S₁ (ha.next n₁) (.inl rfl) hb.2 (fun hs => (hd' hs).2) h2) fun u s₂ S₂ n₂ h₂ => ?_
    exact inferOperator_best n₂.fine (n₂.type h₁) h₂ h3
  | .not e, locals, expected, Γ, τ, s, S, ha, he, hb, hd, h => by
    simp only [Typed] at h
    obtain ⟨h, rfl⟩ := h
    unfold infer
    refine Best.bind (infer_best e locals .nil Γ _ s S ha (.inl rfl) hb hd h) fun t s₁ S₁ n₁ h₁ => ?_
    refine Best.bind (unifyI_best n₁.fine (Made.zero _ _ _) h₁.1 h₁.2.symm) fun _ s₂ S₂ n₂ _ => ?_
    exact Best.pure n₂.fine ⟨Made.zero _ _ _, rfl⟩
  | .neg e, locals, expected, Γ, τ, s, S, ha, he, hb, hd, h => by
    simp only [Typed] at h
    obtain ⟨h, rfl⟩ := h
    unfold infer
    refine Best.bind (infer_best e locals .nil Γ _ s S ha (.inl rfl) hb hd h) fun t s₁ S₁ n₁ h₁ => ?_
    refine Best.bind (unifyI_best n₁.fine (Made.zero _ _ _) h₁.1 h₁.2.symm) fun _ s₂ S₂ n₂ _ => ?_
    exact Best.pure n₂.fine ⟨Made.zero _ _ _, rfl⟩
  | .block body, locals, expected, Γ, τ, s, S, ha, he, hb, hd, h => by
    simp only [Typed] at h
    unfold infer
    exact Best.inScope ha.fine (inferStmts_best body locals Γ τ s S ha hb hd h) (fun _ _ _ h => h)
  | .tuple es, locals, expected, Γ, τ, s, S, ha, he, hb, hd, h => by
    simp only [Typed] at h
    obtain ⟨τs, rfl, h⟩ := h
    unfold infer
    refine Best.bind (inferAll_best es locals Γ τs s S ha hb hd h) fun ts s₁ S₁ n₁ h₁ => ?_
    exact Best.pure n₁.fine ⟨h₁.1, by rw [Sol.of_tuple, h₁.2]⟩
  | .index e i, locals, expected, Γ, τ, s, S, ha, he, hb, hd, h => by
    have hs : ¬ strict := fun hs => by simpa [Expr.direct] using hd hs
    simp only [Typed] at h
    obtain ⟨τs, h1, h2⟩ := h
    unfold infer
    refine Best.bind (infer_best e locals .nil Γ _ s S ha (.inl rfl) hb (fun h => absurd h hs) h1) fun t s₁ S₁ n₁ h₁ => ?_
    refine Best.bind (collapseI_best n₁.fine) fun u s₂ S₂ _ hq => ?_
    obtain ⟨rfl, rfl, e1, nl⟩ := hq
    have mu := h₁.1.eq e1
    have hu : S₂.of u = .tuple τs := (Sol.of_eq e1).trans h₁.2
    cases u with
    | tuple ts =>
      rw [Sol.of_tuple, Ty.tuple.injEq] at hu
      refine Best.expect n₁.fine (fun v hv => ?_) fun h => absurd h hs
      have h4 := Sol.ofs_get S₂ ts i
      rw [hu, h2, hv] at h4
      simp only [Option.map_some, Option.some.injEq] at h4
      exact ⟨Lows.get mu (i := i) (by rw [inferGuard_best.list_sub, hv]; rfl), h4.symm⟩
    | var | named | fn => exact Best.reject hs
  | .list es none, locals, expected, Γ, τ, s, S, ha, he, hb, hd, h => by
    simp only [Typed] at h
    obtain ⟨α, rfl, h⟩ := h
    unfold infer
    refine Best.bind (fresh_best ha.fine α) fun a s₁ S₁ n₁ ⟨m₁, e₁, _, _⟩ => ?_
    refine Best.bind (inferItems_best es a locals Γ α s₁ S₁ (ha.next n₁) ⟨m₁, e₁⟩ hb hd h) fun _ s₂ S₂ n₂ _ => ?_
    have h₂ := n₂.type ⟨m₁, e₁⟩
    exact Best.pure n₂.fine ⟨Low.list.2 h₂.1, by rw [Sol.of_list, h₂.2]⟩
  | .list es (some e), locals, expected, Γ, τ, s, S, ha, he, hb, hd, h => by
    simp only [Typed] at h
    obtain ⟨α, rfl, h, h'⟩ := h
    simp only [Expr.bare, Bool.and_eq_true] at hb
    have hd' : strict → exprsDirect es = true ∧ e.direct = true := fun hs => by simpa [Expr.direct] using hd hs
    unfold infer
    refine Best.bind (fresh_best ha.fine α) fun a s₁ S₁ n₁ ⟨m₁, e₁, _, _⟩ => ?_
    refine Best.bind (inferItems_best es a locals Γ α s₁ S₁ (ha.next n₁) ⟨m₁, e₁⟩ hb.1 (fun hs => (hd' hs).1) h) fun _ s₂ S₂ n₂ _ => ?_
    have h₂ := n₂.type ⟨m₁, e₁⟩
    refine Best.bind (infer_best e locals .nil Γ _ s₂ S₂ ((ha.next n₁).next n₂) (.inl rfl) hb.2 (fun hs => (hd' hs).2) h') fun t s₃ S₃ n₃ h₃ => ?_
    have h₂' := n₃.type h₂
    refine Best.bind (unifyI_best (t := tList a) n₃.fine (Low.list.2 h₂'.1) h₃.1 (by rw [Sol.of_list, h₂'.2, h₃.2])) fun _ s₄ S₄ n₄ _ => ?_
    have h₄ := n₄.type h₂'
    exact Best.pure n₄.fine ⟨Low.list.2 h₄.1, by rw [Sol.of_list, h₄.2]⟩
  | .field e label, locals, expected, Γ, τ, s, S, ha, he, hb, hd, h => by
    have hs : ¬ strict := fun hs => by simpa [Expr.direct] using hd hs
    simp only [Typed] at h
    obtain ⟨α, h1, h2⟩ := h
    unfold infer
    refine Best.bind (infer_best e locals .nil Γ _ s S ha (.inl rfl) hb (fun h => absurd h hs) h1) fun t s₁ S₁ n₁ h₁ => ?_
    exact inferField_best n₁.fine (ha.next n₁).knows h₁ h2 hs
  | .case_ es cs, locals, expected, Γ, τ, s, S, ha, he, hb, hd, h => by
    simp only [Typed] at h
    obtain ⟨τs, h1, h2⟩ := h
    simp only [Expr.bare, Bool.and_eq_true] at hb
    have hd' : strict → exprsDirect es = true ∧ clausesDirect cs = true := fun hs => by simpa [Expr.direct] using hd hs
    unfold infer
    refine Best.bind (fresh_best ha.fine τ) fun r s₁ S₁ n₁ ⟨m₁, e₁, _, _⟩ => ?_
    have ha₁ := ha.next n₁
    refine Best.bind (inferSubjects_best es locals Γ τs s₁ S₁ ha₁ hb.1 (fun hs => (hd' hs).1) h1) fun ts s₂ S₂ n₂ h₂ => ?_
    have ha₂ := ha₁.next n₂
    have hr := n₂.type ⟨m₁, e₁⟩
    refine Best.bind (inferClauses_best cs ts r locals Γ τs τ s₂ S₂ ha₂ h₂ hr hb.2 (fun hs => (hd' hs).2) h2) fun _ s₃ S₃ n₃ _ => ?_
    exact Best.pure n₃.fine (n₃.type hr)
  | .fail none, locals, expected, Γ, τ, s, S, ha, he, hb, hd, h => by
    unfold infer
    exact Best.mono (fresh_best ha.fine τ) fun t s' S' _ h => ⟨h.1, h.2.1⟩
  | .fail (some e), locals, expected, Γ, τ, s, S, ha, he, hb, hd, h => by
    simp only [Typed] at h
    unfold infer
    refine Best.bind (fresh_best ha.fine τ) fun r s₁ S₁ n₁ ⟨m₁, e₁, _, _⟩ => ?_
    refine Best.bind (infer_best e locals .nil Γ _ s₁ S₁ (ha.next n₁) (.inl rfl) hb hd h) fun t s₂ S₂ n₂ h₂ => ?_
    refine Best.bind (unifyI_best n₂.fine (Made.zero _ _ _) h₂.1 h₂.2.symm) fun _ s₃ S₃ n₃ _ => ?_
    exact Best.pure n₃.fine (n₃.type (n₂.type ⟨m₁, e₁⟩))

theorem inferAll_best : ∀ (es : List Expr) (locals : Locals) (Γ : TLocals) (τs : Tys Leaf) (s : St) (S : Sol), At E g s S locals Γ →
    exprsBare es = true → (strict → exprsDirect es = true) → TypedAll E Γ es τs → Best strict (inferAll n g locals es) s S (Types' τs)
  | [], locals, Γ, τs, s, S, ha, hb, hd, h => by
    simp only [TypedAll] at h
    subst h
    unfold inferAll
    exact Best.pure ha.fine ⟨.nil, rfl⟩
  | e :: es, locals, Γ, τs, s, S, ha, hb, hd, h => by
    simp only [TypedAll] at h
    obtain ⟨τ, τs', rfl, h1, h2⟩ := h
    simp only [exprsBare, Bool.and_eq_true] at hb
    have hd' : strict → e.direct = true ∧ exprsDirect es = true := fun hs => by simpa [exprsDirect] using hd hs
    unfold inferAll
    refine Best.bind (infer_best e locals .nil Γ τ s S ha (.inl rfl) hb.1 (fun hs => (hd' hs).1) h1) fun t s₁ S₁ n₁ h₁ => ?_
    refine Best.bind (inferAll_best es locals Γ τs' s₁ S₁ (ha.next n₁) hb.2 (fun hs => (hd' hs).2) h2) fun ts s₂ S₂ n₂ h₂ => ?_
    have h₁' := n₂.type h₁
    exact Best.pure n₂.fine ⟨Lows.cons.2 ⟨h₁'.1, h₂.1⟩, by rw [Sol.ofs_cons, h₁'.2, h₂.2]⟩

theorem inferSubjects_best : ∀ (es : List Expr) (locals : Locals) (Γ : TLocals) (τs : Tys Leaf) (s : St) (S : Sol), At E g s S locals Γ →
    exprsBare es = true → (strict → exprsDirect es = true) → TypedAll E Γ es τs → Best strict (inferSubjects n g locals es) s S (Types' τs)
  | [], locals, Γ, τs, s, S, ha, hb, hd, h => by
    simp only [TypedAll] at h
    subst h
    unfold inferSubjects
    exact Best.pure ha.fine ⟨.nil, rfl⟩
  | e :: es, locals, Γ, τs, s, S, ha, hb, hd, h => by
    simp only [TypedAll] at h
    obtain ⟨τ, τs', rfl, h1, h2⟩ := h
    simp only [exprsBare, Bool.and_eq_true] at hb
    have hd' : strict → e.direct = true ∧ exprsDirect es = true := fun hs => by simpa [exprsDirect] using hd hs
    unfold inferSubjects
    refine Best.bind (Best.inScope ha.fine (infer_best e locals .nil Γ τ s S ha (.inl rfl) hb.1 (fun hs => (hd' hs).1) h1) (fun _ _ _ h => h))
      fun t s₁ S₁ n₁ h₁ => ?_
    refine Best.bind (inferSubjects_best es locals Γ τs' s₁ S₁ (ha.next n₁) hb.2 (fun hs => (hd' hs).2) h2) fun ts s₂ S₂ n₂ h₂ => ?_
    have h₁' := n₂.type h₁
    exact Best.pure n₂.fine ⟨Lows.cons.2 ⟨h₁'.1, h₂.1⟩, by rw [Sol.ofs_cons, h₁'.2, h₂.2]⟩

theorem inferItems_best : ∀ (es : List Expr) (a : Ty Cell) (locals : Locals) (Γ : TLocals) (τ : Tree) (s : St) (S : Sol), At E g s S locals Γ →
    (Made s S a ∧ S.of a = τ) → exprsBare es = true → (strict → exprsDirect es = true) → TypedItems E Γ es τ →
    Best strict (inferItems n g locals a es) s S fun _ _ _ => True
  | [], a, locals, Γ, τ, s, S, ha, ht, hb, hd, h => by
    unfold inferItems
    exact Best.pure ha.fine trivial
  | e :: es, a, locals, Γ, τ, s, S, ha, ht, hb, hd, h => by
    simp only [TypedItems] at h
    simp only [exprsBare, Bool.and_eq_true] at hb
    have hd' : strict → e.direct = true ∧ exprsDirect es = true := fun hs => by simpa [exprsDirect] using hd hs
    unfold inferItems
    refine Best.bind (infer_best e locals .nil Γ τ s S ha (.inl rfl) hb.1 (fun hs => (hd' hs).1) h.1) fun t s₁ S₁ n₁ h₁ => ?_
    have ht₁ := n₁.type ht
    refine Best.bind (unifyI_best n₁.fine ht₁.1 h₁.1 (ht₁.2.trans h₁.2.symm)) fun _ s₂ S₂ n₂ _ => ?_
    exact inferItems_best es a locals Γ τ s₂ S₂ ((ha.next n₁).next n₂) (n₂.type ht₁) hb.2 (fun hs => (hd' hs).2) h.2

theorem inferArguments_best : ∀ (es : List Expr) (ts : Tys Cell) (locals : Locals) (Γ : TLocals) (τs : Tys Leaf) (s : St) (S : Sol), At E g s S locals Γ →
    (Mades s S ts ∧ S.ofs ts = τs) → exprsBare es = true → (strict → exprsDirect es = true) → TypedAll E Γ es τs →
    Best strict (inferArguments n g locals es ts) s S fun _ _ _ => True
  | [], ts, locals, Γ, τs, s, S, ha, ht, hb, hd, h => by
    simp only [TypedAll] at h
    subst h
    cases ts with
    | cons => cases ht.2
    | nil =>
      unfold inferArguments
      exact Best.pure ha.fine trivial
  | e :: es, ts, locals, Γ, τs, s, S, ha, ht, hb, hd, h => by
    simp only [TypedAll] at h
    obtain ⟨τ, τs', rfl, h1, h2⟩ := h
    cases ts with
    | nil => cases ht.2
    | cons t ts =>
      obtain ⟨hm, ht⟩ := ht
      rw [Sol.ofs_cons, Tys.cons.injEq] at ht
      have hc := Lows.cons.1 hm
      simp only [exprsBare, Bool.and_eq_true] at hb
      have hd' : strict → e.direct = true ∧ exprsDirect es = true := fun hs => by simpa [exprsDirect] using hd hs
      unfold inferArguments
      refine Best.bind (collapseI_best ha.fine) fun u s₁ S₁ _ hq => ?_
      obtain ⟨rfl, rfl, e1, nl⟩ := hq
      have hu : Made s₁ S₁ u ∧ S₁.of u = τ := ⟨Made.eq hc.1 e1, (Sol.of_eq e1).trans ht.1⟩
      refine Best.bind (infer_best e locals _ Γ τ s₁ S₁ ha (expectedOf_fn hu) hb.1 (fun hs => (hd' hs).1) h1) fun v s₂ S₂ n₂ h₂ => ?_
      have hu₂ := n₂.type hu
      refine Best.bind (unifyI_best n₂.fine hu₂.1 h₂.1 (hu₂.2.trans h₂.2.symm)) fun _ s₃ S₃ n₃ _ => ?_
      exact inferArguments_best es ts locals Γ τs' s₃ S₃ ((ha.next n₂).next n₃) (n₃.types (n₂.types ⟨hc.2, ht.2⟩)) hb.2 (fun hs => (hd' hs).2) h2

theorem inferStmts_best : ∀ (ss : List Stmt) (locals : Locals) (Γ : TLocals) (τ : Tree) (s : St) (S : Sol), At E g s S locals Γ →
    stmtsBare ss = true → (strict → stmtsDirect ss = true) → TypedStmts E Γ ss τ → Best strict (inferStmts n g locals ss) s S (Type' τ)
  | [], locals, Γ, τ, s, S, ha, hb, hd, h => by
    simp only [TypedStmts] at h
  | [st], locals, Γ, τ, s, S, ha, hb, hd, h => by
    simp only [TypedStmts] at h
    obtain ⟨B, h⟩ := h
    simp only [stmtsBare, Bool.and_eq_true] at hb
    unfold inferStmts
    refine Best.bind (inferStmt_best st locals Γ τ B s S ha hb.1 (fun hs => by simpa [stmtsDirect] using hd hs) h) fun p s₁ S₁ n₁ h₁ => ?_
    exact Best.pure n₁.fine h₁.1
  | st :: st' :: ss, locals, Γ, τ, s, S, ha, hb, hd, h => by
    simp only [TypedStmts] at h
    obtain ⟨t, B, h1, h2⟩ := h
    rw [stmtsBare, Bool.and_eq_true] at hb
    have hd' : strict → st.direct = true ∧ stmtsDirect (st' :: ss) = true := fun hs => by
      have := hd hs
      rw [stmtsDirect, Bool.and_eq_true] at this
      exact this
    unfold inferStmts
    refine Best.bind (inferStmt_best st locals Γ t B s S ha hb.1 (fun hs => (hd' hs).1) h1) fun p s₁ S₁ n₁ h₁ => ?_
    exact inferStmts_best (st' :: ss) _ _ τ s₁ S₁ ((ha.next n₁).gets h₁.2) hb.2 (fun hs => (hd' hs).2) h2

theorem inferStmt_best : ∀ (st : Stmt) (locals : Locals) (Γ : TLocals) (τ : Tree) (B : TLocals) (s : St) (S : Sol), At E g s S locals Γ →
    st.bare = true → (strict → st.direct = true) → TypedStmt E Γ st τ B →
    Best strict (inferStmt n g locals st) s S fun p s' S' => Type' τ p.1 s' S' ∧ Gets s' S' [] B p.2
  | .expr e, locals, Γ, τ, B, s, S, ha, hb, hd, h => by
    simp only [TypedStmt] at h
    obtain ⟨h, rfl⟩ := h
    unfold inferStmt
    refine Best.bind (infer_best e locals .nil Γ τ s S ha (.inl rfl) hb hd h) fun t s₁ S₁ n₁ h₁ => ?_
    exact Best.pure n₁.fine ⟨h₁, .nil⟩
  | .let_ p annotation e, locals, Γ, τ, B, s, S, ha, hb, hd, h => by
    simp only [TypedStmt] at h
    obtain ⟨h1, h2⟩ := h
    simp only [Stmt.bare, Bool.and_eq_true, Option.isNone_iff_eq_none] at hb
    obtain ⟨rfl, hb⟩ := hb
    have hd' : strict → different p.binds = true ∧ e.direct = true := fun hs => by simpa [Stmt.direct] using hd hs
    unfold inferStmt
    refine Best.bind (Best.inScope ha.fine (infer_best e locals .nil Γ τ s S ha (.inl rfl) hb (fun hs => (hd' hs).2) h1) (fun _ _ _ h => h))
      fun t s₁ S₁ n₁ h₁ => ?_
    rw [ha.knows.types] at h2
    refine Best.bind (inferPattern_best ha.knows.good p t τ B [] s₁ S₁ n₁.fine h₁.1 h₁.2 h2 ⟨trivial, trivial, fun hs => by
      rw [PTyped.keys p τ B h2]; exact nodup_of_different (hd' hs).1⟩) fun q s₂ S₂ n₂ h₂ => ?_
    refine Best.bind (Q := fun _ s' S' => s' = s₂ ∧ S' = S₂) (Best.pure n₂.fine ⟨rfl, rfl⟩) fun _ s₃ S₃ _ hq => ?_
    obtain ⟨rfl, rfl⟩ := hq
    exact Best.pure n₂.fine ⟨n₂.type h₁, h₂.2⟩
  | .letAssert p annotation e message, locals, Γ, τ, B, s, S, ha, hb, hd, h => by
    simp only [TypedStmt] at h
    obtain ⟨h1, h2, h3⟩ := h
    simp only [Stmt.bare, Bool.and_eq_true, Option.isNone_iff_eq_none] at hb
    obtain ⟨⟨rfl, hb1⟩, hb2⟩ := hb
    have hd' : strict → (different p.binds = true ∧ e.direct = true) ∧ optionDirect message = true := fun hs => by
      simpa [Stmt.direct] using hd hs
    unfold inferStmt
    refine Best.bind (Best.inScope ha.fine (infer_best e locals .nil Γ τ s S ha (.inl rfl) hb1 (fun hs => (hd' hs).1.2) h1) (fun _ _ _ h => h))
      fun t s₁ S₁ n₁ h₁ => ?_
    refine Best.bind (inferMessage_best message locals Γ s₁ S₁ (ha.next n₁) hb2 (fun hs => (hd' hs).2) h3) fun _ s₂ S₂ n₂ _ => ?_
    have h₁' := n₂.type h₁
    rw [ha.knows.types] at h2
    refine Best.bind (inferPattern_best ha.knows.good p t τ B [] s₂ S₂ n₂.fine h₁'.1 h₁'.2 h2 ⟨trivial, trivial, fun hs => by
      rw [PTyped.keys p τ B h2]; exact nodup_of_different (hd' hs).1.1⟩) fun q s₃ S₃ n₃ h₃ => ?_
    refine Best.bind (Q := fun _ s' S' => s' = s₃ ∧ S' = S₃) (Best.pure n₃.fine ⟨rfl, rfl⟩) fun _ s₄ S₄ _ hq => ?_
    obtain ⟨rfl, rfl⟩ := hq
    exact Best.pure n₃.fine ⟨n₃.type h₁', h₃.2⟩
  | .assert e message, locals, Γ, τ, B, s, S, ha, hb, hd, h => by
    simp only [TypedStmt] at h
    obtain ⟨h1, h2, rfl, rfl⟩ := h
    simp only [Stmt.bare, Bool.and_eq_true] at hb
    have hd' : strict → e.direct = true ∧ optionDirect message = true := fun hs => by simpa [Stmt.direct] using hd hs
    unfold inferStmt
    refine Best.bind (infer_best e locals .nil Γ _ s S ha (.inl rfl) hb.1 (fun hs => (hd' hs).1) h1) fun t s₁ S₁ n₁ h₁ => ?_
    refine Best.bind (unifyI_best n₁.fine (Made.zero _ _ _) h₁.1 h₁.2.symm) fun _ s₂ S₂ n₂ _ => ?_
    refine Best.bind (inferMessage_best message locals Γ s₂ S₂ ((ha.next n₁).next n₂) hb.2 (fun hs => (hd' hs).2) h2) fun _ s₃ S₃ n₃ _ => ?_
    exact Best.pure n₃.fine ⟨⟨Made.zero _ _ _, rfl⟩, .nil⟩

theorem inferMessage_best : ∀ (m : Option Expr) (locals : Locals) (Γ : TLocals) (s : St) (S : Sol), At E g s S locals Γ → optionBare m = true →
    (strict → optionDirect m = true) → TypedMessage E Γ m → Best strict (inferMessage n g locals m) s S fun _ _ _ => True
  | none, locals, Γ, s, S, ha, hb, hd, h => by
    unfold inferMessage
    exact Best.pure ha.fine trivial
  | some e, locals, Γ, s, S, ha, hb, hd, h => by
    simp only [TypedMessage] at h
    unfold inferMessage
    refine Best.bind (infer_best e locals .nil Γ _ s S ha (.inl rfl) hb hd h) fun t s₁ S₁ n₁ h₁ => ?_
    exact unifyI_best n₁.fine (Made.zero _ _ _) h₁.1 h₁.2.symm

theorem inferClauses_best : ∀ (cs : List Clause) (ts : Tys Cell) (r : Ty Cell) (locals : Locals) (Γ : TLocals) (τs : Tys Leaf) (τ : Tree) (s : St) (S : Sol),
    At E g s S locals Γ → (Mades s S ts ∧ S.ofs ts = τs) → (Made s S r ∧ S.of r = τ) → clausesBare cs = true → (strict → clausesDirect cs = true) →
    TypedClauses E Γ τs τ cs → Best strict (inferClauses n g locals ts r cs) s S fun _ _ _ => True
  | [], ts, r, locals, Γ, τs, τ, s, S, ha, ht, hr, hb, hd, h => by
    unfold inferClauses
    exact Best.pure ha.fine trivial
  | .mk ps alts guard body :: cs, ts, r, locals, Γ, τs, τ, s, S, ha, ht, hr, hb, hd, h => by
    simp only [TypedClauses] at h
    obtain ⟨⟨B, h1, h2, h3, h4⟩, h5⟩ := h
    simp only [clausesBare, Bool.and_eq_true] at hb
    have hd' : strict → (((different (patternsBind ps) = true ∧ alts.all (fun qs => different (patternsBind qs)) = true) ∧ optionalDirect guard = true) ∧
        body.direct = true) ∧ clausesDirect cs = true := fun hs => by
      have := hd hs
      simp only [clausesDirect, Bool.and_eq_true] at this
      exact this
    rw [ha.knows.types] at h1 h2
    have hB : strict → (B.map (·.1)).Nodup := fun hs => by
      rw [PTypedAll.keys ps τs B h1]; exact nodup_of_different (hd' hs).1.1.1.1
    unfold inferClauses
    refine Best.bind (Q := Type' τ) (Best.inScope ha.fine ?_ (fun _ _ _ h => h)) fun t s₁ S₁ n₁ h₁ => ?_
    · refine Best.bind (inferPatterns_best ha.knows.good ps ts τs B [] s S ha.fine ht.1 ht.2 h1 ⟨trivial, trivial, fun hs => by simpa using hB hs⟩)
        fun p s₁ S₁ n₁ ⟨_, g₁⟩ => ?_
      have ha₁ := (ha.next n₁).gets g₁
      obtain ⟨new, hnew, hm, hreads⟩ := g₁
      refine Best.bind (inferAlternatives_best ha.knows.good (vars := p.2) hB alts ts τs n₁.fine (by rw [hnew]; exact hm) (by rw [hnew]; exact hreads)
        (n₁.types ht) (fun hs => (hd' hs).1.1.1.2) h2) fun _ s₂ S₂ n₂ _ => ?_
      have ha₂ := ha₁.next n₂
      refine Best.bind (inferOptionalGuard_best ha₂ h3 (fun hs => (hd' hs).1.1.2)) fun _ s₃ S₃ n₃ _ => ?_
      exact infer_best body _ .nil _ τ s₃ S₃ (ha₂.next n₃) (.inl rfl) hb.1 (fun hs => (hd' hs).1.2) h4
    · have hr₁ := n₁.type hr
      refine Best.bind (unifyI_best n₁.fine hr₁.1 h₁.1 (hr₁.2.trans h₁.2.symm)) fun _ s₂ S₂ n₂ _ => ?_
      exact inferClauses_best cs ts r locals Γ τs τ s₂ S₂ ((ha.next n₁).next n₂) (n₂.types (n₁.types ht)) (n₂.type hr₁) hb.2 (fun hs => (hd' hs).2) h5

end

end
end Verif.Infer
