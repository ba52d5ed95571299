import Verif.Infer.AnnotationSpec
import Verif.Infer.Keeps
import Verif.Infer.Props

/-!
# C66: functions have the types that they are annotated with
-/

namespace Verif.Infer

open Verif.Unify

/-! ### Annotations and substitution -/

section
variable {V W : Type} {types : List CustomType} {ν : String → Ty V} (f : V → Ty W)

mutual

theorem Means.sub : ∀ (a : TypeAst) (t : Ty V), Means types ν a t → Means types (fun x => (ν x).sub f) a (t.sub f)
  | .con name as, t, h => by
    simp only [Means] at h ⊢
    obtain ⟨m, ts, h1, rfl, h2⟩ := h
    exact ⟨m, _, h1, rfl, MeansAll.sub as ts h2⟩
  | .fn as r, t, h => by
    simp only [Means] at h ⊢
    obtain ⟨ts, u, rfl, h1, h2⟩ := h
    exact ⟨_, _, rfl, MeansAll.sub as ts h1, Means.sub r u h2⟩
  | .tuple as, t, h => by
    simp only [Means] at h ⊢
    obtain ⟨ts, rfl, h1⟩ := h
    exact ⟨_, rfl, MeansAll.sub as ts h1⟩
  | .var x, t, h => by
    simp only [Means] at h ⊢
    rw [h]
  | .hole, t, h => by simp only [Means]

theorem MeansAll.sub : ∀ (as : List TypeAst) (ts : Tys V), MeansAll types ν as ts → MeansAll types (fun x => (ν x).sub f) as (ts.sub f)
  | [], ts, h => by
    simp only [MeansAll] at h ⊢
    rw [h]; rfl
  | a :: as, ts, h => by
    simp only [MeansAll] at h ⊢
    obtain ⟨t, us, rfl, h1, h2⟩ := h
    exact ⟨_, _, rfl, Means.sub a t h1, MeansAll.sub as us h2⟩

end

theorem MeansOption.sub (a : Option TypeAst) (t : Ty V) (h : MeansOption types ν a t) : MeansOption types (fun x => (ν x).sub f) a (t.sub f) := by
  cases a with
  | none => trivial
  | some a => exact Means.sub f a t h

theorem MeansParameters.sub : ∀ (ps : List Param) (ts : Tys V), MeansParameters types ν ps ts → MeansParameters types (fun x => (ν x).sub f) ps (ts.sub f)
  | [], ts, h => by
    simp only [MeansParameters] at h ⊢
    rw [h]; rfl
  | p :: ps, ts, h => by
    simp only [MeansParameters] at h ⊢
    obtain ⟨t, us, rfl, h1, h2⟩ := h
    exact ⟨_, _, rfl, MeansOption.sub f _ t h1, MeansParameters.sub ps us h2⟩

end

section
variable {V : Type} {types : List CustomType} {ν ν' : String → Ty V}

mutual

theorem Means.congr : ∀ (a : TypeAst) (t : Ty V), (∀ x ∈ a.variables, ν x = ν' x) → Means types ν a t → Means types ν' a t
  | .con name as, t, he, h => by
    simp only [Means] at h ⊢
    obtain ⟨m, ts, h1, rfl, h2⟩ := h
    exact ⟨m, _, h1, rfl, MeansAll.congr as ts he h2⟩
  | .fn as r, t, he, h => by
    simp only [Means] at h ⊢
    obtain ⟨ts, u, rfl, h1, h2⟩ := h
    exact ⟨_, _, rfl, MeansAll.congr as ts (fun x hx => he x (by simp [TypeAst.variables, hx])) h1,
      Means.congr r u (fun x hx => he x (by simp [TypeAst.variables, hx])) h2⟩
  | .tuple as, t, he, h => by
    simp only [Means] at h ⊢
    obtain ⟨ts, rfl, h1⟩ := h
    exact ⟨_, rfl, MeansAll.congr as ts he h1⟩
  | .var x, t, he, h => by
    simp only [Means] at h ⊢
    rw [h, he x (by simp [TypeAst.variables])]
  | .hole, t, he, h => by simp only [Means]

theorem MeansAll.congr : ∀ (as : List TypeAst) (ts : Tys V), (∀ x ∈ variablesAll as, ν x = ν' x) → MeansAll types ν as ts → MeansAll types ν' as ts
  | [], ts, he, h => h
  | a :: as, ts, he, h => by
    simp only [MeansAll] at h ⊢
    obtain ⟨t, us, rfl, h1, h2⟩ := h
    exact ⟨_, _, rfl, Means.congr a t (fun x hx => he x (by simp [variablesAll, hx])) h1, MeansAll.congr as us (fun x hx => he x (by simp [variablesAll, hx])) h2⟩

end

theorem MeansOption.congr (a : Option TypeAst) (t : Ty V) (he : ∀ x ∈ optionVariables a, ν x = ν' x) (h : MeansOption types ν a t) : MeansOption types ν' a t := by
  cases a with
  | none => trivial
  | some a => exact Means.congr a t he h

theorem MeansParameters.congr : ∀ (ps : List Param) (ts : Tys V), (∀ x ∈ ps.flatMap (fun p => optionVariables p.annotation), ν x = ν' x) →
    MeansParameters types ν ps ts → MeansParameters types ν' ps ts
  | [], ts, he, h => h
  | p :: ps, ts, he, h => by
    simp only [MeansParameters] at h ⊢
    obtain ⟨t, us, rfl, h1, h2⟩ := h
    exact ⟨_, _, rfl, MeansOption.congr _ t (fun x hx => he x (by rw [List.flatMap_cons]; exact List.mem_append_left _ hx)) h1,
      MeansParameters.congr ps us (fun x hx => he x (by rw [List.flatMap_cons]; exact List.mem_append_right _ hx)) h2⟩

end

theorem typeArity_names {types : List CustomType} {name m : String} {k : Nat} (h : typeArity types name = some (m, k)) : NamesType types name m k := by
  unfold typeArity at h
  split at h
  · next ct hct =>
    cases h
    obtain ⟨h1, before, after, h2, h3⟩ := List.find?_eq_some_iff_append.1 hct
    exact .inl ⟨before, ct, after, h2, fun o ho => by simpa using h3 o ho, by simpa using h1, rfl, rfl⟩
  · next hn =>
    have hn' : ∀ ct ∈ types, ct.name ≠ name := fun ct hct => by simpa using List.find?_eq_none.1 hn ct hct
    split at h
    · next hi =>
      cases h
      exact .inr ⟨hn', rfl, by rcases hi with rfl | rfl | rfl <;> simp⟩
    · split at h
      · next hi => cases h; exact .inr ⟨hn', rfl, by subst hi; simp⟩
      · cases h

/-! ### Reading annotations -/

/-- The variables of annotations, by name. -/
def generics (ids : String → Nat) (x : String) : Tree := .var (.generic (ids x))

/-- These are the ids of the type variables that were made. -/
def Names (s : St) (ids : String → Nat) : Prop := ∀ x t, s.hydrator.created.lookup x = some t → t = .var (ids x)

/-- Type variables are generic, and different ones have different ids. -/
structure Distinct (s : St) (ρ : Cell → Tree) : Prop where
  ok : Ok s ρ
  cell : ∀ x t, s.hydrator.created.lookup x = some t → ∃ c, t = .var c ∧ ρ c = .var (.generic c)
  injective : ∀ x y t, s.hydrator.created.lookup x = some t → s.hydrator.created.lookup y = some t → x = y

structure Reads (vars : List String) (s : St) (ρ : Cell → Tree) (s' : St) (ρ' : Cell → Tree) : Prop where
  distinct : Distinct s' ρ'
  far : Far ρ ρ'
  kept : ∀ x t, s.hydrator.created.lookup x = some t → s'.hydrator.created.lookup x = some t
  new : ∀ x ∈ vars, ∃ t, s'.hydrator.created.lookup x = some t

theorem Reads.trans {vs ws : List String} {s s' s'' : St} {ρ ρ' ρ'' : Cell → Tree} (h : Reads vs s ρ s' ρ') (h' : Reads ws s' ρ' s'' ρ'') :
    Reads (vs ++ ws) s ρ s'' ρ'' :=
  ⟨h'.distinct, h.far.trans h'.far, fun x t hx => h'.kept x t (h.kept x t hx), fun x hx => by
    rcases List.mem_append.1 hx with hx | hx
    · obtain ⟨t, ht⟩ := h.new x hx
      exact ⟨t, h'.kept x t ht⟩
    · exact h'.new x hx⟩

theorem Reads.names {vs : List String} {s s' : St} {ρ ρ' : Cell → Tree} (h : Reads vs s ρ s' ρ') {ids : String → Nat} (hn : Names s' ids) : Names s ids :=
  fun x t hx => hn x t (h.kept x t hx)

theorem Reads.refl {s : St} {ρ : Cell → Tree} (h : Distinct s ρ) : Reads [] s ρ s ρ := ⟨h, .refl ρ, fun _ _ h => h, fun x hx => by cases hx⟩

theorem Distinct.step {s s' : St} {ρ ρ' : Cell → Tree} (h : Distinct s ρ) (ho : Ok s' ρ') (hf : Far ρ ρ') (hh : s'.hydrator = s.hydrator) : Distinct s' ρ' := by
  refine ⟨ho, fun x t hx => ?_, fun x y t hx hy => ?_⟩
  · rw [hh] at hx
    obtain ⟨c, rfl, h1⟩ := h.cell x t hx
    refine ⟨c, rfl, ?_⟩
    have := hf.closed (t := .var c) (by simp only [Ty.sub, h1]; intro i hi; cases hi)
    simpa only [Ty.sub, h1] using this
  · rw [hh] at hx hy
    exact h.injective x y t hx hy

theorem fresh_reads {s s' : St} {ρ : Cell → Tree} {t : Ty Cell} (hd : Distinct s ρ) (h : fresh s = .ok (t, s')) : Reads [] s ρ s' ρ := by
  obtain ⟨a, _, _⟩ := fresh_right (R := []) hd.ok h
  exact ⟨hd.step a.ok (.refl ρ) a.hydrator, .refl ρ, fun x t hx => by rw [a.hydrator]; exact hx, fun x hx => by cases hx⟩

theorem generics_far {ids : String → Nat} {types : List CustomType} {ρ ρ' : Cell → Tree} (hf : Far ρ ρ') {a : TypeAst} {t : Ty Cell}
    (h : Means types (generics ids) a (t.sub ρ)) : Means types (generics ids) a (t.sub ρ') := by
  obtain ⟨σ, rfl⟩ := hf
  rw [sub_on]
  exact Means.sub σ.leaf a _ h

theorem generics_fars {ids : String → Nat} {types : List CustomType} {ρ ρ' : Cell → Tree} (hf : Far ρ ρ') {as : List TypeAst} {ts : Tys Cell}
    (h : MeansAll types (generics ids) as (ts.sub ρ)) : MeansAll types (generics ids) as (ts.sub ρ') := by
  obtain ⟨σ, rfl⟩ := hf
  rw [subs_on]
  exact MeansAll.sub σ.leaf as _ h

theorem MeansAll.length {V : Type} {types : List CustomType} {ν : String → Ty V} : ∀ (as : List TypeAst) (ts : Tys V), MeansAll types ν as ts → as.length = ts.length
  | [], ts, h => by simp only [MeansAll] at h; rw [h]; rfl
  | a :: as, ts, h => by
    simp only [MeansAll] at h
    obtain ⟨t, us, rfl, _, h2⟩ := h
    simp only [List.length_cons, Tys.length, MeansAll.length as us h2]

mutual

theorem hydrate_means (types : List CustomType) : ∀ (a : TypeAst) (s : St) (ρ : Cell → Tree) (t : Ty Cell) (s' : St), Distinct s ρ →
    hydrate types a s = .ok (t, s') → ∃ ρ', Reads a.variables s ρ s' ρ' ∧ ∀ ids, Names s' ids → Means types (generics ids) a (t.sub ρ')
  | .con name as, s, ρ, t, s', hd, h => by
    simp only [hydrate, bind_ok] at h
    obtain ⟨ts, s₁, h1, h2⟩ := h
    obtain ⟨ρ', h3, h4⟩ := hydrateAll_means types as s ρ ts s₁ hd h1
    generalize ha : typeArity types name = d at h2
    rcases d with _ | ⟨m, k⟩
    · simp only [reject_ok] at h2
    simp only at h2
    by_cases hk : ts.length = k
    · rw [if_pos hk] at h2
      simp only [pure_ok] at h2
      obtain ⟨rfl, rfl⟩ := h2
      refine ⟨ρ', h3, fun ids hn => ?_⟩
      have h5 := h4 ids hn
      simp only [Means]
      refine ⟨m, _, ?_, rfl, h5⟩
      rw [MeansAll.length as _ h5, Tys.length_sub, hk]
      exact typeArity_names ha
    · rw [if_neg hk] at h2
      simp only [reject_ok] at h2
  | .fn as r, s, ρ, t, s', hd, h => by
    simp only [hydrate, bind_ok, pure_ok] at h
    obtain ⟨ts, s₁, h1, u, s₂, h2, rfl, rfl⟩ := h
    obtain ⟨ρ₁, h3, h4⟩ := hydrateAll_means types as s ρ ts s₁ hd h1
    obtain ⟨ρ₂, h5, h6⟩ := hydrate_means types r s₁ ρ₁ u s₂ h3.distinct h2
    refine ⟨ρ₂, h3.trans h5, fun ids hn => ?_⟩
    simp only [Means]
    exact ⟨_, _, rfl, generics_fars h5.far (h4 ids (h5.names hn)), h6 ids hn⟩
  | .tuple as, s, ρ, t, s', hd, h => by
    simp only [hydrate, bind_ok, pure_ok] at h
    obtain ⟨ts, s₁, h1, rfl, rfl⟩ := h
    obtain ⟨ρ₁, h3, h4⟩ := hydrateAll_means types as s ρ ts s₁ hd h1
    refine ⟨ρ₁, h3, fun ids hn => ?_⟩
    simp only [Means]
    exact ⟨_, rfl, h4 ids hn⟩
  | .var x, s, ρ, t, s', hd, h => by
    simp only [hydrate, bind_ok, getHydrator_ok] at h
    obtain ⟨_, _, ⟨rfl, rfl⟩, h⟩ := h
    generalize hl : s.hydrator.created.lookup x = d at h
    rcases d with _ | u
    · simp only [bind_ok, pure_ok, setHydrator_ok] at h
      obtain ⟨id, s₁, h1, _, _, rfl, rfl, rfl⟩ := h
      have hold : ∀ y t, s.hydrator.created.lookup y = some t → t ≠ .var id := by
        rintro y _ hy rfl
        obtain ⟨c, h2, h3⟩ := hd.cell y _ hy
        cases h2
        unfold newGeneric at h1
        split at h1
        · next i hi => cases h1; rw [hd.ok.good.reading.unbound _ _ hi] at h3; cases h3
        · cases h1
      obtain ⟨ρ', h2, h3, h4, h5⟩ := newGeneric_right hd.ok h1
      have hx : ∀ y t, List.lookup y ((x, Ty.var id) :: s.hydrator.created) = some t →
          (y = x ∧ t = .var id) ∨ (y ≠ x ∧ s.hydrator.created.lookup y = some t) := by
        intro y t hy
        rw [List.lookup_cons] at hy
        split at hy
        · next he => cases hy; exact .inl ⟨by simpa using he, rfl⟩
        · next he => exact .inr ⟨by simpa using he, hy⟩
      refine ⟨ρ', ⟨⟨⟨h2, ?_⟩, ?_, ?_⟩, h3.far, ?_, ?_⟩, ?_⟩
      · intro y t hy
        rcases hx y t hy with ⟨rfl, rfl⟩ | ⟨_, hy⟩
        · exact ⟨id, by simp, h4⟩
        · obtain ⟨i, h6, h7⟩ := hd.ok.created y t hy
          refine ⟨i, by simp [h6], ?_⟩
          rw [h3.closed (by rw [h7]; intro i hi; cases hi), h7]
      · intro y t hy
        rcases hx y t hy with ⟨rfl, rfl⟩ | ⟨_, hy⟩
        · exact ⟨id, rfl, h4⟩
        · obtain ⟨c, rfl, h7⟩ := hd.cell y t hy
          refine ⟨c, rfl, ?_⟩
          have := h3.closed (t := .var c) (by simp only [Ty.sub, h7]; intro i hi; cases hi)
          simpa only [Ty.sub, h7] using this
      · intro y z t hy hz
        rcases hx y t hy with ⟨h6, h7⟩ | ⟨_, h7⟩ <;> rcases hx z _ hz with ⟨h8, h9⟩ | ⟨_, h9⟩
        · exact h6.trans h8.symm
        · exact absurd h7 (hold z _ h9)
        · exact absurd h9 (hold y _ h7)
        · exact hd.injective y z t h7 h9
      · intro y t hy
        simp only [List.lookup_cons]
        split
        · next he => have : y = x := by simpa using he
                     subst this; rw [hl] at hy; cases hy
        · exact hy
      · intro y hy
        simp only [TypeAst.variables, List.mem_singleton] at hy
        subst hy
        exact ⟨.var id, by simp⟩
      · intro ids hn
        have := hn x (.var id) (by simp)
        simp only [Ty.var.injEq] at this
        simp only [Means, Ty.sub, h4, generics]
        rw [← this]
    · have hu := hl
      simp only [pure_ok] at h
      obtain ⟨rfl, rfl⟩ := h
      refine ⟨ρ, ⟨hd, .refl ρ, fun _ _ h => h, fun y hy => ?_⟩, fun ids hn => ?_⟩
      · simp only [TypeAst.variables, List.mem_singleton] at hy
        subst hy
        exact ⟨_, hu⟩
      · obtain ⟨c, h1, h2⟩ := hd.cell x _ hu
        have h3 := hn x _ hu
        rw [h1] at h3
        simp only [Ty.var.injEq] at h3
        subst h3
        rw [h1]
        simp only [Means, Ty.sub, h2, generics]
  | .hole, s, ρ, t, s', hd, h => by
    simp only [hydrate] at h
    exact ⟨ρ, fresh_reads hd h, fun ids hn => by simp only [Means]⟩

theorem hydrateAll_means (types : List CustomType) : ∀ (as : List TypeAst) (s : St) (ρ : Cell → Tree) (ts : Tys Cell) (s' : St), Distinct s ρ →
    hydrateAll types as s = .ok (ts, s') → ∃ ρ', Reads (variablesAll as) s ρ s' ρ' ∧ ∀ ids, Names s' ids → MeansAll types (generics ids) as (ts.sub ρ')
  | [], s, ρ, ts, s', hd, h => by
    simp only [hydrateAll, pure_ok] at h
    obtain ⟨rfl, rfl⟩ := h
    exact ⟨ρ, .refl hd, fun ids hn => by simp only [MeansAll, Tys.sub]⟩
  | a :: as, s, ρ, ts, s', hd, h => by
    simp only [hydrateAll, bind_ok, pure_ok] at h
    obtain ⟨t, s₁, h1, us, s₂, h2, rfl, rfl⟩ := h
    obtain ⟨ρ₁, h3, h4⟩ := hydrate_means types a s ρ t s₁ hd h1
    obtain ⟨ρ₂, h5, h6⟩ := hydrateAll_means types as s₁ ρ₁ us s₂ h3.distinct h2
    refine ⟨ρ₂, h3.trans h5, fun ids hn => ?_⟩
    simp only [MeansAll]
    exact ⟨_, _, rfl, generics_far h5.far (h4 ids (h5.names hn)), h6 ids hn⟩

end

theorem hydrateOption_means (types : List CustomType) (a : Option TypeAst) (s : St) (ρ : Cell → Tree) (t : Ty Cell) (s' : St) (hd : Distinct s ρ)
    (h : hydrateOption types a s = .ok (t, s')) :
    ∃ ρ', Reads (optionVariables a) s ρ s' ρ' ∧ ∀ ids, Names s' ids → MeansOption types (generics ids) a (t.sub ρ') := by
  cases a with
  | none => exact ⟨ρ, fresh_reads hd h, fun _ _ => trivial⟩
  | some a => exact hydrate_means types a s ρ t s' hd h

theorem hydrateParameters_means (types : List CustomType) : ∀ (ps : List Param) (s : St) (ρ : Cell → Tree) (ts : Tys Cell) (s' : St), Distinct s ρ →
    hydrateParameters types ps s = .ok (ts, s') → ∃ ρ', Reads (ps.flatMap fun p => optionVariables p.annotation) s ρ s' ρ' ∧
      ∀ ids, Names s' ids → MeansParameters types (generics ids) ps (ts.sub ρ')
  | [], s, ρ, ts, s', hd, h => by
    simp only [hydrateParameters, pure_ok] at h
    obtain ⟨rfl, rfl⟩ := h
    exact ⟨ρ, .refl hd, fun ids hn => by simp only [MeansParameters, Tys.sub]⟩
  | p :: ps, s, ρ, ts, s', hd, h => by
    simp only [hydrateParameters, bind_ok, pure_ok] at h
    obtain ⟨t, s₁, h1, us, s₂, h2, rfl, rfl⟩ := h
    obtain ⟨ρ₁, h3, h4⟩ := hydrateOption_means types p.annotation s ρ t s₁ hd h1
    obtain ⟨ρ₂, h5, h6⟩ := hydrateParameters_means types ps s₁ ρ₁ us s₂ h3.distinct h2
    refine ⟨ρ₂, h3.trans h5, fun ids hn => ?_⟩
    simp only [MeansParameters]
    refine ⟨_, _, rfl, ?_, h6 ids hn⟩
    have := h4 ids (h5.names hn)
    obtain ⟨σ, rfl⟩ := h5.far
    rw [sub_on]
    exact MeansOption.sub σ.leaf _ _ this

/-- What the head of a function says, in its type. -/
def HeadMeans (types : List CustomType) (h : Head) (ρ : Cell → Tree) : Prop :=
  ∃ ids : String → Nat, (∀ x ∈ h.fun_.variables, ∀ y ∈ h.fun_.variables, ids x = ids y → x = y) ∧
    MeansParameters types (generics ids) h.fun_.parameters (h.parameters.sub ρ) ∧ MeansOption types (generics ids) h.fun_.return_ (h.return_.sub ρ)

theorem HeadMeans.far {types : List CustomType} {h : Head} {ρ ρ' : Cell → Tree} (hm : HeadMeans types h ρ) (hf : Far ρ ρ') : HeadMeans types h ρ' := by
  obtain ⟨ids, h1, h2, h3⟩ := hm
  obtain ⟨σ, rfl⟩ := hf
  refine ⟨ids, h1, ?_, ?_⟩
  · rw [subs_on]; exact MeansParameters.sub σ.leaf _ _ h2
  · rw [sub_on]; exact MeansOption.sub σ.leaf _ _ h3

theorem registerFunction_means {types : List CustomType} {f : Fun} {s s' : St} {ρ : Cell → Tree} {h : Head} (hg : Good s.heap ρ)
    (hr : registerFunction types f s = .ok (h, s')) : ∃ ρ', Good s'.heap ρ' ∧ Far ρ ρ' ∧ h.fun_ = f ∧ HeadMeans types h ρ' ∧
      (∀ x t, h.hydrator.created.lookup x = some t → ∃ id ∈ h.hydrator.rigid, t.sub ρ' = .var (.generic id)) := by
  simp only [registerFunction, bind_ok, setHydrator_ok, getHydrator_ok, pure_ok] at hr
  obtain ⟨_, _, rfl, ts, s₁, h1, r, s₂, h2, _, _, ⟨rfl, rfl⟩, rfl, rfl⟩ := hr
  have hd : Distinct ⟨s.heap, s.next, ⟨[], []⟩⟩ ρ :=
    ⟨⟨hg, fun x t hx => (by cases hx)⟩, fun x t hx => (by cases hx), fun x y t hx => (by cases hx)⟩
  obtain ⟨ρ₁, h3, h4⟩ := hydrateParameters_means types f.parameters _ ρ ts s₁ hd h1
  obtain ⟨ρ₂, h5, h6⟩ := hydrateOption_means types f.return_ s₁ ρ₁ r s₂ h3.distinct h2
  have h7 := h3.trans h5
  refine ⟨ρ₂, h5.distinct.ok.good, h7.far, rfl, ?_, h5.distinct.ok.created⟩
  refine ⟨fun x => match s₂.hydrator.created.lookup x with | some (.var c) => c | _ => 0, fun x hx y hy he => ?_, ?_, ?_⟩
  · obtain ⟨t, ht⟩ := h7.new x hx
    obtain ⟨u, hu⟩ := h7.new y hy
    obtain ⟨c, rfl, _⟩ := h5.distinct.cell x t ht
    obtain ⟨d, rfl, _⟩ := h5.distinct.cell y u hu
    simp only [ht, hu] at he
    subst he
    exact h5.distinct.injective x y _ ht hu
  all_goals
    have hn : Names s₂ fun x => match s₂.hydrator.created.lookup x with | some (.var c) => c | _ => 0 := fun x t hx => by
      obtain ⟨c, rfl, _⟩ := h5.distinct.cell x t hx
      simp only [hx]
  · have := h4 _ (h5.names hn)
    obtain ⟨σ, hσ⟩ := h5.far
    rw [hσ, subs_on]
    exact MeansParameters.sub σ.leaf _ _ this
  · exact h6 _ hn

theorem registerAll_means {types : List CustomType} : ∀ (fs : List Fun) (s s' : St) (ρ : Cell → Tree) (hs : List Head), Good s.heap ρ →
    registerAll types fs s = .ok (hs, s') → ∃ ρ', Good s'.heap ρ' ∧ Far ρ ρ' ∧ hs.map (·.fun_) = fs ∧ ∀ h ∈ hs, HeadMeans types h ρ' ∧
      (∀ x t, h.hydrator.created.lookup x = some t → ∃ id ∈ h.hydrator.rigid, t.sub ρ' = .var (.generic id))
  | [], s, s', ρ, hs, hg, h => by
    simp only [registerAll, pure_ok] at h
    obtain ⟨rfl, rfl⟩ := h
    exact ⟨ρ, hg, .refl _, rfl, fun h hh => by cases hh⟩
  | f :: fs, s, s', ρ, hs, hg, h => by
    simp only [registerAll, bind_ok, pure_ok] at h
    obtain ⟨hd, s₁, h1, hs', s₂, h2, rfl, rfl⟩ := h
    obtain ⟨ρ₁, g1, t1, e1, k1, c1⟩ := registerFunction_means hg h1
    obtain ⟨ρ₂, g2, t2, e2, k2⟩ := registerAll_means fs s₁ s₂ ρ₁ hs' g1 h2
    refine ⟨ρ₂, g2, t1.trans t2, by simp [e1, e2], fun h hh => ?_⟩
    rcases List.mem_cons.1 hh with rfl | hh
    · refine ⟨k1.far t2, fun x t hx => ?_⟩
      obtain ⟨id, h3, h4⟩ := c1 x t hx
      refine ⟨id, h3, ?_⟩
      rw [t2.closed (by rw [h4]; intro i hi; cases hi), h4]
    · exact k2 h hh

theorem inferFunctions_far {n : Nat} {g : Globals} : ∀ (hs : List Head) (s s' : St) (x : Unit) (ρ : Cell → Tree),
    Good s.heap ρ → (∀ h ∈ hs, ∀ x t, h.hydrator.created.lookup x = some t → ∃ id ∈ h.hydrator.rigid, t.sub ρ = .var (.generic id)) →
    inferFunctions n g hs s = .ok (x, s') → ∃ ρ', Good s'.heap ρ' ∧ Far ρ ρ'
  | [], s, s', x, ρ, hg, hk, h => by
    simp only [inferFunctions, pure_ok] at h
    obtain ⟨_, rfl⟩ := h
    exact ⟨ρ, hg, .refl _⟩
  | hd :: hs, s, s', x, ρ, hg, hk, h => by
    simp only [inferFunctions, bind_ok] at h
    obtain ⟨_, s₁, h1, h2⟩ := h
    simp only [inferFunction, bind_ok, setHydrator_ok] at h1
    obtain ⟨_, _, rfl, t, s₂, h3, h4⟩ := h1
    obtain ⟨ρ₁, o1, f1⟩ := (inferBody_keeps n [] hd.fun_.parameters hd.parameters (some hd.return_) (fun ls => inferStmts_keeps n g hd.fun_.body ls)).run
      { s with hydrator := hd.hydrator } t s₂ ρ ⟨hg, hk hd (by simp)⟩ h3
    obtain ⟨ρ₂, o2, f2⟩ := (Keeps.unifyI _ _ _).run _ _ _ _ o1 h4
    obtain ⟨ρ₃, g3, f3⟩ := inferFunctions_far hs s₁ s' x ρ₂ o2.good (fun h hh x t hx => by
      obtain ⟨id, h5, h6⟩ := hk h (by simp [hh]) x t hx
      refine ⟨id, h5, ?_⟩
      rw [(f1.trans f2).closed (by rw [h6]; intro i hi; cases hi), h6]) h2
    exact ⟨ρ₃, g3, (f1.trans f2).trans f3⟩

/-- The id of a variable of a type. -/
def leafId : Leaf → Ty Nat
  | .unbound id => .var id
  | .generic id => .var id

/-- The scheme is the type, with the ids of its variables. -/
theorem generalise_eq {ρ : Cell → Tree} {t : Ty Cell} {T : Ty Nat} (h : ∀ θ : Nat → Tree, T.sub θ = (t.sub ρ).sub (allSub θ)) : T = (t.sub ρ).sub leafId := by
  have h1 := congrArg (fun u : Tree => u.sub leafId) (h fun id => .var (.generic id))
  simp only [Ty.sub_sub] at h1
  rw [show (fun v => ((Ty.var (.generic v) : Tree).sub leafId)) = (.var : Nat → Ty Nat) from rfl, Ty.sub_var] at h1
  rw [h1, Ty.sub_sub]
  refine Ty.sub_congr _ _ _ fun c _ => ?_
  refine Ty.sub_congr _ _ _ fun l _ => ?_
  cases l <;> rfl

/-- The type is one that the head of the function allows; its type variables are different variables. -/
def Honours (types : List CustomType) (f : Fun) (T : Ty Nat) : Prop :=
  ∃ ids : String → Nat, (∀ x ∈ f.variables, ∀ y ∈ f.variables, ids x = ids y → x = y) ∧
    ∃ as r, T = .fn as r ∧ MeansParameters types (fun x => .var (ids x)) f.parameters as ∧ MeansOption types (fun x => .var (ids x)) f.return_ r

theorem inferGroups_means {n : Nat} {types : List Registered} : ∀ (gs : List (List Fun)) (values F : List (String × Ty Nat)) (s s' : St) (ρ : Cell → Tree),
    Good s.heap ρ → (gs.flatten.map (·.name)).Nodup → (∀ f ∈ gs.flatten, f.name ∉ values.map (·.1)) → inferGroups n types values gs s = .ok (F, s') →
    (∀ x T, values.lookup x = some T → F.lookup x = some T) ∧ ∀ f ∈ gs.flatten, ∃ T, F.lookup f.name = some T ∧ Honours (types.map (·.type)) f T
  | [], values, F, s, s', ρ, hg, hn, hd, h => by
    simp only [inferGroups, pure_ok] at h
    obtain ⟨rfl, rfl⟩ := h
    exact ⟨fun x T h => h, fun f hf => by simp at hf⟩
  | fs :: gs, values, F, s, s', ρ, hg, hn, hd, h => by
    simp only [inferGroups, bind_ok] at h
    obtain ⟨heads, s₁, h1, x, s₂, h2, new, s₃, h3, h4⟩ := h
    rw [List.flatten_cons, List.map_append, List.nodup_append] at hn
    obtain ⟨ρ₁, g1, f1, e1, k1⟩ := registerAll_means fs s s₁ ρ heads hg h1
    obtain ⟨ρ₂, g2, f2⟩ := inferFunctions_far heads s₁ s₂ x ρ₁ g1 (fun h hh => (k1 h hh).2) h2
    obtain ⟨rfl, e3, k3⟩ := generaliseHeads_right heads s₂ s₃ new g2.reading h3
    have e3' : new.map (·.1) = fs.map (·.name) := by rw [e3, ← e1, List.map_map]; rfl
    have hmem : ∀ f ∈ fs, f ∈ (fs :: gs).flatten := fun f h => by simp [List.flatten_cons, h]
    have hmem' : ∀ f ∈ gs.flatten, f ∈ (fs :: gs).flatten := fun f h => by rw [List.flatten_cons]; exact List.mem_append.2 (.inr h)
    obtain ⟨i1, i2⟩ := inferGroups_means gs (new ++ values) F s₃ s' ρ₂ g2 hn.2.1 (fun f h hx => by
      rw [List.map_append, e3'] at hx
      rcases List.mem_append.1 hx with hx | hx
      · exact hn.2.2 _ hx _ (List.mem_map_of_mem h) rfl
      · exact hd f (hmem' f h) hx) h4
    refine ⟨fun x T hl => i1 x T ?_, fun f hff => ?_⟩
    · have : new.lookup x = none := by
        cases hl' : new.lookup x with
        | none => rfl
        | some T' =>
          exfalso
          have hm := mem_of_lookup hl'
          rw [e3'] at hm
          obtain ⟨f, hf1, rfl⟩ := List.mem_map.1 hm
          exact hd f (hmem f hf1) (mem_of_lookup hl)
      rw [List.lookup_append, this]
      exact hl
    · rw [List.flatten_cons] at hff
      rcases List.mem_append.1 hff with hff | hff
      · rw [← e1] at hff
        obtain ⟨h, hh, rfl⟩ := List.mem_map.1 hff
        obtain ⟨T, m3, s3⟩ := k3 h hh
        have hn1 := hn.1
        rw [← e3'] at hn1
        refine ⟨T, i1 _ _ (by rw [List.lookup_append, lookup_of_nodup hn1 m3]; rfl), ?_⟩
        obtain ⟨ids, m4, m5, m6⟩ := (k1 h hh).1.far f2
        exact ⟨ids, m4, _, _, generalise_eq s3, MeansParameters.sub leafId _ _ m5, MeansOption.sub leafId _ _ m6⟩
      · exact i2 f hff

/-- **C66.** In an accepted module every function has a type that its annotations allow, and the type variables of the annotations are really
variable, and different from each other: they are never turned into a particular type or into one another. So a function can be used at every
type its annotations promise, and, if everything is annotated, with no others. -/
theorem functions_have_their_annotated_types (m : Module) (n : Nat) (values : List (String × Ty Nat)) (acc : inferModule n m = .ok values) :
    ∀ f ∈ m.funs, ∃ T, values.lookup f.name = some T ∧
      ∃ ids : String → Nat, (∀ x ∈ f.variables, ∀ y ∈ f.variables, ids x = ids y → x = y) ∧
        ∃ as r, T = .fn as r ∧ MeansParameters m.allTypes (fun x => .var (ids x)) f.parameters as ∧
          MeansOption m.allTypes (fun x => .var (ids x)) f.return_ r := by
  unfold inferModule at acc
  simp only at acc
  split at acc
  case isFalse => cases acc
  next hc =>
  simp only [Bool.and_eq_true] at hc
  split at acc
  case h_2 => cases acc
  next F s' hF =>
  cases acc
  have hn : (m.funs.map (·.name)).Nodup := (List.nodup_append.1 (noDuplicates_nodup hc.1)).1
  obtain ⟨_, h2⟩ := inferGroups_means m.groups [] values _ s' _ emptyHeap_good hn (fun f _ hx => by cases hx) hF
  rw [registerTypes_types] at h2
  exact h2

/-- Of the two halves, the first: the functions of an accepted module can be used at all the types that their annotations promise, whatever
the types that their type variables are replaced by. -/
theorem annotated_functions_are_general (m : Module) (n : Nat) (values : List (String × Ty Nat)) (acc : inferModule n m = .ok values) :
    ∀ f ∈ m.funs, ∃ T, values.lookup f.name = some T ∧ ∀ ν : String → Tree, ∃ θ : Nat → Tree, ∃ as r, T.sub θ = .fn as r ∧
      MeansParameters m.allTypes ν f.parameters as ∧ MeansOption m.allTypes ν f.return_ r := by
  classical
  intro f hf
  obtain ⟨T, h1, ids, h2, as, r, rfl, h3, h4⟩ := functions_have_their_annotated_types m n values acc f hf
  refine ⟨_, h1, fun ν => ?_⟩
  obtain ⟨θ, hθ⟩ : ∃ θ : Nat → Tree, ∀ x ∈ f.variables, θ (ids x) = ν x := by
    refine ⟨fun i => if h : ∃ y ∈ f.variables, ids y = i then ν h.choose else tInt, fun x hx => ?_⟩
    have hex : ∃ y ∈ f.variables, ids y = ids x := ⟨x, hx, rfl⟩
    simp only [dif_pos hex]
    rw [h2 _ hex.choose_spec.1 x hx hex.choose_spec.2]
  refine ⟨θ, _, _, rfl, ?_, ?_⟩
  · exact MeansParameters.congr _ _ (fun x hx => hθ x (List.mem_append_left _ hx)) (MeansParameters.sub θ _ _ h3)
  · exact MeansOption.congr _ _ (fun x hx => hθ x (List.mem_append_right _ hx)) (MeansOption.sub θ _ _ h4)

/-- And the second: at no others. -/
theorem annotated_functions_are_what_they_say (m : Module) (n : Nat) (values : List (String × Ty Nat)) (acc : inferModule n m = .ok values) :
    ∀ f ∈ m.funs, ∃ T, values.lookup f.name = some T ∧ ∀ θ : Nat → Tree, ∃ ν : String → Tree, ∃ as r, T.sub θ = .fn as r ∧
      MeansParameters m.allTypes ν f.parameters as ∧ MeansOption m.allTypes ν f.return_ r := by
  intro f hf
  obtain ⟨T, h1, ids, h2, as, r, rfl, h3, h4⟩ := functions_have_their_annotated_types m n values acc f hf
  exact ⟨_, h1, fun θ => ⟨fun x => θ (ids x), _, _, rfl, MeansParameters.sub _ _ _ h3, MeansOption.sub _ _ _ h4⟩⟩

/-! ### The example of `Props` has annotated functions -/

/-- `map` is `fn(Tree(a), fn(a) -> b) -> Tree(b)`, for two different variables. -/
example : ∃ values, inferModule 60 goodExample = .ok values ∧ ∃ a b : Nat, a ≠ b ∧
    values.lookup "map" = some (.fn (.cons (.named "m" "Tree" (.cons (.var a) .nil)) (.cons (.fn (.cons (.var a) .nil) (.var b)) .nil))
      (.named "m" "Tree" (.cons (.var b) .nil))) := by
  obtain ⟨values, acc, _⟩ := goodExample_main
  refine ⟨values, acc, ?_⟩
  have tree : ∀ {m : String} {k : Nat}, NamesType goodExample.allTypes "Tree" m k → m = "m" := by
    rintro m k (⟨before, ct, after, h1, h2, h3, h4, h5⟩ | ⟨h1, _⟩)
    · cases before with
      | nil =>
        simp only [List.nil_append, goodExample, Module.allTypes, List.cons_append, List.cons.injEq] at h1
        rw [← h4, ← h1.1]; rfl
      | cons b bs =>
        simp only [goodExample, Module.allTypes, List.cons_append, List.cons.injEq] at h1
        exact absurd (by rw [← h1.1]; rfl) (h2 b (by simp))
    · exact absurd rfl (h1 treeType (by simp [goodExample, Module.allTypes]))
  obtain ⟨f, hf, hname, hps, hret⟩ : ∃ f ∈ goodExample.funs, f.name = "map" ∧
      f.parameters = [⟨some "t", some (treeOf "a")⟩, ⟨some "f", some (.fn [.var "a"] (.var "b"))⟩] ∧ f.return_ = some (treeOf "b") :=
    ⟨_, List.mem_cons_self .., rfl, rfl, rfl⟩
  obtain ⟨T, h1, ids, h2, as, r, rfl, h3, h4⟩ := functions_have_their_annotated_types goodExample 60 values acc f hf
  rw [hname] at h1
  simp only [Fun.variables, hps, hret] at h2 h3 h4
  refine ⟨ids "a", ids "b", fun he => ?_, ?_⟩
  · exact absurd (h2 "a" (by decide +kernel) "b" (by decide +kernel) he) (by decide)
  simp only [MeansParameters, MeansOption, Means, MeansAll, treeOf] at h3 h4
  obtain ⟨_, _, rfl, ⟨m1, _, n1, rfl, _, _, rfl, rfl, rfl⟩, _, _, rfl, ⟨_, _, rfl, ⟨_, _, rfl, rfl, rfl⟩, rfl⟩, rfl⟩ := h3
  obtain ⟨m2, _, n2, rfl, _, _, rfl, rfl, rfl⟩ := h4
  rw [tree n1, tree n2] at h1
  exact h1

end Verif.Infer
