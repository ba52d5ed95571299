import Verif.Infer.BestExpr

/-!
Typed groups of functions keep the solution.
-/

namespace Verif.Infer

open Verif.Unify

section
variable {strict : Prop}

theorem setHydrator_best {s : St} {S : Sol} (hi : Fine s S) : Best strict (setHydrator ⟨[], []⟩) s S fun _ s' S' => s' = s ∧ S' = S := by
  have : setHydrator ⟨[], []⟩ s = .ok ((), s) := by
    unfold setHydrator
    rw [← hi.hydrator]
  unfold Best
  rw [this]
  exact ⟨S, .refl hi, rfl, rfl⟩

theorem getHydrator_best {s : St} {S : Sol} (hi : Fine s S) : Best strict getHydrator s S fun h s' S' => h = ⟨[], []⟩ ∧ s' = s ∧ S' = S :=
  ⟨S, .refl hi, hi.hydrator, rfl, rfl⟩

theorem Best.ofFuel {α : Type} {o : Option α} {s : St} {S : Sol} {Q : α → St → Sol → Prop} (hi : Fine s S) (h : ∀ a, o = some a → Q a s S) :
    Best strict (ofFuel o) s S Q := by
  cases o with
  | none => trivial
  | some a => exact Best.pure hi (h a rfl)

theorem hydrateParameters_best {types : List CustomType} : ∀ (ps : List Param) (τs : Tys Leaf) {s : St} {S : Sol}, Fine s S →
    ps.all (fun p => p.annotation.isNone) = true → ps.length = τs.length → Best strict (hydrateParameters types ps) s S (Types' τs)
  | [], τs, s, S, hi, hb, hl => by
    cases τs with
    | cons => cases hl
    | nil => exact Best.pure hi ⟨.nil, rfl⟩
  | p :: ps, τs, s, S, hi, hb, hl => by
    cases τs with
    | nil => cases hl
    | cons τ τs =>
      simp only [List.all_cons, Bool.and_eq_true, Option.isNone_iff_eq_none] at hb
      simp only [List.length, Tys.length, Nat.add_right_cancel_iff] at hl
      unfold hydrateParameters hydrateOption
      rw [hb.1]
      refine Best.bind (fresh_best hi τ) fun t s₁ S₁ n₁ ⟨m₁, e₁, _, _⟩ => ?_
      refine Best.bind (hydrateParameters_best ps τs n₁.fine hb.2 hl) fun ts s₂ S₂ n₂ h₂ => ?_
      have h₁ := n₂.type ⟨m₁, e₁⟩
      exact Best.pure n₂.fine ⟨Lows.cons.2 ⟨h₁.1, h₂.1⟩, by rw [Sol.ofs_cons, h₁.2, h₂.2]⟩

/-- The head of a function has the type of the function. -/
structure HeadAt (σ : String → Tree) (h : Head) (s : St) (S : Sol) : Prop where
  hydrator : h.hydrator = ⟨[], []⟩
  made : Made s S h.type
  type : S.of h.type = σ h.fun_.name

theorem HeadAt.next {σ : String → Tree} {h : Head} {s s' : St} {S S' : Sol} (ha : HeadAt σ h s S) (hn : Next s S s' S') : HeadAt σ h s' S' :=
  ⟨ha.hydrator, hn.made _ ha.made, (hn.same _ ha.made).trans ha.type⟩

theorem registerFunction_best {types : List CustomType} {σ : String → Tree} {f : Fun} {as : Tys Leaf} {r : Tree} {s : St} {S : Sol} (hi : Fine s S)
    (hb : f.bare = true) (hσ : σ f.name = .fn as r) (hl : f.parameters.length = as.length) :
    Best strict (registerFunction types f) s S fun h s' S' => h.fun_ = f ∧ HeadAt σ h s' S' := by
  simp only [Fun.bare, Bool.and_eq_true, Option.isNone_iff_eq_none] at hb
  unfold registerFunction
  refine Best.bind (setHydrator_best hi) fun _ s₁ S₁ _ hq => ?_
  obtain ⟨rfl, rfl⟩ := hq
  refine Best.bind (hydrateParameters_best f.parameters as hi hb.1.1 hl) fun ts s₂ S₂ n₂ h₂ => ?_
  unfold hydrateOption
  rw [hb.1.2]
  refine Best.bind (fresh_best n₂.fine r) fun t s₃ S₃ n₃ ⟨m₃, e₃, _, _⟩ => ?_
  have h₂' := n₃.types h₂
  refine Best.bind (getHydrator_best n₃.fine) fun hy s₄ S₄ _ hq => ?_
  obtain ⟨rfl, rfl, rfl⟩ := hq
  exact Best.pure n₃.fine ⟨rfl, rfl, Low.fn.2 ⟨h₂'.1, m₃⟩, by
    show S₄.of (.fn ts t) = σ f.name
    rw [hσ, Sol.of_fn, h₂'.2, e₃]⟩

theorem registerAll_best {types : List CustomType} {σ : String → Tree} : ∀ (fs : List Fun) {s : St} {S : Sol}, Fine s S → (∀ f ∈ fs, f.bare = true) →
    (∀ f ∈ fs, ∃ as r, σ f.name = .fn as r ∧ f.parameters.length = as.length) →
    Best strict (registerAll types fs) s S fun hs s' S' => hs.map (·.fun_) = fs ∧ ∀ h ∈ hs, HeadAt σ h s' S'
  | [], s, S, hi, hb, hl => Best.pure hi ⟨rfl, fun h hh => by cases hh⟩
  | f :: fs, s, S, hi, hb, hl => by
    obtain ⟨as, r, h1, h2⟩ := hl f (by simp)
    unfold registerAll
    refine Best.bind (registerFunction_best hi (hb f (by simp)) h1 h2) fun h s₁ S₁ n₁ ⟨e₁, h₁⟩ => ?_
    refine Best.bind (registerAll_best fs n₁.fine (fun f hf => hb f (by simp [hf])) (fun f hf => hl f (by simp [hf]))) fun hs s₂ S₂ n₂ ⟨e₂, h₂⟩ => ?_
    refine Best.pure n₂.fine ⟨by rw [List.map_cons, e₁, e₂], fun h' hh => ?_⟩
    rcases List.mem_cons.1 hh with rfl | hh
    · exact h₁.next n₂
    · exact h₂ h' hh

theorem inferFunction_best {E : TEnv} {n : Nat} {g : Globals} {σ : String → Tree} {h : Head} {as : Tys Leaf} {r : Tree} {s : St} {S : Sol} (hi : Fine s S)
    (hk : Knows E g s S) (hh : HeadAt σ h s S) (hb : h.fun_.bare = true) (hd : strict → h.fun_.direct = true) (hσ : σ h.fun_.name = .fn as r)
    (hl : h.fun_.parameters.length = as.length) (ht : TypedStmts E (paramB h.fun_.parameters as) h.fun_.body r) :
    Best strict (inferFunction n g h) s S fun _ _ _ => True := by
  simp only [Fun.bare, Bool.and_eq_true, Option.isNone_iff_eq_none] at hb
  have hd' : strict → different (h.fun_.parameters.filterMap (·.name)) = true ∧ stmtsDirect h.fun_.body = true := fun hs => by
    simpa [Fun.direct] using hd hs
  have hty := hh.type
  rw [Head.type, Sol.of_fn, hσ, Ty.fn.injEq] at hty
  have hm : Mades s S h.parameters ∧ Made s S h.return_ := Low.fn.1 hh.made
  unfold inferFunction
  rw [hh.hydrator]
  refine Best.bind (setHydrator_best hi) fun _ s₁ S₁ _ hq => ?_
  obtain ⟨rfl, rfl⟩ := hq
  refine Best.bind (inferBody_best (E := E) (g := g) (Γ := []) ⟨hi, hk, .nil, rfl⟩ hl ⟨hm.1, hty.1⟩ (fun r hr => by cases hr; exact ⟨hm.2, hty.2⟩)
    (fun hs => (hd' hs).1) fun vars hv => inferStmts_best h.fun_.body _ _ r _ _ hv hb.2 (fun hs => (hd' hs).2) (by rw [List.append_nil]; exact ht))
    fun t s₂ S₂ n₂ h₂ => ?_
  have hm' := n₂.types ⟨hm.1, hty.1⟩
  have hh' := hh.next n₂
  refine unifyI_best n₂.fine hh'.made (Low.fn.2 ⟨hm'.1, h₂.1⟩) ?_
  rw [hh'.type, hσ, Sol.of_fn, hm'.2, h₂.2]

theorem inferFunctions_best {E : TEnv} {n : Nat} {g : Globals} {σ : String → Tree} : ∀ (hs : List Head) {s : St} {S : Sol}, Fine s S → Knows E g s S →
    (∀ h ∈ hs, HeadAt σ h s S) → (∀ h ∈ hs, h.fun_.bare = true) → (strict → ∀ h ∈ hs, h.fun_.direct = true) →
    (∀ h ∈ hs, ∃ as r, σ h.fun_.name = .fn as r ∧ h.fun_.parameters.length = as.length ∧ TypedStmts E (paramB h.fun_.parameters as) h.fun_.body r) →
    Best strict (inferFunctions n g hs) s S fun _ _ _ => True
  | [], s, S, hi, hk, hh, hb, hd, ht => Best.pure hi trivial
  | h :: hs, s, S, hi, hk, hh, hb, hd, ht => by
    obtain ⟨as, r, h1, h2, h3⟩ := ht h (by simp)
    unfold inferFunctions
    refine Best.bind (inferFunction_best hi hk (hh h (by simp)) (hb h (by simp)) (fun s => hd s h (by simp)) h1 h2 h3) fun _ s₁ S₁ n₁ _ => ?_
    exact inferFunctions_best hs n₁.fine (hk.next n₁) (fun h hm => (hh h (by simp [hm])).next n₁) (fun h hm => hb h (by simp [hm]))
      (fun s h hm => hd s h (by simp [hm])) fun h hm => ht h (by simp [hm])

theorem generalise_best {ρ : Cell → Tree} {heap : Heap} {k : Nat} {θ : Assignment} {n : Nat} {t : Ty Cell} {T : Ty Nat} (hg : Reading heap ρ)
    (hm : Low k (t.sub ρ)) (h : generalise n heap t = some T) : T.sub θ = θ.on (t.sub ρ) := by
  rw [generalise_right hg θ n t T h]
  refine Ty.sub_congr _ _ _ fun l hl => ?_
  obtain ⟨id, _, rfl⟩ := hm l hl
  rfl

theorem generaliseHeads_best {n : Nat} {σ : String → Tree} : ∀ (hs : List Head) {s : St} {S : Sol}, Fine s S → (∀ h ∈ hs, HeadAt σ h s S) →
    Best strict (generaliseHeads n hs) s S fun new _ _ => new.map (·.1) = hs.map (fun h => h.fun_.name) ∧
      ∀ x T, new.lookup x = some T → ∃ θ : Nat → Tree, σ x = T.sub θ
  | [], s, S, hi, hh => Best.pure hi ⟨rfl, fun x T h => by cases h⟩
  | h :: hs, s, S, hi, hh => by
    unfold generaliseHeads
    refine Best.bind (getHeap_best hi) fun heap s₁ S₁ _ hq => ?_
    obtain ⟨rfl, rfl, rfl⟩ := hq
    refine Best.bind (Q := fun T s' S' => s' = s₁ ∧ S' = S₁ ∧ generalise n s₁.heap h.type = some T) (Best.ofFuel hi fun T hT => ⟨rfl, rfl, hT⟩)
      fun T s₂ S₂ _ hq => ?_
    obtain ⟨rfl, rfl, hT⟩ := hq
    have h0 := hh h (by simp)
    have h1 : T.sub S₂.θ = σ h.fun_.name := by rw [generalise_best hi.good.reading h0.made hT]; exact h0.type
    refine Best.bind (generaliseHeads_best hs hi (fun h hm => hh h (by simp [hm]))) fun new s₃ S₃ n₃ ⟨e₃, h₃⟩ => ?_
    refine Best.pure n₃.fine ⟨by rw [List.map_cons, List.map_cons, e₃], fun x T' hl => ?_⟩
    rw [List.lookup_cons] at hl
    split at hl
    · next hx =>
      cases hl
      rw [eq_of_beq hx]
      exact ⟨S₂.θ, h1.symm⟩
    · exact h₃ x T' hl

/-! ### Groups -/

/-- A group of functions. -/
def groupI (n : Nat) (types : List Registered) (values : List (String × Ty Nat)) (fs : List Fun) : I (List (String × Ty Nat)) := do
  let heads ← registerAll (types.map (·.type)) fs
  inferFunctions n ⟨types, heads.map fun h => (h.fun_.name, h.type), values⟩ heads
  generaliseHeads n heads

theorem I.bind_assoc {α β γ : Type} (x : I α) (f : α → I β) (g : β → I γ) : (x >>= f) >>= g = x >>= fun a => f a >>= g := by
  funext s
  show I.bind (I.bind x f) g s = I.bind x (fun a => I.bind (f a) g) s
  unfold I.bind
  cases x s with
  | error e => rfl
  | ok p => rfl

theorem inferGroups_cons (n : Nat) (types : List Registered) (values : List (String × Ty Nat)) (fs : List Fun) (rest : List (List Fun)) :
    inferGroups n types values (fs :: rest) = groupI n types values fs >>= fun new => inferGroups n types (new ++ values) rest := by
  unfold groupI
  rw [I.bind_assoc]
  simp only [I.bind_assoc]
  rfl

/-- What earlier functions have are instances of the types that were found for them. -/
def Instances (Δ : String → Tree → Prop) (values : List (String × Ty Nat)) : Prop :=
  ∀ x τ, Δ x τ → ∃ T, values.lookup x = some T ∧ ∃ θ : Nat → Tree, τ = T.sub θ

theorem lookup_keys {α : Type} {x : String} : ∀ {l : List (String × α)}, l.lookup x = none ↔ x ∉ l.map (·.1)
  | [] => by simp
  | (y, a) :: l => by
    rw [List.lookup_cons]
    split
    · next h => simp [eq_of_beq h]
    · next h =>
      have : x ≠ y := fun e => by simp [e] at h
      rw [lookup_keys]
      simp [this]

theorem groupI_best {n : Nat} {types : List Registered} {names : List String} {values : List (String × Ty Nat)} {Δ : String → Tree → Prop}
    {σ : String → Tree} {fs : List Fun} {s : St} {S : Sol} (hi : Fine s S) (hgood : GoodTypes (types.map (·.type))) (hΔ : Instances Δ values)
    (hv : ∀ x ∈ values.map (·.1), x ∈ names) (hf : ∀ f ∈ fs, f.name ∈ names) (hb : ∀ f ∈ fs, f.bare = true) (hd : strict → ∀ f ∈ fs, f.direct = true)
    (ht : GroupTyped (types.map (·.type)) names Δ σ fs) :
    Best strict (groupI n types values fs) s S fun new _ _ => new.map (·.1) = fs.map (·.name) ∧
      ∀ x T, new.lookup x = some T → ∃ θ : Nat → Tree, σ x = T.sub θ := by
  unfold groupI
  refine Best.bind (registerAll_best (σ := σ) fs hi hb fun f hm => ?_) fun hs s₁ S₁ n₁ ⟨e₁, h₁⟩ => ?_
  · obtain ⟨as, r, h1, h2, _⟩ := ht f hm
    exact ⟨as, r, h1, h2⟩
  have hm : ∀ h ∈ hs, h.fun_ ∈ fs := fun h hh => by rw [← e₁]; exact List.mem_map_of_mem hh
  have hkeys : (hs.map fun h => (h.fun_.name, h.type)).map (·.1) = fs.map (·.name) := by
    rw [← e₁, List.map_map, List.map_map]; rfl
  have hnone : ∀ x, (hs.map fun h => (h.fun_.name, h.type)).lookup x = none → x ∉ fs.map (·.name) := fun x hx => by
    rw [← hkeys]; exact lookup_keys.1 hx
  have hk : Knows ⟨types.map (·.type), names, fun x τ => if x ∈ fs.map (·.name) then τ = σ x else Δ x τ⟩
      ⟨types, hs.map fun h => (h.fun_.name, h.type), values⟩ s₁ S₁ := by
    refine ⟨rfl, hgood, fun x t hx => ?_, fun x T hx hl => ?_, fun x hx hl _ τ hτ => ?_⟩
    · have hx' := lookup_mem hx
      obtain ⟨h, hh, he⟩ := List.mem_map.1 hx'
      cases he
      have hname : h.fun_.name ∈ fs.map (·.name) := List.mem_map_of_mem (hm h hh)
      refine ⟨hf _ (hm h hh), (h₁ h hh).made, fun τ hτ => ?_⟩
      simp only [if_pos hname] at hτ
      rw [hτ, (h₁ h hh).type]
    · refine ⟨hv x (List.mem_map.2 ⟨_, lookup_mem hl, rfl⟩), fun τ hτ => ?_⟩
      simp only [if_neg (hnone x hx)] at hτ
      obtain ⟨T', h1, h2⟩ := hΔ x τ hτ
      have hl' : values.lookup x = some T := hl
      rw [hl'] at h1
      cases h1
      exact h2
    · simp only [if_neg (hnone x hx)] at hτ
      obtain ⟨T', h1, _⟩ := hΔ x τ hτ
      have hl' : values.lookup x = none := hl
      rw [hl'] at h1
      cases h1
  refine Best.bind (inferFunctions_best hs n₁.fine hk h₁ (fun h hh => hb _ (hm h hh)) (fun s h hh => hd s _ (hm h hh)) fun h hh => ht _ (hm h hh))
    fun _ s₂ S₂ n₂ _ => ?_
  refine Best.mono (generaliseHeads_best hs n₂.fine fun h hh => (h₁ h hh).next n₂) fun new s₃ S₃ _ ⟨e₃, h₃⟩ => ⟨?_, h₃⟩
  rw [e₃, ← e₁, List.map_map]; rfl

/-- What is found for the functions. -/
def FoundFor (strict : Prop) (Δ : String → Tree → Prop) : Except Stop (List (String × Ty Nat) × St) → Prop
  | .ok (F, _) => Instances Δ F
  | .error .rejected => ¬ strict
  | .error .fuel => True

theorem inferGroups_best {n : Nat} {types : List Registered} {names : List String} (hgood : GoodTypes (types.map (·.type))) :
    ∀ (gs : List (List Fun)) (Δ Δ' : String → Tree → Prop) (values : List (String × Ty Nat)) {s : St} {S : Sol}, Fine s S → Instances Δ values →
      (∀ x ∈ values.map (·.1), x ∈ names) → (∀ f ∈ gs.flatten, f.name ∈ names) → (∀ f ∈ gs.flatten, f.bare = true) →
      (strict → ∀ f ∈ gs.flatten, f.direct = true) → GroupsTyped (types.map (·.type)) names Δ gs Δ' →
      FoundFor strict Δ' (inferGroups n types values gs s)
  | [], Δ, Δ', values, s, S, hi, hΔ, hv, hf, hb, hd, ht => fun x τ h => hΔ x τ (ht x τ h)
  | fs :: gs, Δ, Δ', values, s, S, hi, hΔ, hv, hf, hb, hd, ht => by
    obtain ⟨allowed, ⟨σ₀, hσ₀⟩, h1, h2⟩ := ht
    have hmem : ∀ f ∈ fs, f ∈ (fs :: gs).flatten := fun f h => by simp [List.flatten_cons, h]
    have hmem' : ∀ f ∈ gs.flatten, f ∈ (fs :: gs).flatten := fun f h => by rw [List.flatten_cons]; exact List.mem_append.2 (.inr h)
    have key : ∀ σ, allowed σ → Best strict (groupI n types values fs) s S fun new _ _ => new.map (·.1) = fs.map (·.name) ∧
        ∀ x T, new.lookup x = some T → ∃ θ : Nat → Tree, σ x = T.sub θ := fun σ hσ =>
      groupI_best hi hgood hΔ hv (fun f h => hf f (hmem f h)) (fun f h => hb f (hmem f h)) (fun hs f h => hd hs f (hmem f h)) (h1 σ hσ)
    rw [inferGroups_cons]
    show FoundFor strict Δ' (I.bind (groupI n types values fs) (fun new => inferGroups n types (new ++ values) gs) s)
    unfold I.bind
    unfold Best at key
    cases hgr : groupI n types values fs s with
    | error e =>
      have := key σ₀ hσ₀
      rw [hgr] at this
      cases e with
      | rejected => exact this
      | fuel => trivial
    | ok p =>
      obtain ⟨new, s'⟩ := p
      rw [hgr] at key
      obtain ⟨S', n', e', _⟩ := key σ₀ hσ₀
      refine inferGroups_best hgood gs _ Δ' (new ++ values) n'.fine (fun x τ hτ => ?_) (fun x hx => ?_) (fun f h => hf f (hmem' f h))
        (fun f h => hb f (hmem' f h)) (fun hs f h => hd hs f (hmem' f h)) h2
      · rw [List.lookup_append]
        by_cases hx : x ∈ fs.map (·.name)
        · simp only [if_pos hx] at hτ
          obtain ⟨σ, hσ, rfl⟩ := hτ
          obtain ⟨_, _, e, h⟩ := key σ hσ
          cases hl : new.lookup x with
          | none => rw [← e] at hx; exact absurd hx (lookup_keys.1 hl)
          | some T => exact ⟨T, rfl, h x T hl⟩
        · simp only [if_neg hx] at hτ
          rw [← e'] at hx
          rw [lookup_keys.2 hx]
          exact hΔ x τ hτ
      · rw [List.map_append, e'] at hx
        rcases List.mem_append.1 hx with hx | hx
        · obtain ⟨f, h3, rfl⟩ := List.mem_map.1 hx
          exact hf f (hmem f h3)
        · exact hv x hx

end
end Verif.Infer
