import Verif.Infer.GroupSound
import Verif.Infer.BestGroup

/-!
The types that are found for functions without annotations are types of them.
-/

namespace Verif.Infer

open Verif.Unify

section
variable (vs : List String)

mutual

theorem Expr.bare_within : ∀ (e : Expr), e.bare = true → e.within vs = true
  | .int _, h => rfl
  | .float _, h => rfl
  | .string _, h => rfl
  | .var _, h => rfl
  | .fn ps r body, h => by
    simp only [Expr.bare, Bool.and_eq_true, Option.isNone_iff_eq_none] at h
    obtain ⟨⟨h1, rfl⟩, h2⟩ := h
    simp only [Expr.within, Bool.and_eq_true]
    refine ⟨⟨List.all_eq_true.2 fun p hp => ?_, rfl⟩, stmtsBare_within body h2⟩
    have := List.all_eq_true.1 h1 p hp
    rw [Option.isNone_iff_eq_none] at this
    rw [this]; rfl
  | .call f es, h => by
    simp only [Expr.bare, Expr.within, Bool.and_eq_true] at h ⊢
    exact ⟨Expr.bare_within f h.1, exprsBare_within es h.2⟩
  | .bin _ l r, h => by
    simp only [Expr.bare, Expr.within, Bool.and_eq_true] at h ⊢
    exact ⟨Expr.bare_within l h.1, Expr.bare_within r h.2⟩
  | .not e, h => by simp only [Expr.bare, Expr.within] at h ⊢; exact Expr.bare_within e h
  | .neg e, h => by simp only [Expr.bare, Expr.within] at h ⊢; exact Expr.bare_within e h
  | .block body, h => by simp only [Expr.bare, Expr.within] at h ⊢; exact stmtsBare_within body h
  | .tuple es, h => by simp only [Expr.bare, Expr.within] at h ⊢; exact exprsBare_within es h
  | .index e _, h => by simp only [Expr.bare, Expr.within] at h ⊢; exact Expr.bare_within e h
  | .list es none, h => by simp only [Expr.bare, Expr.within] at h ⊢; exact exprsBare_within es h
  | .list es (some e), h => by
    simp only [Expr.bare, Expr.within, Bool.and_eq_true] at h ⊢
    exact ⟨exprsBare_within es h.1, Expr.bare_within e h.2⟩
  | .field e _, h => by simp only [Expr.bare, Expr.within] at h ⊢; exact Expr.bare_within e h
  | .case_ es cs, h => by
    simp only [Expr.bare, Expr.within, Bool.and_eq_true] at h ⊢
    exact ⟨exprsBare_within es h.1, clausesBare_within cs h.2⟩
  | .fail none, h => rfl
  | .fail (some e), h => by simp only [Expr.bare, Expr.within] at h ⊢; exact Expr.bare_within e h

theorem exprsBare_within : ∀ (es : List Expr), exprsBare es = true → exprsWithin vs es = true
  | [], h => rfl
  | e :: es, h => by
    simp only [exprsBare, exprsWithin, Bool.and_eq_true] at h ⊢
    exact ⟨Expr.bare_within e h.1, exprsBare_within es h.2⟩

theorem Stmt.bare_within : ∀ (s : Stmt), s.bare = true → s.within vs = true
  | .expr e, h => by simp only [Stmt.bare, Stmt.within] at h ⊢; exact Expr.bare_within e h
  | .let_ _ a e, h => by
    simp only [Stmt.bare, Stmt.within, Bool.and_eq_true, Option.isNone_iff_eq_none] at h ⊢
    obtain ⟨rfl, h⟩ := h
    exact ⟨rfl, Expr.bare_within e h⟩
  | .letAssert _ a e m, h => by
    simp only [Stmt.bare, Stmt.within, Bool.and_eq_true, Option.isNone_iff_eq_none] at h ⊢
    obtain ⟨⟨rfl, h⟩, h'⟩ := h
    exact ⟨⟨rfl, Expr.bare_within e h⟩, optionBare_within m h'⟩
  | .assert e m, h => by
    simp only [Stmt.bare, Stmt.within, Bool.and_eq_true] at h ⊢
    exact ⟨Expr.bare_within e h.1, optionBare_within m h.2⟩

theorem stmtsBare_within : ∀ (ss : List Stmt), stmtsBare ss = true → stmtsWithin vs ss = true
  | [], h => rfl
  | s :: ss, h => by
    simp only [stmtsBare, stmtsWithin, Bool.and_eq_true] at h ⊢
    exact ⟨Stmt.bare_within s h.1, stmtsBare_within ss h.2⟩

theorem optionBare_within : ∀ (m : Option Expr), optionBare m = true → optionWithin vs m = true
  | none, h => rfl
  | some e, h => by simp only [optionBare, optionWithin] at h ⊢; exact Expr.bare_within e h

theorem clausesBare_within : ∀ (cs : List Clause), clausesBare cs = true → clausesWithin vs cs = true
  | [], h => rfl
  | .mk _ _ _ body :: cs, h => by
    simp only [clausesBare, clausesWithin, Bool.and_eq_true] at h ⊢
    exact ⟨Expr.bare_within body h.1, clausesBare_within cs h.2⟩

end
end

theorem Fun.bare_variables {f : Fun} (h : f.bare = true) : f.variables = [] := by
  simp only [Fun.bare, Bool.and_eq_true, Option.isNone_iff_eq_none] at h
  unfold Fun.variables
  rw [h.1.2]
  simp only [optionVariables, List.append_nil, List.flatMap_eq_nil_iff]
  intro p hp
  have := List.all_eq_true.1 h.1.1 p hp
  rw [Option.isNone_iff_eq_none] at this
  rw [this]

/-- All the instances of the types that were found. -/
def instancesOf (values : List (String × Ty Nat)) (x : String) (τ : Tree) : Prop := ∃ T, values.lookup x = some T ∧ ∃ θ : Nat → Tree, τ = T.sub θ

/-- The types of a group, with the same types for the variables of all of them. -/
def typesWith (new : List (String × Ty Nat)) (θ : Nat → Tree) (x : String) : Tree :=
  match new.lookup x with
  | some T => T.sub θ
  | none => .tuple .nil

section
variable {types : List Registered} {names : List String} {values new : List (String × Ty Nat)} {hs : List Head}

theorem group_typed {n : Nat} {fs : List Fun} {s s₁ s₂ s₃ : St} {x : Unit} {ρ : Cell → Tree} (hb : ∀ f ∈ fs, f.bare = true) (hg : Good s.heap ρ)
    (h1 : registerAll (types.map (·.type)) fs s = .ok (hs, s₁))
    (hx : Ctx ⟨types, hs.map fun h => (h.fun_.name, h.type), values⟩ names)
    (h2 : inferFunctions n ⟨types, hs.map fun h => (h.fun_.name, h.type), values⟩ hs s₁ = .ok (x, s₂))
    (h3 : generaliseHeads n hs s₂ = .ok (new, s₃)) (hn : (fs.map (·.name)).Nodup) :
    (∃ ρ', Good s₃.heap ρ') ∧ new.map (·.1) = fs.map (·.name) ∧
      ∀ θ, GroupTyped (types.map (·.type)) names (instancesOf values) (typesWith new θ) fs := by
  obtain ⟨hlen, hrigid⟩ := registerAll_rigid fs s s₁ ρ hs hg h1
  have hR := hrigid fun f hf => Fun.bare_variables (hb f hf)
  obtain ⟨ρ₁, g1, t1, e1, k1⟩ := registerAll_mono fs s s₁ ρ hs hg h1 hR
  have hf : ∀ h ∈ hs, h.fun_ ∈ fs := fun h hh => by rw [← e1]; exact List.mem_map_of_mem hh
  obtain ⟨ρ₂, g2, t2, d2⟩ := inferFunctions_mono hx hs s₁ s₂ x ρ₁ g1 (fun h hh => ⟨hR h hh, (k1 h hh).1, (k1 h hh).2, by
    have := hb _ (hf h hh)
    simp only [Fun.bare, Bool.and_eq_true] at this
    exact stmtsBare_within _ _ this.2⟩) h2
  obtain ⟨rfl, e3, k3⟩ := generaliseHeads_right hs s₂ s₃ new g2.reading h3
  have e3' : new.map (·.1) = fs.map (·.name) := by rw [e3, ← e1, List.map_map]; rfl
  have hn' : (new.map (·.1)).Nodup := by rw [e3']; exact hn
  refine ⟨⟨ρ₂, g2⟩, e3', fun θ f hff => ?_⟩
  have hσ : ∀ h ∈ hs, typesWith new θ h.fun_.name = (h.type.sub ρ₂).sub (allSub θ) := fun h hh => by
    obtain ⟨T, m3, s3⟩ := k3 h hh
    unfold typesWith
    rw [lookup_of_nodup hn' m3]
    exact s3 θ
  have hff' := hff
  rw [← e1] at hff'
  obtain ⟨h, hh, rfl⟩ := List.mem_map.1 hff'
  have hd := d2 h hh
  refine ⟨(h.parameters.sub ρ₂).sub (allSub θ), (h.return_.sub ρ₂).sub (allSub θ), hσ h hh, ?_, ?_⟩
  · rw [Tys.length_sub, Tys.length_sub]; exact hd.length
  · rw [← paramB_sub]
    refine TypedStmts.sub (θ := allSub θ) ⟨?_, ?_, fun x τ hτ => ?_⟩ _ _ _ (.refl _ _) _ hd.body
    · rfl
    · rfl
    · simp only [readEnv, readNames] at hτ
      split at hτ
      · next t ht =>
        obtain ⟨θ', h4, rfl⟩ := hτ
        obtain ⟨hd', h5, rfl, rfl⟩ := mem_heads ht
        have hm : hd'.fun_.name ∈ fs.map (·.name) := List.mem_map_of_mem (hf hd' h5)
        simp only [if_pos hm]
        rw [gsub_clean h4 (t2.clean (k1 hd' h5).2), hσ hd' h5]
      · next ht =>
        obtain ⟨T, h4, θ', rfl⟩ := hτ
        have hm : x ∉ fs.map (·.name) := fun hm => by
          rw [← e1, List.map_map] at hm
          refine lookup_keys.1 ht ?_
          rw [List.map_map]
          exact hm
        simp only [if_neg hm]
        exact ⟨T, h4, _, Ty.sub_sub ..⟩

theorem inferGroups_typed {n : Nat} (hctors : ∀ x r v, findConstructor types x = some (r, v) → x ∉ names)
    (hlabels : ∀ r ∈ types, ∀ v ∈ r.type.variants, distinctLabels v = true) :
    ∀ (gs : List (List Fun)) (values F : List (String × Ty Nat)) (s s' : St) (ρ : Cell → Tree), Good s.heap ρ → (∀ f ∈ gs.flatten, f.bare = true) →
      (∀ x ∈ values.map (·.1), x ∈ names) → (∀ f ∈ gs.flatten, f.name ∈ names) → (gs.flatten.map (·.name)).Nodup →
      inferGroups n types values gs s = .ok (F, s') → GroupsTyped (types.map (·.type)) names (instancesOf values) gs (instancesOf F)
  | [], values, F, s, s', ρ, hg, hb, hv, hf, hn, h => by
    simp only [inferGroups, pure_ok] at h
    obtain ⟨rfl, rfl⟩ := h
    exact fun x τ h => h
  | fs :: gs, values, F, s, s', ρ, hg, hb, hv, hf, hn, h => by
    simp only [inferGroups, bind_ok] at h
    obtain ⟨heads, s₁, h1, x, s₂, h2, new, s₃, h3, h4⟩ := h
    have hmem : ∀ f ∈ fs, f ∈ (fs :: gs).flatten := fun f h => by simp [List.flatten_cons, h]
    have hmem' : ∀ f ∈ gs.flatten, f ∈ (fs :: gs).flatten := fun f h => by rw [List.flatten_cons]; exact List.mem_append.2 (.inr h)
    rw [List.flatten_cons, List.map_append, List.nodup_append] at hn
    have hx : Ctx ⟨types, heads.map fun h => (h.fun_.name, h.type), values⟩ names := by
      refine ⟨fun x t hl => ?_, fun x T hl => hv x (mem_of_lookup hl), hctors, hlabels⟩
      obtain ⟨hd, h5, rfl, _⟩ := mem_heads hl
      have : hd.fun_ ∈ fs := inferGroups_right.registerAll_mem fs s s₁ heads h1 hd h5
      exact hf _ (hmem _ this)
    obtain ⟨⟨ρ', g'⟩, k1, k2⟩ := group_typed (fun f hm => hb f (hmem f hm)) hg h1 hx h2 h3 hn.1
    have ih := inferGroups_typed hctors hlabels gs (new ++ values) F s₃ s' ρ' g' (fun f h => hb f (hmem' f h))
      (fun x hx => by
        rw [List.map_append, k1] at hx
        rcases List.mem_append.1 hx with hx | hx
        · obtain ⟨f, hf1, rfl⟩ := List.mem_map.1 hx
          exact hf f (hmem f hf1)
        · exact hv x hx)
      (fun f h => hf f (hmem' f h)) hn.2.1 h4
    refine ⟨fun σ => ∃ θ, σ = typesWith new θ, ⟨_, fun _ => .tuple .nil, rfl⟩, fun σ ⟨θ, hσ⟩ => hσ ▸ k2 θ, ?_⟩
    have same : (fun x τ => if x ∈ fs.map (·.name) then ∃ σ, (∃ θ, σ = typesWith new θ) ∧ τ = σ x else instancesOf values x τ) =
        instancesOf (new ++ values) := by
      funext x τ
      refine propext ?_
      unfold instancesOf
      rw [List.lookup_append]
      by_cases hx : x ∈ fs.map (·.name)
      · rw [if_pos hx]
        cases hl : new.lookup x with
        | none => rw [← k1] at hx; exact absurd hx (lookup_keys.1 hl)
        | some T =>
          constructor
          · rintro ⟨_, ⟨θ, rfl⟩, rfl⟩
            exact ⟨T, rfl, θ, by unfold typesWith; rw [hl]⟩
          · rintro ⟨T', hT, θ, rfl⟩
            cases hT
            exact ⟨_, ⟨θ, rfl⟩, by unfold typesWith; rw [hl]⟩
      · rw [if_neg hx]
        rw [← k1] at hx
        rw [lookup_keys.2 hx]
        rfl
    rw [same]
    exact ih

end
end Verif.Infer
