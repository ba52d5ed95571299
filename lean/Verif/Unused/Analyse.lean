import Verif.Unused.Bind

/-
The whole analysis of a module agrees with its uses.
-/
namespace Verif.Unused

theorem Inv.refs {pend : Option Nat} {ν : Nat → Nat} {t : Tracker} {s : Uses} (h : Inv pend ν t s)
    (v w : List (String × String)) (c : Nat) :
    Inv pend ν { t with valueReferences := v, typeReferences := w, current := c } s :=
  ⟨h.inj, h.lt, h.bimap, h.entLt, h.edgeLt, h.source, h.useLt, h.scopeEnt, h.entScope, h.entShadow, h.infoNodup, h.info, h.edges, h.pending,
    h.alive, h.stay, h.public_, h.publicDef, h.leaf, h.layer, h.modules, h.imports⟩

theorem use_defs (s : Uses) (a : Nat) (b : Option Nat) : (s.use a b).defs = s.defs := by unfold Uses.use; split <;> rfl
theorem use_scope (s : Uses) (a : Nat) (b : Option Nat) : (s.use a b).scope = s.scope := by unfold Uses.use; split <;> rfl

theorem useAll_same (s : Uses) (a : Nat) (refs : List Ref) :
    (s.useAll a refs).defs = s.defs ∧ (s.useAll a refs).scope = s.scope := by
  unfold Uses.useAll
  induction refs generalizing s with
  | nil => exact ⟨rfl, rfl⟩
  | cons r refs ih =>
    rw [List.foldl_cons]
    obtain ⟨h1, h2⟩ := ih (s.use a (s.scope r.entity))
    exact ⟨h1.trans (use_defs ..), h2.trans (use_scope ..)⟩

theorem Ref.entity_layer (r : Ref) : r.entity.layer ≠ .shadowed := by cases r <;> simp [Ref.entity]

theorem Inv.refer {pend : Option Nat} {ν : Nat → Nat} {t : Tracker} {s : Uses} (h : Inv pend ν t s) (c : Nat) (r : Ref)
    (hcur : t.current = ν c) (hc : ∃ d, s.defs[c]? = some d ∧ d.kind.isModule = false) :
    Inv pend ν (t.refer r) (s.use c (s.scope r.entity)) ∧ (t.refer r).current = t.current := by
  obtain ⟨h1, h2⟩ := h.addEdge c r.entity r.entity_layer hcur hc
  cases r <;> exact ⟨h1.refs _ _ _, h2⟩

theorem Inv.referAll {pend : Option Nat} {ν : Nat → Nat} {t : Tracker} {s : Uses} (h : Inv pend ν t s) (c : Nat) (refs : List Ref)
    (hcur : t.current = ν c) (hc : ∃ d, s.defs[c]? = some d ∧ d.kind.isModule = false) :
    Inv pend ν (t.referAll refs) (s.useAll c refs) ∧ (t.referAll refs).current = t.current := by
  unfold Tracker.referAll Uses.useAll
  induction refs generalizing t s with
  | nil => exact ⟨h, rfl⟩
  | cons r refs ih =>
    rw [List.foldl_cons, List.foldl_cons]
    obtain ⟨h1, h2⟩ := h.refer c r hcur hc
    obtain ⟨h3, h4⟩ := ih h1 (h2.trans hcur) (by rw [use_defs]; exact hc)
    exact ⟨h3, h4.trans h2⟩

theorem Inv.create {ν : Nat → Nat} {t : Tracker} {s : Uses} (h : Inv none ν t s) (d : Def) (hl : d.layer ≠ .shadowed)
    (hm : d.layer = .module_ ↔ d.kind.isModule = true) (hp : d.isPublic = true → d.kind.isDefinition = true)
    (hfree : ∀ b, s.scope d.entity = some b → ∃ d', s.defs[b]? = some d' ∧ d'.kind.isDefinition = false ∧
      (d'.kind.isImport = true ∨ (d.kind.isDefinition = true ∧ d.layer = .value)))
    (hval : s.scope d.entity ≠ none → ∀ (b : Nat) (d' : Def), s.defs[b]? = some d' → d'.kind.isDefinition = true →
      d'.layer = .value → d'.name ≠ d.name) :
    ∃ ν', Inv none ν' ((t.create d.entity).describe d.entity d.isPublic d.info) ((s.define d).bind d.entity s.defs.length) ∧
      (t.create d.entity).current = ν' s.defs.length ∧ ∀ a, a < s.defs.length → ν' a = ν a := by
  have h1 := h.alloc d hl hm hp
  have hd : (s.define d).defs[s.defs.length]? = some d := (get_define ..).mpr (.inr ⟨rfl, rfl⟩)
  have h2 := h1.bind d hd ?_ ?_
  · refine ⟨fun a => if a = s.defs.length then t.nodes else ν a, ?_, ?_, fun a ha => if_neg (by omega)⟩
    · have hcr : t.create d.entity = t.beginConstant.createMaybeShadow d.entity
          ((fun a => if a = s.defs.length then t.nodes else ν a) s.defs.length) := by
        simp only [if_true]
        rfl
      rw [hcr]
      exact h2
    · have := (h1.shadow d.entity hl d.info).2.2.2.2.2.2.2.2
      simp only [if_true] at this ⊢
      exact this
  · intro b hb
    obtain ⟨d', h3, h4⟩ := hfree b hb
    exact ⟨d', (get_define ..).mpr (.inl h3), h4⟩
  · intro hs b d' hd' hb hk hlay
    rcases (get_define ..).mp hd' with hd' | hd'
    · exact hval hs b d' hd' hk hlay
    · exact absurd hd'.1 hb

/-! ### Names -/

/-- The names in scope are those of the imports and items so far. -/
structure Names (im : List Import) (it : List Item) (s : Uses) : Prop where
  modules : ∀ x, s.scope ⟨x, .module_⟩ ≠ none → x ∈ im.filterMap Import.moduleName
  types : ∀ x, s.scope ⟨x, .type⟩ ≠ none → x ∈ im.filterMap Import.typeName ++ it.filterMap Item.typeName
  values : ∀ x a, s.scope ⟨x, .value⟩ = some a →
    ((∃ d : Def, s.defs[a]? = some d ∧ d.kind.isDefinition = false) ∧ x ∈ im.filterMap Import.valueName) ∨
      x ∈ it.filterMap Item.valueName
  defs : ∀ (a : Nat) (d : Def), s.defs[a]? = some d → d.kind.isDefinition = true → d.layer = .value →
    d.name ∈ it.filterMap Item.valueName
  bodies : ∀ f ∈ it.filterMap Item.valueName, ∃ a, ∃ d : Def, s.scope ⟨f, .value⟩ = some a ∧ s.defs[a]? = some d ∧
    d.kind.isDefinition = true

theorem Names.congr {im : List Import} {it : List Item} {s s' : Uses} (h : Names im it s) (hd : s'.defs = s.defs)
    (hs : s'.scope = s.scope) : Names im it s' := by
  refine ⟨?_, ?_, ?_, ?_, ?_⟩
  · rw [hs]; exact h.modules
  · rw [hs]; exact h.types
  · rw [hs, hd]; exact h.values
  · rw [hd]; exact h.defs
  · rw [hs, hd]; exact h.bodies

theorem Names.step {im im' : List Import} {it it' : List Item} {s : Uses} (h : Names im it s) (d : Def)
    (h1 : ∀ x ∈ im.filterMap Import.moduleName, x ∈ im'.filterMap Import.moduleName)
    (h2 : ∀ x ∈ im.filterMap Import.typeName ++ it.filterMap Item.typeName,
      x ∈ im'.filterMap Import.typeName ++ it'.filterMap Item.typeName)
    (h3 : ∀ x ∈ im.filterMap Import.valueName, x ∈ im'.filterMap Import.valueName)
    (h4 : ∀ x ∈ it.filterMap Item.valueName, x ∈ it'.filterMap Item.valueName)
    (hm : d.layer = .module_ → d.name ∈ im'.filterMap Import.moduleName)
    (ht : d.layer = .type → d.name ∈ im'.filterMap Import.typeName ++ it'.filterMap Item.typeName)
    (hv : d.layer = .value → (d.kind.isDefinition = false ∧ d.name ∈ im'.filterMap Import.valueName) ∨
      (d.kind.isDefinition = true ∧ d.name ∈ it'.filterMap Item.valueName))
    (hb : ∀ f ∈ it'.filterMap Item.valueName, f ∈ it.filterMap Item.valueName ∨
      (f = d.name ∧ d.layer = .value ∧ d.kind.isDefinition = true))
    (hn : d.layer = .value → d.kind.isDefinition = false → d.name ∉ it.filterMap Item.valueName) :
    Names im' it' ((s.define d).bind d.entity s.defs.length) := by
  have hnew : (s.define d).defs[s.defs.length]? = some d := (get_define ..).mpr (.inr ⟨rfl, rfl⟩)
  have hscope : ∀ x b, ((s.define d).bind d.entity s.defs.length).scope x = some b ↔
      (x = d.entity ∧ b = s.defs.length) ∨ (x ≠ d.entity ∧ s.scope x = some b) := by
    intro x b
    unfold Uses.bind
    by_cases hx : x = d.entity
    · simp [hx, eq_comm]
    · simp [hx, Uses.define]
  have hent : ∀ x l, (⟨x, l⟩ : Entity) = d.entity → x = d.name ∧ d.layer = l :=
    fun x l hx => ⟨congrArg Entity.name hx, (congrArg Entity.layer hx).symm⟩
  refine ⟨?_, ?_, ?_, ?_, ?_⟩
  · intro x hx
    obtain ⟨b, hb'⟩ := Option.ne_none_iff_exists'.mp hx
    rcases (hscope _ _).mp hb' with ⟨h5, _⟩ | ⟨_, h5⟩
    · obtain ⟨rfl, hl⟩ := hent _ _ h5
      exact hm hl
    · exact h1 x (h.modules x (by rw [h5]; simp))
  · intro x hx
    obtain ⟨b, hb'⟩ := Option.ne_none_iff_exists'.mp hx
    rcases (hscope _ _).mp hb' with ⟨h5, _⟩ | ⟨_, h5⟩
    · obtain ⟨rfl, hl⟩ := hent _ _ h5
      exact ht hl
    · exact h2 x (h.types x (by rw [h5]; simp))
  · intro x b hb'
    rcases (hscope _ _).mp hb' with ⟨h5, rfl⟩ | ⟨_, h5⟩
    · obtain ⟨rfl, hl⟩ := hent _ _ h5
      rcases hv hl with ⟨h6, h7⟩ | ⟨_, h6⟩
      · exact .inl ⟨⟨d, hnew, h6⟩, h7⟩
      · exact .inr h6
    · rcases h.values x b h5 with ⟨⟨d', h6, h7⟩, h8⟩ | h6
      · exact .inl ⟨⟨d', (get_define ..).mpr (.inl h6), h7⟩, h3 x h8⟩
      · exact .inr (h4 x h6)
  · intro a d' hd' hk hl
    rcases (get_define ..).mp hd' with hd' | ⟨_, rfl⟩
    · exact h4 _ (h.defs a d' hd' hk hl)
    · rcases hv hl with ⟨h6, _⟩ | ⟨_, h6⟩
      · rw [hk] at h6; cases h6
      · exact h6
  · intro f hf
    by_cases hfe : (⟨f, .value⟩ : Entity) = d.entity
    · obtain ⟨rfl, hl⟩ := hent _ _ hfe
      refine ⟨_, d, (hscope _ _).mpr (.inl ⟨hfe, rfl⟩), hnew, ?_⟩
      rcases hb _ hf with h5 | ⟨_, _, h5⟩
      · cases hk : d.kind.isDefinition with
        | true => rfl
        | false => exact absurd h5 (hn hl hk)
      · exact h5
    · rcases hb f hf with h5 | ⟨h5, h6, _⟩
      · obtain ⟨a, d', h6, h7, h8⟩ := h.bodies f h5
        exact ⟨a, d', (hscope _ _).mpr (.inr ⟨hfe, h6⟩), (get_define ..).mpr (.inl h7), h8⟩
      · exact absurd (by rw [h5]; unfold Def.entity; rw [h6]) hfe

/-! ### Imports -/

/-- The state after some imports and items. -/
def State (im : List Import) (it : List Item) (t : Tracker) (s : Uses) : Prop := ∃ ν, Inv none ν t s ∧ Names im it s

theorem nodup_snoc {α β : Type} (f : α → Option β) (l : List α) (a : α) (b : β) (hb : f a = some b)
    (h : ((l ++ [a]).filterMap f).Nodup) : b ∉ l.filterMap f := by
  rw [List.filterMap_append, List.nodup_append] at h
  intro hc
  exact h.2.2 b hc b (by simp [hb]) rfl

theorem mem_snoc {α β : Type} (f : α → Option β) (l : List α) (a : α) (x : β) (h : x ∈ l.filterMap f) :
    x ∈ (l ++ [a]).filterMap f := by
  rw [List.filterMap_append]
  exact List.mem_append_left _ h

theorem mem_snoc_new {α β : Type} (f : α → Option β) (l : List α) (a : α) (b : β) (hb : f a = some b) :
    b ∈ (l ++ [a]).filterMap f := by
  rw [List.filterMap_append]
  exact List.mem_append_right _ (by simp [hb])

/-- `registerModule` sets the import of the module. -/
theorem Inv.setModule {ν : Nat → Nat} {t : Tracker} {s : Uses} (h : Inv none ν t s) (m : String) (a i : Nat) (hi : i = ν a)
    (ha : ∃ d, s.defs[a]? = some d ∧ d.kind.isImport = true) :
    Inv none ν { t with moduleNode := fun x => if x = m then some i else t.moduleNode x }
      { s with imports := fun x => if x = m then some a else s.imports x } := by
  refine ⟨h.inj, h.lt, h.bimap, h.entLt, h.edgeLt, h.source, h.useLt, h.scopeEnt, h.entScope, h.entShadow, h.infoNodup, h.info, h.edges,
    h.pending, h.alive, h.stay, h.public_, h.publicDef, h.leaf, h.layer, ?_, ?_⟩
  · intro x
    by_cases hx : x = m
    · simp [hx, hi]
    · simp only [hx, if_false]; exact h.modules x
  · intro x b hb
    by_cases hx : x = m
    · simp only [hx, if_true, Option.some.injEq] at hb
      subst hb
      exact ha
    · simp only [hx, if_false] at hb
      exact h.imports x b hb

theorem Inv.registerModule {ν : Nat → Nat} {t : Tracker} {s : Uses} (h : Inv none ν t s) (used m : String) (origin : Nat)
    (hfree : s.scope ⟨used, .module_⟩ = none) :
    ∃ ν', Inv none ν' (t.registerModule used m origin)
      { (s.define ⟨used, .module_, .importedModule m, false, origin⟩).bind ⟨used, .module_⟩ s.defs.length with
        imports := fun x => if x = m then some s.defs.length else s.imports x } := by
  obtain ⟨ν', h1, h2, _⟩ := h.create ⟨used, .module_, .importedModule m, false, origin⟩ (by simp) (by simp [Kind.isModule]) (by simp)
    (fun b hb => nomatch hfree.symm.trans hb)
    (fun hc => absurd hfree hc)
  have h3 := h1.setModule m s.defs.length _ h2 ⟨_, (get_define ..).mpr (.inr ⟨rfl, rfl⟩), rfl⟩
  exact ⟨ν', h3⟩

theorem state_import (im : List Import) (i : Import) (t : Tracker) (s : Uses) (h : State im [] t s)
    (hm : ((im ++ [i]).filterMap Import.moduleName).Nodup) (ht : ((im ++ [i]).filterMap Import.typeName).Nodup)
    (hv : ((im ++ [i]).filterMap Import.valueName).Nodup) : State (im ++ [i]) [] (t.import_ i) (s.import_ i) := by
  obtain ⟨ν, h, hN⟩ := h
  have hdefs : ∀ (a : Nat) (d : Def), s.defs[a]? = some d → d.kind.isDefinition = true → d.layer = .value → False := by
    intro a d h1 h2 h3
    have := hN.defs a d h1 h2 h3
    simp at this
  have e1 : ∀ x ∈ im.filterMap Import.moduleName, x ∈ (im ++ [i]).filterMap Import.moduleName := fun x => mem_snoc _ _ _ _
  have e2 : ∀ x ∈ im.filterMap Import.typeName ++ ([] : List Item).filterMap Item.typeName,
      x ∈ (im ++ [i]).filterMap Import.typeName ++ ([] : List Item).filterMap Item.typeName := by
    intro x hx
    simp only [List.filterMap_nil, List.append_nil] at hx ⊢
    exact mem_snoc _ _ _ _ hx
  have e3 : ∀ x ∈ im.filterMap Import.valueName, x ∈ (im ++ [i]).filterMap Import.valueName := fun x => mem_snoc _ _ _ _
  have hscopeV : ∀ x, x ∉ im.filterMap Import.valueName → s.scope ⟨x, .value⟩ = none := by
    intro x hx
    cases hc : s.scope ⟨x, .value⟩ with
    | none => rfl
    | some a =>
      rcases hN.values x a hc with ⟨_, h5⟩ | h5
      · exact absurd h5 hx
      · simp at h5
  cases i with
  | module_ used m origin =>
    have hfree : s.scope ⟨used, .module_⟩ = none := by
      by_contra hc
      exact nodup_snoc Import.moduleName im _ used rfl hm (hN.modules used hc)
    obtain ⟨ν', h1⟩ := h.registerModule used m origin hfree
    refine ⟨ν', h1, ?_⟩
    refine Names.congr (s := (s.define ⟨used, .module_, .importedModule m, false, origin⟩).bind ⟨used, .module_⟩ s.defs.length) ?_ rfl
      rfl
    exact hN.step _ e1 e2 e3 (by simp) (fun _ => mem_snoc_new _ _ _ _ rfl) (by simp) (by simp) (by simp) (by simp)
  | aliased used m origin aliasOrigin =>
    have hfree : s.scope ⟨used, .module_⟩ = none := by
      by_contra hc
      exact nodup_snoc Import.moduleName im _ used rfl hm (hN.modules used hc)
    obtain ⟨ν1, h1⟩ := h.registerModule used m origin hfree
    have hN1 := hN.step ⟨used, .module_, .importedModule m, false, origin⟩ e1 e2 e3 (by simp)
      (fun _ => mem_snoc_new _ _ _ _ rfl) (by simp) (by simp) (by simp) (by simp)
    set s1 : Uses := { (s.define ⟨used, .module_, .importedModule m, false, origin⟩).bind ⟨used, .module_⟩ s.defs.length with
        imports := fun x => if x = m then some s.defs.length else s.imports x } with hs1
    have hN2 : Names (im ++ [.aliased used m origin aliasOrigin]) [] s1 := Names.congr hN1 rfl rfl
    have hlen : s1.defs.length = s.defs.length + 1 := by simp [hs1, Uses.bind, Uses.define]
    have hsc : s1.scope ⟨used, .module_⟩ = some s.defs.length := by simp [hs1, Uses.bind]
    have hd1 : s1.defs[s.defs.length]? = some ⟨used, .module_, .importedModule m, false, origin⟩ :=
      (get_define ..).mpr (.inr ⟨rfl, rfl⟩)
    obtain ⟨ν2, h2, h3, _⟩ := h1.create ⟨used, .module_, .moduleAlias m, false, aliasOrigin⟩ (by simp) (by simp [Kind.isModule])
      (by simp)
      (by
        intro b hb
        cases hsc.symm.trans hb
        exact ⟨_, hd1, rfl, .inl rfl⟩)
      (by
        intro _ b d' hd' hk hl
        have := hN2.defs b d' hd' hk hl
        simp at this)
    have h4 := h2.addModuleEdge s1.defs.length m h3 ⟨_, (get_define ..).mpr (.inr ⟨rfl, rfl⟩), rfl⟩
    have himp : ((s1.define ⟨used, .module_, .moduleAlias m, false, aliasOrigin⟩).bind ⟨used, .module_⟩ s1.defs.length).imports m =
        some s.defs.length := by simp [hs1, Uses.bind, Uses.define]
    have hN3 := hN2.step (im' := im ++ [.aliased used m origin aliasOrigin]) (it' := [])
      ⟨used, .module_, .moduleAlias m, false, aliasOrigin⟩ (fun _ h => h) (fun _ h => h) (fun _ h => h) (by simp)
      (fun _ => mem_snoc_new _ _ _ _ rfl) (by simp) (by simp) (by simp) (by simp)
    refine ⟨ν2, ?_, ?_⟩
    · have h5 := h4.1
      rw [show ((s1.define ⟨used, .module_, .moduleAlias m, false, aliasOrigin⟩).bind
        (Def.entity ⟨used, .module_, .moduleAlias m, false, aliasOrigin⟩) s1.defs.length).imports m = some s.defs.length from himp]
        at h5
      have hcomm : t.import_ (.aliased used m origin aliasOrigin) =
          (((t.registerModule used m origin).create ⟨used, .module_⟩).describe ⟨used, .module_⟩ false
            ⟨aliasOrigin, .moduleAlias m⟩).addModuleEdge m := by
        change (((t.registerModule used m origin).create ⟨used, .module_⟩).addModuleEdge m).describe _ _ _ = _
        unfold Tracker.addModuleEdge
        change Tracker.describe (match ((t.registerModule used m origin).create ⟨used, .module_⟩).moduleNode m with
          | none => _ | some i => _) _ _ _ =
          match ((t.registerModule used m origin).create ⟨used, .module_⟩).moduleNode m with
          | none => _ | some i => _
        cases ((t.registerModule used m origin).create ⟨used, .module_⟩).moduleNode m <;> rfl
      rw [hcomm]
      rw [hlen] at h5
      exact h5
    · refine Names.congr hN3 (use_defs ..) ?_
      rw [hlen]
      exact use_scope ..
  | type used m from_ name origin =>
    have hfree : s.scope ⟨used, .type⟩ = none := by
      by_contra hc
      have := hN.types used hc
      simp only [List.filterMap_nil, List.append_nil] at this
      exact nodup_snoc Import.typeName im _ used rfl ht this
    obtain ⟨ν', h1, h2, _⟩ := h.create ⟨used, .type, .importedType m, false, origin⟩ (by simp) (by simp [Kind.isModule]) (by simp)
      (fun b hb => nomatch hfree.symm.trans hb)
      (fun hc => absurd hfree hc)
    have h4 := (h1.addModuleEdge s.defs.length m h2 ⟨_, (get_define ..).mpr (.inr ⟨rfl, rfl⟩), rfl⟩).1
    have hN1 := hN.step (im' := im ++ [.type used m from_ name origin]) (it' := []) ⟨used, .type, .importedType m, false, origin⟩
      e1 e2 e3 (by simp) (by simp) (fun _ => by
        simp only [List.filterMap_nil, List.append_nil]
        exact mem_snoc_new _ _ _ _ rfl) (by simp) (by simp) (by simp)
    refine ⟨ν', ?_, Names.congr hN1 (use_defs ..) (use_scope ..)⟩
    have hcomm : t.register ⟨used, .type⟩ (.importedType m) origin false =
        ((t.create ⟨used, .type⟩).describe ⟨used, .type⟩ false ⟨origin, .importedType m⟩).addModuleEdge m := by
      change ((t.create ⟨used, .type⟩).addModuleEdge m).describe _ _ _ = _
      unfold Tracker.addModuleEdge
      change Tracker.describe (match (t.create ⟨used, .type⟩).moduleNode m with | none => _ | some i => _) _ _ _ =
        match (t.create ⟨used, .type⟩).moduleNode m with | none => _ | some i => _
      cases (t.create ⟨used, .type⟩).moduleNode m <;> rfl
    change Inv none ν' { t.register ⟨used, .type⟩ (.importedType m) origin false with
      typeReferences := (from_, name) :: t.typeReferences } _
    rw [hcomm]
    exact h4.refs _ _ _
  | value used m from_ name origin =>
    have hnot : used ∉ im.filterMap Import.valueName := nodup_snoc Import.valueName im _ used rfl hv
    have hfree := hscopeV used hnot
    obtain ⟨ν', h1, h2, _⟩ := h.create ⟨used, .value, .importedValue m, false, origin⟩ (by simp) (by simp [Kind.isModule]) (by simp)
      (fun b hb => nomatch hfree.symm.trans hb)
      (fun hc => absurd hfree hc)
    have h4 := (h1.addModuleEdge s.defs.length m h2 ⟨_, (get_define ..).mpr (.inr ⟨rfl, rfl⟩), rfl⟩).1
    have hN1 := hN.step (im' := im ++ [.value used m from_ name origin]) (it' := []) ⟨used, .value, .importedValue m, false, origin⟩
      e1 e2 e3 (by simp) (by simp) (by simp) (fun _ => .inl ⟨rfl, mem_snoc_new _ _ _ _ rfl⟩) (by simp) (by simp)
    refine ⟨ν', ?_, Names.congr hN1 (use_defs ..) (use_scope ..)⟩
    have hcomm : t.register ⟨used, .value⟩ (.importedValue m) origin false =
        ((t.create ⟨used, .value⟩).describe ⟨used, .value⟩ false ⟨origin, .importedValue m⟩).addModuleEdge m := by
      change ((t.create ⟨used, .value⟩).addModuleEdge m).describe _ _ _ = _
      unfold Tracker.addModuleEdge
      change Tracker.describe (match (t.create ⟨used, .value⟩).moduleNode m with | none => _ | some i => _) _ _ _ =
        match (t.create ⟨used, .value⟩).moduleNode m with | none => _ | some i => _
      cases (t.create ⟨used, .value⟩).moduleNode m <;> rfl
    change Inv none ν' { t.register ⟨used, .value⟩ (.importedValue m) origin false with
      valueReferences := (from_, name) :: t.valueReferences } _
    rw [hcomm]
    exact h4.refs _ _ _
  | constructor used m from_ name origin =>
    have hnot : used ∉ im.filterMap Import.valueName := nodup_snoc Import.valueName im _ used rfl hv
    have hfree := hscopeV used hnot
    obtain ⟨ν', h1, h2, _⟩ := h.create ⟨used, .value, .importedConstructor m, false, origin⟩ (by simp) (by simp [Kind.isModule])
      (by simp)
      (fun b hb => nomatch hfree.symm.trans hb)
      (fun hc => absurd hfree hc)
    have h4 := (h1.addModuleEdge s.defs.length m h2 ⟨_, (get_define ..).mpr (.inr ⟨rfl, rfl⟩), rfl⟩).1
    have hN1 := hN.step (im' := im ++ [.constructor used m from_ name origin]) (it' := [])
      ⟨used, .value, .importedConstructor m, false, origin⟩
      e1 e2 e3 (by simp) (by simp) (by simp) (fun _ => .inl ⟨rfl, mem_snoc_new _ _ _ _ rfl⟩) (by simp) (by simp)
    refine ⟨ν', ?_, Names.congr hN1 (use_defs ..) (use_scope ..)⟩
    have hcomm : t.register ⟨used, .value⟩ (.importedConstructor m) origin false =
        ((t.create ⟨used, .value⟩).describe ⟨used, .value⟩ false ⟨origin, .importedConstructor m⟩).addModuleEdge m := by
      change ((t.create ⟨used, .value⟩).addModuleEdge m).describe _ _ _ = _
      unfold Tracker.addModuleEdge
      change Tracker.describe (match (t.create ⟨used, .value⟩).moduleNode m with | none => _ | some i => _) _ _ _ =
        match (t.create ⟨used, .value⟩).moduleNode m with | none => _ | some i => _
      cases (t.create ⟨used, .value⟩).moduleNode m <;> rfl
    change Inv none ν' { t.register ⟨used, .value⟩ (.importedConstructor m) origin false with
      valueReferences := (from_, name) :: t.valueReferences } _
    rw [hcomm]
    exact h4.refs _ _ _

/-! ### Items -/

theorem state_item (im : List Import) (it : List Item) (x : Item) (t : Tracker) (s : Uses) (h : State im it t s)
    (ht : (im.filterMap Import.typeName ++ (it ++ [x]).filterMap Item.typeName).Nodup)
    (hv : ((it ++ [x]).filterMap Item.valueName).Nodup)
    (hb : ∀ f refs, x = .body f refs → f ∈ it.filterMap Item.valueName) : State im (it ++ [x]) (t.item x) (s.item x) := by
  obtain ⟨ν, h, hN⟩ := h
  have e2 : ∀ y ∈ im.filterMap Import.typeName ++ it.filterMap Item.typeName,
      y ∈ im.filterMap Import.typeName ++ (it ++ [x]).filterMap Item.typeName := by
    intro y hy
    rcases List.mem_append.mp hy with hy | hy
    · exact List.mem_append_left _ hy
    · exact List.mem_append_right _ (mem_snoc _ _ _ _ hy)
  have e4 : ∀ y ∈ it.filterMap Item.valueName, y ∈ (it ++ [x]).filterMap Item.valueName := fun y => mem_snoc _ _ _ _
  have e5 : ∀ y ∈ (it ++ [x]).filterMap Item.valueName, y ∈ it.filterMap Item.valueName ∨ x.valueName = some y := by
    intro y hy
    rw [List.filterMap_append, List.mem_append] at hy
    rcases hy with hy | hy
    · exact .inl hy
    · refine .inr ?_
      cases hx : x.valueName with
      | none => simp [hx] at hy
      | some z => simp [hx] at hy; rw [hy]
  -- a value that the module defines
  have hvalue : ∀ name kind isPublic origin, x.valueName = some name → Kind.isDefinition kind = true →
      (∀ b, s.scope ⟨name, .value⟩ = some b → ∃ d', s.defs[b]? = some d' ∧ d'.kind.isDefinition = false ∧
        (d'.kind.isImport = true ∨ (Kind.isDefinition kind = true ∧ Layer.value = .value))) ∧
      (s.scope ⟨name, .value⟩ ≠ none → ∀ (b : Nat) (d' : Def), s.defs[b]? = some d' → d'.kind.isDefinition = true →
        d'.layer = .value → d'.name ≠ name) ∧
      Names im (it ++ [x]) ((s.define ⟨name, .value, kind, isPublic, origin⟩).bind ⟨name, .value⟩ s.defs.length) := by
    intro name kind isPublic origin hx hk
    have hnot : name ∉ it.filterMap Item.valueName := nodup_snoc Item.valueName it x name hx hv
    refine ⟨?_, ?_, ?_⟩
    · intro b hs
      rcases hN.values name b hs with ⟨⟨d', h1, h2⟩, _⟩ | h1
      · exact ⟨d', h1, h2, .inr ⟨hk, rfl⟩⟩
      · exact absurd h1 hnot
    · intro _ b d' hd' hk' hl hn
      exact hnot (hn ▸ hN.defs b d' hd' hk' hl)
    · refine hN.step ⟨name, .value, kind, isPublic, origin⟩ (fun _ h => h) e2 (fun _ h => h) e4 (by simp) (by simp)
        (fun _ => .inr ⟨hk, mem_snoc_new _ _ _ _ hx⟩) ?_ (fun _ hc => ?_)
      · intro f hf
        rcases e5 f hf with h1 | h1
        · exact .inl h1
        · rw [hx] at h1
          exact .inr ⟨(Option.some.inj h1).symm, rfl, hk⟩
      · rw [show Kind.isDefinition kind = true from hk] at hc; cases hc
  cases x with
  | type name isPublic origin refs =>
    have hfree : s.scope ⟨name, .type⟩ = none := by
      by_contra hc
      have h1 := hN.types name hc
      rw [List.filterMap_append, ← List.append_assoc, List.nodup_append] at ht
      exact ht.2.2 name h1 name (by simp [Item.typeName]) rfl
    obtain ⟨ν', h1, h2, _⟩ := h.create ⟨name, .type, .type, isPublic, origin⟩ (by simp) (by simp [Kind.isModule])
      (fun _ => rfl)
      (fun b hb => nomatch hfree.symm.trans hb)
      (fun hc => absurd hfree hc)
    have h4 := (h1.referAll s.defs.length refs h2 ⟨_, (get_define ..).mpr (.inr ⟨rfl, rfl⟩), rfl⟩).1
    refine ⟨ν', h4, ?_⟩
    refine Names.congr ?_ (useAll_same ..).1 (useAll_same ..).2
    refine hN.step ⟨name, .type, .type, isPublic, origin⟩ (fun _ h => h) e2 (fun _ h => h) e4 (by simp)
      (fun _ => List.mem_append_right _ (mem_snoc_new _ _ _ _ rfl)) (by simp) ?_ (by simp)
    intro f hf
    rcases e5 f hf with h5 | h5
    · exact .inl h5
    · cases h5
  | constructor name type isPublic origin refs =>
    obtain ⟨hf, hn, hN'⟩ := hvalue name .constructor isPublic origin rfl rfl
    obtain ⟨ν', h1, h2, _⟩ := h.create ⟨name, .value, .constructor, isPublic, origin⟩ (by simp) (by simp [Kind.isModule])
      (fun _ => rfl) hf hn
    have h3 := h1.addEdge s.defs.length ⟨type, .type⟩ (by simp) h2 ⟨_, (get_define ..).mpr (.inr ⟨rfl, rfl⟩), rfl⟩
    have h4 := (h3.1.referAll s.defs.length refs (h3.2.trans h2)
      ⟨_, by rw [use_defs]; exact (get_define ..).mpr (.inr ⟨rfl, rfl⟩), rfl⟩).1
    refine ⟨ν', h4, ?_⟩
    refine Names.congr ?_ (useAll_same ..).1 (useAll_same ..).2
    exact Names.congr hN' (use_defs ..) (use_scope ..)
  | function name isPublic origin refs =>
    obtain ⟨hf, hn, hN'⟩ := hvalue name .function isPublic origin rfl rfl
    obtain ⟨ν', h1, h2, _⟩ := h.create ⟨name, .value, .function, isPublic, origin⟩ (by simp) (by simp [Kind.isModule])
      (fun _ => rfl) hf hn
    have h4 := (h1.referAll s.defs.length refs h2 ⟨_, (get_define ..).mpr (.inr ⟨rfl, rfl⟩), rfl⟩).1
    exact ⟨ν', h4, Names.congr hN' (useAll_same ..).1 (useAll_same ..).2⟩
  | body name refs =>
    obtain ⟨a, d, h1, h2, h3⟩ := hN.bodies name (hb name refs rfl)
    have hkm : d.kind.isModule = false := by
      cases hk : d.kind.isModule with
      | false => rfl
      | true => rw [Kind.not_definition_of_isModule hk] at h3; cases h3
    obtain ⟨h4, h5, _⟩ := h.getOrCreate ⟨name, .value⟩ (by simp)
    have hcur : (t.getOrCreate ⟨name, .value⟩).1 = ν a := by
      rcases h4.entScope _ _ h5 (by simp) with ⟨b, h6, h7⟩ | ⟨h6, _⟩
      · rw [h1] at h6; cases h6; exact h7
      · rw [h1] at h6; cases h6
    have h6 : Inv none ν (t.setCurrent name) s := h4.refs _ _ _
    have h7 := (h6.referAll a refs hcur ⟨d, h2, hkm⟩).1
    have hs : s.item (.body name refs) = s.useAll a refs := by simp [Uses.item, h1]
    refine ⟨ν, by rw [hs]; exact h7, ?_⟩
    rw [hs]
    refine Names.congr ?_ (useAll_same ..).1 (useAll_same ..).2
    refine ⟨hN.modules, ?_, ?_, ?_, ?_⟩
    · intro y hy; exact e2 y (hN.types y hy)
    · intro y b hy
      rcases hN.values y b hy with h8 | h8
      · exact .inl h8
      · exact .inr (e4 y h8)
    · intro b d' hd' hk hl; exact e4 _ (hN.defs b d' hd' hk hl)
    · intro f hf
      rcases e5 f hf with h8 | h8
      · exact hN.bodies f h8
      · cases h8
  | constant name isPublic origin refs =>
    obtain ⟨hf, hn, hN'⟩ := hvalue name .constant isPublic origin rfl rfl
    have h1 := h.alloc ⟨name, .value, .constant, isPublic, origin⟩ (by simp) (by simp [Kind.isModule]) (fun _ => rfl)
    have hd : (s.define ⟨name, .value, .constant, isPublic, origin⟩).defs[s.defs.length]? = some _ :=
      (get_define ..).mpr (.inr ⟨rfl, rfl⟩)
    have h2 := h1.referAll s.defs.length refs (by simp [Tracker.beginConstant]) ⟨_, hd, rfl⟩
    obtain ⟨hdefs, hscope⟩ := useAll_same (s.define ⟨name, .value, .constant, isPublic, origin⟩) s.defs.length refs
    have h3 := h2.1.bind ⟨name, .value, .constant, isPublic, origin⟩ (by rw [hdefs]; exact hd) ?_ ?_
    · refine ⟨fun a => if a = s.defs.length then t.nodes else ν a, ?_, Names.congr hN' hdefs ?_⟩
      · have hc : (t.beginConstant.referAll refs).current =
            (fun a => if a = s.defs.length then t.nodes else ν a) s.defs.length := by
          rw [h2.2]
          simp [Tracker.beginConstant]
        change Inv none _ ((t.beginConstant.referAll refs).registerConstant name origin isPublic) _
        unfold Tracker.registerConstant
        rw [hc]
        exact h3
      · change (fun x => if x = _ then _ else Uses.scope _ x) = (fun x => if x = _ then _ else Uses.scope _ x)
        rw [hscope]
    · rw [hscope, hdefs]
      intro b hb
      obtain ⟨d', h4, h5⟩ := hf b hb
      exact ⟨d', (get_define ..).mpr (.inl h4), h5⟩
    · rw [hscope, hdefs]
      intro hs b d' hd' hne hk hl
      rcases (get_define ..).mp hd' with hd' | hd'
      · exact hn hs b d' hd' hk hl
      · exact absurd hd'.1 hne

/-- The whole module. -/
theorem state_analyse (p : Program) (hp : p.Ok) : State p.imports p.items (analyse p) (uses p) := by
  have h0 : State [] [] .new .new := by
    refine ⟨id, Inv.new id, ⟨?_, ?_, ?_, ?_, ?_⟩⟩ <;> simp [Uses.new]
  have himports : ∀ l2 l1 t s, p.imports = l1 ++ l2 → State l1 [] t s →
      State p.imports [] (l2.foldl Tracker.import_ t) (l2.foldl Uses.import_ s) := by
    intro l2
    induction l2 with
    | nil => intro l1 t s h1 h2; rw [h1]; simpa using h2
    | cons i l2 ih =>
      intro l1 t s h1 h2
      rw [List.foldl_cons, List.foldl_cons]
      have hsplit : p.imports = (l1 ++ [i]) ++ l2 := by simp [h1]
      have sub : ∀ f : Import → Option String, ((l1 ++ [i]).filterMap f).Sublist (p.imports.filterMap f) := by
        intro f
        rw [hsplit, List.filterMap_append (l' := l2)]
        exact List.sublist_append_left ..
      refine ih (l1 ++ [i]) _ _ hsplit (state_import l1 i t s h2 (hp.modules.sublist (sub _)) ?_ (hp.imported.sublist (sub _)))
      exact (List.nodup_append.mp hp.types).1.sublist (sub _)
  have hitems : ∀ l2 l1 t s, p.items = l1 ++ l2 → State p.imports l1 t s →
      State p.imports p.items (l2.foldl Tracker.item t) (l2.foldl Uses.item s) := by
    intro l2
    induction l2 with
    | nil => intro l1 t s h1 h2; rw [h1]; simpa using h2
    | cons i l2 ih =>
      intro l1 t s h1 h2
      rw [List.foldl_cons, List.foldl_cons]
      have hsplit : p.items = (l1 ++ [i]) ++ l2 := by simp [h1]
      have sub : ∀ f : Item → Option String, ((l1 ++ [i]).filterMap f).Sublist (p.items.filterMap f) := by
        intro f
        rw [hsplit, List.filterMap_append (l' := l2)]
        exact List.sublist_append_left ..
      refine ih (l1 ++ [i]) _ _ hsplit (state_item p.imports l1 i t s h2 ?_ (hp.values.sublist (sub _)) ?_)
      · exact hp.types.sublist ((List.Sublist.refl _).append (sub _))
      · rintro f refs rfl
        exact hp.bodies l1 f refs l2 h1
  exact hitems p.items [] _ _ (by simp) (himports p.imports [] _ _ (by simp) h0)

end Verif.Unused
