import Verif.Unused.Analyse

/-
What is unused in the graph is what no public definition uses.
-/
namespace Verif.Unused

theorem Inv.right_unique {pend : Option Nat} {ν : Nat → Nat} {t : Tracker} {s : Uses} (h : Inv pend ν t s) {x y : Entity} {i : Nat}
    (hx : (x, i) ∈ t.entities) (hy : (y, i) ∈ t.entities) : x = y := by
  have := (h.bimap.right_eq x i).mpr hx
  rw [(h.bimap.right_eq y i).mpr hy] at this
  exact (Option.some.inj this).symm

theorem Inv.left_unique {pend : Option Nat} {ν : Nat → Nat} {t : Tracker} {s : Uses} (h : Inv pend ν t s) {x : Entity} {i j : Nat}
    (hx : (x, i) ∈ t.entities) (hy : (x, j) ∈ t.entities) : i = j := by
  have := (h.bimap.left_eq x i).mpr hx
  rw [(h.bimap.left_eq x j).mpr hy] at this
  exact (Option.some.inj this).symm

theorem Inv.mem_keys {pend : Option Nat} {ν : Nat → Nat} {t : Tracker} {s : Uses} (h : Inv pend ν t s) (x : Entity) :
    x ∈ keys t.information ↔ ∃ a, ∃ d : Def, s.defs[a]? = some d ∧ (x, ν a) ∈ t.entities := by
  unfold keys
  rw [List.mem_map]
  constructor
  · rintro ⟨⟨y, i⟩, h1, rfl⟩
    obtain ⟨a, d, h2, h3, _⟩ := (h.info y i).mp h1
    exact ⟨a, d, h2, h3⟩
  · rintro ⟨a, d, h1, h2⟩
    exact ⟨(x, d.info), (h.info x _).mpr ⟨a, d, h1, h2, rfl⟩, rfl⟩

theorem Inv.edge_iff {pend : Option Nat} {ν : Nat → Nat} {t : Tracker} {s : Uses} (h : Inv pend ν t s) {x y : Entity} {a b : Nat}
    (ha : a < s.defs.length) (hb : b < s.defs.length) (hx : (x, ν a) ∈ t.entities) (hy : (y, ν b) ∈ t.entities) :
    t.Edge x y ↔ (a, b) ∈ s.uses := by
  rw [← h.edges a b ha hb]
  constructor
  · rintro ⟨i, j, h1, h2, h3⟩
    rw [h.left_unique hx h1, h.left_unique hy h3]
    exact h2
  · exact fun h1 => ⟨_, _, hx, h1, hy⟩

/-- What is left. -/
theorem Inv.unused {ν : Nat → Nat} {t : Tracker} {s : Uses} (h : Inv none ν t s) (publics all : List Entity)
    (hp : ∀ e, e ∈ publics ↔ e ∈ t.public_) (ha : ∀ e, e ∈ all ↔ e ∈ t.entities.map (·.1)) :
    (t.unused publics all).Sublist t.information ∧
    (∀ a e, s.Needed a → (e, ν a) ∈ t.entities → e ∉ keys (t.unused publics all)) ∧
    (∀ (a : Nat) (d : Def) e, s.defs[a]? = some d → d.kind.isModule = false → (e, ν a) ∈ t.entities →
      e ∉ keys (t.unused publics all) → s.Needed a) ∧
    (∀ (a c : Nat) (d : Def) x m, s.defs[c]? = some d → d.kind.isModule = false → (c, a) ∈ s.uses → (x, ν c) ∈ t.entities →
      x.layer ≠ .module_ → (m, ν a) ∈ t.entities → m.layer = .module_ → (m.name, x.name) ∉ t.typeReferences →
      (m.name, x.name) ∉ t.valueReferences → m ∉ keys (t.unused publics all)) ∧
    (∀ (a : Nat) (d : Def) e, s.defs[a]? = some d → (e, ν a) ∈ t.entities → e ∉ keys (t.unused publics all) →
      ∃ (c : Nat) (d' : Def), s.defs[c]? = some d' ∧ d'.kind.isModule = false ∧ s.Reaches c a) := by
  obtain ⟨h1, h2, h3⟩ := unused_spec t h.bimap
    (fun x => ∃ a, ∃ d : Def, s.defs[a]? = some d ∧ (x, ν a) ∈ t.entities ∧ (s.Needed a ∨
      (d.kind.isModule = true ∧ ∃ (c : Nat) (d' : Def), s.defs[c]? = some d' ∧ d'.kind.isModule = false ∧ s.Reaches c a)))
    (by
      rintro x y ⟨a, d, h1, h2, h3⟩ h4 hy
      obtain ⟨b, d', h5, h6⟩ := (h.mem_keys y).mp hy
      have hab := (h.edge_iff (lt_of_get h1) (lt_of_get h5) h2 h6).mp h4
      refine ⟨b, d', h5, h6, ?_⟩
      rcases h3 with ⟨r, dr, h7, h8, h9⟩ | h3
      · exact .inl ⟨r, dr, h7, h8, h9.tail hab⟩
      · obtain ⟨h3, c, dc, h9, h10, h11⟩ := h3
        obtain ⟨_, d'', h7, h8⟩ := h.leaf a b d hab h1 h3
        rw [h5] at h7
        cases h7
        exact .inr ⟨Kind.isModule_of_isImport h8, c, dc, h9, h10, h11.tail hab⟩)
    (by
      rintro e he -
      obtain ⟨a, d, h1, h2, h3, rfl⟩ := (h.public_ e).mp he
      have h4 := h.stay a d h1 h2 (h.publicDef a d h1 h3)
      exact ⟨a, d, h1, (h.scopeEnt _ _ h4).2.1, .inl ⟨a, d, h1, h3, .refl⟩⟩)
    (by
      intro x e hx hxe he hk
      obtain ⟨a, d, h1, h2⟩ := (h.mem_keys e).mp hk
      have hmod : d.kind.isModule = true := by
        rcases h.entScope e _ h2 (by rw [he]; simp) with ⟨b, h3, h4⟩ | ⟨_, h3⟩
        · obtain ⟨_, _, d', h5, h6⟩ := h.scopeEnt e b h3
          have := h.inj a b (lt_of_get h1) (lt_of_get h5) h4
          subst this
          rw [h1] at h5
          cases h5
          refine (h.layer a d h1).2.mp ?_
          rw [← he, ← h6]
          rfl
        · exact absurd rfl (h3 a (lt_of_get h1))
      refine ⟨a, d, h1, h2, .inr ⟨hmod, ?_⟩⟩
      obtain ⟨i, j, h3, h4, h5⟩ := id hxe
      obtain ⟨c, hc, rfl⟩ := h.source i j h4
      obtain ⟨dc, hdc⟩ := get_of_lt hc
      have hca := (h.edge_iff hc (lt_of_get h1) h3 h2).mp hxe
      refine ⟨c, dc, hdc, ?_, .single hca⟩
      cases hm : dc.kind.isModule with
      | false => rfl
      | true =>
        exfalso
        have hl := (h.leaf c a dc hca hdc hm).1
        by_cases hsh : x.layer = .shadowed
        · obtain ⟨n, l⟩ := x
          dsimp only at hsh
          subst hsh
          obtain ⟨b, d', h6, h7, h8, _, h9⟩ := h.entShadow n _ h3
          have := h.inj c b hc (lt_of_get h6) h7
          subst this
          rw [hdc] at h6
          cases h6
          rcases h9 with h9 | ⟨h9, _⟩
          · rw [hl] at h9; cases h9
          · rw [hm] at h9; cases h9
        · rcases h.entScope x _ h3 hsh with ⟨b, h6, h7⟩ | ⟨_, h6⟩
          · obtain ⟨_, _, d', h8, h9⟩ := h.scopeEnt x b h6
            have := h.inj c b hc (lt_of_get h8) h7
            subst this
            rw [hdc] at h8
            cases h8
            apply hx
            rw [← h9]
            exact (h.layer c dc hdc).2.mpr hm
          · exact absurd rfl (h6 c hc))
    publics all hp
  refine ⟨h1.sublist, ?_, ?_, ?_, ?_⟩
  · rintro a e ⟨r, dr, hr, hpub, hreach⟩
    induction hreach generalizing e with
    | refl =>
      intro he
      have h4 := h.stay r dr hr (by simp) (h.publicDef r dr hr hpub)
      have h5 := (h.scopeEnt _ _ h4).2.1
      have := h.right_unique he h5
      subst this
      exact h2 _ ((h.public_ _).mpr ⟨r, dr, hr, by simp, hpub, rfl⟩) _ h5
    | @tail b c _ hbc ih =>
      intro he
      obtain ⟨hb, hc⟩ := h.useLt b c hbc
      obtain ⟨db, hdb⟩ := get_of_lt hb
      rcases h.alive b db hdb (by simp) with h4 | ⟨x, hx⟩
      · have := (h.leaf b c db hbc hdb (Kind.isModule_of_isImport h4)).1
        rw [h4] at this; cases this
      · exact h1.closed x ((h.mem_keys x).mpr ⟨b, db, hdb, hx⟩) (ih x hx) e ((h.edge_iff hb hc hx he).mpr hbc)
  · intro a d e hd hk he hn
    obtain ⟨b, d', h4, h5, h6⟩ := h1.inside e ((h.mem_keys e).mpr ⟨a, d, hd, he⟩) hn
    have := h.inj a b (lt_of_get hd) (lt_of_get h4) (h.left_unique he h5)
    subst this
    rw [hd] at h4
    cases h4
    rcases h6 with h6 | h6
    · exact h6
    · rw [hk] at h6; cases h6.1
  · intro a c d x m hd hk hca hx hxl hm hml hn1 hn2
    obtain ⟨hc, ha'⟩ := h.useLt c a hca
    have hedge := (h.edge_iff hc ha' hx hm).mpr hca
    by_cases hxp : x ∈ t.public_
    · have h4 := h2 x hxp _ hx
      exact h1.closed x ((h.mem_keys x).mpr ⟨c, d, hd, hx⟩) h4 m hedge
    · exact h3 x ((ha x).mpr (List.mem_map.mpr ⟨_, hx, rfl⟩)) _ hx hxp hxl m hedge hml hn1 hn2
  · intro a d e hd he hn
    obtain ⟨b, d', h4, h5, h6⟩ := h1.inside e ((h.mem_keys e).mpr ⟨a, d, hd, he⟩) hn
    have := h.inj a b (lt_of_get hd) (lt_of_get h4) (h.left_unique he h5)
    subst this
    rcases h6 with ⟨r, dr, h7, h8, h9⟩ | ⟨_, h6⟩
    · refine ⟨r, dr, h7, ?_, h9⟩
      have := h.publicDef r dr h7 h8
      cases hm : dr.kind.isModule with
      | false => rfl
      | true => rw [Kind.not_definition_of_isModule hm] at this; cases this
    · exact h6

/-! ### The names that are mentioned -/

/-- The keys of the references are the names that the module mentions. -/
def Tracker.Mentions (t : Tracker) (l : List (String × String)) : Prop :=
  ∀ x, x ∈ t.typeReferences ∨ x ∈ t.valueReferences ↔ x ∈ l

theorem createMaybeShadow_refs (t : Tracker) (e : Entity) (i : Nat) :
    (t.createMaybeShadow e i).typeReferences = t.typeReferences ∧ (t.createMaybeShadow e i).valueReferences = t.valueReferences := by
  unfold Tracker.createMaybeShadow
  split
  · exact ⟨rfl, rfl⟩
  · split <;> exact ⟨rfl, rfl⟩

theorem addModuleEdge_refs (t : Tracker) (m : String) :
    (t.addModuleEdge m).typeReferences = t.typeReferences ∧ (t.addModuleEdge m).valueReferences = t.valueReferences := by
  unfold Tracker.addModuleEdge
  split <;> exact ⟨rfl, rfl⟩

theorem addEdge_refs (t : Tracker) (e : Entity) :
    (t.addEdge e).typeReferences = t.typeReferences ∧ (t.addEdge e).valueReferences = t.valueReferences := by
  unfold Tracker.addEdge Tracker.getOrCreate
  split <;> exact ⟨rfl, rfl⟩

theorem register_refs (t : Tracker) (e : Entity) (k : Kind) (o : Nat) (b : Bool) :
    (t.register e k o b).typeReferences = t.typeReferences ∧ (t.register e k o b).valueReferences = t.valueReferences := by
  have h1 := createMaybeShadow_refs { t with nodes := t.nodes + 1, current := t.nodes } e t.nodes
  have h2 : ∀ t' : Tracker, (t'.addImportEdge k).typeReferences = t'.typeReferences ∧
      (t'.addImportEdge k).valueReferences = t'.valueReferences := by
    intro t'
    cases k <;> first | exact ⟨rfl, rfl⟩ | exact addModuleEdge_refs ..
  exact ⟨(h2 (t.create e)).1.trans h1.1, (h2 (t.create e)).2.trans h1.2⟩

theorem registerModule_refs (t : Tracker) (u m : String) (o : Nat) :
    (t.registerModule u m o).typeReferences = t.typeReferences ∧ (t.registerModule u m o).valueReferences = t.valueReferences :=
  createMaybeShadow_refs { t with nodes := t.nodes + 1, current := t.nodes } ⟨u, .module_⟩ t.nodes

theorem mentions_import (t : Tracker) (l : List (String × String)) (h : t.Mentions l) (i : Import) :
    (t.import_ i).Mentions (l ++ i.mentions) := by
  intro x
  have hx := h x
  cases i with
  | module_ u m o =>
    obtain ⟨h1, h2⟩ := registerModule_refs t u m o
    change x ∈ (t.registerModule u m o).typeReferences ∨ x ∈ (t.registerModule u m o).valueReferences ↔ _
    rw [h1, h2]
    simpa [Import.mentions] using hx
  | aliased u m o ao =>
    obtain ⟨h1, h2⟩ := registerModule_refs t u m o
    obtain ⟨h3, h4⟩ := createMaybeShadow_refs { t.registerModule u m o with nodes := (t.registerModule u m o).nodes + 1, current := (t.registerModule u m o).nodes }
      ⟨u, .module_⟩ (t.registerModule u m o).nodes
    obtain ⟨h5, h6⟩ := addModuleEdge_refs ((t.registerModule u m o).create ⟨u, .module_⟩) m
    change x ∈ (((t.registerModule u m o).create ⟨u, .module_⟩).addModuleEdge m).typeReferences ∨
      x ∈ (((t.registerModule u m o).create ⟨u, .module_⟩).addModuleEdge m).valueReferences ↔ _
    rw [h5, h6]
    change x ∈ (Tracker.createMaybeShadow _ _ _).typeReferences ∨ x ∈ (Tracker.createMaybeShadow _ _ _).valueReferences ↔ _
    rw [h3, h4]
    change x ∈ (t.registerModule u m o).typeReferences ∨ x ∈ (t.registerModule u m o).valueReferences ↔ _
    rw [h1, h2]
    simpa [Import.mentions] using hx
  | type u m f n o =>
    obtain ⟨_, h2⟩ := register_refs t ⟨u, .type⟩ (.importedType m) o false
    change x ∈ (f, n) :: t.typeReferences ∨ x ∈ (t.register ⟨u, .type⟩ (.importedType m) o false).valueReferences ↔ _
    rw [h2]
    simp only [Import.mentions, List.mem_append, List.mem_cons, List.not_mem_nil, or_false, ← hx]
    tauto
  | value u m f n o =>
    obtain ⟨h1, _⟩ := register_refs t ⟨u, .value⟩ (.importedValue m) o false
    change x ∈ (t.register ⟨u, .value⟩ (.importedValue m) o false).typeReferences ∨ x ∈ (f, n) :: t.valueReferences ↔ _
    rw [h1]
    simp only [Import.mentions, List.mem_append, List.mem_cons, List.not_mem_nil, or_false, ← hx]
    tauto
  | constructor u m f n o =>
    obtain ⟨h1, _⟩ := register_refs t ⟨u, .value⟩ (.importedConstructor m) o false
    change x ∈ (t.register ⟨u, .value⟩ (.importedConstructor m) o false).typeReferences ∨ x ∈ (f, n) :: t.valueReferences ↔ _
    rw [h1]
    simp only [Import.mentions, List.mem_append, List.mem_cons, List.not_mem_nil, or_false, ← hx]
    tauto

theorem mentions_refer (t : Tracker) (l : List (String × String)) (h : t.Mentions l) (r : Ref) :
    (t.refer r).Mentions (l ++ r.mentions) := by
  intro x
  have hx := h x
  obtain ⟨h1, h2⟩ := addEdge_refs t r.entity
  cases r with
  | value u f n =>
    change x ∈ (t.addEdge (Ref.value u f n).entity).typeReferences ∨ x ∈ (f, n) :: t.valueReferences ↔ _
    rw [h1]
    simp only [Ref.mentions, List.mem_append, List.mem_cons, List.not_mem_nil, or_false, ← hx]
    tauto
  | type u f n =>
    change x ∈ (f, n) :: t.typeReferences ∨ x ∈ (t.addEdge (Ref.type u f n).entity).valueReferences ↔ _
    rw [h2]
    simp only [Ref.mentions, List.mem_append, List.mem_cons, List.not_mem_nil, or_false, ← hx]
    tauto
  | typeOnly u =>
    change x ∈ (t.addEdge (Ref.typeOnly u).entity).typeReferences ∨ x ∈ (t.addEdge (Ref.typeOnly u).entity).valueReferences ↔ _
    rw [h1, h2]
    simpa [Ref.mentions] using hx
  | qualifiedValue u f n =>
    change x ∈ (t.addEdge (Ref.qualifiedValue u f n).entity).typeReferences ∨ x ∈ (f, n) :: t.valueReferences ↔ _
    rw [h1]
    simp only [Ref.mentions, List.mem_append, List.mem_cons, List.not_mem_nil, or_false, ← hx]
    tauto
  | qualifiedType u f n =>
    change x ∈ (f, n) :: t.typeReferences ∨ x ∈ (t.addEdge (Ref.qualifiedType u f n).entity).valueReferences ↔ _
    rw [h2]
    simp only [Ref.mentions, List.mem_append, List.mem_cons, List.not_mem_nil, or_false, ← hx]
    tauto

theorem mentions_referAll (t : Tracker) (l : List (String × String)) (h : t.Mentions l) (refs : List Ref) :
    (t.referAll refs).Mentions (l ++ refs.flatMap Ref.mentions) := by
  unfold Tracker.referAll
  induction refs generalizing t l with
  | nil => simpa using h
  | cons r refs ih =>
    rw [List.foldl_cons, List.flatMap_cons, ← List.append_assoc]
    exact ih _ _ (mentions_refer t l h r)

theorem Tracker.Mentions.congr {t t' : Tracker} {l : List (String × String)} (h : t.Mentions l)
    (h' : t'.typeReferences = t.typeReferences ∧ t'.valueReferences = t.valueReferences) : t'.Mentions l := by
  intro x
  rw [h'.1, h'.2]
  exact h x

theorem mentions_item (t : Tracker) (l : List (String × String)) (h : t.Mentions l) (i : Item) :
    (t.item i).Mentions (l ++ i.refs.flatMap Ref.mentions) := by
  cases i with
  | type => exact mentions_referAll _ _ (h.congr (register_refs ..)) _
  | constructor => exact mentions_referAll _ _ ((h.congr (register_refs ..)).congr (addEdge_refs ..)) _
  | function => exact mentions_referAll _ _ (h.congr (register_refs ..)) _
  | body name refs =>
    refine mentions_referAll _ _ (h.congr ?_) _
    unfold Tracker.setCurrent Tracker.getOrCreate
    split <;> exact ⟨rfl, rfl⟩
  | constant name b o refs =>
    have h1 : t.beginConstant.Mentions l := h
    exact (mentions_referAll _ _ h1 refs).congr (createMaybeShadow_refs ..)

theorem mentions_analyse (p : Program) : (analyse p).Mentions p.mentions := by
  have h1 : ∀ (l : List Import) (t : Tracker) m, t.Mentions m → (l.foldl Tracker.import_ t).Mentions (m ++ l.flatMap Import.mentions) := by
    intro l
    induction l with
    | nil => intro t m h; simpa using h
    | cons i l ih =>
      intro t m h
      rw [List.foldl_cons, List.flatMap_cons, ← List.append_assoc]
      exact ih _ _ (mentions_import t m h i)
  have h2 : ∀ (l : List Item) (t : Tracker) m, t.Mentions m →
      (l.foldl Tracker.item t).Mentions (m ++ l.flatMap fun i => i.refs.flatMap Ref.mentions) := by
    intro l
    induction l with
    | nil => intro t m h; simpa using h
    | cons i l ih =>
      intro t m h
      rw [List.foldl_cons, List.flatMap_cons, ← List.append_assoc]
      exact ih _ _ (mentions_item t m h i)
  have := h2 p.items _ _ (h1 p.imports .new [] (by intro x; simp [Tracker.new]))
  simpa [Program.mentions, analyse] using this

end Verif.Unused
