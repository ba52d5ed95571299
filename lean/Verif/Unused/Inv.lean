import Verif.Unused.Mark

/-
The graph and the uses of the module agree at every step of the analysis.
-/
namespace Verif.Unused

/-- An import of a module, or the alias of one. -/
def Kind.isModule : Kind → Bool
  | .importedModule _ | .moduleAlias _ => true
  | _ => false

def Kind.isImport : Kind → Bool
  | .importedModule _ => true
  | _ => false

theorem Kind.isModule_of_isImport {k : Kind} (h : k.isImport = true) : k.isModule = true := by
  cases k <;> simp_all [Kind.isImport, Kind.isModule]

theorem Kind.not_definition_of_isModule {k : Kind} (h : k.isModule = true) : k.isDefinition = false := by
  cases k <;> simp_all [Kind.isDefinition, Kind.isModule]

def Def.info (d : Def) : Info := ⟨d.origin, d.kind⟩
def Def.entity (d : Def) : Entity := ⟨d.name, d.layer⟩

/-- `ν` gives the nodes of definitions. The definition `pend` has no name yet. -/
structure Inv (pend : Option Nat) (ν : Nat → Nat) (t : Tracker) (s : Uses) : Prop where
  inj : ∀ a b, a < s.defs.length → b < s.defs.length → ν a = ν b → a = b
  lt : ∀ a, a < s.defs.length → ν a < t.nodes
  bimap : t.entities.Ok
  entLt : ∀ e i, (e, i) ∈ t.entities → i < t.nodes
  edgeLt : ∀ i j, (i, j) ∈ t.edges → i < t.nodes ∧ j < t.nodes
  source : ∀ i j, (i, j) ∈ t.edges → ∃ a, a < s.defs.length ∧ i = ν a
  useLt : ∀ a b, (a, b) ∈ s.uses → a < s.defs.length ∧ b < s.defs.length
  scopeEnt : ∀ e a, s.scope e = some a → e.layer ≠ .shadowed ∧ (e, ν a) ∈ t.entities ∧
    ∃ d : Def, s.defs[a]? = some d ∧ d.entity = e
  entScope : ∀ e i, (e, i) ∈ t.entities → e.layer ≠ .shadowed → (∃ a, s.scope e = some a ∧ i = ν a) ∨
    (s.scope e = none ∧ ∀ a, a < s.defs.length → ν a ≠ i)
  entShadow : ∀ x i, (⟨x, .shadowed⟩, i) ∈ t.entities → ∃ a : Nat, ∃ d : Def, s.defs[a]? = some d ∧ i = ν a ∧ d.kind.isDefinition = false ∧
    d.name = x ∧ (d.kind.isImport = true ∨ (d.kind.isModule = false ∧ ∃ b : Nat, ∃ d' : Def, s.defs[b]? = some d' ∧ pend ≠ some b ∧
      d'.kind.isDefinition = true ∧ d'.layer = .value ∧ d'.name = x))
  infoNodup : (keys t.information).Nodup
  info : ∀ e i, (e, i) ∈ t.information ↔ ∃ a : Nat, ∃ d : Def, s.defs[a]? = some d ∧ (e, ν a) ∈ t.entities ∧ i = d.info
  edges : ∀ a b, a < s.defs.length → b < s.defs.length → ((ν a, ν b) ∈ t.edges ↔ (a, b) ∈ s.uses)
  pending : ∀ a, pend = some a → a < s.defs.length ∧ ∀ e, (e, ν a) ∉ t.entities
  alive : ∀ (a : Nat) (d : Def), s.defs[a]? = some d → pend ≠ some a → d.kind.isImport = true ∨ ∃ e, (e, ν a) ∈ t.entities
  stay : ∀ (a : Nat) (d : Def), s.defs[a]? = some d → pend ≠ some a → d.kind.isDefinition = true → s.scope d.entity = some a
  public_ : ∀ e, e ∈ t.public_ ↔ ∃ a : Nat, ∃ d : Def, s.defs[a]? = some d ∧ pend ≠ some a ∧ d.isPublic = true ∧ e = d.entity
  publicDef : ∀ (a : Nat) (d : Def), s.defs[a]? = some d → d.isPublic = true → d.kind.isDefinition = true
  leaf : ∀ (a b : Nat) (d : Def), (a, b) ∈ s.uses → s.defs[a]? = some d → d.kind.isModule = true → d.kind.isImport = false ∧
    ∃ d' : Def, s.defs[b]? = some d' ∧ d'.kind.isImport = true
  layer : ∀ (a : Nat) (d : Def), s.defs[a]? = some d → d.layer ≠ .shadowed ∧ (d.layer = .module_ ↔ d.kind.isModule = true)
  modules : ∀ m, t.moduleNode m = (s.imports m).map ν
  imports : ∀ m a, s.imports m = some a → ∃ d : Def, s.defs[a]? = some d ∧ d.kind.isImport = true

theorem lt_of_get {s : Uses} {a : Nat} {d : Def} (h : s.defs[a]? = some d) : a < s.defs.length := by
  rcases Nat.lt_or_ge a s.defs.length with h' | h'
  · exact h'
  · rw [List.getElem?_eq_none h'] at h; cases h

theorem get_of_lt {s : Uses} {a : Nat} (h : a < s.defs.length) : ∃ d, s.defs[a]? = some d :=
  ⟨_, List.getElem?_eq_getElem h⟩

theorem get_define (s : Uses) (d : Def) (a : Nat) (x : Def) :
    (s.define d).defs[a]? = some x ↔ s.defs[a]? = some x ∨ (a = s.defs.length ∧ x = d) := by
  unfold Uses.define
  rcases Nat.lt_trichotomy a s.defs.length with h | h | h
  · simp only [List.getElem?_append_left h]
    constructor
    · exact .inl
    · rintro (h' | h')
      · exact h'
      · omega
  · subst h
    simp [eq_comm]
  · have h1 : s.defs[a]? = none := List.getElem?_eq_none (by omega)
    have h2 : (s.defs ++ [d])[a]? = none := List.getElem?_eq_none (by simp; omega)
    rw [h1, h2]
    simp
    omega

theorem Inv.new (ν : Nat → Nat) : Inv none ν .new .new := by
  constructor <;> simp [Tracker.new, Uses.new, keys]
  exact ⟨by simp, by simp⟩

/-- A new node for a new definition. -/
theorem Inv.alloc {ν : Nat → Nat} {t : Tracker} {s : Uses} (h : Inv none ν t s) (d : Def) (hl : d.layer ≠ .shadowed)
    (hm : d.layer = .module_ ↔ d.kind.isModule = true) (hp : d.isPublic = true → d.kind.isDefinition = true) :
    Inv (some s.defs.length) (fun a => if a = s.defs.length then t.nodes else ν a) t.beginConstant (s.define d) := by
  have hn : (s.define d).defs.length = s.defs.length + 1 := by simp [Uses.define]
  have hold : ∀ {a}, a < s.defs.length → (if a = s.defs.length then t.nodes else ν a) = ν a := fun ha => if_neg (by omega)
  have hent : ∀ e, (e, t.nodes) ∉ t.entities := fun e he => by have := h.entLt e _ he; omega
  have hinfo : ∀ e a, (e, if a = s.defs.length then t.nodes else ν a) ∈ t.entities → a ≠ s.defs.length ∧ (e, ν a) ∈ t.entities := by
    intro e a he
    by_cases ha : a = s.defs.length
    · rw [if_pos ha] at he; exact absurd he (hent e)
    · rw [if_neg ha] at he; exact ⟨ha, he⟩
  constructor
  case inj =>
    intro a b ha hb hab
    rw [hn] at ha hb
    by_cases h1 : a = s.defs.length <;> by_cases h2 : b = s.defs.length
    · omega
    · rw [if_pos h1, if_neg h2] at hab
      have := h.lt b (by omega); omega
    · rw [if_neg h1, if_pos h2] at hab
      have := h.lt a (by omega); omega
    · rw [if_neg h1, if_neg h2] at hab
      exact h.inj a b (by omega) (by omega) hab
  case lt =>
    intro a ha
    rw [hn] at ha
    by_cases h1 : a = s.defs.length
    · rw [if_pos h1]; exact Nat.lt_succ_self _
    · rw [if_neg h1]; exact Nat.lt_succ_of_lt (h.lt a (by omega))
  case bimap => exact h.bimap
  case entLt => exact fun e i he => Nat.lt_succ_of_lt (h.entLt e i he)
  case edgeLt => exact fun i j he => ⟨Nat.lt_succ_of_lt (h.edgeLt i j he).1, Nat.lt_succ_of_lt (h.edgeLt i j he).2⟩
  case source =>
    intro i j he
    obtain ⟨a, h1, h2⟩ := h.source i j he
    exact ⟨a, by omega, by rw [hold h1]; exact h2⟩
  case useLt => exact fun a b hab => ⟨by have := (h.useLt a b hab).1; omega, by have := (h.useLt a b hab).2; omega⟩
  case scopeEnt =>
    intro e a hs
    obtain ⟨h1, h2, d', h3, h4⟩ := h.scopeEnt e a hs
    exact ⟨h1, by rw [hold (lt_of_get h3)]; exact h2, d', (get_define ..).mpr (.inl h3), h4⟩
  case entScope =>
    intro e i he hsh
    rcases h.entScope e i he hsh with ⟨a, h1, h2⟩ | ⟨h1, h2⟩
    · obtain ⟨_, _, d', h3, _⟩ := h.scopeEnt e a h1
      exact .inl ⟨a, h1, by rw [hold (lt_of_get h3)]; exact h2⟩
    · refine .inr ⟨h1, fun a ha hc => ?_⟩
      subst hc
      obtain ⟨hne, _⟩ := hinfo e a he
      rw [hold (by omega)] at he h2
      exact h2 a (by omega) rfl
  case entShadow =>
    intro x i he
    obtain ⟨a, d', h1, h2, h3, h4, h5⟩ := h.entShadow x i he
    refine ⟨a, d', (get_define ..).mpr (.inl h1), by rw [hold (lt_of_get h1)]; exact h2, h3, h4, ?_⟩
    rcases h5 with h5 | ⟨h5, b, d'', h6, _, h7⟩
    · exact .inl h5
    · exact .inr ⟨h5, b, d'', (get_define ..).mpr (.inl h6), by have := lt_of_get h6; simp; omega, h7⟩
  case infoNodup => exact h.infoNodup
  case info =>
    intro e i
    refine (h.info e i).trans ⟨?_, ?_⟩
    · rintro ⟨a, d', h1, h2, h3⟩
      exact ⟨a, d', (get_define ..).mpr (.inl h1), by rw [hold (lt_of_get h1)]; exact h2, h3⟩
    · rintro ⟨a, d', h1, h2, h3⟩
      obtain ⟨hne, h4⟩ := hinfo e a h2
      rcases (get_define ..).mp h1 with h1 | h1
      · exact ⟨a, d', h1, h4, h3⟩
      · exact absurd h1.1 hne
  case edges =>
    intro a b ha hb
    rw [hn] at ha hb
    have hu : ∀ x, (s.defs.length, x) ∉ s.uses ∧ (x, s.defs.length) ∉ s.uses :=
      fun x => ⟨fun hc => by have := (h.useLt _ _ hc).1; omega, fun hc => by have := (h.useLt _ _ hc).2; omega⟩
    have he : ∀ x, (t.nodes, x) ∉ t.edges ∧ (x, t.nodes) ∉ t.edges :=
      fun x => ⟨fun hc => by have := (h.edgeLt _ _ hc).1; omega, fun hc => by have := (h.edgeLt _ _ hc).2; omega⟩
    by_cases h1 : a = s.defs.length
    · rw [if_pos h1, h1]
      exact ⟨fun hc => absurd hc (he _).1, fun hc => absurd hc (hu _).1⟩
    · by_cases h2 : b = s.defs.length
      · rw [if_pos h2, h2]
        exact ⟨fun hc => absurd hc (he _).2, fun hc => absurd hc (hu _).2⟩
      · rw [if_neg h1, if_neg h2]
        exact h.edges a b (by omega) (by omega)
  case pending =>
    rintro a ⟨⟩
    refine ⟨by omega, fun e he => hent e ?_⟩
    rw [if_pos rfl] at he
    exact he
  case alive =>
    intro a d' hd hne
    rcases (get_define ..).mp hd with hd | hd
    · rcases h.alive a d' hd (by simp) with h1 | ⟨e, he⟩
      · exact .inl h1
      · exact .inr ⟨e, by rw [hold (lt_of_get hd)]; exact he⟩
    · exact absurd (congrArg some hd.1.symm) hne
  case stay =>
    intro a d' hd hne hk
    rcases (get_define ..).mp hd with hd | hd
    · exact h.stay a d' hd (by simp) hk
    · exact absurd (congrArg some hd.1.symm) hne
  case public_ =>
    intro e
    refine (h.public_ e).trans ⟨?_, ?_⟩
    · rintro ⟨a, d', h1, _, h2⟩
      exact ⟨a, d', (get_define ..).mpr (.inl h1), by have := lt_of_get h1; simp; omega, h2⟩
    · rintro ⟨a, d', h1, h2, h3⟩
      rcases (get_define ..).mp h1 with h1 | h1
      · exact ⟨a, d', h1, by simp, h3⟩
      · exact absurd (congrArg some h1.1.symm) h2
  case publicDef =>
    intro a d' hd hp'
    rcases (get_define ..).mp hd with hd | ⟨_, rfl⟩
    · exact h.publicDef a d' hd hp'
    · exact hp hp'
  case leaf =>
    intro a b d' hab hd hk
    have ha := (h.useLt a b hab).1
    rcases (get_define ..).mp hd with hd | ⟨hd, _⟩
    · obtain ⟨h1, d'', h2, h3⟩ := h.leaf a b d' hab hd hk
      exact ⟨h1, d'', (get_define ..).mpr (.inl h2), h3⟩
    · omega
  case layer =>
    intro a d' hd
    rcases (get_define ..).mp hd with hd | ⟨_, rfl⟩
    · exact h.layer a d' hd
    · exact ⟨hl, hm⟩
  case modules =>
    intro m
    have := h.modules m
    change t.moduleNode m = _
    rw [this]
    change _ = Option.map _ (s.imports m)
    cases hi : s.imports m with
    | none => rfl
    | some a =>
      obtain ⟨d', h1, _⟩ := h.imports m a hi
      simp only [Option.map_some]
      rw [hold (lt_of_get h1)]
  case imports =>
    intro m a hi
    obtain ⟨d', h1, h2⟩ := h.imports m a hi
    exact ⟨d', (get_define ..).mpr (.inl h1), h2⟩

/-! ### Edges -/

/-- A node for a name of the prelude. -/
theorem Inv.fresh {pend : Option Nat} {ν : Nat → Nat} {t : Tracker} {s : Uses} (h : Inv pend ν t s) (e : Entity)
    (he : ∀ i, (e, i) ∉ t.entities) (hl : e.layer ≠ .shadowed) :
    Inv pend ν { t with nodes := t.nodes + 1, entities := t.entities.insert e t.nodes } s := by
  have hs : s.scope e = none := by
    cases hc : s.scope e with
    | none => rfl
    | some a => exact absurd (h.scopeEnt e a hc).2.1 (he _)
  have hins : t.entities.insert e t.nodes = (e, t.nodes) :: t.entities := by
    unfold BiMap.insert
    congr 1
    rw [List.filter_eq_self]
    rintro ⟨x, k⟩ hx
    have h1 := h.entLt x k hx
    have h2 : x ≠ e := fun hc => he k (hc ▸ hx)
    simp [h2]; omega
  have hmem : ∀ x k, (x, k) ∈ t.entities.insert e t.nodes ↔ (x = e ∧ k = t.nodes) ∨ (x, k) ∈ t.entities := by
    intro x k
    rw [hins]
    simp
  have hν : ∀ x a, a < s.defs.length → ((x, ν a) ∈ t.entities.insert e t.nodes ↔ (x, ν a) ∈ t.entities) := by
    intro x a ha
    rw [hmem]
    have := h.lt a ha
    constructor
    · rintro (⟨_, h1⟩ | h1)
      · omega
      · exact h1
    · exact .inr
  constructor
  case inj => exact h.inj
  case lt => exact fun a ha => Nat.lt_succ_of_lt (h.lt a ha)
  case bimap =>
    dsimp only
    rw [hins]
    refine ⟨?_, ?_⟩
    · rw [List.map_cons, List.nodup_cons]
      refine ⟨?_, h.bimap.left⟩
      intro hc
      obtain ⟨⟨x, k⟩, h1, h2⟩ := List.mem_map.mp hc
      dsimp only at h2
      subst h2
      exact he k h1
    · rw [List.map_cons, List.nodup_cons]
      refine ⟨?_, h.bimap.right⟩
      intro hc
      obtain ⟨⟨x, k⟩, h1, h2⟩ := List.mem_map.mp hc
      have := h.entLt x k h1
      simp at h2; omega
  case entLt =>
    intro x k hx
    rcases (hmem x k).mp hx with ⟨_, rfl⟩ | hx
    · exact Nat.lt_succ_self _
    · exact Nat.lt_succ_of_lt (h.entLt x k hx)
  case edgeLt => exact fun i j he => ⟨Nat.lt_succ_of_lt (h.edgeLt i j he).1, Nat.lt_succ_of_lt (h.edgeLt i j he).2⟩
  case source => exact h.source
  case useLt => exact h.useLt
  case scopeEnt =>
    intro x a hx
    obtain ⟨h1, h2, h3⟩ := h.scopeEnt x a hx
    exact ⟨h1, (hmem ..).mpr (.inr h2), h3⟩
  case entScope =>
    intro x k hx hsh
    rcases (hmem x k).mp hx with ⟨rfl, rfl⟩ | hx
    · exact .inr ⟨hs, fun a ha hc => by have := h.lt a ha; omega⟩
    · exact h.entScope x k hx hsh
  case entShadow =>
    intro x k hx
    rcases (hmem _ k).mp hx with ⟨h1, _⟩ | hx
    · exact absurd (by rw [← h1]) hl
    · exact h.entShadow x k hx
  case infoNodup => exact h.infoNodup
  case info =>
    intro x i
    refine (h.info x i).trans ⟨?_, ?_⟩
    · rintro ⟨a, d, h1, h2, h3⟩
      exact ⟨a, d, h1, (hν x a (lt_of_get h1)).mpr h2, h3⟩
    · rintro ⟨a, d, h1, h2, h3⟩
      exact ⟨a, d, h1, (hν x a (lt_of_get h1)).mp h2, h3⟩
  case edges => exact h.edges
  case pending =>
    intro a ha
    obtain ⟨h1, h2⟩ := h.pending a ha
    exact ⟨h1, fun x hx => h2 x ((hν x a h1).mp hx)⟩
  case alive =>
    intro a d hd hp
    rcases h.alive a d hd hp with h1 | ⟨x, hx⟩
    · exact .inl h1
    · exact .inr ⟨x, (hmem ..).mpr (.inr hx)⟩
  case stay => exact h.stay
  case public_ => exact h.public_
  case publicDef => exact h.publicDef
  case leaf => exact h.leaf
  case layer => exact h.layer
  case modules => exact h.modules
  case imports => exact h.imports

/-- An edge to what is used. -/
theorem Inv.edge {pend : Option Nat} {ν : Nat → Nat} {t : Tracker} {s : Uses} (h : Inv pend ν t s) (c : Nat) (b : Option Nat)
    (j : Nat) (hc : c < s.defs.length) (hj : j < t.nodes)
    (hb : (∃ b', b = some b' ∧ b' < s.defs.length ∧ j = ν b') ∨ (b = none ∧ ∀ a, a < s.defs.length → ν a ≠ j))
    (hk : ∀ d, s.defs[c]? = some d → d.kind.isModule = true → d.kind.isImport = false ∧
      ∀ b', b = some b' → ∃ d', s.defs[b']? = some d' ∧ d'.kind.isImport = true) :
    Inv pend ν { t with edges := (ν c, j) :: t.edges } (s.use c b) := by
  have hdefs : (s.use c b).defs = s.defs := by unfold Uses.use; split <;> rfl
  have hscope : (s.use c b).scope = s.scope := by unfold Uses.use; split <;> rfl
  have himports : (s.use c b).imports = s.imports := by unfold Uses.use; split <;> rfl
  have huses : ∀ x y, (x, y) ∈ (s.use c b).uses ↔ (x = c ∧ b = some y) ∨ (x, y) ∈ s.uses := by
    intro x y
    unfold Uses.use
    split
    · simp [eq_comm]
    · simp
  constructor
  case inj => rw [hdefs]; exact h.inj
  case lt => rw [hdefs]; exact h.lt
  case bimap => exact h.bimap
  case entLt => exact h.entLt
  case edgeLt =>
    intro x y hxy
    rcases List.mem_cons.mp hxy with hxy | hxy
    · cases hxy
      exact ⟨h.lt c hc, hj⟩
    · exact h.edgeLt x y hxy
  case source =>
    intro x y hxy
    rw [hdefs]
    rcases List.mem_cons.mp hxy with hxy | hxy
    · cases hxy
      exact ⟨c, hc, rfl⟩
    · exact h.source x y hxy
  case useLt =>
    intro x y hxy
    rw [hdefs]
    rcases (huses x y).mp hxy with ⟨rfl, hy⟩ | hxy
    · refine ⟨hc, ?_⟩
      rcases hb with ⟨b', h1, h2, _⟩ | ⟨h1, _⟩
      · rw [h1] at hy; cases hy; exact h2
      · rw [h1] at hy; cases hy
    · exact h.useLt x y hxy
  case scopeEnt => rw [hscope, hdefs]; exact h.scopeEnt
  case entScope => rw [hscope, hdefs]; exact h.entScope
  case entShadow => rw [hdefs]; exact h.entShadow
  case infoNodup => exact h.infoNodup
  case info => rw [hdefs]; exact h.info
  case edges =>
    rw [hdefs]
    intro x y hx hy
    rw [huses, List.mem_cons, h.edges x y hx hy, Prod.mk.injEq]
    refine or_congr ⟨?_, ?_⟩ Iff.rfl
    · rintro ⟨h1, h2⟩
      refine ⟨h.inj x c hx hc h1, ?_⟩
      rcases hb with ⟨b', h3, h4, h5⟩ | ⟨_, h3⟩
      · rw [h3, h.inj y b' hy h4 (h2.trans h5)]
      · exact absurd h2 (h3 y hy)
    · rintro ⟨rfl, h2⟩
      refine ⟨rfl, ?_⟩
      rcases hb with ⟨b', h3, h4, h5⟩ | ⟨h3, _⟩
      · rw [h3] at h2; cases h2; exact h5.symm
      · rw [h3] at h2; cases h2
  case pending => rw [hdefs]; exact h.pending
  case alive => rw [hdefs]; exact h.alive
  case stay => rw [hdefs, hscope]; exact h.stay
  case public_ => rw [hdefs]; exact h.public_
  case publicDef => rw [hdefs]; exact h.publicDef
  case leaf =>
    rw [hdefs]
    intro x y d hxy hd hm
    rcases (huses x y).mp hxy with ⟨rfl, hy⟩ | hxy
    · exact ⟨(hk d hd hm).1, (hk d hd hm).2 y hy⟩
    · exact h.leaf x y d hxy hd hm
  case layer => rw [hdefs]; exact h.layer
  case modules => rw [himports]; exact h.modules
  case imports => rw [himports, hdefs]; exact h.imports

/-- `getOrCreate` gives the node of what a name stands for. -/
theorem Inv.getOrCreate {pend : Option Nat} {ν : Nat → Nat} {t : Tracker} {s : Uses} (h : Inv pend ν t s) (e : Entity)
    (hl : e.layer ≠ .shadowed) : Inv pend ν (t.getOrCreate e).2 s ∧ (e, (t.getOrCreate e).1) ∈ (t.getOrCreate e).2.entities ∧
      (t.getOrCreate e).2.current = t.current := by
  unfold Tracker.getOrCreate
  cases hf : t.entities.left e with
  | some i => exact ⟨h, (h.bimap.left_eq e i).mp hf, rfl⟩
  | none =>
    refine ⟨h.fresh e (fun i hi => ?_) hl, ?_, rfl⟩
    · rw [(h.bimap.left_eq e i).mpr hi] at hf; cases hf
    · simp [BiMap.insert]

theorem Inv.addEdge {pend : Option Nat} {ν : Nat → Nat} {t : Tracker} {s : Uses} (h : Inv pend ν t s) (c : Nat)
    (e : Entity) (hl : e.layer ≠ .shadowed) (hcur : t.current = ν c) (hc : ∃ d, s.defs[c]? = some d ∧ d.kind.isModule = false) :
    Inv pend ν (t.addEdge e) (s.use c (s.scope e)) ∧ (t.addEdge e).current = t.current := by
  obtain ⟨d, hd, hk⟩ := hc
  obtain ⟨h1, h2, h3⟩ := h.getOrCreate e hl
  refine ⟨?_, h3⟩
  have := h1.edge c (s.scope e) (t.getOrCreate e).1 (lt_of_get hd) (h1.entLt _ _ h2) ?_ ?_
  · unfold Tracker.addEdge
    rw [hcur]
    exact this
  · rcases h1.entScope _ _ h2 hl with ⟨a, h4, h5⟩ | ⟨h4, h5⟩
    · obtain ⟨_, _, d', h6, _⟩ := h1.scopeEnt _ _ h4
      exact .inl ⟨a, h4, lt_of_get h6, h5⟩
    · exact .inr ⟨h4, h5⟩
  · intro d' hd' hm
    rw [hd] at hd'
    cases hd'
    rw [hk] at hm; cases hm

theorem Inv.addModuleEdge {pend : Option Nat} {ν : Nat → Nat} {t : Tracker} {s : Uses} (h : Inv pend ν t s) (c : Nat)
    (m : String) (hcur : t.current = ν c) (hc : ∃ d, s.defs[c]? = some d ∧ d.kind.isImport = false) :
    Inv pend ν (t.addModuleEdge m) (s.use c (s.imports m)) ∧ (t.addModuleEdge m).current = t.current := by
  obtain ⟨d, hd, hk⟩ := hc
  unfold Tracker.addModuleEdge
  rw [h.modules m]
  cases hi : s.imports m with
  | none => exact ⟨h, rfl⟩
  | some b =>
    obtain ⟨d', h1, h2⟩ := h.imports m b hi
    refine ⟨?_, rfl⟩
    simp only [Option.map_some]
    have := h.edge c (some b) (ν b) (lt_of_get hd) (h.lt b (lt_of_get h1)) (.inl ⟨b, rfl, lt_of_get h1, rfl⟩) ?_
    · rw [← hcur] at this
      exact this
    intro d'' hd'' hm
    rw [hd] at hd''
    cases hd''
    refine ⟨hk, ?_⟩
    rintro b' ⟨⟩
    exact ⟨d', h1, h2⟩

end Verif.Unused
