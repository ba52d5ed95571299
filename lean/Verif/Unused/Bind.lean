import Verif.Unused.Inv

/-
A definition gets its name, and what had the name before is kept as shadowed.
-/
namespace Verif.Unused

theorem BiMap.mem_insert (m : BiMap) (e x : Entity) (i k : Nat) :
    (x, k) ∈ m.insert e i ↔ (x = e ∧ k = i) ∨ ((x, k) ∈ m ∧ x ≠ e ∧ k ≠ i) := by
  simp [BiMap.insert]

theorem BiMap.Ok.insert {m : BiMap} (h : m.Ok) (e : Entity) (i : Nat) : (m.insert e i).Ok := by
  unfold BiMap.insert
  refine ⟨?_, ?_⟩
  · rw [List.map_cons, List.nodup_cons]
    refine ⟨?_, h.left.sublist (List.filter_sublist.map _)⟩
    intro hc
    obtain ⟨⟨x, k⟩, h1, h2⟩ := List.mem_map.mp hc
    have := (List.mem_filter.mp h1).2
    simp at this h2
    exact this.1 h2
  · rw [List.map_cons, List.nodup_cons]
    refine ⟨?_, h.right.sublist (List.filter_sublist.map _)⟩
    intro hc
    obtain ⟨⟨x, k⟩, h1, h2⟩ := List.mem_map.mp hc
    have := (List.mem_filter.mp h1).2
    simp at this h2
    exact this.2 h2

theorem mem_setInfo (m : List (Entity × Info)) (e x : Entity) (v i : Info) :
    (x, i) ∈ setInfo m e v ↔ (x = e ∧ i = v) ∨ ((x, i) ∈ m ∧ x ≠ e) := by
  simp [setInfo]

theorem setInfo_nodup {m : List (Entity × Info)} (h : (keys m).Nodup) (e : Entity) (v : Info) : (keys (setInfo m e v)).Nodup := by
  unfold keys setInfo at *
  rw [List.map_cons, List.nodup_cons]
  refine ⟨?_, h.sublist (List.filter_sublist.map _)⟩
  intro hc
  obtain ⟨⟨x, k⟩, h1, h2⟩ := List.mem_map.mp hc
  have := (List.mem_filter.mp h1).2
  simp at this h2
  exact this h2

theorem lookup_eq {m : List (Entity × Info)} (h : (keys m).Nodup) (e : Entity) (v : Info) : m.lookup e = some v ↔ (e, v) ∈ m := by
  induction m with
  | nil => simp
  | cons p m ih =>
    obtain ⟨x, i⟩ := p
    have hn : x ∉ keys m := (List.nodup_cons.mp h).1
    specialize ih (List.nodup_cons.mp h).2
    by_cases hx : e = x
    · subst hx
      have hb : (e == e) = true := by simp
      simp only [List.lookup, hb, Option.some.injEq, List.mem_cons, Prod.mk.injEq, true_and]
      constructor
      · exact fun h => .inl h.symm
      · rintro (h | h)
        · exact h.symm
        · exact absurd (List.mem_map.mpr ⟨_, h, rfl⟩) hn
    · have hb : (e == x) = false := by simpa using hx
      simp only [List.lookup, hb, List.mem_cons, Prod.mk.injEq, hx, false_and, false_or]
      exact ih

/-- What `createMaybeShadow` does to the entities and their information. -/
theorem Inv.shadow {ν : Nat → Nat} {t : Tracker} {s : Uses} {a : Nat} (h : Inv (some a) ν t s) (e : Entity)
    (hl : e.layer ≠ .shadowed) (v : Info) :
    (t.createMaybeShadow e (ν a)).entities.Ok ∧
    (keys (setInfo (t.createMaybeShadow e (ν a)).information e v)).Nodup ∧
    (∀ x k, (x, k) ∈ (t.createMaybeShadow e (ν a)).entities ↔ (x = e ∧ k = ν a) ∨
      (∃ b, s.scope e = some b ∧ x = ⟨e.name, .shadowed⟩ ∧ k = ν b) ∨
      ((x, k) ∈ t.entities ∧ x ≠ e ∧ (s.scope e ≠ none → x ≠ ⟨e.name, .shadowed⟩))) ∧
    (∀ x i, (x, i) ∈ setInfo (t.createMaybeShadow e (ν a)).information e v ↔ (x = e ∧ i = v) ∨
      (∃ b d, s.scope e = some b ∧ s.defs[b]? = some d ∧ x = ⟨e.name, .shadowed⟩ ∧ i = d.info) ∨
      ((x, i) ∈ t.information ∧ x ≠ e ∧ (s.scope e ≠ none → x ≠ ⟨e.name, .shadowed⟩))) ∧
    (t.createMaybeShadow e (ν a)).nodes = t.nodes ∧ (t.createMaybeShadow e (ν a)).edges = t.edges ∧
    (t.createMaybeShadow e (ν a)).public_ = t.public_ ∧ (t.createMaybeShadow e (ν a)).moduleNode = t.moduleNode ∧
    (t.createMaybeShadow e (ν a)).current = t.current := by
  obtain ⟨ha, hno⟩ := h.pending a rfl
  have hsh : (⟨e.name, .shadowed⟩ : Entity) ≠ e := fun hc => hl (by rw [← hc])
  have hright : (t.entities.find? fun p => p.2 = ν a) = none := by
    rw [List.find?_eq_none]
    rintro ⟨x, k⟩ hx
    simp only [decide_eq_true_eq]
    intro hc
    subst hc
    exact hno x hx
  have hplain : ∀ x k, (x, k) ∈ t.entities.insert e (ν a) ↔ (x = e ∧ k = ν a) ∨ ((x, k) ∈ t.entities ∧ x ≠ e) := by
    intro x k
    rw [BiMap.mem_insert]
    refine or_congr Iff.rfl ⟨fun h => ⟨h.1, h.2.1⟩, fun h' => ⟨h'.1, h'.2, fun hc => ?_⟩⟩
    subst hc
    exact hno x h'.1
  -- when there was nothing of that name in the module
  have hnone : s.scope e = none → t.createMaybeShadow e (ν a) = { t with entities := t.entities.insert e (ν a) } := by
    intro hs
    unfold Tracker.createMaybeShadow
    have hlk : t.information.lookup e = none := by
      cases hc : t.information.lookup e with
      | none => rfl
      | some i =>
        obtain ⟨b, d, h1, h2, _⟩ := (h.info e i).mp ((lookup_eq h.infoNodup e i).mp hc)
        rcases h.entScope _ _ h2 hl with ⟨c, h3, _⟩ | ⟨_, h3⟩
        · rw [hs] at h3; cases h3
        · exact absurd rfl (h3 b (lt_of_get h1))
    unfold BiMap.overwritten
    cases hf : t.entities.find? fun p => p.1 = e with
    | none => simp [hright]
    | some p =>
      obtain ⟨x, j⟩ := p
      have hx : x = e := by simpa using List.find?_some hf
      subst hx
      simp [hlk]
  cases hs : s.scope e with
  | none =>
    rw [hnone hs]
    refine ⟨h.bimap.insert e (ν a), setInfo_nodup h.infoNodup e v, ?_, ?_, rfl, rfl, rfl, rfl, rfl⟩
    · intro x k
      simp only [hplain]
      simp
    · intro x i
      rw [mem_setInfo]
      simp
  | some b =>
    obtain ⟨_, hb, d, hd, _⟩ := h.scopeEnt e b hs
    have hinf : t.information.lookup e = some d.info :=
      (lookup_eq h.infoNodup e _).mpr ((h.info e _).mpr ⟨b, d, hd, hb, rfl⟩)
    have hfind : (t.entities.find? fun p => p.1 = e) = some (e, ν b) := by
      have := (h.bimap.left_eq e (ν b)).mpr hb
      unfold BiMap.left at this
      cases hf : t.entities.find? fun p => p.1 = e with
      | none => rw [hf] at this; cases this
      | some p =>
        rw [hf] at this
        obtain ⟨x, j⟩ := p
        have hx : x = e := by simpa using List.find?_some hf
        subst hx
        simp at this
        rw [this]
    have heq : t.createMaybeShadow e (ν a) = { t with
        entities := (t.entities.insert e (ν a)).insert ⟨e.name, .shadowed⟩ (ν b)
        information := setInfo t.information ⟨e.name, .shadowed⟩ d.info } := by
      unfold Tracker.createMaybeShadow BiMap.overwritten
      simp only [hfind, hinf]
    have hab : ν a ≠ ν b := fun hc => hno e (hc ▸ hb)
    rw [heq]
    refine ⟨(h.bimap.insert e (ν a)).insert _ _, setInfo_nodup (setInfo_nodup h.infoNodup _ _) e v, ?_, ?_, rfl, rfl, rfl, rfl,
      rfl⟩
    · intro x k
      simp only [BiMap.mem_insert _ (⟨e.name, .shadowed⟩ : Entity), hplain]
      constructor
      · rintro (⟨h1, h2⟩ | ⟨⟨h1, h2⟩ | ⟨h1, h2⟩, h3, h4⟩)
        · exact .inr (.inl ⟨b, rfl, h1, h2⟩)
        · exact .inl ⟨h1, h2⟩
        · exact .inr (.inr ⟨h1, h2, fun _ => h3⟩)
      · rintro (⟨h1, h2⟩ | ⟨b', h1, h2, h3⟩ | ⟨h1, h2, h3⟩)
        · exact .inr ⟨.inl ⟨h1, h2⟩, by rw [h1]; exact hsh.symm, by rw [h2]; exact hab⟩
        · cases h1; exact .inl ⟨h2, h3⟩
        · refine .inr ⟨.inr ⟨h1, h2⟩, h3 (by simp), fun hc => h2 ?_⟩
          subst hc
          have := (h.bimap.right_eq x (ν b)).mpr h1
          rw [(h.bimap.right_eq e (ν b)).mpr hb] at this
          exact (Option.some.inj this).symm
    · intro x i
      rw [mem_setInfo, mem_setInfo]
      constructor
      · rintro (h1 | ⟨⟨h1, h2⟩ | ⟨h1, h2⟩, h3⟩)
        · exact .inl h1
        · exact .inr (.inl ⟨b, d, rfl, hd, h1, h2⟩)
        · exact .inr (.inr ⟨h1, h3, fun _ => h2⟩)
      · rintro (h1 | ⟨b', d', h1, h2, h3, h4⟩ | ⟨h1, h2, h3⟩)
        · exact .inl h1
        · cases h1
          rw [hd] at h2
          cases h2
          exact .inr ⟨.inl ⟨h3, h4⟩, by rw [h3]; exact hsh⟩
        · exact .inr ⟨.inr ⟨h1, h3 (by simp)⟩, h2⟩

/-- A definition gets its name. -/
theorem Inv.bind {ν : Nat → Nat} {t : Tracker} {s : Uses} {a : Nat} (h : Inv (some a) ν t s) (d : Def) (hd : s.defs[a]? = some d)
    (hfree : ∀ b, s.scope d.entity = some b → ∃ d', s.defs[b]? = some d' ∧ d'.kind.isDefinition = false ∧
      (d'.kind.isImport = true ∨ (d.kind.isDefinition = true ∧ d.layer = .value)))
    (hval : s.scope d.entity ≠ none → ∀ b d', s.defs[b]? = some d' → b ≠ a → d'.kind.isDefinition = true → d'.layer = .value →
      d'.name ≠ d.name) :
    Inv none ν ((t.createMaybeShadow d.entity (ν a)).describe d.entity d.isPublic d.info) (s.bind d.entity a) := by
  have hlay := h.layer a d hd
  have hl : d.entity.layer ≠ .shadowed := hlay.1
  obtain ⟨hok, hnodup, hent, hinfo, hnodes, hedges, hpublic, hmods, hcur⟩ := h.shadow d.entity hl d.info
  obtain ⟨ha, hno⟩ := h.pending a rfl
  have hsh : (⟨d.entity.name, .shadowed⟩ : Entity) ≠ d.entity := fun hc => hl (by rw [← hc])
  have hscope : ∀ x b, (s.bind d.entity a).scope x = some b ↔ (x = d.entity ∧ b = a) ∨ (x ≠ d.entity ∧ s.scope x = some b) := by
    intro x b
    unfold Uses.bind
    by_cases hx : x = d.entity
    · simp [hx, eq_comm]
    · simp [hx]
  -- what is not `a` and had an entity still has one, unless it is an import
  have hkeep : ∀ b d' x, s.defs[b]? = some d' → (x, ν b) ∈ t.entities → d'.kind.isImport = true ∨
      ∃ y, (y, ν b) ∈ (t.createMaybeShadow d.entity (ν a)).entities := by
    intro b d' x hd' hx
    by_cases hxe : x = d.entity
    · rcases h.entScope x _ hx (hxe ▸ hl) with ⟨b', h1, h2⟩ | ⟨_, h1⟩
      · obtain ⟨_, _, d'', h3, _⟩ := h.scopeEnt _ _ h1
        have := h.inj b b' (lt_of_get hd') (lt_of_get h3) h2
        subst this
        exact .inr ⟨⟨d.entity.name, .shadowed⟩, (hent ..).mpr (.inr (.inl ⟨b, hxe ▸ h1, rfl, rfl⟩))⟩
      · exact absurd rfl (h1 b (lt_of_get hd'))
    · by_cases hs : s.scope d.entity ≠ none ∧ x = ⟨d.entity.name, .shadowed⟩
      · obtain ⟨hs, rfl⟩ := hs
        obtain ⟨b', d'', h1, h2, h3, h4, h5⟩ := h.entShadow _ _ hx
        have := h.inj b b' (lt_of_get hd') (lt_of_get h1) h2
        subst this
        rw [hd'] at h1
        cases h1
        rcases h5 with h5 | ⟨_, c, dc, h6, h7, h8, h9, h10⟩
        · exact .inl h5
        · exact absurd h10 (hval hs c dc h6 (fun hc => h7 (by rw [hc])) h8 h9)
      · exact .inr ⟨x, (hent ..).mpr (.inr (.inr ⟨hx, hxe, fun h1 h2 => hs ⟨h1, h2⟩⟩))⟩
  constructor
  case inj => exact h.inj
  case lt => exact fun b hb => hnodes ▸ h.lt b hb
  case bimap => exact hok
  case entLt =>
    intro x k hx
    change k < (t.createMaybeShadow d.entity (ν a)).nodes
    rw [hnodes]
    rcases (hent x k).mp hx with ⟨_, rfl⟩ | ⟨b, h1, _, rfl⟩ | ⟨h1, _⟩
    · exact h.lt a ha
    · obtain ⟨_, _, d', h3, _⟩ := h.scopeEnt _ _ h1
      exact h.lt b (lt_of_get h3)
    · exact h.entLt x k h1
  case edgeLt =>
    intro i j hij
    change (i, j) ∈ (t.createMaybeShadow d.entity (ν a)).edges at hij
    change i < (t.createMaybeShadow d.entity (ν a)).nodes ∧ j < (t.createMaybeShadow d.entity (ν a)).nodes
    rw [hnodes]
    rw [hedges] at hij
    exact h.edgeLt i j hij
  case source =>
    intro i j hij
    change (i, j) ∈ (t.createMaybeShadow d.entity (ν a)).edges at hij
    rw [hedges] at hij
    exact h.source i j hij
  case useLt => exact h.useLt
  case scopeEnt =>
    intro x b hx
    rcases (hscope x b).mp hx with ⟨rfl, rfl⟩ | ⟨h1, h2⟩
    · exact ⟨hl, (hent ..).mpr (.inl ⟨rfl, rfl⟩), d, hd, rfl⟩
    · obtain ⟨h3, h4, h5⟩ := h.scopeEnt x b h2
      refine ⟨h3, (hent ..).mpr (.inr (.inr ⟨h4, h1, fun _ hc => h3 (by rw [hc])⟩)), h5⟩
  case entScope =>
    intro x k hx hxl
    rcases (hent x k).mp hx with ⟨rfl, rfl⟩ | ⟨b, _, rfl, _⟩ | ⟨h1, h2, _⟩
    · exact .inl ⟨a, (hscope ..).mpr (.inl ⟨rfl, rfl⟩), rfl⟩
    · exact absurd rfl hxl
    · rcases h.entScope x k h1 hxl with ⟨b, h3, h4⟩ | ⟨h3, h4⟩
      · exact .inl ⟨b, (hscope ..).mpr (.inr ⟨h2, h3⟩), h4⟩
      · refine .inr ⟨?_, h4⟩
        unfold Uses.bind
        simp [h2, h3]
  case entShadow =>
    intro x k hx
    rcases (hent _ k).mp hx with ⟨h1, _⟩ | ⟨b, h1, h2, rfl⟩ | ⟨h1, _, _⟩
    · exact absurd (by rw [← h1]) hl
    · obtain ⟨d', h3, h4, h5⟩ := hfree b h1
      obtain ⟨_, _, d'', h6, h7⟩ := h.scopeEnt _ _ h1
      rw [h3] at h6
      cases h6
      have hx : x = d.name := by
        have := congrArg Entity.name h2
        exact this
      refine ⟨b, d', h3, rfl, h4, ?_, ?_⟩
      · rw [hx]
        have := congrArg Entity.name h7
        exact this
      · rcases h5 with h5 | ⟨h5, h8⟩
        · exact .inl h5
        · refine .inr ⟨?_, a, d, hd, by simp, h5, h8, hx.symm⟩
          have h9 : d'.layer = .value := (congrArg Entity.layer h7).trans h8
          cases hm : d'.kind.isModule with
          | false => rfl
          | true => rw [(h.layer b d' h3).2.mpr hm] at h9; cases h9
    · obtain ⟨b, d', h3, h4, h5, h6, h7⟩ := h.entShadow x k h1
      refine ⟨b, d', h3, h4, h5, h6, ?_⟩
      rcases h7 with h7 | ⟨h7, c, dc, h8, _, h9⟩
      · exact .inl h7
      · exact .inr ⟨h7, c, dc, h8, by simp, h9⟩
  case infoNodup => exact hnodup
  case info =>
    intro x i
    refine (hinfo x i).trans ⟨?_, ?_⟩
    · rintro (⟨rfl, rfl⟩ | ⟨b, d', h1, h2, rfl, rfl⟩ | ⟨h1, h2, h3⟩)
      · exact ⟨a, d, hd, (hent ..).mpr (.inl ⟨rfl, rfl⟩), rfl⟩
      · exact ⟨b, d', h2, (hent ..).mpr (.inr (.inl ⟨b, h1, rfl, rfl⟩)), rfl⟩
      · obtain ⟨b, d', h4, h5, h6⟩ := (h.info x i).mp h1
        exact ⟨b, d', h4, (hent ..).mpr (.inr (.inr ⟨h5, h2, h3⟩)), h6⟩
    · rintro ⟨b, d', h1, h2, h3⟩
      rcases (hent x (ν b)).mp h2 with ⟨rfl, h4⟩ | ⟨b', h4, rfl, h5⟩ | ⟨h4, h5, h6⟩
      · have := h.inj b a (lt_of_get h1) ha h4
        subst this
        change s.defs[b]? = some d' at h1
        rw [hd] at h1
        cases h1
        exact .inl ⟨rfl, h3⟩
      · obtain ⟨_, _, d'', h6, h7⟩ := h.scopeEnt _ _ h4
        have := h.inj b b' (lt_of_get h1) (lt_of_get h6) h5
        subst this
        exact .inr (.inl ⟨b, d', h4, h1, rfl, h3⟩)
      · exact .inr (.inr ⟨(h.info x i).mpr ⟨b, d', h1, h4, h3⟩, h5, h6⟩)
  case edges =>
    intro b c hb hc
    change (ν b, ν c) ∈ (t.createMaybeShadow d.entity (ν a)).edges ↔ _
    rw [hedges]
    exact h.edges b c hb hc
  case pending => rintro b ⟨⟩
  case alive =>
    intro b d' hd' _
    by_cases hb : b = a
    · subst hb
      exact .inr ⟨d.entity, (hent ..).mpr (.inl ⟨rfl, rfl⟩)⟩
    · rcases h.alive b d' hd' (fun hc => hb (Option.some.inj hc).symm) with h1 | ⟨x, hx⟩
      · exact .inl h1
      · exact hkeep b d' x hd' hx
  case stay =>
    intro b d' hd' _ hk
    by_cases hb : b = a
    · subst hb
      change s.defs[b]? = some d' at hd'
      rw [hd] at hd'
      cases hd'
      exact (hscope ..).mpr (.inl ⟨rfl, rfl⟩)
    · have hs := h.stay b d' hd' (fun hc => hb (Option.some.inj hc).symm) hk
      refine (hscope ..).mpr (.inr ⟨fun hc => ?_, hs⟩)
      rw [hc] at hs
      obtain ⟨d'', h1, h2, _⟩ := hfree b hs
      change s.defs[b]? = some d' at hd'
      rw [hd'] at h1
      cases h1
      rw [hk] at h2; cases h2
  case public_ =>
    intro x
    change x ∈ (if d.isPublic = true then d.entity :: (t.createMaybeShadow d.entity (ν a)).public_
      else (t.createMaybeShadow d.entity (ν a)).public_) ↔ _
    rw [hpublic]
    have hold := h.public_ x
    have key : (∃ b : Nat, ∃ d' : Def, s.defs[b]? = some d' ∧ (none : Option Nat) ≠ some b ∧ d'.isPublic = true ∧ x = d'.entity) ↔
        (d.isPublic = true ∧ x = d.entity) ∨ x ∈ t.public_ := by
      rw [hold]
      constructor
      · rintro ⟨b, d', h1, _, h2, h3⟩
        by_cases hb : b = a
        · subst hb
          rw [hd] at h1
          cases h1
          exact .inl ⟨h2, h3⟩
        · exact .inr ⟨b, d', h1, fun hc => hb (Option.some.inj hc).symm, h2, h3⟩
      · rintro (⟨h1, h2⟩ | ⟨b, d', h1, _, h2⟩)
        · exact ⟨a, d, hd, by simp, h1, h2⟩
        · exact ⟨b, d', h1, by simp, h2⟩
    refine Iff.trans ?_ key.symm
    by_cases hp : d.isPublic = true
    · rw [if_pos hp]; simp [hp]
    · rw [if_neg hp]; simp [hp]
  case publicDef => exact h.publicDef
  case leaf => exact h.leaf
  case layer => exact h.layer
  case modules =>
    intro m
    change (t.createMaybeShadow d.entity (ν a)).moduleNode m = _
    rw [hmods]
    exact h.modules m
  case imports => exact h.imports

end Verif.Unused
