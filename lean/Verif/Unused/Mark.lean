import Verif.Unused.Spec

/-
What marking an entity as used does to the entities that are not known to be used.
-/
namespace Verif.Unused

/-- The entities with information. -/
def keys (u : List (Entity × Info)) : List Entity := u.map (·.1)

theorem lookup_isSome (u : List (Entity × Info)) (e : Entity) : (u.lookup e).isSome ↔ e ∈ keys u := by
  induction u with
  | nil => simp [keys]
  | cons p u ih =>
    obtain ⟨x, i⟩ := p
    by_cases h : e = x
    · subst h; simp [keys, List.lookup]
    · have hb : (e == x) = false := by simpa using h
      simp [keys, List.lookup, hb, h] at ih ⊢

theorem keys_remove (u : List (Entity × Info)) (e x : Entity) : x ∈ keys (remove u e) ↔ x ∈ keys u ∧ x ≠ e := by
  simp [keys, remove]

theorem remove_sublist (u : List (Entity × Info)) (e : Entity) : (remove u e).Sublist u := List.filter_sublist

theorem remove_length (u : List (Entity × Info)) (e : Entity) (h : e ∈ keys u) : (remove u e).length < u.length := by
  have hs := remove_sublist u e
  rcases Nat.lt_or_ge (remove u e).length u.length with hl | hl
  · exact hl
  · have := hs.eq_of_length_le hl
    have h' : e ∈ keys (remove u e) := by rw [this]; exact h
    have hk := (keys_remove u e e).mp h'
    exact absurd rfl hk.2

theorem keys_sublist {u v : List (Entity × Info)} (h : u.Sublist v) {e : Entity} (he : e ∈ keys u) : e ∈ keys v :=
  (h.map _).subset he

/-- One entity uses another in the graph. -/
def Tracker.Edge (t : Tracker) (x y : Entity) : Prop := ∃ i j, (x, i) ∈ t.entities ∧ (i, j) ∈ t.edges ∧ (y, j) ∈ t.entities

/-- Entities and nodes are matched one to one. -/
structure BiMap.Ok (m : BiMap) : Prop where
  left : (m.map (·.1)).Nodup
  right : (m.map (·.2)).Nodup

theorem BiMap.Ok.left_eq {m : BiMap} (h : m.Ok) (e : Entity) (i : Nat) : m.left e = some i ↔ (e, i) ∈ m := by
  have hl := h.left
  clear h
  induction m with
  | nil => simp [BiMap.left]
  | cons p m ih =>
    obtain ⟨x, k⟩ := p
    have hn : x ∉ m.map (·.1) := (List.nodup_cons.mp hl).1
    specialize ih (List.nodup_cons.mp hl).2
    unfold BiMap.left at ih ⊢
    by_cases hx : x = e
    · subst hx
      simp only [List.find?, decide_true, Option.map_some, Option.some.injEq, List.mem_cons, Prod.mk.injEq, true_and]
      constructor
      · exact fun h => .inl h.symm
      · rintro (h | h)
        · exact h.symm
        · exact absurd (List.mem_map.mpr ⟨_, h, rfl⟩) hn
    · simp only [List.find?, hx, decide_false, List.mem_cons, Prod.mk.injEq, Ne.symm hx, false_and, false_or]
      exact ih

theorem BiMap.Ok.right_eq {m : BiMap} (h : m.Ok) (e : Entity) (i : Nat) : m.right i = some e ↔ (e, i) ∈ m := by
  have hl := h.right
  clear h
  induction m with
  | nil => simp [BiMap.right]
  | cons p m ih =>
    obtain ⟨x, k⟩ := p
    have hn : k ∉ m.map (·.2) := (List.nodup_cons.mp hl).1
    specialize ih (List.nodup_cons.mp hl).2
    unfold BiMap.right at ih ⊢
    by_cases hx : k = i
    · subst hx
      simp only [List.find?, decide_true, Option.map_some, Option.some.injEq, List.mem_cons, Prod.mk.injEq, and_true]
      constructor
      · exact fun h => .inl h.symm
      · rintro (h | h)
        · exact h.symm
        · exact absurd (List.mem_map.mpr ⟨_, h, rfl⟩) hn
    · simp only [List.find?, hx, decide_false, List.mem_cons, Prod.mk.injEq, Ne.symm hx, and_false, false_or]
      exact ih

theorem mem_neighbours (t : Tracker) (i j : Nat) : j ∈ t.neighbours i ↔ (i, j) ∈ t.edges := by
  unfold Tracker.neighbours
  simp only [List.mem_map, List.mem_filter, decide_eq_true_eq, Prod.exists]
  constructor
  · rintro ⟨a, b, ⟨h, rfl⟩, rfl⟩; exact h
  · intro h; exact ⟨i, j, ⟨h, rfl⟩, rfl⟩

/-- The effect of marking: nothing is added, what goes has a property that is passed on by edges, and what goes has only
neighbours that are gone too. -/
structure Marked (t : Tracker) (P : Entity → Prop) (u v : List (Entity × Info)) : Prop where
  sublist : v.Sublist u
  inside : ∀ x ∈ keys u, x ∉ keys v → P x
  closed : ∀ x ∈ keys u, x ∉ keys v → ∀ y, t.Edge x y → y ∉ keys v

theorem Marked.refl (t : Tracker) (P : Entity → Prop) (u : List (Entity × Info)) : Marked t P u u :=
  ⟨.refl _, fun _ h h' => absurd h h', fun _ h h' => absurd h h'⟩

theorem Marked.trans {t : Tracker} {P : Entity → Prop} {u v w : List (Entity × Info)} (h : Marked t P u v)
    (h' : Marked t P v w) : Marked t P u w where
  sublist := h'.sublist.trans h.sublist
  inside x hx hn := by
    by_cases hv : x ∈ keys v
    · exact h'.inside x hv hn
    · exact h.inside x hx hv
  closed x hx hn y hy := by
    by_cases hv : x ∈ keys v
    · exact h'.closed x hv hn y hy
    · exact fun hc => h.closed x hx hv y hy (keys_sublist h'.sublist hc)

/-- `mark` marks, and the entity itself is gone. -/
theorem mark_spec (t : Tracker) (ht : t.entities.Ok) (P : Entity → Prop) (K : List Entity)
    (hP : ∀ x y, P x → t.Edge x y → y ∈ K → P y) (fuel : Nat) (u : List (Entity × Info)) (hu : u.length < fuel)
    (hK : ∀ x ∈ keys u, x ∈ K) (e : Entity) (i : Nat) (he : (e, i) ∈ t.entities) (hPe : e ∈ K → P e) :
    Marked t P u (t.mark fuel u e i) ∧ e ∉ keys (t.mark fuel u e i) := by
  induction fuel generalizing u e i with
  | zero => omega
  | succ fuel ih =>
    unfold Tracker.mark
    by_cases hk : (u.lookup e).isSome
    · rw [if_pos hk]
      have hek := (lookup_isSome u e).mp hk
      have hp := hPe (hK e hek)
      have hlen := remove_length u e hek
      have hrk : ∀ x ∈ keys (remove u e), x ∈ K := fun x hx => hK x ((keys_remove ..).mp hx).1
      generalize hw : remove u e = w at hlen hrk
      have hwu : w.Sublist u := hw ▸ remove_sublist u e
      have hwe : ∀ x, x ∈ keys w ↔ x ∈ keys u ∧ x ≠ e := fun x => hw ▸ keys_remove u e x
      clear hw
      -- what one neighbour does, on lists below `w`
      let f : List (Entity × Info) → Nat → List (Entity × Info) := fun u j =>
        match t.entities.right j with
        | some e => t.mark fuel u e j
        | none => u
      have hstep : ∀ v, v.Sublist w → ∀ j ∈ t.neighbours i, Marked t P v (f v j) ∧
          ∀ y, (y, j) ∈ t.entities → y ∉ keys (f v j) := by
        intro v hv j hj
        simp only [f]
        cases hr : t.entities.right j with
        | none =>
          refine ⟨.refl .., fun y hy => ?_⟩
          rw [(ht.right_eq y j).mpr hy] at hr
          cases hr
        | some y =>
          have hy := (ht.right_eq y j).mp hr
          have hlt : v.length < fuel := by have := hv.length_le; omega
          have hih := ih v hlt (fun x hx => hrk x (keys_sublist hv hx)) y j hy
            (fun hyK => hP e y hp ⟨i, j, he, (mem_neighbours ..).mp hj, hy⟩ hyK)
          refine ⟨hih.1, fun z hz => ?_⟩
          have : z = y := by
            have := (ht.right_eq z j).mpr hz
            rw [hr] at this
            exact (Option.some.inj this).symm
          subst this
          exact hih.2
      have hfold : ∀ l : List Nat, (∀ j ∈ l, j ∈ t.neighbours i) → ∀ v, v.Sublist w → Marked t P v (l.foldl f v) ∧
          ∀ j ∈ l, ∀ y, (y, j) ∈ t.entities → y ∉ keys (l.foldl f v) := by
        intro l hl
        induction l with
        | nil => intro v _; exact ⟨.refl .., by simp⟩
        | cons j l ihl =>
          intro v hv
          have h1 := hstep v hv j (hl j (List.mem_cons_self ..))
          have h2 := ihl (fun k hk => hl k (List.mem_cons_of_mem _ hk)) (f v j) (h1.1.sublist.trans hv)
          refine ⟨h1.1.trans h2.1, fun k hk y hy => ?_⟩
          rcases List.mem_cons.mp hk with rfl | hk
          · exact fun hc => h1.2 y hy (keys_sublist h2.1.sublist hc)
          · exact h2.2 k hk y hy
      have hres := hfold (t.neighbours i) (fun _ h => h) w (.refl _)
      change Marked t P u ((t.neighbours i).foldl f w) ∧ e ∉ keys ((t.neighbours i).foldl f w)
      have hgone : e ∉ keys ((t.neighbours i).foldl f w) := fun hc =>
        ((hwe e).mp (keys_sublist hres.1.sublist hc)).2 rfl
      refine ⟨⟨hres.1.sublist.trans hwu, ?_, ?_⟩, hgone⟩
      · intro x hx hn
        by_cases hxe : x = e
        · exact hxe ▸ hp
        · exact hres.1.inside x ((hwe x).mpr ⟨hx, hxe⟩) hn
      · intro x hx hn y hy
        by_cases hxe : x = e
        · subst hxe
          obtain ⟨i', j, h1, h2, h3⟩ := hy
          have : i' = i := by
            have h := (ht.left_eq x i').mpr h1
            rw [(ht.left_eq x i).mpr he] at h
            exact (Option.some.inj h).symm
          subst this
          exact hres.2 j ((mem_neighbours ..).mpr h2) y h3
        · exact hres.1.closed x ((hwe x).mpr ⟨hx, hxe⟩) hn y hy
    · rw [if_neg hk]
      exact ⟨.refl .., fun h => hk ((lookup_isSome u e).mpr h)⟩

theorem markUsed_spec (t : Tracker) (ht : t.entities.Ok) (P : Entity → Prop) (K : List Entity)
    (hP : ∀ x y, P x → t.Edge x y → y ∈ K → P y) (u : List (Entity × Info)) (hK : ∀ x ∈ keys u, x ∈ K)
    (e : Entity) (i : Nat) (he : (e, i) ∈ t.entities) (hPe : e ∈ K → P e) :
    Marked t P u (t.markUsed u e i) ∧ e ∉ keys (t.markUsed u e i) :=
  mark_spec t ht P K hP _ u (Nat.lt_succ_self _) hK e i he hPe

/-- A fold of steps that mark, on lists with keys in `K`. -/
theorem fold_marked {t : Tracker} {P : Entity → Prop} {α : Type} (K : List Entity)
    (f : List (Entity × Info) → α → List (Entity × Info)) (l : List α)
    (hf : ∀ u, (∀ x ∈ keys u, x ∈ K) → ∀ a ∈ l, Marked t P u (f u a)) (u : List (Entity × Info)) (hu : ∀ x ∈ keys u, x ∈ K) :
    Marked t P u (l.foldl f u) ∧
      ∀ a ∈ l, ∀ y, (∀ u, (∀ x ∈ keys u, x ∈ K) → y ∉ keys (f u a)) → y ∉ keys (l.foldl f u) := by
  induction l generalizing u with
  | nil => exact ⟨.refl .., by simp⟩
  | cons a l ih =>
    have h := hf u hu a (List.mem_cons_self ..)
    have h2 := ih (fun u hu b hb => hf u hu b (List.mem_cons_of_mem _ hb)) (f u a)
      (fun x hx => hu x (keys_sublist h.sublist hx))
    refine ⟨h.trans h2.1, fun b hb y hy => ?_⟩
    rcases List.mem_cons.mp hb with rfl | hb
    · exact fun hc => hy u hu (keys_sublist h2.1.sublist hc)
    · exact h2.2 b hb y hy

/-- What `unused` gives: the entities that are left are those with information that are not marked. Everything marked has a
property that all public entities have, that all modules have that something else uses, and that is passed on by edges. -/
theorem unused_spec (t : Tracker) (ht : t.entities.Ok) (P : Entity → Prop)
    (hP : ∀ x y, P x → t.Edge x y → y ∈ keys t.information → P y)
    (hpub : ∀ e ∈ t.public_, e ∈ keys t.information → P e)
    (hmod : ∀ e m, e.layer ≠ .module_ → t.Edge e m → m.layer = .module_ → m ∈ keys t.information → P m)
    (publics all : List Entity) (hpublics : ∀ e, e ∈ publics ↔ e ∈ t.public_) :
    Marked t P t.information (t.unused publics all) ∧
      (∀ e ∈ t.public_, ∀ i, (e, i) ∈ t.entities → e ∉ keys (t.unused publics all)) ∧
      (∀ e ∈ all, ∀ i, (e, i) ∈ t.entities → e ∉ t.public_ → e.layer ≠ .module_ → ∀ m, t.Edge e m → m.layer = .module_ →
        (m.name, e.name) ∉ t.typeReferences → (m.name, e.name) ∉ t.valueReferences → m ∉ keys (t.unused publics all)) := by
  unfold Tracker.unused
  set f1 : List (Entity × Info) → Entity → List (Entity × Info) := fun u e =>
    match t.entities.left e with
    | none => u
    | some i => t.markUsed u e i with hf1
  set f2 : List (Entity × Info) → Entity → List (Entity × Info) := fun u e =>
    match t.entities.left e with
    | none => u
    | some i => if e ∈ t.public_ then t.markUsed u e i else t.markImports u e i with hf2
  have himp : ∀ u, (∀ x ∈ keys u, x ∈ keys t.information) → ∀ e i, (e, i) ∈ t.entities → Marked t P u (t.markImports u e i) ∧
      (e.layer ≠ .module_ → ∀ m, t.Edge e m → m.layer = .module_ → (m.name, e.name) ∉ t.typeReferences →
        (m.name, e.name) ∉ t.valueReferences → m ∉ keys (t.markImports u e i)) := by
    intro u hu e i he
    unfold Tracker.markImports
    by_cases hl : e.layer = .module_
    · rw [if_pos hl]; exact ⟨.refl .., fun h => absurd hl h⟩
    · rw [if_neg hl]
      have hone : ∀ u, (∀ x ∈ keys u, x ∈ keys t.information) → ∀ j ∈ t.neighbours i, Marked t P u
          (match t.entities.right j with
          | some m =>
            if m.layer = .module_ ∧ (m.name, e.name) ∉ t.typeReferences ∧ (m.name, e.name) ∉ t.valueReferences then t.markUsed u m j
            else u
          | none => u) := by
        intro u hu j hj
        cases hr : t.entities.right j with
        | none => exact .refl ..
        | some m =>
          dsimp only
          split
          · rename_i h
            exact (markUsed_spec t ht P _ hP u hu m j ((ht.right_eq ..).mp hr)
              (hmod e m hl ⟨i, j, he, (mem_neighbours ..).mp hj, (ht.right_eq ..).mp hr⟩ h.1)).1
          · exact .refl ..
      have := fold_marked (t := t) (P := P) (keys t.information) _ (t.neighbours i) (fun u hu j hj => hone u hu j hj) u hu
      refine ⟨this.1, ?_⟩
      rintro - m ⟨i', j, h1, h2, h3⟩ hm hn1 hn2
      have hi : i' = i := by
        have h := (ht.left_eq e i').mpr h1
        rw [(ht.left_eq e i).mpr he] at h
        exact (Option.some.inj h).symm
      subst hi
      refine this.2 j ((mem_neighbours ..).mpr h2) m fun v hv => ?_
      rw [(ht.right_eq m j).mpr h3]
      simp only [hm, hn1, hn2, not_false_eq_true, and_self, if_true]
      exact (markUsed_spec t ht P _ hP v hv m j h3 (hmod e m hl ⟨i', j, h1, h2, h3⟩ hm)).2
  have h1 : ∀ u, (∀ x ∈ keys u, x ∈ keys t.information) → ∀ e ∈ publics, Marked t P u (f1 u e) := by
    intro u hu e he
    simp only [hf1]
    cases hl : t.entities.left e with
    | none => exact .refl ..
    | some i => exact (markUsed_spec t ht P _ hP u hu e i ((ht.left_eq ..).mp hl) (hpub e ((hpublics e).mp he))).1
  have h2 : ∀ u, (∀ x ∈ keys u, x ∈ keys t.information) → ∀ e ∈ all, Marked t P u (f2 u e) := by
    intro u hu e _
    simp only [hf2]
    cases hl : t.entities.left e with
    | none => exact .refl ..
    | some i =>
      dsimp only
      split
      · rename_i hp
        exact (markUsed_spec t ht P _ hP u hu e i ((ht.left_eq ..).mp hl) (hpub e hp)).1
      · exact (himp u hu e i ((ht.left_eq ..).mp hl)).1
  have m1 := fold_marked (keys t.information) f1 publics h1 t.information (fun _ h => h)
  have hk1 : ∀ x ∈ keys (publics.foldl f1 t.information), x ∈ keys t.information := fun x hx => keys_sublist m1.1.sublist hx
  have m2 := fold_marked (keys t.information) f2 all h2 _ hk1
  refine ⟨m1.1.trans m2.1, ?_, ?_⟩
  · intro e he i hi hc
    refine m1.2 e ((hpublics e).mpr he) e (fun v hv => ?_) (keys_sublist m2.1.sublist hc)
    simp only [hf1, (ht.left_eq e i).mpr hi]
    exact (markUsed_spec t ht P _ hP v hv e i hi (hpub e he)).2
  · intro e he i hi hnp hnl m hm hml hn1 hn2
    refine m2.2 e he m fun v hv => ?_
    simp only [hf2, (ht.left_eq e i).mpr hi, hnp, if_false]
    exact (himp v hv e i hi).2 hnl m hm hml hn1 hn2

end Verif.Unused
