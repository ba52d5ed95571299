import Verif.Project.ManifestModel
import Mathlib.Data.List.Nodup

/-
**C42**: the reported dependency changes are the real changes.
-/
namespace Verif.Project

/-- What the loop adds to `added` for a new package. -/
def addedOf {V : Type} (old : List (Package V)) (p : Package V) : Option (String × V) :=
  match old.find? fun o => o.name == p.name with
  | none => some (p.name, p.version)
  | some o => if p.source.kind ≠ o.source.kind then some (p.name, p.version) else none

/-- What the loop adds to `removed` for a new package. -/
def removedOf {V : Type} (old : List (Package V)) (p : Package V) : Option String :=
  match old.find? fun o => o.name == p.name with
  | none => none
  | some o => if p.source.kind ≠ o.source.kind then some o.name else none

/-- What the loop adds to `changed` for a new package. -/
def changedOf {V : Type} [DecidableEq V] (old : List (Package V)) (p : Package V) : Option (String × V × V) :=
  match old.find? fun o => o.name == p.name with
  | none => none
  | some o => if p.source.kind ≠ o.source.kind then none else if o.version = p.version then none else some (p.name, o.version, p.version)

/-- What the loop adds to `changed_git` for a new package. -/
def changedGitOf {V : Type} [DecidableEq V] (old : List (Package V)) (p : Package V) : Option (String × String × String) :=
  match old.find? fun o => o.name == p.name with
  | none => none
  | some o => if p.source.kind ≠ o.source.kind then none else if o.version = p.version then gitChange o p else none

theorem find_filter_ne {V : Type} (old : List (Package V)) (n m : String) (h : m ≠ n) :
    (old.filter fun o => o.name != n).find? (fun o => o.name == m) = old.find? fun o => o.name == m := by
  rw [List.find?_filter]
  congr 1
  funext o
  by_cases hm : o.name = m
  · simp [hm, h]
  · simp [hm]

theorem changesLoop_eq {V : Type} [DecidableEq V] (old new : List (Package V)) (hn : (new.map (·.name)).Nodup) (acc : Changes V) :
    changesLoop old new acc =
      ({ added := acc.added ++ new.filterMap (addedOf old),
         changed := acc.changed ++ new.filterMap (changedOf old),
         changedGit := acc.changedGit ++ new.filterMap (changedGitOf old),
         removed := acc.removed ++ new.filterMap (removedOf old) },
       old.filter fun o => decide (o.name ∉ new.map (·.name))) := by
  induction new generalizing old acc with
  | nil => simp [changesLoop]
  | cons p new ih =>
    simp only [List.map_cons, List.nodup_cons] at hn
    have hcong : ∀ {β : Type} (f g : Package V → Option β), (∀ q ∈ new, f q = g q) → new.filterMap f = new.filterMap g :=
      fun f g h => List.filterMap_congr h
    have hq : ∀ q ∈ new, (old.filter fun o => o.name != p.name).find? (fun o => o.name == q.name) = old.find? fun o => o.name == q.name := by
      intro q hq
      apply find_filter_ne
      intro hc
      exact hn.1 (List.mem_map.mpr ⟨q, hq, hc⟩)
    have ha : new.filterMap (addedOf (old.filter fun o => o.name != p.name)) = new.filterMap (addedOf old) :=
      hcong _ _ fun q h => by simp only [addedOf, hq q h]
    have hr : new.filterMap (removedOf (old.filter fun o => o.name != p.name)) = new.filterMap (removedOf old) :=
      hcong _ _ fun q h => by simp only [removedOf, hq q h]
    have hc : new.filterMap (changedOf (old.filter fun o => o.name != p.name)) = new.filterMap (changedOf old) :=
      hcong _ _ fun q h => by simp only [changedOf, hq q h]
    have hg : new.filterMap (changedGitOf (old.filter fun o => o.name != p.name)) = new.filterMap (changedGitOf old) :=
      hcong _ _ fun q h => by simp only [changedGitOf, hq q h]
    have hleft : (old.filter fun o => o.name != p.name).filter (fun o => decide (o.name ∉ new.map (·.name))) =
        old.filter fun o => decide (o.name ∉ p.name :: new.map (·.name)) := by
      rw [List.filter_filter]
      congr 1; funext o
      by_cases h : o.name = p.name <;> simp [h]
    simp only [changesLoop]
    cases hf : old.find? (fun o => o.name == p.name) with
    | none =>
      simp only
      rw [ih _ hn.2]
      have h0 : ∀ o ∈ old, o.name ≠ p.name := by intro o ho; simpa using List.find?_eq_none.mp hf o ho
      simp only [List.filterMap_cons, addedOf, removedOf, changedOf, changedGitOf, hf, List.append_assoc, List.singleton_append,
        Prod.mk.injEq, true_and]
      apply List.filter_congr
      intro o ho
      simp [h0 o ho]
    | some o =>
      simp only
      split
      · rename_i hk
        rw [ih _ hn.2]
        simp only [List.filterMap_cons, ha, hr, hc, hg, hleft, addedOf, removedOf, changedOf, changedGitOf, hf, hk,
          List.append_assoc, List.singleton_append, if_true, List.map_cons, ne_eq, not_false_eq_true]
      · rename_i hk
        split
        · rename_i hv
          rw [ih _ hn.2]
          simp only [List.filterMap_cons, ha, hr, hc, hg, hleft, addedOf, removedOf, changedOf, changedGitOf, hf, hk, hv,
            List.append_assoc, if_true, if_false, List.map_cons, ne_eq, Classical.not_not]
          cases gitChange o p <;> simp
        · rename_i hv
          rw [ih _ hn.2]
          simp only [List.filterMap_cons, ha, hr, hc, hg, hleft, addedOf, removedOf, changedOf, changedGitOf, hf, hk, hv,
            List.append_assoc, List.singleton_append, if_false, List.map_cons]

theorem find_some_iff {V : Type} (old : List (Package V)) (ho : (old.map (·.name)).Nodup) (n : String) (o : Package V) :
    old.find? (fun o => o.name == n) = some o ↔ o ∈ old ∧ o.name = n := by
  constructor
  · intro h; exact ⟨List.mem_of_find?_eq_some h, by simpa using List.find?_some h⟩
  · rintro ⟨h1, rfl⟩
    cases h : old.find? (fun x => x.name == o.name) with
    | none => exact absurd (List.find?_eq_none.mp h o h1) (by simp)
    | some x =>
      have h2 := List.mem_of_find?_eq_some h
      have h3 := List.find?_some h
      simp only [beq_iff_eq] at h3
      rw [List.inj_on_of_nodup_map ho h2 h1 h3]

theorem find_none_iff {V : Type} (old : List (Package V)) (n : String) :
    old.find? (fun o => o.name == n) = none ↔ ∀ o ∈ old, o.name ≠ n := by
  simp [List.find?_eq_none]

/-- A package with the same name and the same kind of source. -/
def SamePackage {V : Type} (o p : Package V) : Prop := o.name = p.name ∧ o.source.kind = p.source.kind

theorem changes_added {V : Type} [DecidableEq V] (old new : List (Package V)) (ho : (old.map (·.name)).Nodup)
    (hn : (new.map (·.name)).Nodup) (n : String) (v : V) :
    (n, v) ∈ (changesBetween old new).added ↔ ∃ p ∈ new, p.name = n ∧ p.version = v ∧ ∀ o ∈ old, ¬ SamePackage o p := by
  simp only [changesBetween, changesLoop_eq old new hn, List.nil_append, List.mem_filterMap]
  refine exists_congr fun p => and_congr_right fun _ => ?_
  simp only [addedOf]
  cases hf : old.find? (fun o => o.name == p.name) with
  | none =>
    rw [find_none_iff] at hf
    simp only [Option.some.injEq, Prod.mk.injEq]
    constructor
    · rintro ⟨rfl, rfl⟩; exact ⟨rfl, rfl, fun o ho hc => hf o ho hc.1⟩
    · rintro ⟨h1, h2, -⟩; exact ⟨h1, h2⟩
  | some o =>
    rw [find_some_iff old ho] at hf
    simp only
    split
    · rename_i hk
      simp only [Option.some.injEq, Prod.mk.injEq]
      constructor
      · rintro ⟨rfl, rfl⟩
        refine ⟨rfl, rfl, fun x hx hc => hk ?_⟩
        rw [List.inj_on_of_nodup_map ho hf.1 hx (hf.2.trans hc.1.symm)]
        exact hc.2.symm
      · rintro ⟨h1, h2, -⟩; exact ⟨h1, h2⟩
    · rename_i hk
      simp only [reduceCtorEq, false_iff, not_and, not_forall]
      intro _ _
      exact ⟨o, hf.1, fun hc => hc ⟨hf.2, (Classical.not_not.mp hk).symm⟩⟩

theorem changes_removed {V : Type} [DecidableEq V] (old new : List (Package V)) (ho : (old.map (·.name)).Nodup)
    (hn : (new.map (·.name)).Nodup) (n : String) :
    n ∈ (changesBetween old new).removed ↔ ∃ o ∈ old, o.name = n ∧ ∀ p ∈ new, ¬ SamePackage o p := by
  simp only [changesBetween, changesLoop_eq old new hn, List.nil_append, List.mem_append, List.mem_filterMap, List.mem_map,
    List.mem_filter, decide_eq_true_eq]
  constructor
  · rintro (⟨p, hp, h⟩ | ⟨o, ⟨h1, h2⟩, rfl⟩)
    · simp only [removedOf] at h
      cases hf : old.find? (fun o => o.name == p.name) with
      | none => simp [hf] at h
      | some o =>
        rw [hf] at h
        rw [find_some_iff old ho] at hf
        simp only at h
        split at h
        · rename_i hk
          simp only [Option.some.injEq] at h
          refine ⟨o, hf.1, h, fun q hq hc => hk ?_⟩
          rw [List.inj_on_of_nodup_map hn hp hq (hf.2.symm.trans hc.1)]
          exact hc.2.symm
        · simp at h
    · exact ⟨o, h1, rfl, fun p hp hc => h2 ⟨p, hp, hc.1.symm⟩⟩
  · rintro ⟨o, h1, rfl, h2⟩
    by_cases h3 : ∃ p ∈ new, p.name = o.name
    · obtain ⟨p, h4, h5⟩ := h3
      left
      refine ⟨p, h4, ?_⟩
      simp only [removedOf, (find_some_iff old ho p.name o).mpr ⟨h1, h5.symm⟩]
      rw [if_pos (fun hc => h2 p h4 ⟨h5.symm, hc.symm⟩)]
    · right
      exact ⟨o, ⟨h1, fun ⟨p, h4, h5⟩ => h3 ⟨p, h4, h5⟩⟩, rfl⟩

theorem changes_changed {V : Type} [DecidableEq V] (old new : List (Package V)) (ho : (old.map (·.name)).Nodup)
    (hn : (new.map (·.name)).Nodup) (n : String) (a b : V) :
    (n, a, b) ∈ (changesBetween old new).changed ↔
      ∃ o ∈ old, ∃ p ∈ new, SamePackage o p ∧ p.name = n ∧ o.version = a ∧ p.version = b ∧ a ≠ b := by
  simp only [changesBetween, changesLoop_eq old new hn, List.nil_append, List.mem_filterMap]
  constructor
  · rintro ⟨p, hp, h⟩
    simp only [changedOf] at h
    cases hf : old.find? (fun o => o.name == p.name) with
    | none => simp [hf] at h
    | some o =>
      rw [hf] at h
      rw [find_some_iff old ho] at hf
      simp only at h
      split at h
      · simp at h
      · rename_i hk
        split at h
        · simp at h
        · rename_i hv
          simp only [Option.some.injEq, Prod.mk.injEq] at h
          obtain ⟨rfl, rfl, rfl⟩ := h
          exact ⟨o, hf.1, p, hp, ⟨hf.2, (Classical.not_not.mp hk).symm⟩, rfl, rfl, rfl, hv⟩
  · rintro ⟨o, h1, p, h2, h3, rfl, rfl, rfl, h4⟩
    refine ⟨p, h2, ?_⟩
    simp only [changedOf, (find_some_iff old ho p.name o).mpr ⟨h1, h3.1⟩]
    rw [if_neg (by simpa using h3.2.symm), if_neg h4]

theorem changes_git {V : Type} [DecidableEq V] (old new : List (Package V)) (ho : (old.map (·.name)).Nodup)
    (hn : (new.map (·.name)).Nodup) (n a b : String) :
    (n, a, b) ∈ (changesBetween old new).changedGit ↔
      ∃ o ∈ old, ∃ p ∈ new, o.name = n ∧ p.name = n ∧ o.version = p.version ∧
        ∃ repo repo' path path', o.source = .git repo a path ∧ p.source = .git repo' b path' ∧ (a ≠ b ∨ path ≠ path') := by
  simp only [changesBetween, changesLoop_eq old new hn, List.nil_append, List.mem_filterMap]
  constructor
  · rintro ⟨p, hp, h⟩
    simp only [changedGitOf] at h
    cases hf : old.find? (fun o => o.name == p.name) with
    | none => simp [hf] at h
    | some o =>
      rw [hf] at h
      rw [find_some_iff old ho] at hf
      simp only at h
      split at h
      · simp at h
      · split at h
        · rename_i hv
          unfold gitChange at h
          split at h
          · rename_i r1 c1 p1 r2 c2 p2 hs1 hs2
            split at h
            · rename_i hne
              simp only [Option.some.injEq, Prod.mk.injEq] at h
              obtain ⟨rfl, rfl, rfl⟩ := h
              exact ⟨o, hf.1, p, hp, hf.2, rfl, hv, r1, r2, p1, p2, hs1, hs2, hne⟩
            · simp at h
          · simp at h
        · simp at h
  · rintro ⟨o, h1, p, h2, h3, rfl, h4, r1, r2, p1, p2, h5, h6, h7⟩
    refine ⟨p, h2, ?_⟩
    simp only [changedGitOf, (find_some_iff old ho p.name o).mpr ⟨h1, h3⟩, gitChange, h5, h6, Source.kind]
    rw [if_neg (by simp), if_pos h4, if_pos h7]

/-- Two packages that differ in nothing that a report mentions: name, kind of source, version, and for git packages commit and
path. -/
def SameReported {V : Type} (o p : Package V) : Prop :=
  SamePackage o p ∧ o.version = p.version ∧
    ∀ repo commit path repo' commit' path', o.source = .git repo commit path → p.source = .git repo' commit' path' →
      commit = commit' ∧ path = path'

/-- **C42, partial.** For lockfiles with at most one package per name:
* a package is reported as added, with its version, exactly when the old lockfile has none with its name and kind of source;
* a package is reported as removed exactly when the new lockfile has none with its name and kind of source;
* a package is reported as changed, with both versions, exactly when it is in both with different versions;
* a git package is reported, with both commits, exactly when it is in both at the same version and its commit or path differ;
* nothing is reported exactly when both have the same packages as far as this goes.
What is missing: differences of checksums, local paths, repositories, requirements, build tools and application names are
not reported, see `changes_missed`. -/
theorem changesBetween_partial {V : Type} [DecidableEq V] (old new : List (Package V)) (ho : (old.map (·.name)).Nodup)
    (hn : (new.map (·.name)).Nodup) :
    (∀ n v, (n, v) ∈ (changesBetween old new).added ↔ ∃ p ∈ new, p.name = n ∧ p.version = v ∧ ∀ o ∈ old, ¬ SamePackage o p) ∧
    (∀ n, n ∈ (changesBetween old new).removed ↔ ∃ o ∈ old, o.name = n ∧ ∀ p ∈ new, ¬ SamePackage o p) ∧
    (∀ n a b, (n, a, b) ∈ (changesBetween old new).changed ↔
      ∃ o ∈ old, ∃ p ∈ new, SamePackage o p ∧ p.name = n ∧ o.version = a ∧ p.version = b ∧ a ≠ b) ∧
    (∀ n a b, (n, a, b) ∈ (changesBetween old new).changedGit ↔
      ∃ o ∈ old, ∃ p ∈ new, o.name = n ∧ p.name = n ∧ o.version = p.version ∧
        ∃ repo repo' path path', o.source = .git repo a path ∧ p.source = .git repo' b path' ∧ (a ≠ b ∨ path ≠ path')) ∧
    ((changesBetween old new).any = false ↔
      (∀ o ∈ old, ∃ p ∈ new, SameReported o p) ∧ ∀ p ∈ new, ∃ o ∈ old, SameReported o p) := by
  refine ⟨changes_added old new ho hn, changes_removed old new ho hn, changes_changed old new ho hn, changes_git old new ho hn, ?_⟩
  have ha := changes_added old new ho hn
  have hr := changes_removed old new ho hn
  have hc := changes_changed old new ho hn
  have hg := changes_git old new ho hn
  simp only [Changes.any, Bool.or_eq_false_iff, Bool.not_eq_false', List.isEmpty_iff]
  constructor
  · rintro ⟨⟨⟨h1, h2⟩, h3⟩, h4⟩
    rw [h1] at ha; rw [h2] at hc; rw [h3] at hg; rw [h4] at hr
    have key : ∀ o ∈ old, ∀ p ∈ new, SamePackage o p → SameReported o p := by
      intro o h5 p h6 h7
      have hv : o.version = p.version := by
        by_contra hcon
        exact absurd ((hc p.name o.version p.version).mpr ⟨o, h5, p, h6, h7, rfl, rfl, rfl, hcon⟩) (by simp)
      refine ⟨h7, hv, fun r1 c1 p1 r2 c2 p2 e1 e2 => ?_⟩
      by_contra hcon
      rw [Classical.not_and_iff_not_or_not] at hcon
      exact absurd ((hg p.name c1 c2).mpr ⟨o, h5, p, h6, h7.1, rfl, hv, r1, r2, p1, p2, e1, e2, hcon⟩) (by simp)
    constructor
    · intro o h5
      by_contra hcon
      refine absurd ((hr o.name).mpr ⟨o, h5, rfl, fun p h6 h7 => hcon ⟨p, h6, key o h5 p h6 h7⟩⟩) (by simp)
    · intro p h6
      by_contra hcon
      refine absurd ((ha p.name p.version).mpr ⟨p, h6, rfl, rfl, fun o h5 h7 => hcon ⟨o, h5, key o h5 p h6 h7⟩⟩) (by simp)
  · rintro ⟨h1, h2⟩
    have uniq : ∀ o ∈ old, ∀ p ∈ new, o.name = p.name → SameReported o p := by
      intro o h5 p h6 h7
      obtain ⟨q, h8, h9⟩ := h1 o h5
      have : p = q := List.inj_on_of_nodup_map hn h6 h8 (h7.symm.trans h9.1.1)
      rw [this]; exact h9
    refine ⟨⟨⟨?_, ?_⟩, ?_⟩, ?_⟩ <;> rw [List.eq_nil_iff_forall_not_mem]
    · rintro ⟨n, v⟩ hx
      obtain ⟨p, h3, -, -, h4⟩ := (ha n v).mp hx
      obtain ⟨o, h5, h6⟩ := h2 p h3
      exact h4 o h5 h6.1
    · rintro ⟨n, a, b⟩ hx
      obtain ⟨o, h3, p, h4, h5, -, rfl, rfl, h6⟩ := (hc n a b).mp hx
      exact h6 (uniq o h3 p h4 h5.1).2.1
    · rintro ⟨n, a, b⟩ hx
      obtain ⟨o, h3, p, h4, h5, h6, -, r1, r2, p1, p2, e1, e2, h7⟩ := (hg n a b).mp hx
      obtain ⟨h8, h9⟩ := (uniq o h3 p h4 (h5.trans h6.symm)).2.2 _ _ _ _ _ _ e1 e2
      rcases h7 with h7 | h7
      · exact h7 h8
      · exact h7 h9
    · intro n hx
      obtain ⟨o, h3, -, h4⟩ := (hr n).mp hx
      obtain ⟨p, h5, h6⟩ := h1 o h3
      exact h4 p h5 h6.1

/-- A package is reported at most once as added, as changed, as a changed git package and as removed. -/
theorem changesBetween_once {V : Type} [DecidableEq V] (old new : List (Package V)) (ho : (old.map (·.name)).Nodup)
    (hn : (new.map (·.name)).Nodup) :
    ((changesBetween old new).added.map (·.1)).Nodup ∧ ((changesBetween old new).changed.map (·.1)).Nodup ∧
    ((changesBetween old new).changedGit.map (·.1)).Nodup ∧ (changesBetween old new).removed.Nodup := by
  have sub : ∀ {β : Type} (f : Package V → Option β) (g : β → String), (∀ p ∈ new, ∀ b, f p = some b → g b = p.name) →
      ((new.filterMap f).map g).Nodup := by
    intro β f g h
    have : (new.filterMap f).map g = (new.filter fun p => (f p).isSome).map (·.name) := by
      clear hn
      induction new with
      | nil => rfl
      | cons p new ih =>
        have ih := ih fun q hq => h q (by simp [hq])
        cases hf : f p with
        | none => simp [hf, ih]
        | some b => simp [hf, ih, h p (by simp) b hf]
    rw [this]
    exact hn.sublist (List.Sublist.map _ List.filter_sublist)
  have hrem : ∀ p ∈ new, ∀ n, removedOf old p = some n → n = p.name := by
    intro p _ n h
    simp only [removedOf] at h
    cases hf : old.find? (fun o => o.name == p.name) with
    | none => simp [hf] at h
    | some o =>
      rw [hf] at h
      have := List.find?_some hf
      simp only [beq_iff_eq] at this
      simp only at h
      split at h
      · simp only [Option.some.injEq] at h; rw [← h, this]
      · simp at h
  simp only [changesBetween, changesLoop_eq old new hn, List.nil_append]
  refine ⟨sub _ _ ?_, sub _ _ ?_, sub _ _ ?_, ?_⟩
  · intro p _ b h
    simp only [addedOf] at h
    split at h
    · simp only [Option.some.injEq] at h; rw [← h]
    · split at h
      · simp only [Option.some.injEq] at h; rw [← h]
      · simp at h
  · intro p _ b h
    simp only [changedOf] at h
    split at h
    · simp at h
    · split at h
      · simp at h
      · split at h
        · simp at h
        · simp only [Option.some.injEq] at h; rw [← h]
  · intro p _ b h
    simp only [changedGitOf] at h
    split at h
    · simp at h
    · split at h
      · simp at h
      · split at h
        · unfold gitChange at h
          split at h
          · split at h
            · simp only [Option.some.injEq] at h; rw [← h]
            · simp at h
          · simp at h
        · simp at h
  · rw [List.nodup_append]
    refine ⟨?_, ?_, ?_⟩
    · have := sub (removedOf old) id hrem
      simpa using this
    · exact ho.sublist (List.Sublist.map _ List.filter_sublist)
    · intro a ha b hb hab
      subst hab
      obtain ⟨p, hp, h⟩ := List.mem_filterMap.mp ha
      have := hrem p hp a h
      subst this
      obtain ⟨o, h1, h2⟩ := List.mem_map.mp hb
      have h1 := (List.mem_filter.mp h1).2
      simp only [decide_eq_true_eq] at h1
      exact h1 (h2 ▸ List.mem_map.mpr ⟨p, hp, rfl⟩)

/-- A lockfile before and after: `moved` goes from git to hex, `bumped` gets a new version, `pulled` a new commit. -/
def changesOld : List (Package Nat) :=
  [{ name := "moved", version := 1, source := .git "r" "c" none }, { name := "bumped", version := 1, source := .hex [] },
   { name := "pulled", version := 1, source := .git "r" "c" none }, { name := "gone", version := 1, source := .hex [] }]

/-- See `changesOld`. -/
def changesNew : List (Package Nat) :=
  [{ name := "moved", version := 1, source := .hex [] }, { name := "bumped", version := 2, source := .hex [] },
   { name := "pulled", version := 1, source := .git "r" "d" none }, { name := "fresh", version := 7, source := .hex [] }]

example : (changesOld.map (·.name)).Nodup ∧ (changesNew.map (·.name)).Nodup ∧ changesBetween changesOld changesNew =
    { added := [("moved", 1), ("fresh", 7)], changed := [("bumped", 1, 2)], changedGit := [("pulled", "c", "d")],
      removed := ["moved", "gone"] } := by
  decide

/-- **C42, false of the code.** A local package that now requires another package is not a reported change, though the lockfiles
differ. As `any_changes` decides whether the new lockfile is written, it may not be. -/
theorem changes_missed : ∃ old new : List (Package Nat), old ≠ new ∧ (old.map (·.name)).Nodup ∧ (new.map (·.name)).Nodup ∧
    (changesBetween old new).any = false := by
  refine ⟨[{ name := "a", version := 1, source := .local "../a" }, { name := "b", version := 1, source := .hex [] }],
    [{ name := "a", version := 1, requirements := ["b"], source := .local "../a" }, { name := "b", version := 1, source := .hex [] }],
    by decide, by decide, by decide, by decide⟩

end Verif.Project
