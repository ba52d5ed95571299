import Verif.Project.StaleProps
import Mathlib.Data.List.Nodup

/-
**C51**: removing a dependency leaves exactly the packages that are still needed.
**C52**: unlocking packages to update them unlocks what only they needed, and nothing else.
-/
namespace Verif.Project

theorem hasKey_removeKey {α : Type} (map : List (String × α)) (name n : String) :
    hasKey (removeKey map name) n = true ↔ hasKey map n = true ∧ n ≠ name := by
  rw [hasKey_iff, hasKey_iff]
  simp only [removeKey, List.mem_filter, bne_iff_ne, ne_eq]
  constructor
  · rintro ⟨a, h1, h2⟩; exact ⟨⟨a, h1⟩, h2⟩
  · rintro ⟨⟨a, h1⟩, h2⟩; exact ⟨a, h1, h2⟩

/-- A package is locked. -/
def Locked {V : Type} (locked : List (String × V)) (name : String) : Prop := ∃ v, (name, v) ∈ locked

/-- Some locked package of the lockfile requires the package. -/
def StillRequired {V R : Type} (manifest : Manifest V R) (locked : List (String × V)) (name : String) : Prop :=
  ∃ q ∈ manifest.packages, Locked locked q.name ∧ name ∈ q.requirements

/-- Some package of the lockfile that was locked and now is not requires the package. -/
def RequiredByUnlocked {V R : Type} (manifest : Manifest V R) (before after : List (String × V)) (name : String) : Prop :=
  ∃ q ∈ manifest.packages, Locked before q.name ∧ ¬ Locked after q.name ∧ name ∈ q.requirements

/-- The package is required directly by the project. -/
def Direct {V R : Type} (manifest : Manifest V R) (name : String) : Prop := ∃ r, (name, r) ∈ manifest.requirements

theorem mem_depsToUnlock {V R : Type} (p : Package V) (locked : List (String × V)) (manifest : Manifest V R) (dep : String) :
    dep ∈ depsToUnlock p locked manifest ↔ dep ∈ p.requirements ∧ Locked locked dep ∧ ¬ Direct manifest dep ∧
      ¬ StillRequired manifest locked dep := by
  simp only [depsToUnlock, List.mem_filter, Bool.and_eq_true, Bool.not_eq_true', List.all_eq_true, Bool.or_eq_true,
    ← Bool.not_eq_true, hasKey_iff, List.contains_iff_mem]
  simp only [Locked, Direct, StillRequired, not_exists, not_and]
  constructor
  · rintro ⟨h1, ⟨h2, h3⟩, h4⟩
    refine ⟨h1, h2, h3, fun q hq hl hd => ?_⟩
    rcases h4 q hq with h | h
    · exact hl.elim h
    · exact h hd
  · rintro ⟨h1, h2, h3, h4⟩
    refine ⟨h1, ⟨h2, h3⟩, fun q hq => ?_⟩
    by_cases h : ∃ v, (q.name, v) ∈ locked
    · exact .inr (h4 q hq h)
    · exact .inl fun v hv => h ⟨v, hv⟩

theorem locked_removeKey {V : Type} (locked : List (String × V)) (name n : String) :
    Locked (removeKey locked name) n ↔ Locked locked n ∧ n ≠ name := by
  have := hasKey_removeKey locked name n
  rwa [hasKey_iff, hasKey_iff] at this

/-- Why a package is, or is about to be, unlocked. -/
def Reason {V R : Type} (manifest : Manifest V R) (asked : List String) (before locked : List (String × V)) (n : String) : Prop :=
  n ∈ asked ∨ (¬ Direct manifest n ∧ ¬ StillRequired manifest locked n ∧ RequiredByUnlocked manifest before locked n)

theorem reason_removeKey {V R : Type} {manifest : Manifest V R} {asked : List String} {before locked : List (String × V)}
    {n name : String} (h : Reason manifest asked before locked n) : Reason manifest asked before (removeKey locked name) n := by
  rcases h with h | ⟨h1, h2, q, h3, h4, h5, h6⟩
  · exact .inl h
  · refine .inr ⟨h1, ?_, q, h3, h4, fun hc => h5 ((locked_removeKey _ _ _).mp hc).1, h6⟩
    rintro ⟨q, g1, g2, g3⟩
    exact h2 ⟨q, g1, ((locked_removeKey _ _ _).mp g2).1, g3⟩

/-- Everything `unlock_packages` guarantees. -/
structure UnlockPost {V R : Type} (manifest : Manifest V R) (asked : List String) (before after : List (String × V)) : Prop where
  same : ∀ n v, (n, v) ∈ after ↔ (n, v) ∈ before ∧ Locked after n
  reason : ∀ n, Locked before n → ¬ Locked after n → Reason manifest asked before after n
  complete : ∀ n, RequiredByUnlocked manifest before after n → Locked after n → Direct manifest n ∨ StillRequired manifest after n

theorem unlock_invariant {V R : Type} (manifest : Manifest V R) (hp : (manifest.packages.map (·.name)).Nodup) (asked : List String)
    (before : List (String × V)) (todo : List String) (locked : List (String × V))
    (h1 : ∀ n v, (n, v) ∈ locked ↔ (n, v) ∈ before ∧ Locked locked n)
    (h2 : ∀ n, Locked before n → ¬ Locked locked n → Reason manifest asked before locked n)
    (h3 : ∀ n ∈ todo, Reason manifest asked before locked n)
    (h4 : ∀ n, RequiredByUnlocked manifest before locked n → Locked locked n → n ∈ todo ∨ Direct manifest n ∨ StillRequired manifest locked n)
    (h5 : ∀ n ∈ asked, Locked locked n → n ∈ todo) :
    UnlockPost manifest asked before (unlockPackages manifest todo locked) ∧
      ∀ n ∈ asked, ¬ Locked (unlockPackages manifest todo locked) n := by
  have huniq : ∀ p ∈ manifest.packages, ∀ q ∈ manifest.packages, p.name = q.name → p = q := by
    intro p hpm q hqm h
    exact List.inj_on_of_nodup_map hp hpm hqm h
  induction todo, locked using unlockPackages.induct manifest with
  | case1 locked =>
    unfold unlockPackages
    exact ⟨⟨h1, h2, fun n hn hl => (h4 n hn hl).resolve_left (by simp)⟩, fun n hn hl => by simpa using h5 n hn hl⟩
  | case2 locked name todo hk hf ih =>
    unfold unlockPackages
    simp only [hk, if_true, hf]
    have hnone : ∀ p ∈ manifest.packages, p.name ≠ name := by
      intro p hpm; simpa using List.find?_eq_none.mp hf p hpm
    apply ih
    · intro n v
      rw [locked_removeKey]
      constructor
      · intro h
        simp only [removeKey, List.mem_filter, bne_iff_ne, ne_eq] at h
        exact ⟨((h1 n v).mp h.1).1, ((h1 n v).mp h.1).2, h.2⟩
      · rintro ⟨g1, g2, g3⟩
        simp only [removeKey, List.mem_filter, bne_iff_ne, ne_eq]
        exact ⟨(h1 n v).mpr ⟨g1, g2⟩, g3⟩
    · intro n hb hl
      by_cases hn : Locked locked n
      · have : n = name := Classical.byContradiction fun hc => hl ((locked_removeKey _ _ _).mpr ⟨hn, hc⟩)
        subst this
        exact reason_removeKey (h3 n (by simp))
      · exact reason_removeKey (h2 n hb hn)
    · intro n hn; exact reason_removeKey (h3 n (by simp [hn]))
    · rintro n ⟨p, g1, g2, g3, g4⟩ hl
      obtain ⟨hl1, hl2⟩ := (locked_removeKey _ _ _).mp hl
      have hpl : ¬ Locked locked p.name := fun hc => g3 ((locked_removeKey _ _ _).mpr ⟨hc, hnone p g1⟩)
      rcases h4 n ⟨p, g1, g2, hpl, g4⟩ hl1 with h | h | ⟨q, q1, q2, q3⟩
      · exact .inl ((List.mem_cons.mp h).resolve_left hl2)
      · exact .inr (.inl h)
      · exact .inr (.inr ⟨q, q1, (locked_removeKey _ _ _).mpr ⟨q2, hnone q q1⟩, q3⟩)
    · intro n hn hl
      obtain ⟨hl1, hl2⟩ := (locked_removeKey _ _ _).mp hl
      exact (List.mem_cons.mp (h5 n hn hl1)).resolve_left hl2
  | case3 locked name todo hk package hf ih =>
    unfold unlockPackages
    simp only [hk, if_true, hf]
    have hpm := List.mem_of_find?_eq_some hf
    have hpn := List.find?_some hf
    simp only [beq_iff_eq] at hpn
    have hlk : Locked locked name := (hasKey_iff _ _).mp hk
    have hbk : Locked before package.name := by
      obtain ⟨v, hv⟩ := hlk
      exact hpn ▸ ⟨v, ((h1 _ _).mp hv).1⟩
    have hnow : ¬ Locked (removeKey locked name) package.name := fun hc => ((locked_removeKey _ _ _).mp hc).2 hpn
    have hdeps : ∀ n ∈ package.requirements, Locked (removeKey locked name) n →
        n ∈ depsToUnlock package (removeKey locked name) manifest ∨ Direct manifest n ∨
          StillRequired manifest (removeKey locked name) n := by
      intro n hn hl
      rw [mem_depsToUnlock]
      by_cases hd : Direct manifest n
      · exact .inr (.inl hd)
      · by_cases hs : StillRequired manifest (removeKey locked name) n
        · exact .inr (.inr hs)
        · exact .inl ⟨hn, hl, hd, hs⟩
    apply ih
    · intro n v
      rw [locked_removeKey]
      constructor
      · intro h
        simp only [removeKey, List.mem_filter, bne_iff_ne, ne_eq] at h
        exact ⟨((h1 n v).mp h.1).1, ((h1 n v).mp h.1).2, h.2⟩
      · rintro ⟨g1, g2, g3⟩
        simp only [removeKey, List.mem_filter, bne_iff_ne, ne_eq]
        exact ⟨(h1 n v).mpr ⟨g1, g2⟩, g3⟩
    · intro n hb hl
      by_cases hn : Locked locked n
      · have : n = name := Classical.byContradiction fun hc => hl ((locked_removeKey _ _ _).mpr ⟨hn, hc⟩)
        subst this
        exact reason_removeKey (h3 n (by simp))
      · exact reason_removeKey (h2 n hb hn)
    · intro n hn
      rcases List.mem_append.mp hn with hn | hn
      · rw [List.mem_reverse, mem_depsToUnlock] at hn
        exact .inr ⟨hn.2.2.1, hn.2.2.2, package, hpm, hbk, hnow, hn.1⟩
      · exact reason_removeKey (h3 n (by simp [hn]))
    · rintro n ⟨p, g1, g2, g3, g4⟩ hl
      obtain ⟨hl1, hl2⟩ := (locked_removeKey _ _ _).mp hl
      have hfromp : ∀ q ∈ manifest.packages, q.name = name → n ∈ q.requirements →
          n ∈ (depsToUnlock package (removeKey locked name) manifest).reverse ++ todo ∨ Direct manifest n ∨
            StillRequired manifest (removeKey locked name) n := by
        intro q q1 q2 q3
        rw [huniq q q1 package hpm (q2.trans hpn.symm)] at q3
        rcases hdeps n q3 hl with h | h | h
        · exact .inl (by simp [h])
        · exact .inr (.inl h)
        · exact .inr (.inr h)
      by_cases hpl : Locked locked p.name
      · have : p.name = name := Classical.byContradiction fun hc => g3 ((locked_removeKey _ _ _).mpr ⟨hpl, hc⟩)
        exact hfromp p g1 this g4
      · rcases h4 n ⟨p, g1, g2, hpl, g4⟩ hl1 with h | h | ⟨q, q1, q2, q3⟩
        · exact .inl (List.mem_append.mpr (.inr ((List.mem_cons.mp h).resolve_left hl2)))
        · exact .inr (.inl h)
        · by_cases hqn : q.name = name
          · exact hfromp q q1 hqn q3
          · exact .inr (.inr ⟨q, q1, (locked_removeKey _ _ _).mpr ⟨q2, hqn⟩, q3⟩)
    · intro n hn hl
      obtain ⟨hl1, hl2⟩ := (locked_removeKey _ _ _).mp hl
      exact List.mem_append.mpr (.inr ((List.mem_cons.mp (h5 n hn hl1)).resolve_left hl2))
  | case4 locked name todo hk ih =>
    unfold unlockPackages
    simp only [hk]
    have hnl : ¬ Locked locked name := fun hc => hk ((hasKey_iff _ _).mpr hc)
    apply ih h1 h2
    · intro n hn; exact h3 n (by simp [hn])
    · intro n hr hl
      rcases h4 n hr hl with h | h
      · rcases List.mem_cons.mp h with rfl | h
        · exact absurd hl hnl
        · exact .inl h
      · exact .inr h
    · intro n hn hl
      rcases List.mem_cons.mp (h5 n hn hl) with rfl | h
      · exact absurd hl hnl
      · exact h

/-- **C52.** After unlocking the packages that were asked for:
* none of them is locked, and the packages still locked are locked to the same versions as before;
* any other unlocked package is not required by the project nor by any package still locked, and was required by an unlocked one;
* a package required by an unlocked package stays locked only if the project or a package still locked requires it. -/
theorem unlockPackages_correct {V R : Type} (manifest : Manifest V R) (hp : (manifest.packages.map (·.name)).Nodup)
    (asked : List String) (locked : List (String × V)) :
    (∀ n ∈ asked, ¬ Locked (unlockPackages manifest asked locked) n) ∧
    (∀ n v, (n, v) ∈ unlockPackages manifest asked locked ↔ (n, v) ∈ locked ∧ Locked (unlockPackages manifest asked locked) n) ∧
    (∀ n, Locked locked n → ¬ Locked (unlockPackages manifest asked locked) n → n ∉ asked →
      ¬ Direct manifest n ∧ ¬ StillRequired manifest (unlockPackages manifest asked locked) n ∧
        RequiredByUnlocked manifest locked (unlockPackages manifest asked locked) n) ∧
    ∀ n, RequiredByUnlocked manifest locked (unlockPackages manifest asked locked) n →
      Locked (unlockPackages manifest asked locked) n →
      Direct manifest n ∨ StillRequired manifest (unlockPackages manifest asked locked) n := by
  obtain ⟨⟨h1, h2, h3⟩, h4⟩ := unlock_invariant manifest hp asked locked asked locked
    (fun n v => ⟨fun h => ⟨h, v, h⟩, fun h => h.1⟩) (fun n h1 h2 => absurd h1 h2) (fun n hn => .inl hn)
    (fun n ⟨_, _, h1, h2, _⟩ => absurd h1 h2) (fun n hn _ => hn)
  refine ⟨h4, h1, fun n hb hl hna => (h2 n hb hl).resolve_left hna, h3⟩

/-- `web` needs `http` and `json`, `cli` needs `json`; only `web` and `cli` are direct requirements. -/
def unlockSample : Manifest Nat String where
  requirements := [("web", "~> 1"), ("cli", "~> 1")]
  packages := [hexPackage "web" 1 ["http", "json"], hexPackage "http" 2 [], hexPackage "json" 3 [], hexPackage "cli" 4 ["json"]]

example : (unlockSample.packages.map (·.name)).Nodup ∧
    unlockPackages unlockSample ["web"] [("web", 1), ("http", 2), ("json", 3), ("cli", 4)] = [("json", 3), ("cli", 4)] := by
  refine ⟨by decide, ?_⟩
  simp [unlockSample, unlockPackages, hasKey, removeKey, depsToUnlock, hexPackage]

theorem unlockPackages_none {V R : Type} (manifest : Manifest V R) (todo : List String) (locked : List (String × V))
    (h : ∀ n ∈ todo, ¬ Locked locked n) : unlockPackages manifest todo locked = locked := by
  induction todo with
  | nil => unfold unlockPackages; rfl
  | cons n todo ih =>
    unfold unlockPackages
    rw [if_neg (fun hc => h n (by simp) ((hasKey_iff _ _).mp hc))]
    exact ih fun m hm => h m (by simp [hm])

/-- **C51.** When dependencies are removed from a project whose other requirements are as in the lockfile, the lockfile
afterwards requires what the project requires, and has exactly the packages the project still needs, unchanged. For lockfiles
without cyclic requirements; for others see `freshAndLocked_cyclic`. -/
theorem removeExtraRequirements_correct {V R : Type} [DecidableEq R] (config : List (String × R)) (manifest : Manifest V R)
    (hp : (manifest.packages.map (·.name)).Nodup) (hm : (manifest.requirements.map (·.1)).Nodup) (ha : Acyclic manifest.graph)
    (hc : ∀ e ∈ config, e ∈ manifest.requirements) (fuel : Nat) (hf : manifest.packages.length < fuel) :
    ∃ result, removeExtraRequirements fuel config manifest = some result ∧
      (∀ e, e ∈ result.requirements ↔ e ∈ config) ∧
      ∀ p, p ∈ result.packages ↔ p ∈ manifest.packages ∧ Needed (fun n => ∃ r, (n, r) ∈ config) manifest.graph p.name := by
  simp only [removeExtraRequirements]
  generalize hk : ({ manifest with requirements := manifest.requirements.filter fun e => hasKey config e.1 } : Manifest V R) = kept
  have hkr : kept.requirements = manifest.requirements.filter fun e => hasKey config e.1 := by rw [← hk]
  have hkp : kept.packages = manifest.packages := by rw [← hk]
  have hkg : kept.graph = manifest.graph := by simp only [Manifest.graph, hkp]
  have hreq : ∀ e, e ∈ kept.requirements ↔ e ∈ config := by
    intro e
    rw [hkr, List.mem_filter, hasKey_iff]
    constructor
    · rintro ⟨h1, r, h2⟩
      have h3 := hc _ h2
      have : e = (e.1, r) := List.inj_on_of_nodup_map hm h1 h3 rfl
      rw [this]; exact h2
    · intro h; exact ⟨hc e h, e.2, h⟩
  have hkm : (kept.requirements.map (·.1)).Nodup := by
    rw [hkr]; exact hm.sublist (List.Sublist.map _ List.filter_sublist)
  obtain ⟨locked, h1, h2⟩ := freshAndLocked_partial config kept (hkp ▸ hp) hkm (hkg ▸ ha) fuel (hkp ▸ hf)
  have hun : ∀ n, Unchanged config kept n ↔ ∃ r, (n, r) ∈ config := by
    intro n
    constructor
    · rintro ⟨r, h, -⟩; exact ⟨r, h⟩
    · rintro ⟨r, h⟩; exact ⟨r, h, (hreq _).mpr h⟩
  have hnew : ∀ n, ¬ NewlyRequired config kept n := by
    rintro n ⟨⟨r, h⟩, h'⟩
    exact h' r ((hreq _).mpr h)
  have hne : ∀ x, Needed (Unchanged config kept) kept.graph x ↔ Needed (fun n => ∃ r, (n, r) ∈ config) manifest.graph x := by
    intro x
    rw [hkg]
    exact ⟨needed_mono fun y => (hun y).mp, needed_mono fun y => (hun y).mpr⟩
  have hex : ∀ n ∈ ((manifest.requirements.map (·.1)).filter fun name => !hasKey config name &&
      manifest.packages.all fun p => !p.requirements.contains name).reverse, ¬ Locked locked n := by
    rintro n hn ⟨v, hv⟩
    simp only [List.mem_reverse, List.mem_filter, Bool.and_eq_true, Bool.not_eq_true', ← Bool.not_eq_true, hasKey_iff,
      List.all_eq_true, List.contains_iff_mem] at hn
    obtain ⟨-, hn1, hn2⟩ := hn
    have := (hne n).mp ((h2 n v).mp hv).2.1
    cases this with
    | root h => exact hn1 h
    | requirement _ hp hr =>
      simp only [Manifest.graph, List.mem_map, Prod.mk.injEq] at hp
      obtain ⟨q, hq, rfl, rfl⟩ := hp
      exact hn2 q hq hr
  refine ⟨{ kept with packages := kept.packages.filter fun p => hasKey locked p.name }, ?_, hreq, ?_⟩
  · simp only [h1]
    rw [unlockPackages_none kept _ locked hex, hkp, hkr]
  · intro p
    simp only [List.mem_filter, hasKey_iff]
    rw [hkp]
    constructor
    · rintro ⟨g1, v, g2⟩; exact ⟨g1, (hne _).mp ((h2 _ _).mp g2).2.1⟩
    · rintro ⟨g1, g2⟩
      exact ⟨g1, p.version, (h2 _ _).mpr ⟨⟨p, hkp ▸ g1, rfl, rfl⟩, (hne _).mpr g2, hnew _⟩⟩

example : (∀ e ∈ [("web", "~> 1")], e ∈ staleSample.requirements) ∧ staleSample.packages.length < 5 ∧ Acyclic staleSample.graph :=
  ⟨by decide, by decide, staleSample_acyclic⟩

end Verif.Project
