import Verif.Project.StaleProps
import Mathlib.Data.List.Nodup

/-
**C53**: downloaded packages match the lockfile.
-/
namespace Verif.Project

/-- The build directory holds what the lockfile asks for: every hex package at its version, every git package at its commit. The
root package itself is not downloaded. -/
def Agrees {V : Type} (disk : Disk V) (packages : List (Package V)) (root : String) : Prop :=
  ∀ p ∈ packages, p.name ≠ root →
    (∀ checksum, p.source = .hex checksum → disk.directory p.name = some (.release p.version)) ∧
    ∀ repo commit path, p.source = .git repo commit path → disk.directory p.name = some (.checkout commit path)

/-- One lockfile follows another in an ordinary way: a package that keeps its version keeps its kind of source unless it is now a
git package, and a git package that stays on the same commit and path keeps its version. -/
def Ordinary {V : Type} (old new : List (Package V)) : Prop :=
  ∀ o ∈ old, ∀ p ∈ new, o.name = p.name →
    (o.version = p.version → p.source.kind = .hex → o.source.kind = .hex) ∧
    ∀ repo repo' commit path, o.source = .git repo commit path → p.source = .git repo' commit path → o.version = p.version

theorem lookup_mem {α : Type} (map : List (String × α)) (n : String) (a : α) (h : lookup map n = some a) : (n, a) ∈ map := by
  simp only [lookup, Option.map_eq_some_iff] at h
  obtain ⟨e, h1, rfl⟩ := h
  have := List.find?_some h1
  simp only [beq_iff_eq] at this
  subst this
  exact List.mem_of_find?_eq_some h1

theorem find_missing {V : Type} [DecidableEq V] (l : LocalPackages V) (packages : List (Package V)) (root : String)
    (hn : (packages.map (·.name)).Nodup) (p : Package V) (hp : p ∈ packages) (hr : p.name ≠ root) (hk : p.source.kind ≠ .local) :
    (l.missing packages root).find? (fun q => q.name == p.name) = if l.hasFresh p then none else some p := by
  have hsub : ∀ q ∈ l.missing packages root, q ∈ packages ∧ l.hasFresh q = false := by
    intro q hq
    simp only [LocalPackages.missing, List.mem_filter, Bool.not_eq_true'] at hq
    exact ⟨hq.1.1.1, hq.2⟩
  split
  · rename_i hf
    rw [List.find?_eq_none]
    intro q hq hc
    obtain ⟨h1, h2⟩ := hsub q hq
    have : q = p := List.inj_on_of_nodup_map hn h1 hp (by simpa using hc)
    subst this
    rw [h2] at hf
    cases hf
  · rename_i hf
    have hm : p ∈ l.missing packages root := by
      simp only [LocalPackages.missing, List.mem_filter, bne_iff_ne, ne_eq, decide_eq_true_eq, Bool.not_eq_true']
      exact ⟨⟨⟨hp, hr⟩, hk⟩, by simpa using hf⟩
    cases hq : (l.missing packages root).find? (fun q => q.name == p.name) with
    | none => exact absurd (List.find?_eq_none.mp hq p hm) (by simp)
    | some q =>
      have h1 := (hsub q (List.mem_of_find?_eq_some hq)).1
      have h2 := List.find?_some hq
      rw [List.inj_on_of_nodup_map hn h1 hp (by simpa using h2)]

theorem extra_keeps {V : Type} [DecidableEq V] (old new : List (Package V)) (ho : (old.map (·.name)).Nodup)
    (o p : Package V) (h1 : o ∈ old) (h2 : p ∈ new) (h3 : o.name = p.name) (h4 : o.version = p.version) :
    ((LocalPackages.fromManifest old).extra new).any (fun e => e.1 == p.name) = false := by
  rw [List.any_eq_false]
  rintro ⟨n, v⟩ he hc
  simp only [beq_iff_eq] at hc
  subst hc
  simp only [LocalPackages.extra, LocalPackages.fromManifest, List.mem_filter, List.mem_map, Prod.mk.injEq, Bool.not_eq_true',
    List.any_eq_false, decide_eq_true_eq, not_and] at he
  obtain ⟨⟨q, h5, h6, rfl⟩, h7⟩ := he
  have : q = o := List.inj_on_of_nodup_map ho h5 h1 (h6.trans h3.symm)
  subst this
  exact h7 p h2 rfl h4.symm

theorem download_agrees {V : Type} [DecidableEq V] (disk : Disk V) (old new : List (Package V)) (root : String)
    (ho : (old.map (·.name)).Nodup) (hn : (new.map (·.name)).Nodup) (ht : disk.toml = .fromManifest old)
    (hd : Agrees disk old root) (hord : Ordinary old new) :
    Agrees (download disk new root) new root ∧ (download disk new root).toml = .fromManifest new := by
  refine ⟨fun p hp hr => ?_, rfl⟩
  have key : ∀ (hk : p.source.kind ≠ .local), (disk.toml.hasFresh p = true → ∃ o ∈ old, o.name = p.name ∧ o.version = p.version) →
      (download disk new root).directory p.name = if disk.toml.hasFresh p then disk.directory p.name else p.content := by
    intro hk hfresh
    have hf := find_missing (removeExtra disk new).toml new root hn p hp hr hk
    simp only [removeExtra] at hf
    simp only [download, addMissing, removeExtra, hf]
    by_cases h : disk.toml.hasFresh p = true
    · obtain ⟨o, h1, h2, h3⟩ := hfresh h
      have := extra_keeps old new ho o p h1 hp h2 h3
      rw [← ht] at this
      simp [h, this]
    · simp [h]
  constructor
  · intro checksum hs
    have hk : p.source.kind ≠ .local := by rw [hs]; simp [Source.kind]
    have hold : disk.toml.hasFresh p = true → ∃ o ∈ old, o.name = p.name ∧ o.version = p.version := by
      intro h
      simp only [LocalPackages.hasFresh, hs, decide_eq_true_eq] at h
      have h := lookup_mem _ _ _ h
      rw [ht] at h
      simp only [LocalPackages.fromManifest, List.mem_map, Prod.mk.injEq] at h
      exact h
    rw [key hk hold]
    split
    · rename_i h
      obtain ⟨o, h1, h2, h3⟩ := hold h
      have h4 := (hord o h1 p hp h2).1 h3 (by rw [hs]; rfl)
      have h5 := hd o h1 (h2 ▸ hr)
      cases hso : o.source with
      | hex c => rw [← h2, ← h3]; exact h5.1 c hso
      | git _ _ _ => rw [hso] at h4; cases h4
      | «local» _ => rw [hso] at h4; cases h4
    · simp [Package.content, hs]
  · intro repo commit path hs
    have hk : p.source.kind ≠ .local := by rw [hs]; simp [Source.kind]
    have hold : disk.toml.hasFresh p = true → ∃ o ∈ old, o.name = p.name ∧ ∃ repo, o.source = .git repo commit path := by
      intro h
      simp only [LocalPackages.hasFresh, hs, decide_eq_true_eq] at h
      have h := lookup_mem _ _ _ h
      rw [ht] at h
      simp only [LocalPackages.fromManifest, List.mem_filterMap] at h
      obtain ⟨o, h1, h2⟩ := h
      split at h2
      · rename_i r c pa hso
        simp only [Option.some.injEq, Prod.mk.injEq] at h2
        obtain ⟨h2, rfl, rfl⟩ := h2
        exact ⟨o, h1, h2, r, hso⟩
      · cases h2
    have hold' : disk.toml.hasFresh p = true → ∃ o ∈ old, o.name = p.name ∧ o.version = p.version := by
      intro h
      obtain ⟨o, h1, h2, r, h3⟩ := hold h
      exact ⟨o, h1, h2, (hord o h1 p hp h2).2 r repo commit path h3 hs⟩
    rw [key hk hold']
    split
    · rename_i h
      obtain ⟨o, h1, h2, r, h3⟩ := hold h
      rw [← h2]
      exact (hd o h1 (h2 ▸ hr)).2 r commit path h3
    · simp [Package.content, hs]

/-- A package that is in the old lockfile and no longer in the new one is deleted. -/
theorem download_deletes {V : Type} [DecidableEq V] (disk : Disk V) (old new : List (Package V)) (root : String)
    (ht : disk.toml = .fromManifest old) (o : Package V) (ho : o ∈ old) (hn : ∀ p ∈ new, p.name ≠ o.name) :
    (download disk new root).directory o.name = none := by
  have h1 : (disk.toml.missing new root).find? (fun q => q.name == o.name) = none := by
    rw [List.find?_eq_none]
    intro q hq hc
    simp only [LocalPackages.missing, List.mem_filter] at hq
    exact hn q hq.1.1.1 (by simpa using hc)
  have h2 : (disk.toml.extra new).any (fun e => e.1 == o.name) = true := by
    rw [List.any_eq_true]
    refine ⟨(o.name, o.version), ?_, by simp⟩
    simp only [ht, LocalPackages.extra, LocalPackages.fromManifest, List.mem_filter, List.mem_map, Bool.not_eq_true',
      List.any_eq_false, decide_eq_true_eq, not_and]
    exact ⟨⟨o, ho, rfl⟩, fun p hp hc => absurd hc (hn p hp)⟩
  simp [download, addMissing, removeExtra, h1, h2]

/-- Every lockfile of a history follows the one before it in an ordinary way. -/
def OrdinaryHistory {V : Type} (first : List (Package V)) : List (List (Package V)) → Prop
  | [] => True
  | next :: rest => Ordinary first next ∧ OrdinaryHistory next rest

/-- **C53, partial.** Starting from an empty build directory, after downloading for one lockfile after another, the build
directory holds what the last lockfile asks for, provided each lockfile follows the one before in an ordinary way. What is
missing: a package that becomes a hex package without changing its version (`download_git_to_hex`, `download_local_to_hex`), and
processes that stop half way (`download_stopped`). -/
theorem download_history_partial {V : Type} [DecidableEq V] (root : String) (history : List (List (Package V)))
    (last : List (Package V)) (hn : ∀ packages ∈ history ++ [last], (packages.map (·.name)).Nodup)
    (ho : OrdinaryHistory [] (history ++ [last])) (junk : String → Option (Content V)) :
    Agrees ((history ++ [last]).foldl (fun disk packages => download disk packages root) ⟨junk, {}⟩) last root := by
  have main : ∀ (l : List (List (Package V))) (disk : Disk V) (cur : List (Package V)), (cur.map (·.name)).Nodup →
      disk.toml = .fromManifest cur → Agrees disk cur root → (∀ packages ∈ l, (packages.map (·.name)).Nodup) →
      OrdinaryHistory cur l → Agrees (l.foldl (fun disk packages => download disk packages root) disk) (l.getLastD cur) root := by
    intro l
    induction l with
    | nil => intro disk cur _ _ h _ _; exact h
    | cons next l ih =>
      intro disk cur hc ht ha hn ho
      obtain ⟨h1, h2⟩ := download_agrees disk cur next root hc (hn next (by simp)) ht ha ho.1
      have := ih (download disk next root) next (hn next (by simp)) h2 h1 (fun p hp => hn p (by simp [hp])) ho.2
      rw [List.foldl_cons]
      cases l with
      | nil => exact this
      | cons a l => simpa [List.getLastD] using this
  have := main (history ++ [last]) ⟨junk, {}⟩ [] (by simp) rfl (by intro p hp; cases hp) hn ho
  simpa using this

/-- Two lockfiles: a hex package is updated, a git package moves to another commit, another appears. -/
def downloadFirst : List (Package Nat) :=
  [{ name := "web", version := 1, source := .hex [] }, { name := "pulled", version := 1, source := .git "r" "c" none }]

/-- See `downloadFirst`. -/
def downloadSecond : List (Package Nat) :=
  [{ name := "web", version := 2, source := .hex [] }, { name := "pulled", version := 1, source := .git "r" "d" none },
   { name := "fresh", version := 1, source := .hex [] }]

example : (∀ packages ∈ [downloadFirst] ++ [downloadSecond], (packages.map (·.name)).Nodup) ∧
    OrdinaryHistory [] ([downloadFirst] ++ [downloadSecond]) ∧
    (([downloadFirst] ++ [downloadSecond]).foldl (fun disk packages => download disk packages "root")
      ⟨fun _ => none, {}⟩).directory "pulled" = some (.checkout "d" none) := by
  refine ⟨by decide, ⟨?_, ?_, trivial⟩, by decide⟩
  · intro o ho; cases ho
  · intro o ho p hp hname
    simp only [downloadFirst, downloadSecond, List.mem_cons, List.not_mem_nil, or_false] at ho hp
    rcases ho with rfl | rfl <;> rcases hp with rfl | rfl | rfl <;> simp_all [Source.kind]

/-- What the build directory holds after downloading for the lockfiles in turn, starting with nothing. -/
def downloadAll (history : List (List (Package Nat))) : Disk Nat :=
  history.foldl (fun disk packages => download disk packages "root") ⟨fun _ => none, {}⟩

/-- **C53, false of the code.** A git package replaced by the hex release of the same version is not downloaded: the checkout
stays and is used in its place. -/
theorem download_git_to_hex :
    (downloadAll [[{ name := "a", version := 1, source := .git "r" "c" none }],
      [{ name := "a", version := 1, source := .hex [] }]]).directory "a" = some (.checkout "c" none) := by
  decide

/-- **C53, false of the code.** A local package replaced by the hex release of the same version is not downloaded at all. -/
theorem download_local_to_hex :
    (downloadAll [[{ name := "a", version := 1, source := .local "../a" }],
      [{ name := "a", version := 1, source := .hex [] }]]).directory "a" = none := by
  decide

/-- **C53, false of the code.** `packages.toml` is written last: a process that stops after deleting the packages no longer
needed leaves it listing them, and when they are needed again they are not downloaded. -/
theorem download_stopped :
    let old : List (Package Nat) := [{ name := "a", version := 1, source := .hex [] }]
    (download (removeExtra (downloadAll [old]) []) old "root").directory "a" = none := by
  decide

end Verif.Project
