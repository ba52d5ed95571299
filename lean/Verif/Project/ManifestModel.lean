import Verif.Project.ProductionModel

/-
Model of lockfiles and of what is done with them:
`/repo/compiler-core/src/manifest.rs`, `/repo/compiler-core/src/config/stale_package_remover.rs` and parts of
`/repo/compiler-cli/src/dependencies.rs`.

`V` is the type of versions and `R` the type of requirements; only equality of them is used. Hash maps are lists of entries.
-/
namespace Verif.Project

/-- `manifest.rs:262-284` `enum ManifestPackageSource`. -/
inductive Source where
  | hex (checksum : List UInt8)
  | git (repo commit : String) (path : Option String)
  | local (path : String)
deriving DecidableEq, Repr

/-- `manifest.rs:297-302` `enum ManifestPackageSourceKind`. -/
inductive Kind where
  | hex
  | git
  | local
deriving DecidableEq, Repr

/-- `manifest.rs:286-294` `ManifestPackageSource::kind`. -/
def Source.kind : Source → Kind
  | .hex _ => .hex
  | .git .. => .git
  | .local _ => .local

/-- `manifest.rs:199-213` `struct ManifestPackage`. -/
structure Package (V : Type) where
  name : String
  version : V
  buildTools : List String := ["gleam"]
  otpApp : Option String := none
  requirements : List String := []
  source : Source
deriving DecidableEq, Repr

/-- `manifest.rs:15-24` `struct Manifest`. -/
structure Manifest (V R : Type) where
  requirements : List (String × R)
  packages : List (Package V)
deriving DecidableEq, Repr

/-- `HashMap::contains_key`. -/
def hasKey {α : Type} (map : List (String × α)) (name : String) : Bool := map.any fun e => e.1 == name

/-- `stale_package_remover.rs:21-27`: the requirements of the locked packages. -/
def lockedRequirements {V R : Type} (manifest : Manifest V R) : List (String × List String) :=
  manifest.packages.map fun p => (p.name, p.requirements)

/-- `stale_package_remover.rs:70-85` `record_tree_fresh`. The depth of the recursion is bounded by the fuel, `none` is running
out of it. -/
def recordTree (locked : List (String × List String)) (fuel : Nat) (name : String) (fresh : List String) : Option (List String) :=
  match fuel with
  | 0 => none
  | fuel + 1 =>
    match lookup locked name with
    | none => some (name :: fresh)
    | some deps => deps.foldlM (fun fresh dep => recordTree locked fuel dep fresh) (name :: fresh)

/-- `stale_package_remover.rs:41-48`: the requirements that have not changed. -/
def unchanged {V R : Type} [DecidableEq R] (requirements : List (String × R)) (manifest : Manifest V R) : List String :=
  (requirements.filter fun e => decide (lookup manifest.requirements e.1 = some e.2)).map (·.1)

/-- `stale_package_remover.rs:53-66`: whether a package stays locked. -/
def staysLocked {V R : Type} (requirements : List (String × R)) (manifest : Manifest V R) (fresh : List String)
    (p : Package V) : Bool :=
  !(hasKey requirements p.name && !hasKey manifest.requirements p.name) && decide (p.name ∈ fresh)

/-- `stale_package_remover.rs:18-68` `fresh_and_locked`, called by `config.rs:257-269` `locked`. -/
def freshAndLocked {V R : Type} [DecidableEq R] (fuel : Nat) (requirements : List (String × R)) (manifest : Manifest V R) :
    Option (List (String × V)) :=
  match (unchanged requirements manifest).foldlM (fun fresh name => recordTree (lockedRequirements manifest) fuel name fresh) []
  with
  | none => none
  | some fresh => some ((manifest.packages.filter (staysLocked requirements manifest fresh)).map fun p => (p.name, p.version))

/-- `dependencies.rs:1645-1663` `find_deps_to_unlock`. -/
def depsToUnlock {V R : Type} (package : Package V) (locked : List (String × V)) (manifest : Manifest V R) : List String :=
  package.requirements.filter fun dep =>
    hasKey locked dep && !hasKey manifest.requirements dep &&
      manifest.packages.all fun p => !hasKey locked p.name || !p.requirements.contains dep

/-- `HashMap::remove`. -/
def removeKey {α : Type} (map : List (String × α)) (name : String) : List (String × α) := map.filter fun e => e.1 != name

theorem removeKey_length {V : Type} (locked : List (String × V)) (name : String) (h : hasKey locked name = true) :
    (removeKey locked name).length < locked.length := by
  simp only [hasKey, List.any_eq_true, beq_iff_eq] at h
  obtain ⟨e, h1, h2⟩ := h
  exact List.length_filter_lt_length_iff_exists.mpr ⟨e, h1, by simp [h2]⟩

/-- `dependencies.rs:1616-1631` `unlock_packages`, with a manifest. The top of the stack of packages is the head. -/
def unlockPackages {V R : Type} (manifest : Manifest V R) (todo : List String) (locked : List (String × V)) : List (String × V) :=
  match todo with
  | [] => locked
  | name :: todo =>
    if hasKey locked name then
      match manifest.packages.find? fun p => p.name == name with
      | none => unlockPackages manifest todo (removeKey locked name)
      | some package =>
        unlockPackages manifest ((depsToUnlock package (removeKey locked name) manifest).reverse ++ todo)
          (removeKey locked name)
    else unlockPackages manifest todo locked
termination_by (locked.length, todo.length)
decreasing_by
  · exact Prod.Lex.left _ _ (removeKey_length locked name (by assumption))
  · exact Prod.Lex.left _ _ (removeKey_length locked name (by assumption))
  · exact Prod.Lex.right _ (by simp)

/-- `dependencies.rs:323-359` `remove_extra_requirements`: `config` are the direct dependencies of the project, dev or not. -/
def removeExtraRequirements {V R : Type} [DecidableEq R] (fuel : Nat) (config : List (String × R)) (manifest : Manifest V R) :
    Option (Manifest V R) :=
  let extra := (manifest.requirements.map (·.1)).filter fun name =>
    !hasKey config name && manifest.packages.all fun p => !p.requirements.contains name
  let kept : Manifest V R := { manifest with requirements := manifest.requirements.filter fun e => hasKey config e.1 }
  match freshAndLocked fuel config kept with
  | none => none
  | some locked =>
    some { kept with packages := kept.packages.filter fun p => hasKey (unlockPackages kept extra.reverse locked) p.name }

/-- `manifest.rs:609-633` `struct PackageChanges` with `Changed` and `ChangedGit`: a change is a name, the old and the new. -/
structure Changes (V : Type) where
  added : List (String × V) := []
  changed : List (String × V × V) := []
  changedGit : List (String × String × String) := []
  removed : List String := []
deriving DecidableEq, Repr

/-- `manifest.rs:699-724`: a git package of the same version with another commit or path. -/
def gitChange {V : Type} (old new : Package V) : Option (String × String × String) :=
  match old.source, new.source with
  | .git _ oldHash oldPath, .git _ newHash newPath =>
    if oldHash ≠ newHash ∨ oldPath ≠ newPath then some (new.name, oldHash, newHash) else none
  | _, _ => none

/-- `manifest.rs:692-736`: the loop of `between_manifests`, giving the changes and the old packages that are left. -/
def changesLoop {V : Type} [DecidableEq V] (old new : List (Package V)) (acc : Changes V) : Changes V × List (Package V) :=
  match new with
  | [] => (acc, old)
  | p :: new =>
    match old.find? fun o => o.name == p.name with
    | none => changesLoop old new { acc with added := acc.added ++ [(p.name, p.version)] }
    | some o =>
      let rest := old.filter fun o => o.name != p.name
      if p.source.kind ≠ o.source.kind then
        changesLoop rest new { acc with removed := acc.removed ++ [o.name], added := acc.added ++ [(p.name, p.version)] }
      else if o.version = p.version then
        changesLoop rest new { acc with changedGit := acc.changedGit ++ (gitChange o p).toList }
      else changesLoop rest new { acc with changed := acc.changed ++ [(p.name, o.version, p.version)] }

/-- `manifest.rs:680-746` `PackageChanges::between_manifests`. -/
def changesBetween {V : Type} [DecidableEq V] (old new : List (Package V)) : Changes V :=
  let (acc, left) := changesLoop old new {}
  { acc with removed := acc.removed ++ left.map (·.name) }

/-- `manifest.rs:673-678` `any_changes`. -/
def Changes.any {V : Type} (c : Changes V) : Bool :=
  !c.added.isEmpty || !c.changed.isEmpty || !c.changedGit.isEmpty || !c.removed.isEmpty

/-- `dependencies.rs:627-647` `struct LocalPackages` with `GitState`: the contents of `build/packages/packages.toml`. -/
structure LocalPackages (V : Type) where
  packages : List (String × V) := []
  git : List (String × String × Option String) := []

/-- `dependencies.rs:716-738` `from_manifest`. -/
def LocalPackages.fromManifest {V : Type} (packages : List (Package V)) : LocalPackages V where
  packages := packages.map fun p => (p.name, p.version)
  git := packages.filterMap fun p =>
    match p.source with
    | .git _ commit path => some (p.name, commit, path)
    | _ => none

/-- `dependencies.rs:650-661` `extra_local_packages`. -/
def LocalPackages.extra {V : Type} [DecidableEq V] (l : LocalPackages V) (packages : List (Package V)) : List (String × V) :=
  l.packages.filter fun e => !(packages.any fun p => decide (p.name = e.1 ∧ p.version = e.2))

/-- `dependencies.rs:681-691` `has_fresh`. -/
def LocalPackages.hasFresh {V : Type} [DecidableEq V] (l : LocalPackages V) (p : Package V) : Bool :=
  match p.source with
  | .git _ commit path => decide (lookup l.git p.name = some (commit, path))
  | _ => decide (lookup l.packages p.name = some p.version)

/-- `dependencies.rs:663-679` `missing_local_packages`. -/
def LocalPackages.missing {V : Type} [DecidableEq V] (l : LocalPackages V) (packages : List (Package V)) (root : String) :
    List (Package V) :=
  ((packages.filter fun p => p.name != root).filter fun p => decide (p.source.kind ≠ .local)).filter fun p => !l.hasFresh p

/-- What `build/packages/<name>` holds: the released package of that version, or a checkout. Simplified: the name of the
repository and the checksum are not part of it, as a version is released once and a commit hash identifies the checkout. -/
inductive Content (V : Type) where
  | release (version : V)
  | checkout (commit : String) (path : Option String)
deriving DecidableEq, Repr

/-- The directory `build/packages` and the file `packages.toml` in it. -/
structure Disk (V : Type) where
  directory : String → Option (Content V)
  toml : LocalPackages V

/-- What downloading a package leaves in its directory, `dependencies.rs:480-540` `add_missing_packages`. -/
def Package.content {V : Type} (p : Package V) : Option (Content V) :=
  match p.source with
  | .hex _ => some (.release p.version)
  | .git _ commit path => some (.checkout commit path)
  | .local _ => none

/-- `dependencies.rs:541-560` `remove_extra_packages`: the directories of the extra packages are deleted. -/
def removeExtra {V : Type} [DecidableEq V] (disk : Disk V) (packages : List (Package V)) : Disk V :=
  { disk with directory := fun name => if (disk.toml.extra packages).any (fun e => e.1 == name) then none else disk.directory name }

/-- `dependencies.rs:480-540` `add_missing_packages`: the missing packages are downloaded. -/
def addMissing {V : Type} [DecidableEq V] (disk : Disk V) (packages : List (Package V)) (root : String) : Disk V :=
  { disk with directory := fun name =>
      match (disk.toml.missing packages root).find? fun p => p.name == name with
      | some p => p.content
      | none => disk.directory name }

/-- `dependency_manager.rs:180-207`, the end of `resolve_and_download_versions`, once the versions are resolved. -/
def download {V : Type} [DecidableEq V] (disk : Disk V) (packages : List (Package V)) (root : String) : Disk V :=
  { addMissing (removeExtra disk packages) packages root with toml := .fromManifest packages }

end Verif.Project
