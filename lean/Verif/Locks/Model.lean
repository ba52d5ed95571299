/-
Model of the locks the command line tool and the language server take on the build directory:
`/repo/compiler-cli/src/build_lock.rs` and the places that use it.
-/
namespace Verif.Locks

/-- `compiler-core/src/build.rs:213-217` `enum Mode`. -/
inductive Mode where
  | dev | prod | lsp
deriving DecidableEq, Repr

/-- `compiler-core/src/build.rs:63-72` `enum Target`. -/
inductive Target where
  | erlang | javascript
deriving DecidableEq, Repr

/-- `build_lock.rs:14-17` `struct BuildLock`: what is locked. -/
inductive Lock where
  | packages
  | target (mode : Mode) (target : Target)
deriving DecidableEq, Repr

/-- `Mode` as text, `build.rs:212` `strum(serialize_all = "lowercase")`. -/
def Mode.text : Mode → String
  | .dev => "dev"
  | .prod => "prod"
  | .lsp => "lsp"

/-- `build_lock.rs:24-27`. -/
def Target.text : Target → String
  | .erlang => "erlang"
  | .javascript => "javascript"

/-- `build_lock.rs:21-48` `new_target`, `new_packages`, `lock_path`: the file, relative to the build directory. -/
def Lock.path : Lock → String
  | .packages => "packages/gleam.lock"
  | .target m t => "gleam-" ++ m.text ++ "-" ++ t.text ++ ".lock"

/-- The order in which `build_lock.rs:83-95` `lock_all_build` takes the locks: `Mode::iter()`, then `Target::iter()`. -/
def allTargets : List Lock :=
  [.target .dev .erlang, .target .dev .javascript, .target .prod .erlang, .target .prod .javascript, .target .lsp .erlang,
   .target .lsp .javascript]

/-- What a process does with locks. `use l` is work in the directory that `l` is for. -/
inductive Action where
  /-- `BuildLock::lock`. When `strict` an error ends the process (`lock(..)?`), otherwise it is ignored (`let _guard = lock(..);`). -/
  | acquire (lock : Lock) (strict : Bool)
  | use (lock : Lock)
  /-- The guard is dropped. -/
  | release (lock : Lock)
  /-- `lib.rs:997` `gleam clean`: the build directory is deleted, with the lock files in it, without taking a lock. -/
  | clean
deriving DecidableEq, Repr

/-- The parts of a command that have to do with locks. -/
inductive Job where
  /-- `compiler-cli/src/build.rs:37-80` `main_with_warnings`. -/
  | build (mode : Mode) (target : Target)
  /-- `dependency_manager.rs:152-230` `resolve_and_download_versions`, with `dependencies.rs:541-560` `remove_extra_packages`. -/
  | download
  /-- `dependencies.rs:272-325` `cleanup`; whether there are changes. -/
  | cleanup (changes : Bool)
  /-- `compiler-cli/src/lsp.rs:57-69`, `language-server/src/compiler.rs:65`, `:104`: a build by the language server. -/
  | lsp (target : Target)
  /-- `compiler-cli/src/lib.rs:990-1000` `clean`. -/
  | clean
deriving DecidableEq, Repr

/-- Locks one target, works in its directory, unlocks it. -/
def oneTarget (strict : Bool) (l : Lock) : List Action := [.acquire l strict, .use l, .release l]

/-- `remove_extra_packages`: takes all the target locks, deletes, and drops the locks. -/
def removeExtraPackages : List Action :=
  allTargets.map (.acquire · true) ++ .use .packages :: allTargets.map .use ++ allTargets.map .release

/-- What each job does, in order. -/
def Job.script : Job → List Action
  | .build m t => oneTarget false (.target m t)
  | .download =>
    [.acquire .packages false, .use .packages] ++ removeExtraPackages ++ [.use .packages, .release .packages]
  | .cleanup changes =>
    [.acquire .packages true, .use .packages] ++ removeExtraPackages ++ [.use .packages] ++
      (if changes then allTargets.flatMap (oneTarget true) else []) ++ [.release .packages]
  | .lsp t => oneTarget true (.target .lsp t)
  | .clean => [.clean]

/-- A process: the lock files it holds and what it is still going to do. A lock file is identified by its lock and by how often
the build directory had been deleted when it was created: locking a new file of the same name is not blocked by a lock on the
deleted one. -/
structure Process where
  held : List (Lock × Nat) := []
  todo : List Action

/-- All processes working in one project, and how often its build directory has been deleted. -/
structure State where
  processes : List Process := []
  generation : Nat := 0

/-- Which kinds of things may happen in the executions considered. -/
structure Allowed where
  /-- Locking may fail because of the file system, e.g. as it does not support locks. -/
  lockErrors : Bool
  /-- `gleam clean` may be run. -/
  clean : Bool

/-- One step of one process, in any interleaving. -/
inductive Step (a : Allowed) : State → State → Prop where
  /-- A new process starts, with any sequence of jobs. -/
  | start (s : State) (jobs : List Job) : (a.clean = false → .clean ∉ jobs) →
      Step a s { s with processes := s.processes ++ [{ todo := jobs.flatMap Job.script }] }
  /-- `fslock` gives the lock if no handle of the same file holds it, and otherwise waits. -/
  | acquire (before after : List Process) (p : Process) (g : Nat) (l : Lock) (strict : Bool) (rest : List Action) :
      p.todo = .acquire l strict :: rest → (∀ q ∈ before ++ p :: after, (l, g) ∉ q.held) →
      Step a ⟨before ++ p :: after, g⟩ ⟨before ++ { held := (l, g) :: p.held, todo := rest } :: after, g⟩
  /-- Locking fails and the error is ignored. -/
  | ignore (before after : List Process) (p : Process) (g : Nat) (l : Lock) (rest : List Action) :
      a.lockErrors = true → p.todo = .acquire l false :: rest →
      Step a ⟨before ++ p :: after, g⟩ ⟨before ++ { p with todo := rest } :: after, g⟩
  | use (before after : List Process) (p : Process) (g : Nat) (l : Lock) (rest : List Action) :
      p.todo = .use l :: rest →
      Step a ⟨before ++ p :: after, g⟩ ⟨before ++ { p with todo := rest } :: after, g⟩
  | release (before after : List Process) (p : Process) (g : Nat) (l : Lock) (rest : List Action) :
      p.todo = .release l :: rest →
      Step a ⟨before ++ p :: after, g⟩
        ⟨before ++ { held := p.held.filter (fun h => decide (h.1 ≠ l)), todo := rest } :: after, g⟩
  | clean (before after : List Process) (p : Process) (g : Nat) (rest : List Action) :
      p.todo = .clean :: rest →
      Step a ⟨before ++ p :: after, g⟩ ⟨before ++ { p with todo := rest } :: after, g + 1⟩
  /-- The process ends early: an error drops its guards, and the operating system releases the locks of one that is killed. -/
  | stop (before after : List Process) (p : Process) (g : Nat) :
      Step a ⟨before ++ p :: after, g⟩ ⟨before ++ { held := [], todo := [] } :: after, g⟩

/-- The states that can come about. -/
inductive Reachable (a : Allowed) : State → Prop where
  | start : Reachable a {}
  | step (s t : State) : Reachable a s → Step a s t → Reachable a t

end Verif.Locks
