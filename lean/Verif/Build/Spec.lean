import Verif.Build.Model

/-
What compiling sources from scratch gives, and histories of edits and builds.
-/
namespace Verif.Build

variable {Text Iface Out : Type}

/-- From the given sources, module `n` has interface `i`: all its imports have interfaces, and it type checks with them. This
is about the sources only, not about any build directory. -/
inductive Interface (C : Compiler Text Iface Out) (sources : String → Option (Source Text)) : String → Iface → Prop where
  | mk (n : String) (s : Source Text) (ds : List String) (f : String → Iface) (i : Iface) :
    sources n = some s → C.imports s.text = some ds → (∀ d ∈ ds, Interface C sources d (f d)) →
    C.check n s.text (ds.map f) = some i → Interface C sources n i

/-- From the given sources, `o` is the code of module `n`. -/
def Output (C : Compiler Text Iface Out) (sources : String → Option (Source Text)) (n : String) (o : Out) : Prop :=
  ∃ s ds f, sources n = some s ∧ C.imports s.text = some ds ∧ (∀ d ∈ ds, Interface C sources d (f d)) ∧
    o = C.gen n s.text (ds.map f)

/-- Everything of the sources compiles. -/
def Compiles (C : Compiler Text Iface Out) (sources : String → Option (Source Text)) : Prop :=
  ∀ n s, sources n = some s → ∃ i, Interface C sources n i

/-- The sources and the build directory. -/
structure State (Text Iface Out : Type) where
  sources : String → Option (Source Text)
  disk : Disk Text Iface Out

/-- What may happen to a project: a source file is written with some modification time, a source file is removed, or a build
is run and ends after `steps` changes of the build directory, by a crash or because it is done. -/
inductive Event (Text : Type) where
  | write (name : String) (text : Text) (mtime : Nat)
  | remove (name : String)
  | build (codegen : Bool) (steps : Nat)

variable [DecidableEq Text]

/-- The effect of an event. -/
def step (C : Compiler Text Iface Out) (names : List String) (σ : State Text Iface Out) : Event Text → State Text Iface Out
  | .write n t mt => { σ with sources := set σ.sources n (some ⟨t, mt⟩) }
  | .remove n => { σ with sources := set σ.sources n none }
  | .build codegen k => { σ with disk := σ.disk.applyAll ((buildPlan C codegen names σ.sources σ.disk).ops.take k) }

/-- A project after a history of events, beginning with nothing. -/
def after (C : Compiler Text Iface Out) (names : List String) (history : List (Event Text)) : State Text Iface Out :=
  history.foldl (step C names) ⟨fun _ => none, Disk.empty⟩

/-- **C33 and C34 in full**: after any history, if a build succeeds, then the sources compile from scratch to the same
interfaces and the same code. -/
def AlwaysLikeClean (C : Compiler Text Iface Out) (names : List String) : Prop :=
  ∀ (history : List (Event Text)) (codegen : Bool) (env : String → Option Iface) (stale : List String),
    let σ := after C names history
    let p := buildPlan C codegen names σ.sources σ.disk
    p.result = some (env, stale) →
    ∀ n s, σ.sources n = some s →
      (∃ i, env n = some i ∧ Interface C σ.sources n i) ∧
      (codegen = true → ∃ o, (σ.disk.applyAll p.ops).out n = some o ∧ Output C σ.sources n o)

/-- No module with a `.cache_meta` file has lost its source. -/
def NothingRemoved (σ : State Text Iface Out) : Prop := ∀ n m, σ.disk.info n = some m → ∃ s, σ.sources n = some s

/-- Every cached module whose code is needed has its code generated. -/
def CodePresent (codegen : Bool) (σ : State Text Iface Out) : Prop :=
  codegen = true → ∀ n m, σ.disk.info n = some m → m.codegen = true

/-- Histories for which the claim is proved. `now` is a time not before any of the modification times so far. `careful` is set
by a build that was stopped while it wrote files, or that did not succeed after it found modules removed; then, until a build
succeeds, no text that is recorded in the build directory may come back. The other conditions are:
* the modification time of a written file is later than all the ones before;
* a module is removed only if it has a `.cache_meta` file, or no module that has one imports it;
* a build is not stopped while it loads (and does not fail to load) if it finds modules removed, unless it did nothing yet;
* a build is not stopped after loading (and does not fail then) if it recompiles modules only because their code is missing,
  unless nothing was removed and nothing was written yet. -/
inductive History (C : Compiler Text Iface Out) (names : List String) : State Text Iface Out → Nat → Bool → Prop where
  | start : History C names ⟨fun _ => none, Disk.empty⟩ 0 false
  | write {σ now careful} (n : String) (t : Text) (mt : Nat) : History C names σ now careful → n ∈ names → now < mt →
    (careful = true → ∀ m, σ.disk.info n = some m → m.text = t → ∃ s, σ.sources n = some s ∧ s.text = t) →
    History C names (step C names σ (.write n t mt)) mt careful
  | remove {σ now careful} (n : String) : History C names σ now careful →
    (σ.disk.info n = none → ∀ a m, σ.disk.info a = some m → n ∉ m.deps) →
    History C names (step C names σ (.remove n)) now careful
  | success {σ now careful} (codegen : Bool) (k : Nat) : History C names σ now careful →
    (buildPlan C codegen names σ.sources σ.disk).result.isSome →
    (buildPlan C codegen names σ.sources σ.disk).ops.length ≤ k →
    History C names (step C names σ (.build codegen k)) now false
  | stoppedLoading {σ now careful} (codegen : Bool) (k : Nat) : History C names σ now careful →
    k ≤ (buildPlan C codegen names σ.sources σ.disk).deletions.length → k = 0 ∨ NothingRemoved σ →
    History C names (step C names σ (.build codegen k)) now careful
  | stoppedWriting {σ now careful} (codegen : Bool) (k : Nat) : History C names σ now careful →
    (buildPlan C codegen names σ.sources σ.disk).loaded = true →
    (buildPlan C codegen names σ.sources σ.disk).deletions.length ≤ k → CodePresent codegen σ →
    History C names (step C names σ (.build codegen k)) now true

/-- Every `.cache_meta` file has its `.cache` file. -/
def Whole (σ : State Text Iface Out) : Prop := ∀ n m, σ.disk.info n = some m → ∃ i, σ.disk.cache n = some i

end Verif.Build
