import Verif.DepTree.Model

/-
Model of the incremental compilation of a package: `/repo/compiler-core/src/build/module_loader.rs`,
`/repo/compiler-core/src/build/package_loader.rs` and `/repo/compiler-core/src/build/package_compiler.rs`.

Parsing, type checking and code generation of one module are parameters (`Compiler`). What is modelled is which modules are
compiled and which are loaded from the cache, and in which order the files of the build directory are deleted and written, so
that a build may be stopped after any of these steps.

Left out: the build directory's version file, native files, the entrypoint module, `.app` files, the language server's mode
and its set of incomplete modules, warnings, and duplicate module names.
-/
namespace Verif.Build

/-- Parsing, type checking and code generation of a module.
* `imports` is `parse_module` followed by `Module::dependencies` (`module_loader.rs:139-182` `read_source`); `none` is a parse
  error. Imports of modules of other packages, which do not change, are not listed unless they are modelled too.
* `check` is `ModuleAnalyzer::infer_module` (`package_compiler.rs:639-700`): the module's name and text and the interfaces of
  the imported modules give its interface, or an error.
* `gen` is code generation for it (`package_compiler.rs:382-440`).
Simplified: they are functions, so the same text and the same imported interfaces always give the same result. -/
structure Compiler (Text Iface Out : Type) where
  imports : Text → Option (List String)
  check : String → Text → List Iface → Option Iface
  gen : String → Text → List Iface → Out

/-- A source file: its text and modification time. -/
structure Source (Text : Type) where
  text : Text
  mtime : Nat

/-- `build/package_compiler.rs` `CacheMetadata`, the content of a `.cache_meta` file. Simplified: the fingerprint of the text
is the text (no hash collisions); line numbers are left out. -/
structure Meta (Text : Type) where
  mtime : Nat
  codegen : Bool
  deps : List String
  text : Text

/-- The build directory: `.cache_meta` files, `.cache` files, and generated code, by module name. -/
structure Disk (Text Iface Out : Type) where
  info : String → Option (Meta Text)
  cache : String → Option Iface
  out : String → Option Out

variable {Text Iface Out : Type}

/-- A single change of the build directory. -/
inductive Op (Text Iface Out : Type) where
  | deleteCache (name : String)
  | deleteMeta (name : String)
  | writeOut (name : String) (out : Out)
  | writeCache (name : String) (iface : Iface)
  | writeMeta (name : String) (info : Meta Text)

/-- Changing the value of a map at one name. -/
def set {α : Type} (f : String → Option α) (name : String) (v : Option α) : String → Option α :=
  fun x => if x = name then v else f x

/-- The effect of a change. -/
def Disk.apply (d : Disk Text Iface Out) : Op Text Iface Out → Disk Text Iface Out
  | .deleteCache n => { d with cache := set d.cache n none }
  | .deleteMeta n => { d with info := set d.info n none }
  | .writeOut n o => { d with out := set d.out n (some o) }
  | .writeCache n i => { d with cache := set d.cache n (some i) }
  | .writeMeta n m => { d with info := set d.info n (some m) }

/-- The effect of changes one after the other. -/
def Disk.applyAll (d : Disk Text Iface Out) (ops : List (Op Text Iface Out)) : Disk Text Iface Out := ops.foldl Disk.apply d

/-- `build.rs` `UncompiledModule`: what is needed of it. -/
structure Uncompiled (Text : Type) where
  name : String
  text : Text
  mtime : Nat
  deps : List String

/-- `package_loader.rs` `Input`. -/
inductive Input (Text : Type) where
  | new (module : Uncompiled Text)
  | cached (deps : List String)

/-- `package_loader.rs` `Input::dependencies`. -/
def Input.deps : Input Text → List String
  | .new m => m.deps
  | .cached ds => ds

/-- `module_loader.rs:139-182` `read_source`; `none` is an error. -/
def readSource (C : Compiler Text Iface Out) (name : String) (s : Source Text) : Option (Uncompiled Text) :=
  (C.imports s.text).map fun ds => ⟨name, s.text, s.mtime, ds⟩

/-- `module_loader.rs:51-90` `ModuleLoader::load`. The metadata is read by `read_cache_metadata` (`92-110`). -/
def load [DecidableEq Text] (C : Compiler Text Iface Out) (codegen : Bool) (name : String) (s : Source Text)
    (info : Option (Meta Text)) : Option (Input Text) :=
  match info with
  | none => (readSource C name s).map .new
  | some m =>
    if codegen && !m.codegen then (readSource C name s).map .new
    else if m.mtime < s.mtime then
      match readSource C name s with
      | none => none
      | some u => if m.text ≠ s.text then some (.new u) else some (.cached m.deps)
    else some (.cached m.deps)

/-- `package_loader.rs:207-289` `read_sources_and_caches`: the modules of the package that have a source file. `names` are all
the names of modules of the package that occur in its history. -/
def readInputs [DecidableEq Text] (C : Compiler Text Iface Out) (codegen : Bool) (sources : String → Option (Source Text))
    (disk : Disk Text Iface Out) : List String → Option (List (String × Input Text))
  | [] => some []
  | n :: names =>
    match sources n with
    | none => readInputs C codegen sources disk names
    | some s =>
      match load C codegen n s (disk.info n) with
      | none => none
      | some input =>
        match readInputs C codegen sources disk names with
        | none => none
        | some rest => some ((n, input) :: rest)

/-- `inputs.remove(&name)` (`package_loader.rs:151-153`) for names that occur once. -/
def lookup {α : Type} : List (String × α) → String → Option α
  | [], _ => none
  | (k, v) :: rest, n => if n = k then some v else lookup rest n

/-- `package_loader.rs:1824-1827` `CacheFiles::delete`: two deletions. -/
def deleteFiles (name : String) : List (Op Text Iface Out) := [.deleteCache name, .deleteMeta name]

/-- `package_loader.rs:118-127`: the modules that have a `.cache_meta` file but no source. -/
def removed (names : List String) (sources : String → Option (Source Text)) (disk : Disk Text Iface Out) : List String :=
  names.filter fun n => (disk.info n).isSome && (sources n).isNone

/-- `package_loader.rs` `Loaded`, and the stale tracker after loading. -/
structure Loaded (Text Iface : Type) where
  cached : List (String × Iface)
  toCompile : List (Uncompiled Text)
  stale : List String

/-- `package_loader.rs:149-180`: the loop of `PackageLoader::run`, with `load_cached_module` (`184-205`) and `load_stale_module`
(`291-310`). The result is the changes made and, unless there was an error, what was loaded. -/
def loadLoop (C : Compiler Text Iface Out) (sources : String → Option (Source Text)) (disk : Disk Text Iface Out)
    (inputs : List (String × Input Text)) :
    List String → List String → List (Op Text Iface Out) × Option (Loaded Text Iface)
  | [], stale => ([], some ⟨[], [], stale⟩)
  | n :: seq, stale =>
    match lookup inputs n with
    | none => ([], none)
    | some (.new u) =>
      let r := loadLoop C sources disk inputs seq (n :: stale)
      (r.1, r.2.map fun l => { l with toCompile := u :: l.toCompile })
    | some (.cached ds) =>
      if ds.any fun d => decide (d ∈ stale) then
        match (sources n).bind (readSource C n) with
        | none => (deleteFiles n, none)
        | some u =>
          let r := loadLoop C sources disk inputs seq (n :: stale)
          (deleteFiles n ++ r.1, r.2.map fun l => { l with toCompile := u :: l.toCompile })
      else
        match disk.cache n with
        | none => ([], none)
        | some i =>
          let r := loadLoop C sources disk inputs seq stale
          (r.1, r.2.map fun l => { l with cached := (n, i) :: l.cached })

/-- `build.rs` `Module`: a module that was compiled. -/
structure Compiled (Text Iface Out : Type) where
  source : Uncompiled Text
  iface : Iface
  out : Out

/-- The interfaces of all the imports of a module, or `none` if one of them is not known
(`analyse/imports.rs`: an unknown module is an error). -/
def interfaces (env : String → Option Iface) : List String → Option (List Iface)
  | [] => some []
  | d :: ds =>
    match env d, interfaces env ds with
    | some i, some is => some (i :: is)
    | _, _ => none

/-- `package_compiler.rs:562-735` `analyse`, with the code generated for each module. `none` is a partial or total failure.
Simplified: the code goes on with modules that do not depend on a module with an error; the result is a failure anyway. -/
def analyse (C : Compiler Text Iface Out) :
    List (Uncompiled Text) → (String → Option Iface) → Option (List (Compiled Text Iface Out) × (String → Option Iface))
  | [], env => some ([], env)
  | u :: rest, env =>
    match interfaces env u.deps with
    | none => none
    | some is =>
      match C.check u.name u.text is with
      | none => none
      | some i =>
        match analyse C rest (set env u.name (some i)) with
        | none => none
        | some (ms, env') => some (⟨u, i, C.gen u.name u.text is⟩ :: ms, env')

/-- `package_compiler.rs:355-380` `perform_codegen`. -/
def codegenOps (codegen : Bool) (modules : List (Compiled Text Iface Out)) : List (Op Text Iface Out) :=
  if codegen then modules.map fun m => .writeOut m.source.name m.out else []

/-- `package_compiler.rs:310-353` `encode_and_write_metadata`: for each module the `.cache` and then the `.cache_meta` file. -/
def metadataOps (codegen : Bool) : List (Compiled Text Iface Out) → List (Op Text Iface Out)
  | [] => []
  | m :: rest =>
    .writeCache m.source.name m.iface ::
    .writeMeta m.source.name ⟨m.source.mtime, codegen, m.source.deps, m.source.text⟩ :: metadataOps codegen rest

/-- What a build does: the deletions made while loading, whether loading had no error, the files written afterwards, and,
unless there was an error, the interfaces of all modules and the names that are stale. -/
structure Plan (Text Iface Out : Type) where
  deletions : List (Op Text Iface Out)
  loaded : Bool
  writes : List (Op Text Iface Out)
  result : Option ((String → Option Iface) × List String)

/-- All the changes of a build, in order. -/
def Plan.ops (p : Plan Text Iface Out) : List (Op Text Iface Out) := p.deletions ++ p.writes

/-- `package_compiler.rs:172-188`: registering the cached modules in the map of known interfaces. -/
def register (env : String → Option Iface) (cached : List (String × Iface)) : String → Option Iface :=
  fun n => (lookup cached n).or (env n)

/-- `package_compiler.rs:172-254`: `compile` after loading. -/
def compileLoaded (C : Compiler Text Iface Out) (codegen : Bool) (env : String → Option Iface)
    (deletions : List (Op Text Iface Out)) (loaded : Loaded Text Iface) : Plan Text Iface Out :=
  match analyse C loaded.toCompile (register env loaded.cached) with
  | none => ⟨deletions, true, [], none⟩
  | some (modules, env') =>
    ⟨deletions, true, codegenOps codegen modules ++ metadataOps codegen modules, some (env', loaded.stale)⟩

/-- `package_loader.rs:110-183` `PackageLoader::run` followed by the rest of `package_compiler.rs:121-254` `compile`, for the
package with the modules `names`. `stale` and `env` are the stale tracker and the interfaces left by the packages compiled
before; `order` is `dep_tree::toposort_deps`. -/
def plan [DecidableEq Text] (order : List (String × List String) → DepTree.Outcome) (C : Compiler Text Iface Out)
    (codegen : Bool) (names : List String) (sources : String → Option (Source Text)) (disk : Disk Text Iface Out)
    (stale : List String) (env : String → Option Iface) : Plan Text Iface Out :=
  match readInputs C codegen sources disk names with
  | none => ⟨[], false, [], none⟩
  | some inputs =>
    match order (inputs.map fun i => (i.1, i.2.deps)) with
    | .ordered seq =>
      let r := loadLoop C sources disk inputs seq (removed names sources disk ++ stale)
      match r.2 with
      | none => ⟨(removed names sources disk).flatMap deleteFiles ++ r.1, false, [], none⟩
      | some loaded => compileLoaded C codegen env ((removed names sources disk).flatMap deleteFiles ++ r.1) loaded
    | _ => ⟨(removed names sources disk).flatMap deleteFiles, false, [], none⟩

/-- The empty build directory. -/
def Disk.empty : Disk Text Iface Out := ⟨fun _ => none, fun _ => none, fun _ => none⟩

/-- A build of a project of one package (`project_compiler.rs:191-227`; the stale tracker is emptied first, `162-167`). -/
def buildPlan [DecidableEq Text] (C : Compiler Text Iface Out) (codegen : Bool) (names : List String)
    (sources : String → Option (Source Text)) (disk : Disk Text Iface Out) : Plan Text Iface Out :=
  plan DepTree.toposortDeps C codegen names sources disk [] (fun _ => none)

/-- `project_compiler.rs:288-303` `compile_dependencies` followed by `compile_root_package` (`229-242`), for the packages in
order: the stale tracker and the interfaces are passed on; after an error nothing more is compiled. The result is the changes
made and, unless there was an error, the interfaces. Simplified: `load_cache_or_compile_package` (`353-363`) also deletes
the whole build directory of a dependency that does not compile. -/
def projectPlan [DecidableEq Text] (order : List (String × List String) → DepTree.Outcome) (C : Compiler Text Iface Out)
    (codegen : Bool) (sources : String → Option (Source Text)) :
    List (List String) → Disk Text Iface Out → List String → (String → Option Iface) →
    List (Op Text Iface Out) × Option (String → Option Iface)
  | [], _, _, env => ([], some env)
  | names :: packages, disk, stale, env =>
    let p := plan order C codegen names sources disk stale env
    match p.result with
    | none => (p.ops, none)
    | some (env', stale') =>
      let r := projectPlan order C codegen sources packages (disk.applyAll p.ops) stale' env'
      (p.ops ++ r.1, r.2)

end Verif.Build
