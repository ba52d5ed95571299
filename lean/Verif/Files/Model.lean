/-
Model of the in-memory file system, `/repo/compiler-core/src/io/memory.rs`, and of the language server's file system, `/repo/language-server/src/files.rs`.

A path is the list of its components, the last one first, so that `parent` is the tail and the root is the empty list. Only
absolute paths are modelled, as the documentation of `InMemoryFileSystem` asks for. The hash map is a function from paths to entries.
Modification times are left out. Two links to one buffer cannot be told from two copies, since a write always makes a new buffer.
-/
namespace Verif.Files

abbrev Path := List String

/-- `memory.rs:337-340` `InMemoryFileNode`; contents are texts. -/
inductive Entry where
  | file (content : String)
  | directory
deriving DecidableEq

def Entry.isDirectory : Entry → Bool
  | .directory => true
  | .file _ => false

abbrev Fs := Path → Option Entry

def Fs.insert (fs : Fs) (path : Path) (e : Entry) : Fs := fun p => if p = path then some e else fs p

def Fs.remove (fs : Fs) (path : Path) : Fs := fun p => if p = path then none else fs p

/-- `memory.rs:34-44` the file system at the start: only the root. -/
def Fs.initial : Fs := fun p => if p = [] then some .directory else none

/-- `fs.get(path).is_some_and(|f| !f.is_directory())`, also `is_file` (`memory.rs:281-287`). -/
def Fs.isFile (fs : Fs) (path : Path) : Bool := (fs path).any fun e => !e.isDirectory

/-- `memory.rs:289-295` `is_directory`. -/
def Fs.isDirectory (fs : Fs) (path : Path) : Bool := (fs path).any Entry.isDirectory

/-- `memory.rs:243-279` `read` and `read_bytes`. -/
def Fs.read (fs : Fs) (path : Path) : Option String :=
  match fs path with
  | some (.file content) => some content
  | _ => none

/-- `memory.rs:155-179` `mkdir`: from the path up to the root; the flag says whether it succeeded. -/
def Fs.mkdir (fs : Fs) : Path → Fs × Bool
  | [] => if fs.isFile [] then (fs, false) else (fs.insert [] .directory, true)
  | c :: parent =>
    if fs.isFile (c :: parent) then (fs, false) else (fs.insert (c :: parent) .directory).mkdir parent

/-- `memory.rs:213-231` `write_bytes`, also `write`. -/
def Fs.write (fs : Fs) (path : Path) (content : String) : Fs × Bool :=
  match path with
  | [] => (fs.insert [] (.file content), true)
  | c :: parent =>
    let made := fs.mkdir parent
    if made.2 then (made.1.insert (c :: parent) (.file content), true) else (made.1, false)

/-- `memory.rs:147-149` `copy`. -/
def Fs.copy (fs : Fs) (source target : Path) : Fs × Bool :=
  match fs.read source with
  | some content => fs.write target content
  | none => (fs, false)

/-- `memory.rs:181-193` `hardlink`. -/
def Fs.hardlink (fs : Fs) (source target : Path) : Fs × Bool :=
  match fs source with
  | some e => (fs.insert target e, true)
  | none => (fs, false)

/-- `memory.rs:199-211` `delete_file`. -/
def Fs.deleteFile (fs : Fs) (path : Path) : Fs × Bool :=
  if fs.isDirectory path then (fs, false) else (fs.remove path, true)

/-- `memory.rs:116-141` `delete_directory`. `starts_with` compares whole components. -/
def Fs.deleteDirectory (fs : Fs) (path : Path) : Fs × Bool :=
  if fs.isFile path then (fs, false)
  else
    let fs := if path ≠ [] then fs.remove path else fs
    (fun p => if p ≠ [] ∧ path <:+ p then none else fs p, true)

/-- `memory.rs:51-53` `reset`. -/
def Fs.reset (_ : Fs) : Fs × Bool := (fun _ => none, true)

inductive Op where
  | write (path : Path) (content : String)
  | mkdir (path : Path)
  | copy (source target : Path)
  | hardlink (source target : Path)
  | deleteFile (path : Path)
  | deleteDirectory (path : Path)
  | reset

def Fs.apply (fs : Fs) : Op → Fs × Bool
  | .write path content => fs.write path content
  | .mkdir path => fs.mkdir path
  | .copy source target => fs.copy source target
  | .hardlink source target => fs.hardlink source target
  | .deleteFile path => fs.deleteFile path
  | .deleteDirectory path => fs.deleteDirectory path
  | .reset => fs.reset

/-! ### The language server's view -/

/-- `files.rs:28-32` `FileSystemProxy`. The disk is any function from paths to contents. -/
structure Proxy where
  disk : Path → Option String
  editCache : Fs

/-- `files.rs:38-43` `new`. -/
def Proxy.new (disk : Path → Option String) : Proxy := ⟨disk, .initial⟩

/-- `files.rs:49-54` `write_mem_cache`. -/
def Proxy.writeMemCache (p : Proxy) (path : Path) (content : String) : Proxy := { p with editCache := (p.editCache.write path content).1 }

/-- `files.rs:56-62` `delete_mem_cache`. -/
def Proxy.deleteMemCache (p : Proxy) (path : Path) : Proxy :=
  { p with editCache :=
      if p.editCache.isDirectory path then (p.editCache.deleteDirectory path).1 else (p.editCache.deleteFile path).1 }

/-- `files.rs:120-132` `read` and `read_bytes`. -/
def Proxy.read (p : Proxy) (path : Path) : Option String :=
  match p.editCache.read path with
  | some content => some content
  | none => p.disk path

/-- What happens: notifications of the editor (`language-server/src/server.rs:144-153`), and anything that changes the disk. -/
inductive Event where
  | opened (path : Path) (text : String)
  | changed (path : Path) (text : String)
  | saved (path : Path)
  | closed (path : Path)
  | diskChanged (disk : Path → Option String)

/-- `server.rs:482-496`, `520-534`, as far as the file system is concerned. -/
def Proxy.handle (p : Proxy) : Event → Proxy
  | .opened path text => p.writeMemCache path text
  | .changed path text => p.writeMemCache path text
  | .saved path => p.deleteMemCache path
  | .closed path => p.deleteMemCache path
  | .diskChanged disk => { p with disk := disk }

end Verif.Files
