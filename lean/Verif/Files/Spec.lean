import Verif.Files.Model

/-
What is asked of a file system, in terms of histories.
-/
namespace Verif.Files

/-- A history: the operations, latest first, each with whether it succeeded. -/
abbrev History := List (Op × Bool)

/-- The states a history leads to. -/
inductive Reached : History → Fs → Prop
  | start : Reached [] .initial
  | next {h fs} (op : Op) : Reached h fs → Reached ((op, (fs.apply op).2) :: h) (fs.apply op).1

/-- What a path holds after a history, by looking for the latest operation that concerned it. -/
def latest : History → Path → Option String
  | [], _ => none
  | (_, false) :: h, p => latest h p
  | (.write q content, true) :: h, p => if q = p then some content else latest h p
  | (.mkdir _, true) :: h, p => latest h p
  | (.copy source target, true) :: h, p => if target = p then latest h source else latest h p
  | (.hardlink source target, true) :: h, p => if target = p then latest h source else latest h p
  | (.deleteFile q, true) :: h, p => if q = p then none else latest h p
  | (.deleteDirectory q, true) :: h, p => if q <:+ p ∧ p ≠ [] then none else latest h p
  | (.reset, true) :: _, _ => none

/-- The root is a directory and everything is in a directory. -/
def Tree (fs : Fs) : Prop := fs [] = some .directory ∧ ∀ c parent, fs (c :: parent) ≠ none → fs parent = some .directory

/-- `a` is a directory above `p`. -/
def Above (a p : Path) : Prop := a <:+ p ∧ a ≠ p

/-- Operations that leave the shape of a tree intact: files are not written over directories or below files, links are made in existing
directories, and the file system is not reset. -/
def Careful (fs : Fs) : Op → Prop
  | .write p _ => fs p ≠ some .directory ∧ p ≠ [] ∧ ∀ a, Above a p → fs.isFile a = false
  | .copy _ p => fs p ≠ some .directory ∧ p ≠ [] ∧ ∀ a, Above a p → fs.isFile a = false
  | .mkdir p => ∀ a, Above a p → fs.isFile a = false
  | .hardlink source target => (∃ c parent, target = c :: parent ∧ fs parent = some .directory) ∧ fs source ≠ some .directory ∧
      fs target ≠ some .directory
  | .deleteFile _ => True
  | .deleteDirectory _ => True
  | .reset => False

/-- States reached by careful operations only. -/
inductive CarefullyReached : Fs → Prop
  | start : CarefullyReached .initial
  | next {fs} (op : Op) : CarefullyReached fs → Careful fs op → CarefullyReached (fs.apply op).1

/-- The text the editor has for a path and has not saved yet, after some events (latest first). -/
def unsaved : List Event → Path → Option String
  | [], _ => none
  | .opened q text :: es, p => if q = p then some text else unsaved es p
  | .changed q text :: es, p => if q = p then some text else unsaved es p
  | .saved q :: es, p => if q = p then none else unsaved es p
  | .closed q :: es, p => if q = p then none else unsaved es p
  | .diskChanged _ :: es, p => unsaved es p

/-- The disk after some events. -/
def diskAfter (disk : Path → Option String) : List Event → Path → Option String
  | [] => disk
  | .diskChanged d :: _ => d
  | _ :: es => diskAfter disk es

/-- The text shown in the editor, if the path is open. -/
def shown : List Event → Path → Option String
  | [], _ => none
  | .opened q text :: es, p => if q = p then some text else shown es p
  | .changed q text :: es, p => if q = p then some text else shown es p
  | .saved _ :: es, p => shown es p
  | .closed q :: es, p => if q = p then none else shown es p
  | .diskChanged _ :: es, p => shown es p

/-- The documents of the editor. -/
def Event.document : Event → Option Path
  | .opened p _ => some p
  | .changed p _ => some p
  | .saved p => some p
  | .closed p => some p
  | .diskChanged _ => none

/-- Documents are files: none of them is a directory that another is in. -/
def DocumentsAreFiles (es : List Event) : Prop :=
  ∀ e ∈ es, ∀ p, e.document = some p → p ≠ [] ∧ ∀ e' ∈ es, ∀ q, e'.document = some q → ¬ Above p q

/-- Saving puts the shown text on the disk, and the disk file of an open document is only changed by saving it. -/
def DiskFollowsEditor (disk : Path → Option String) : List Event → Prop
  | [] => True
  | .saved p :: es => (∀ t, shown es p = some t → diskAfter disk es p = some t) ∧ DiskFollowsEditor disk es
  | .diskChanged d :: es =>
    (∀ p t, shown es p = some t → unsaved es p = none → d p = some t) ∧ DiskFollowsEditor disk es
  | _ :: es => DiskFollowsEditor disk es

end Verif.Files
