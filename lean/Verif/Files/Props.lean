import Verif.Files.Lemmas

/-
The properties of the in-memory file system (C18) and of the language server's file system (C19).
-/
namespace Verif.Files

/-- **C18**, contents: after any history at all, with failing operations in it or not, reading a path gives what the latest successful
operation that concerned it left there. -/
theorem read_gives_latest {h : History} {fs : Fs} (reached : Reached h fs) (p : Path) : fs.read p = latest h p :=
  read_latest reached p

example : ∃ h fs, Reached h fs ∧ latest h ["b", "d"] = some "x" ∧ latest h ["a"] = some "x" := by
  let s1 := Fs.initial.apply (.write ["a"] "x")
  let s2 := s1.1.apply (.copy ["a"] ["b", "d"])
  let s3 := s2.1.apply (.deleteDirectory ["a"])
  refine ⟨_, s3.1, .next (.deleteDirectory ["a"]) (.next (.copy ["a"] ["b", "d"]) (.next (.write ["a"] "x") .start)), ?_, ?_⟩ <;> decide

/-- **C18**, deletion: a directory is deleted with everything in it, and nothing else; deleting a file deletes that file only. -/
theorem deletion_exact (fs : Fs) (p : Path) :
    (fs p = some .directory → (fs.deleteDirectory p).2 = true) ∧
    ((fs.deleteDirectory p).2 = true → ∀ q, (fs.deleteDirectory p).1 q = if q ≠ [] ∧ p <:+ q then none else fs q) ∧
    ((∃ t, fs p = some (.file t)) → (fs.deleteFile p).2 = true) ∧
    ((fs.deleteFile p).2 = true → ∀ q, (fs.deleteFile p).1 q = if q = p then none else fs q) := by
  refine ⟨fun h => ?_, fun h => ?_, fun ⟨t, h⟩ => ?_, fun h q => ?_⟩
  · exact (deleteDirectory_spec (by simp [Fs.isFile, h, Entry.isDirectory])).1
  · cases hf : fs.isFile p with
    | true => simp [Fs.deleteDirectory, hf] at h
    | false => exact (deleteDirectory_spec hf).2
  · simp [Fs.deleteFile, Fs.isDirectory, h, Entry.isDirectory]
  · unfold Fs.deleteFile at h ⊢
    split at h
    · simp at h
    · rename_i hd
      simp [hd, Fs.remove]

example : Fs.initial.isDirectory [] = true ∧ (Fs.initial.write ["a"] "x").1 ["a"] = some (.file "x") := by decide

/-- **C18**, shape. Missing for the full property: operations that are not careful, see the witnesses below. After any careful history
everything is in a directory. -/
theorem tree_partial {fs : Fs} (h : CarefullyReached fs) : Tree fs := by
  induction h with
  | start => exact tree_initial
  | next op _ hc ih => exact tree_apply ih hc

theorem aboveFree_initial (p : Path) : ∀ a, Above a p → Fs.initial.isFile a = false := by
  intro a _
  by_cases h : a = [] <;> simp [Fs.isFile, Fs.initial, h, Entry.isDirectory]

example : CarefullyReached (Fs.initial.apply (.write ["a", "d"] "x")).1 :=
  .next _ .start ⟨by simp [Fs.initial], by simp, aboveFree_initial _⟩

/-- **C18**, failure. Missing for the full property: making directories below a file, by `mkdir`, `write` or `copy`, see the witness
below. When anything else fails nothing has changed; and whatever fails, no file is created, changed or deleted. -/
theorem failure_partial (fs : Fs) (op : Op) (hfail : (fs.apply op).2 = false) :
    (∀ p, (fs.apply op).1.read p = fs.read p) ∧
    ((match op with
      | .write p _ => ∀ a, Above a p → fs.isFile a = false
      | .copy _ p => ∀ a, Above a p → fs.isFile a = false
      | .mkdir p => ∀ a, Above a p → fs.isFile a = false
      | _ => True) → (fs.apply op).1 = fs) := by
  have hw : ∀ p t, (fs.write p t).2 = false → (∀ a, Above a p → fs.isFile a = false) → False := by
    intro p t hf ha
    cases p with
    | nil => simp [Fs.write] at hf
    | cons c parent =>
      have := (mkdir_spec parent fs).1.2 fun a h => ha a (above_iff.2 h)
      simp [Fs.write, this] at hf
  cases op with
  | write p t =>
    simp only [Fs.apply] at hfail ⊢
    refine ⟨fun q => by rw [write_read, hfail]; simp, fun h => (hw p t hfail h).elim⟩
  | copy s p =>
    simp only [Fs.apply, Fs.copy] at hfail ⊢
    cases hr : fs.read s with
    | none => simp
    | some t =>
      rw [hr] at hfail
      simp only at hfail ⊢
      refine ⟨fun q => by rw [write_read, hfail]; simp, fun h => (hw p t hfail h).elim⟩
  | mkdir p =>
    simp only [Fs.apply] at hfail ⊢
    refine ⟨mkdir_read p fs, fun h => ?_⟩
    have hp : fs.isFile p = true := by
      cases hp : fs.isFile p with
      | true => rfl
      | false =>
        rw [(mkdir_spec p fs).1.2 fun a ha => ?_] at hfail
        · cases hfail
        · by_cases he : a = p
          · rw [he, hp]
          · exact h a ⟨ha, he⟩
    cases p <;> simp [Fs.mkdir, hp]
  | hardlink s t =>
    simp only [Fs.apply, Fs.hardlink] at hfail ⊢
    cases hs : fs s with
    | none => simp
    | some e => simp [hs] at hfail
  | deleteFile p =>
    simp only [Fs.apply, Fs.deleteFile] at hfail ⊢
    split at hfail
    · rename_i h
      simp [h]
    · cases hfail
  | deleteDirectory p =>
    simp only [Fs.apply, Fs.deleteDirectory] at hfail ⊢
    split at hfail
    · rename_i h
      simp [h]
    · cases hfail
  | reset => simp [Fs.apply, Fs.reset] at hfail

example : (Fs.initial.apply (.deleteFile [])).2 = false ∧ (Fs.initial.apply (.hardlink ["a"] ["b"])).2 = false := by decide

/-- **C18** is false of the code: making `/a/b/c` below the file `/a` fails, but `/a/b/c` and `/a/b` exist afterwards, in a file. -/
theorem failing_mkdir_changes : ∃ h fs, Reached h fs ∧ Tree fs ∧ (fs.apply (.mkdir ["c", "b", "a"])).2 = false ∧
    fs ["b", "a"] = none ∧ (fs.apply (.mkdir ["c", "b", "a"])).1 ["b", "a"] = some .directory ∧
    (fs.apply (.mkdir ["c", "b", "a"])).1 ["a"] = some (.file "x") := by
  refine ⟨_, _, .next (.write ["a"] "x") .start, ?_, by decide, by decide, by decide, by decide⟩
  exact tree_write tree_initial "x" (by simp [Fs.initial]) (by simp) (aboveFree_initial _)

/-- **C18** is false of the code: writing a file over a directory succeeds and leaves what was in the directory inside the file. -/
theorem write_over_directory : ∃ h fs, Reached h fs ∧ Tree fs ∧ (fs.apply (.write ["a"] "y")).2 = true ∧
    (fs.apply (.write ["a"] "y")).1 ["a"] = some (.file "y") ∧ (fs.apply (.write ["a"] "y")).1 ["b", "a"] = some (.file "x") := by
  refine ⟨_, _, .next (.write ["b", "a"] "x") .start, ?_, by decide, by decide, by decide⟩
  exact tree_write tree_initial "x" (by simp [Fs.initial]) (by simp) (aboveFree_initial _)

/-- **C18** is false of the code: a link can be made in a directory that does not exist. -/
theorem hardlink_without_parent : ∃ h fs, Reached h fs ∧ Tree fs ∧ (fs.apply (.hardlink ["a"] ["b", "d"])).2 = true ∧
    (fs.apply (.hardlink ["a"] ["b", "d"])).1 ["b", "d"] = some (.file "x") ∧
    (fs.apply (.hardlink ["a"] ["b", "d"])).1 ["d"] = none := by
  refine ⟨_, _, .next (.write ["a"] "x") .start, ?_, by decide, by decide, by decide⟩
  exact tree_write tree_initial "x" (by simp [Fs.initial]) (by simp) (aboveFree_initial _)

/-- **C18** is false of the code: after a reset there is no root, which there is at the start. -/
theorem reset_removes_root : ∃ h fs, Reached h fs ∧ Tree fs ∧ ¬ Tree (fs.apply .reset).1 :=
  ⟨_, _, .start, tree_initial, fun h => by simpa [Fs.apply, Fs.reset] using h.1⟩

/-! ### The language server -/

/-- The proxy after some events, latest first. -/
def Proxy.after (disk : Path → Option String) (events : List Event) : Proxy :=
  events.foldr (fun e p => p.handle e) (Proxy.new disk)

/-- **C19**, exactly: after any history of notifications and of changes of the disk by anyone, reading a path gives the editor's text
if there is one that was not saved yet, and otherwise what is on the disk. -/
theorem reading_exact (disk : Path → Option String) (events : List Event) (docs : DocumentsAreFiles events) (p : Path) :
    (Proxy.after disk events).read p = (unsaved events p <|> diskAfter disk events p) := by
  obtain ⟨hi, hd⟩ := proxy_inv disk events docs
  unfold Proxy.read Proxy.after
  rw [cache_read hi, hd]
  cases unsaved events p <;> rfl

/-- **C19**. Missing for the full property: disks that differ from a saved and still open document, see the witness. A document
that is open reads as the text the editor shows, and a path that is not open as what is on the disk. -/
theorem reading_partial (disk : Path → Option String) (events : List Event) (docs : DocumentsAreFiles events)
    (follows : DiskFollowsEditor disk events) (p : Path) :
    (∀ t, shown events p = some t → (Proxy.after disk events).read p = some t) ∧
    (shown events p = none → (Proxy.after disk events).read p = diskAfter disk events p) := by
  rw [reading_exact disk events docs]
  refine ⟨fun t ht => ?_, fun hn => ?_⟩
  · rcases shown_on_disk disk events follows p t ht with h | ⟨h, h'⟩
    · rw [h]
      rfl
    · rw [h, h']
      rfl
  · have : unsaved events p = none := by
      clear docs follows
      induction events with
      | nil => rfl
      | cons e es ih =>
        cases e <;> simp only [shown, unsaved] at hn ⊢
        · split at hn <;> simp_all
        · split at hn <;> simp_all
        · split <;> simp_all
        · split <;> simp_all
        · exact ih hn
    rw [this]
    rfl

/-- A document in a directory is opened, changed, written to the disk, saved, and another one is opened. -/
def exampleEvents : List Event :=
  [.opened ["b", "d"] "3", .saved ["a", "d"], .diskChanged (fun p => if p = ["a", "d"] then some "2" else none),
    .changed ["a", "d"] "2", .opened ["a", "d"] "1"]

example : DocumentsAreFiles exampleEvents ∧ DiskFollowsEditor (fun _ => none) exampleEvents ∧
    shown exampleEvents ["a", "d"] = some "2" ∧ unsaved exampleEvents ["a", "d"] = none ∧ unsaved exampleEvents ["b", "d"] = some "3" := by
  refine ⟨?_, ?_, by decide, by decide, by decide⟩
  · have hdocs : ∀ e ∈ exampleEvents, ∀ p, e.document = some p → p = ["a", "d"] ∨ p = ["b", "d"] := by
      intro e he p hp
      simp only [exampleEvents, List.mem_cons, List.not_mem_nil, or_false] at he
      rcases he with rfl | rfl | rfl | rfl | rfl <;> simp [Event.document] at hp <;> simp [← hp]
    intro e he p hp
    refine ⟨by rcases hdocs e he p hp with rfl | rfl <;> simp, fun e' he' q hq ha => ?_⟩
    have hlen : p.length = q.length := by
      rcases hdocs e he p hp with rfl | rfl <;> rcases hdocs e' he' q hq with rfl | rfl <;> rfl
    exact ha.2 (ha.1.eq_of_length hlen)
  · simp only [exampleEvents, DiskFollowsEditor, shown, unsaved, diskAfter, and_true]
    refine ⟨fun t ht => by simpa using ht, fun p t hs hu => ?_⟩
    by_cases h : ["a", "d"] = p
    · simp [h] at hu
    · simp [h] at hs

/-- **C19** is false of the code as stated: once a document was saved, it reads as whatever another program puts on the disk, though it
is still open and its text in the editor is another. -/
theorem saved_document_not_shadowed : ∃ (disk : Path → Option String) (events : List Event) (p : Path), DocumentsAreFiles events ∧
    shown events p = some "mine" ∧ (Proxy.after disk events).read p = some "theirs" := by
  refine ⟨fun _ => none, [.diskChanged fun _ => some "theirs", .saved ["a"], .opened ["a"] "mine"], ["a"], ?_, by decide, by decide⟩
  intro e he p hp
  have hp' : ∀ e ∈ [Event.diskChanged fun _ => some "theirs", .saved ["a"], .opened ["a"] "mine"], ∀ p, e.document = some p → p = ["a"] := by
    intro e he p hp
    simp only [List.mem_cons, List.not_mem_nil, or_false] at he
    rcases he with rfl | rfl | rfl <;> simp [Event.document] at hp <;> exact hp.symm
  refine ⟨by rw [hp' e he p hp]; simp, fun e' he' q hq ha => ha.2 ?_⟩
  rw [hp' e he p hp, hp' e' he' q hq]

end Verif.Files
