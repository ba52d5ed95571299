import Verif.Files.Spec

namespace Verif.Files

theorem isFile_iff {fs : Fs} {p : Path} : fs.isFile p = true ↔ ∃ c, fs p = some (.file c) := by
  unfold Fs.isFile
  cases h : fs p with
  | none => simp
  | some e => cases e <;> simp [Entry.isDirectory]

theorem isDirectory_iff {fs : Fs} {p : Path} : fs.isDirectory p = true ↔ fs p = some .directory := by
  unfold Fs.isDirectory
  cases h : fs p with
  | none => simp
  | some e => cases e <;> simp [Entry.isDirectory]

theorem read_eq_some {fs : Fs} {p : Path} {c : String} : fs.read p = some c ↔ fs p = some (.file c) := by
  unfold Fs.read
  cases h : fs p with
  | none => simp
  | some e => cases e <;> simp

theorem read_insert (fs : Fs) (p q : Path) (e : Entry) :
    (fs.insert p e).read q = if q = p then (match e with | .file c => some c | .directory => none) else fs.read q := by
  by_cases h : q = p
  · cases e <;> simp [Fs.read, Fs.insert, h]
  · simp [Fs.read, Fs.insert, h]

theorem read_of_not_isFile {fs : Fs} {p : Path} (h : fs.isFile p = false) : fs.read p = none := by
  cases hr : fs.read p with
  | none => rfl
  | some c =>
    have := isFile_iff.2 ⟨c, read_eq_some.1 hr⟩
    rw [h] at this
    cases this

/-- Making directories never touches files. -/
theorem mkdir_read : ∀ (p : Path) (fs : Fs) (q : Path), (fs.mkdir p).1.read q = fs.read q
  | [], fs, q => by
    unfold Fs.mkdir
    split
    · rfl
    · rename_i h
      simp only
      rw [read_insert]
      split
      · rename_i hq
        rw [hq, read_of_not_isFile (by simpa using h)]
      · rfl
  | c :: parent, fs, q => by
    unfold Fs.mkdir
    split
    · rfl
    · rename_i h
      rw [mkdir_read parent, read_insert]
      split
      · rename_i hq
        rw [hq, read_of_not_isFile (by simpa using h)]
      · rfl

theorem suffix_cons_iff {a : Path} {c : String} {p : Path} : a <:+ (c :: p) ↔ a = c :: p ∨ a <:+ p := List.suffix_cons_iff

/-- What `mkdir` leaves: directories above and at the path if nothing is in the way; everything else as it was. -/
theorem mkdir_spec : ∀ (p : Path) (fs : Fs),
    ((fs.mkdir p).2 = true ↔ ∀ a, a <:+ p → fs.isFile a = false) ∧
    (∀ q, ¬ q <:+ p → (fs.mkdir p).1 q = fs q) ∧
    ((fs.mkdir p).2 = true → ∀ q, q <:+ p → (fs.mkdir p).1 q = some .directory)
  | [], fs => by
    unfold Fs.mkdir
    by_cases h : fs.isFile [] = true
    · simp [h]
    · simp only [h, Bool.false_eq_true, if_false]
      refine ⟨?_, ?_, ?_⟩
      · simp [List.suffix_nil, h]
      · intro q hq
        rw [List.suffix_nil] at hq
        simp [Fs.insert, hq]
      · intro _ q hq
        rw [List.suffix_nil] at hq
        simp [Fs.insert, hq]
  | c :: parent, fs => by
    unfold Fs.mkdir
    by_cases h : fs.isFile (c :: parent) = true
    · simp only [h, if_true]
      refine ⟨⟨by simp, fun hh => ?_⟩, by simp, by simp⟩
      rw [hh _ (List.suffix_refl _)] at h
      simp at h
    · simp only [h, Bool.false_eq_true, if_false]
      obtain ⟨h1, h2, h3⟩ := mkdir_spec parent (fs.insert (c :: parent) .directory)
      have hnot : ¬ (c :: parent) <:+ parent := fun hs => by
        have := hs.length_le
        simp at this
        omega
      have hne : ∀ a, a <:+ parent → (fs.insert (c :: parent) .directory).isFile a = fs.isFile a := by
        intro a ha
        have : a ≠ c :: parent := fun he => hnot (he ▸ ha)
        simp [Fs.isFile, Fs.insert, this]
      refine ⟨?_, ?_, ?_⟩
      · rw [h1]
        constructor
        · intro hh a ha
          rcases suffix_cons_iff.1 ha with rfl | ha
          · simpa using h
          · rw [← hne a ha]
            exact hh a ha
        · intro hh a ha
          rw [hne a ha]
          exact hh a (suffix_cons_iff.2 (.inr ha))
      · intro q hq
        rw [suffix_cons_iff, not_or] at hq
        rw [h2 q hq.2]
        simp [Fs.insert, hq.1]
      · intro hok q hq
        rcases suffix_cons_iff.1 hq with rfl | hq
        · rw [h2 _ hnot]
          simp [Fs.insert]
        · exact h3 hok q hq

theorem write_read (fs : Fs) (p : Path) (content : String) (q : Path) :
    (fs.write p content).1.read q = if (fs.write p content).2 = true ∧ p = q then some content else fs.read q := by
  unfold Fs.write
  cases p with
  | nil =>
    simp only [true_and]
    rw [read_insert]
    by_cases h : q = []
    · simp [h]
    · simp [h, Ne.symm h]
  | cons c parent =>
    have hr := mkdir_read parent fs
    cases hok : (fs.mkdir parent).2 with
    | false => simp [hok, hr]
    | true =>
      simp only [hok, if_true, true_and]
      rw [read_insert, hr]
      by_cases h : q = c :: parent
      · simp [h]
      · simp [h, Ne.symm h]

theorem deleteDirectory_spec {fs : Fs} {p : Path} (hf : fs.isFile p = false) :
    (fs.deleteDirectory p).2 = true ∧ ∀ q, (fs.deleteDirectory p).1 q = if q ≠ [] ∧ p <:+ q then none else fs q := by
  unfold Fs.deleteDirectory
  simp only [hf, Bool.false_eq_true, if_false, true_and]
  intro q
  split
  · rfl
  · rename_i hq
    split
    · rename_i hp
      have : q ≠ p := fun he => hq ⟨he ▸ hp, he ▸ List.suffix_refl _⟩
      simp [Fs.remove, this]
    · rfl

/-- One operation. -/
theorem apply_read (fs : Fs) (op : Op) (h : History) (ih : ∀ q, fs.read q = latest h q) (p : Path) :
    (fs.apply op).1.read p = latest ((op, (fs.apply op).2) :: h) p := by
  cases op with
  | write q content =>
    simp only [Fs.apply]
    rw [write_read]
    cases (fs.write q content).2 with
    | false => simp [latest, ih]
    | true =>
      simp only [true_and, latest]
      split
      · rfl
      · exact ih p
  | mkdir q =>
    simp only [Fs.apply]
    rw [mkdir_read, ih]
    cases (fs.mkdir q).2 <;> simp [latest]
  | copy source target =>
    simp only [Fs.apply, Fs.copy]
    cases hr : fs.read source with
    | none => simp [latest, ih]
    | some content =>
      simp only
      rw [write_read]
      cases (fs.write target content).2 with
      | false => simp [latest, ih]
      | true =>
        simp only [true_and, latest]
        split
        · rw [← ih, hr]
        · exact ih p
  | hardlink source target =>
    simp only [Fs.apply, Fs.hardlink]
    cases hr : fs source with
    | none => simp [latest, ih]
    | some e =>
      simp only [latest]
      rw [read_insert]
      by_cases ht : p = target
      · rw [if_pos ht, if_pos ht.symm, ← ih]
        unfold Fs.read
        rw [hr]
        cases e <;> rfl
      · rw [if_neg ht, if_neg (Ne.symm ht), ih]
  | deleteFile q =>
    simp only [Fs.apply, Fs.deleteFile]
    split
    · simp [latest, ih]
    · simp only [latest]
      by_cases hq : p = q
      · simp [Fs.read, Fs.remove, hq]
      · rw [if_neg (Ne.symm hq), ← ih]
        simp [Fs.read, Fs.remove, hq]
  | deleteDirectory q =>
    simp only [Fs.apply]
    cases hf : fs.isFile q with
    | true => simp [Fs.deleteDirectory, hf, latest, ih]
    | false =>
      obtain ⟨hok, hs⟩ := deleteDirectory_spec hf
      rw [hok]
      simp only [latest]
      by_cases hp : p ≠ [] ∧ q <:+ p
      · simp only [Fs.read, hs]
        simp [hp]
      · have : ¬ (q <:+ p ∧ p ≠ []) := fun h => hp ⟨h.2, h.1⟩
        rw [← ih]
        simp only [Fs.read, hs, if_neg hp, if_neg this]
  | reset =>
    simp [Fs.apply, Fs.reset, latest, Fs.read]

theorem read_latest {h : History} {fs : Fs} (r : Reached h fs) : ∀ p, fs.read p = latest h p := by
  induction r with
  | start =>
    intro p
    by_cases h : p = []
    · simp [Fs.read, Fs.initial, latest, h]
    · simp [Fs.read, Fs.initial, latest, h]
  | next op _ ih => exact fun p => apply_read _ op _ ih p

/-! ### Trees -/

theorem tree_initial : Tree .initial := ⟨by simp [Fs.initial], by simp [Fs.initial]⟩

theorem above_iff {a : Path} {c : String} {parent : Path} : Above a (c :: parent) ↔ a <:+ parent := by
  unfold Above
  rw [suffix_cons_iff]
  constructor
  · rintro ⟨rfl | h, hne⟩
    · exact absurd rfl hne
    · exact h
  · intro h
    refine ⟨.inr h, fun he => ?_⟩
    have := h.length_le
    rw [he] at this
    simp at this
    omega

/-- Making directories where no file is in the way keeps a tree, and makes them. -/
theorem tree_mkdir {fs : Fs} (h : Tree fs) {p : Path} (hok : ∀ a, a <:+ p → fs.isFile a = false) :
    Tree (fs.mkdir p).1 ∧ (fs.mkdir p).1 p = some .directory ∧ (fs.mkdir p).2 = true := by
  obtain ⟨h1, h2, h3⟩ := mkdir_spec p fs
  have ht := h1.2 hok
  refine ⟨⟨h3 ht [] (List.nil_suffix), fun c parent hne => ?_⟩, h3 ht p (List.suffix_refl _), ht⟩
  by_cases hs : parent <:+ p
  · exact h3 ht parent hs
  · rw [h2 parent hs]
    have hs' : ¬ (c :: parent) <:+ p := fun h => hs ((List.suffix_cons c parent).trans h)
    rw [h2 _ hs'] at hne
    exact h.2 c parent hne

theorem tree_insert_file {fs : Fs} (h : Tree fs) {c : String} {parent : Path} (hp : fs parent = some .directory)
    (hne : fs (c :: parent) ≠ some .directory) (content : String) : Tree (fs.insert (c :: parent) (.file content)) := by
  refine ⟨by simp [Fs.insert, h.1], fun c' parent' he => ?_⟩
  have hpar : fs parent' = some .directory := by
    by_cases heq : c' :: parent' = c :: parent
    · cases heq
      exact hp
    · simp only [Fs.insert, heq, if_false] at he
      exact h.2 _ _ he
  have : parent' ≠ c :: parent := by
    rintro rfl
    exact hne hpar
  simp [Fs.insert, this, hpar]

theorem tree_write {fs : Fs} (h : Tree fs) {p : Path} (content : String) (hd : fs p ≠ some .directory) (h0 : p ≠ [])
    (hok : ∀ a, Above a p → fs.isFile a = false) : Tree (fs.write p content).1 := by
  cases p with
  | nil => exact absurd rfl h0
  | cons c parent =>
    have hok' : ∀ a, a <:+ parent → fs.isFile a = false := fun a ha => hok a (above_iff.2 ha)
    obtain ⟨ht, hp, hb⟩ := tree_mkdir h hok'
    simp only [Fs.write, hb, if_true]
    refine tree_insert_file ht hp ?_ content
    have hnot : ¬ (c :: parent) <:+ parent := fun hs => by
      have := hs.length_le
      simp at this
      omega
    rw [(mkdir_spec parent fs).2.1 _ hnot]
    exact hd

theorem tree_remove {fs : Fs} (h : Tree fs) {p : Path} (hd : fs p ≠ some .directory) : Tree (fs.remove p) := by
  have h0 : p ≠ [] := fun he => hd (he ▸ h.1)
  refine ⟨by simp [Fs.remove, Ne.symm h0, h.1], fun c parent hne => ?_⟩
  have hx : fs (c :: parent) ≠ none := by
    unfold Fs.remove at hne
    split at hne
    · exact absurd rfl hne
    · exact hne
  have hp := h.2 c parent hx
  have : parent ≠ p := fun he => hd (he ▸ hp)
  simp [Fs.remove, this, hp]

theorem tree_deleteDirectory {fs : Fs} (h : Tree fs) (p : Path) : Tree (fs.deleteDirectory p).1 := by
  by_cases hf : fs.isFile p = true
  · unfold Fs.deleteDirectory
    simp [hf, h]
  · obtain ⟨_, hs⟩ := deleteDirectory_spec (fs := fs) (p := p) (by simpa using hf)
    refine ⟨by rw [hs]; simp [h.1], fun c parent hne => ?_⟩
    rw [hs] at hne ⊢
    split at hne
    · exact absurd rfl hne
    · rename_i hc
      rw [if_neg]
      · exact h.2 c parent hne
      · rintro ⟨_, hp⟩
        exact hc ⟨by simp, hp.trans (List.suffix_cons c parent)⟩

theorem tree_apply {fs : Fs} (h : Tree fs) {op : Op} (hc : Careful fs op) : Tree (fs.apply op).1 := by
  cases op with
  | write p content => exact tree_write h content hc.1 hc.2.1 hc.2.2
  | mkdir p =>
    simp only [Fs.apply]
    by_cases hf : fs.isFile p = true
    · cases p with
      | nil =>
        unfold Fs.mkdir
        simp [hf, h]
      | cons c parent =>
        unfold Fs.mkdir
        simp [hf, h]
    · refine (tree_mkdir h fun a ha => ?_).1
      by_cases he : a = p
      · rw [he]
        simpa using hf
      · exact hc a ⟨ha, he⟩
  | copy source target =>
    simp only [Fs.apply, Fs.copy]
    cases fs.read source with
    | none => exact h
    | some content => exact tree_write h content hc.1 hc.2.1 hc.2.2
  | hardlink source target =>
    obtain ⟨⟨c, parent, rfl, hp⟩, hs, ht⟩ := hc
    simp only [Fs.apply, Fs.hardlink]
    cases hr : fs source with
    | none => exact h
    | some e =>
      cases e with
      | file content => exact tree_insert_file h hp ht content
      | directory => exact absurd hr hs
  | deleteFile p =>
    simp only [Fs.apply, Fs.deleteFile]
    split
    · exact h
    · rename_i hd
      exact tree_remove h fun he => hd (isDirectory_iff.2 he)
  | deleteDirectory p => exact tree_deleteDirectory h p
  | reset => exact absurd hc (by simp [Careful])

/-! ### The proxy -/

/-- What the cache holds after some events. -/
structure CacheInv (es : List Event) (cache : Fs) : Prop where
  open_ : ∀ p t, unsaved es p = some t → cache p = some (.file t)
  other : ∀ p, unsaved es p = none → cache p = none ∨ (cache p = some .directory ∧ (p = [] ∨ ∃ e ∈ es, ∃ q, e.document = some q ∧ Above p q))

theorem cache_read {es : List Event} {cache : Fs} (h : CacheInv es cache) (p : Path) : cache.read p = unsaved es p := by
  cases hu : unsaved es p with
  | some t => exact read_eq_some.2 (h.open_ p t hu)
  | none =>
    unfold Fs.read
    rcases h.other p hu with h | ⟨h, _⟩ <;> rw [h]

theorem files_mono {e : Event} {es : List Event} (h : DocumentsAreFiles (e :: es)) : DocumentsAreFiles es :=
  fun e' he' p hp => ⟨(h e' (List.mem_cons_of_mem _ he') p hp).1,
    fun e'' he'' q hq => (h e' (List.mem_cons_of_mem _ he') p hp).2 e'' (List.mem_cons_of_mem _ he'') q hq⟩

theorem unsaved_document {es : List Event} {p : Path} {t : String} (h : unsaved es p = some t) : ∃ e ∈ es, e.document = some p := by
  induction es with
  | nil => simp [unsaved] at h
  | cons e es ih =>
    have rest : unsaved es p = some t → ∃ e' ∈ e :: es, e'.document = some p := fun h => by
      obtain ⟨e', he', hd⟩ := ih h
      exact ⟨e', List.mem_cons_of_mem _ he', hd⟩
    cases e with
    | opened q text =>
      simp only [unsaved] at h
      split at h
      · rename_i hq
        exact ⟨_, List.mem_cons_self .., by simp [Event.document, hq]⟩
      · exact rest h
    | changed q text =>
      simp only [unsaved] at h
      split at h
      · rename_i hq
        exact ⟨_, List.mem_cons_self .., by simp [Event.document, hq]⟩
      · exact rest h
    | saved q =>
      simp only [unsaved] at h
      split at h
      · cases h
      · exact rest h
    | closed q =>
      simp only [unsaved] at h
      split at h
      · cases h
      · exact rest h
    | diskChanged d => exact rest h

/-- Opening or changing a document. -/
theorem inv_write {e : Event} {es : List Event} {cache : Fs} (h : CacheInv es cache) {c : String} {parent : Path} {text : String}
    (hd : e.document = some (c :: parent)) (hf : DocumentsAreFiles (e :: es))
    (hu : ∀ p, unsaved (e :: es) p = if c :: parent = p then some text else unsaved es p) :
    CacheInv (e :: es) (cache.write (c :: parent) text).1 := by
  have hfree : ∀ a, a <:+ parent → cache.isFile a = false := by
    intro a ha
    cases hx : cache.isFile a with
    | false => rfl
    | true =>
      exfalso
      obtain ⟨t, ht⟩ := isFile_iff.1 hx
      cases hua : unsaved es a with
      | none => rcases h.other a hua with h | ⟨h, _⟩ <;> rw [h] at ht <;> cases ht
      | some t' =>
        obtain ⟨e', he', hd'⟩ := unsaved_document hua
        exact (hf e' (List.mem_cons_of_mem _ he') a hd').2 e (List.mem_cons_self ..) _ hd (above_iff.2 ha)
  obtain ⟨h1, h2, h3⟩ := mkdir_spec parent cache
  have hok := h1.2 hfree
  have hw : ∀ p, (cache.write (c :: parent) text).1 p = if p = c :: parent then some (.file text)
      else if p <:+ parent then some .directory else cache p := by
    intro p
    simp only [Fs.write, hok, if_true, Fs.insert]
    split
    · rfl
    · split
      · rename_i hp
        exact h3 hok p hp
      · rename_i hp
        exact h2 p hp
  have hnot_doc : ∀ p, p <:+ parent → unsaved es p = none := by
    intro p hp
    cases hua : unsaved es p with
    | none => rfl
    | some t =>
      have := hfree p hp
      rw [isFile_iff.2 ⟨t, h.open_ p t hua⟩] at this
      cases this
  constructor
  · intro p t hp
    rw [hu] at hp
    rw [hw]
    by_cases he : p = c :: parent
    · rw [if_pos he.symm] at hp
      cases hp
      rw [if_pos he]
    · rw [if_neg (Ne.symm he)] at hp
      rw [if_neg he, if_neg]
      · exact h.open_ p t hp
      · intro hs
        rw [hnot_doc p hs] at hp
        cases hp
  · intro p hp
    rw [hu] at hp
    rw [hw]
    by_cases he : p = c :: parent
    · rw [if_pos he.symm] at hp
      cases hp
    · rw [if_neg (Ne.symm he)] at hp
      rw [if_neg he]
      split
      · rename_i hs
        exact .inr ⟨rfl, .inr ⟨e, List.mem_cons_self .., _, hd, above_iff.2 hs⟩⟩
      · rcases h.other p hp with h' | ⟨h', h'' | ⟨e', he', q, hq, ha⟩⟩
        · exact .inl h'
        · exact .inr ⟨h', .inl h''⟩
        · exact .inr ⟨h', .inr ⟨e', List.mem_cons_of_mem _ he', q, hq, ha⟩⟩

/-- Saving or closing a document. -/
theorem inv_delete {e : Event} {es : List Event} {disk : Path → Option String} {cache : Fs} (h : CacheInv es cache) {q : Path}
    (hd : e.document = some q) (hf : DocumentsAreFiles (e :: es))
    (hu : ∀ p, unsaved (e :: es) p = if q = p then none else unsaved es p) :
    CacheInv (e :: es) ((Proxy.mk disk cache).deleteMemCache q).editCache := by
  have hq := hf e (List.mem_cons_self ..) q hd
  have hnd : cache.isDirectory q = false := by
    cases hx : cache.isDirectory q with
    | false => rfl
    | true =>
      exfalso
      have hx := isDirectory_iff.1 hx
      cases hua : unsaved es q with
      | some t =>
        rw [h.open_ q t hua] at hx
        cases hx
      | none =>
        rcases h.other q hua with h' | ⟨_, h' | ⟨e', he', q', hq', ha⟩⟩
        · rw [h'] at hx
          cases hx
        · exact hq.1 h'
        · exact hq.2 e' (List.mem_cons_of_mem _ he') q' hq' ha
  unfold Proxy.deleteMemCache
  simp only [hnd, Bool.false_eq_true, if_false, Fs.deleteFile]
  constructor
  · intro p t hp
    rw [hu] at hp
    split at hp
    · cases hp
    · rename_i hne
      simp only [Fs.remove, Ne.symm hne, if_false]
      exact h.open_ p t hp
  · intro p hp
    rw [hu] at hp
    by_cases he : q = p
    · exact .inl (by simp [Fs.remove, he])
    · rw [if_neg he] at hp
      simp only [Fs.remove, Ne.symm he, if_false]
      rcases h.other p hp with h' | ⟨h', h'' | ⟨e', he', q', hq', ha⟩⟩
      · exact .inl h'
      · exact .inr ⟨h', .inl h''⟩
      · exact .inr ⟨h', .inr ⟨e', List.mem_cons_of_mem _ he', q', hq', ha⟩⟩

theorem proxy_inv (disk : Path → Option String) : ∀ es : List Event, DocumentsAreFiles es →
    CacheInv es (es.foldr (fun e p => p.handle e) (Proxy.new disk)).editCache ∧
    (es.foldr (fun e p => p.handle e) (Proxy.new disk)).disk = diskAfter disk es
  | [], _ => by
    refine ⟨⟨by simp [unsaved], fun p _ => ?_⟩, rfl⟩
    simp only [List.foldr_nil, Proxy.new, Fs.initial]
    by_cases h : p = []
    · simp [h]
    · simp [h]
  | e :: es, hf => by
    obtain ⟨hi, hd⟩ := proxy_inv disk es (files_mono hf)
    simp only [List.foldr_cons]
    generalize es.foldr (fun e p => p.handle e) (Proxy.new disk) = px at hi hd ⊢
    cases e with
    | opened q text =>
      refine ⟨?_, by simpa [Proxy.handle, Proxy.writeMemCache, diskAfter] using hd⟩
      cases q with
      | nil => exact absurd rfl (hf _ (List.mem_cons_self ..) [] rfl).1
      | cons c parent => exact inv_write hi rfl hf fun p => by simp [unsaved]
    | changed q text =>
      refine ⟨?_, by simpa [Proxy.handle, Proxy.writeMemCache, diskAfter] using hd⟩
      cases q with
      | nil => exact absurd rfl (hf _ (List.mem_cons_self ..) [] rfl).1
      | cons c parent => exact inv_write hi rfl hf fun p => by simp [unsaved]
    | saved q =>
      refine ⟨?_, by simpa [Proxy.handle, Proxy.deleteMemCache, diskAfter] using hd⟩
      exact inv_delete (disk := px.disk) hi rfl hf fun p => by simp [unsaved]
    | closed q =>
      refine ⟨?_, by simpa [Proxy.handle, Proxy.deleteMemCache, diskAfter] using hd⟩
      exact inv_delete (disk := px.disk) hi rfl hf fun p => by simp [unsaved]
    | diskChanged d =>
      refine ⟨⟨fun p t hp => hi.open_ p t hp, fun p hp => ?_⟩, by simp [Proxy.handle, diskAfter]⟩
      rcases hi.other p hp with h' | ⟨h', h'' | ⟨e', he', q', hq', ha⟩⟩
      · exact .inl h'
      · exact .inr ⟨h', .inl h''⟩
      · exact .inr ⟨h', .inr ⟨e', List.mem_cons_of_mem _ he', q', hq', ha⟩⟩

/-- While the disk follows the editor, an open document without unsaved changes is on the disk. -/
theorem shown_on_disk (disk : Path → Option String) : ∀ es : List Event, DiskFollowsEditor disk es → ∀ p t, shown es p = some t →
    unsaved es p = some t ∨ (unsaved es p = none ∧ diskAfter disk es p = some t)
  | [], _, p, t, h => by simp [shown] at h
  | e :: es, hf, p, t, h => by
    cases e with
    | opened q text =>
      simp only [shown, unsaved, diskAfter] at h ⊢
      split at h
      · rename_i hq
        simp [hq, h]
      · rename_i hq
        simp only [hq, if_false]
        exact shown_on_disk disk es hf p t h
    | changed q text =>
      simp only [shown, unsaved, diskAfter] at h ⊢
      split at h
      · rename_i hq
        simp [hq, h]
      · rename_i hq
        simp only [hq, if_false]
        exact shown_on_disk disk es hf p t h
    | saved q =>
      simp only [DiskFollowsEditor] at hf
      simp only [shown, unsaved, diskAfter] at h ⊢
      by_cases hq : q = p
      · simp only [hq, if_true]
        exact .inr ⟨trivial, hf.1 t (hq ▸ h) |> fun hh => hq ▸ hh⟩
      · simp only [hq, if_false]
        exact shown_on_disk disk es hf.2 p t h
    | closed q =>
      simp only [shown, unsaved, diskAfter] at h ⊢
      split at h
      · cases h
      · rename_i hq
        simp only [hq, if_false]
        exact shown_on_disk disk es hf p t h
    | diskChanged d =>
      simp only [DiskFollowsEditor] at hf
      simp only [shown, unsaved, diskAfter] at h ⊢
      rcases shown_on_disk disk es hf.2 p t h with h' | ⟨h', _⟩
      · exact .inl h'
      · exact .inr ⟨h', hf.1 p t h h'⟩

end Verif.Files
