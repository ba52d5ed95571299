import Verif.Build.Inv

/-
A build of sources that compile succeeds.
-/
namespace Verif.Build

open Relation

variable {Text Iface Out : Type}

/-- The interfaces loaded from the cache are the ones the sources have. -/
theorem cached_correct (C : Compiler Text Iface Out) (codegen : Bool) (σ : State Text Iface Out)
    (dels : List (Op Text Iface Out)) (l : Loaded Text Iface) (seq : List String) (f : Facts C codegen σ dels l seq)
    (n : String) (i : Iface) (h : lookup l.cached n = some i) : Interface C σ.sources n i := by
  have key : ∀ k n i, seq.idxOf n < k → lookup l.cached n = some i → Interface C σ.sources n i := by
    intro k
    induction k with
    | zero => intro n i h; omega
    | succ k ih =>
      intro n i hk hi
      obtain ⟨_, s, mt, hs, _, _, ht, _, him, used, hc, _, hd⟩ := f.cached n i hi
      refine Interface.mk _ s mt.deps used _ hs (ht ▸ him) ?_ (ht ▸ hc)
      intro d hdm
      obtain ⟨h1, h2⟩ := hd d hdm
      exact ih d _ (by have := before_idx f.seqNodup h2; omega) h1
  exact key _ n i (Nat.lt_succ_self _) h

variable [DecidableEq Text]

theorem Inv.empty {C : Compiler Text Iface Out} {names : List String} {σ : State Text Iface Out} {now : Nat} {careful : Bool}
    (inv : Inv C names σ now careful) : Inv C names ⟨σ.sources, Disk.empty⟩ now careful := by
  refine ⟨inv.srcTime, ?_, ?_, inv.srcName, ?_, ?_, ?_⟩ <;> simp [Disk.empty]

theorem complete (C : Compiler Text Iface Out) (codegen : Bool) (names : List String) (hnames : names.Nodup)
    (σ : State Text Iface Out) (now : Nat) (careful : Bool) (inv : Inv C names σ now careful) (hw : Whole σ)
    (hc : Compiles C σ.sources) : (buildPlan C codegen names σ.sources σ.disk).result.isSome := by
  have himp : ∀ n s, σ.sources n = some s → ∃ ds, C.imports s.text = some ds := by
    intro n s hs
    obtain ⟨i, hi⟩ := hc n s hs
    obtain ⟨_, s', ds, _, _, hs', hd, _⟩ := hi
    rw [hs] at hs'; cases hs'
    exact ⟨ds, hd⟩
  obtain ⟨inputs, hin⟩ := readInputs_total C codegen σ.sources σ.disk names himp
  obtain ⟨i1, i2, i3⟩ := readInputs_ok C codegen σ.sources σ.disk names inputs hin
  have hind : (inputs.map (·.1)).Nodup := i1.nodup hnames
  have hdeps : ∀ n i, (n, i) ∈ inputs → ∃ s, σ.sources n = some s ∧ C.imports s.text = some i.deps ∧
      ∀ ds, i = .cached ds → ∃ m, σ.disk.info n = some m := by
    intro n i hi
    obtain ⟨s, hs, hload⟩ := i3 n i hi
    refine ⟨s, hs, ?_⟩
    rcases load_ok C codegen n s _ (fun m hm ht => inv.text n s m hs hm ht) i hload with ⟨u, rfl, hr, _⟩ | ⟨m, rfl, hm, ht, _⟩
    · exact ⟨(readSource_name C n s u hr).2.2.2, fun ds h => by cases h⟩
    · exact ⟨by rw [← ht]; exact inv.deps n m hm, fun ds _ => ⟨m, hm⟩⟩
  -- the modules have an order
  have hord : ∃ seq, DepTree.toposortDeps (inputs.map fun i => (i.1, i.2.deps)) = .ordered seq := by
    rw [DepTree.toposortDeps_ordered_iff _ (by rw [inputs_names]; exact hind)]
    have hacc : ∀ n i, Interface C σ.sources n i →
        Acc (fun d n => DepTree.Imports (inputs.map fun i => (i.1, i.2.deps)) n d) n := by
      intro n i hi
      induction hi with
      | mk n s ds f i hs hd _ _ ih =>
        refine Acc.intro _ ?_
        rintro d ⟨⟨deps, hm, hdd⟩, _⟩
        obtain ⟨⟨n', i'⟩, hi', e⟩ := List.mem_map.mp hm
        simp only [Prod.mk.injEq] at e
        obtain ⟨rfl, rfl⟩ := e
        obtain ⟨s', hs', hd', _⟩ := hdeps n' i' hi'
        rw [hs] at hs'; cases hs'
        rw [hd] at hd'; cases hd'
        exact ih d hdd
    intro m hm
    have hsrc : ∃ s, σ.sources m = some s := by
      obtain ⟨b, ⟨⟨deps, hmem, _⟩, _⟩, _⟩ := TransGen.head'_iff.mp hm
      obtain ⟨⟨n', i'⟩, hi', e⟩ := List.mem_map.mp hmem
      simp only [Prod.mk.injEq] at e
      obtain ⟨rfl, _⟩ := e
      obtain ⟨s, hs, _⟩ := hdeps n' i' hi'
      exact ⟨s, hs⟩
    obtain ⟨s, hs⟩ := hsrc
    obtain ⟨i, hi⟩ := hc m s hs
    have hacc' := (hacc m i hi).transGen
    have hm' : TransGen (fun d n => DepTree.Imports (inputs.map fun i => (i.1, i.2.deps)) n d) m m :=
      transGen_swap.mpr hm
    have hirr : ∀ x, Acc (TransGen fun d n => DepTree.Imports (inputs.map fun i => (i.1, i.2.deps)) n d) x →
        ¬ TransGen (fun d n => DepTree.Imports (inputs.map fun i => (i.1, i.2.deps)) n d) x x := by
      intro x hx
      induction hx with
      | intro x _ ih => exact fun h => ih x h h
    exact hirr m hacc' hm'
  obtain ⟨seq, hseq⟩ := hord
  have hdf := DepTree.toposortDeps_correct (inputs.map fun i => (i.1, i.2.deps)) (by rw [inputs_names]; exact hind)
  rw [hseq] at hdf
  obtain ⟨hperm, _⟩ := hdf
  rw [inputs_names] at hperm
  -- loading has no error
  have hloop : ∃ l, (loadLoop C σ.sources σ.disk inputs seq (removed names σ.sources σ.disk ++ [])).2 = some l := by
    apply loadLoop_total
    intro n hn
    rw [hperm.mem_iff] at hn
    obtain ⟨⟨k, i⟩, hi, rfl⟩ := List.mem_map.mp hn
    refine ⟨i, lookup_mem _ hind _ _ hi, ?_⟩
    intro ds e
    obtain ⟨s, hs, hd, hm⟩ := hdeps k i hi
    obtain ⟨m, hm⟩ := hm ds e
    refine ⟨⟨⟨k, s.text, s.mtime, i.deps⟩, by simp [hs, readSource, hd]⟩, hw k m hm⟩
  obtain ⟨l, hl⟩ := hloop
  have hplan : buildPlan C codegen names σ.sources σ.disk = compileLoaded C codegen (fun _ => none)
      ((removed names σ.sources σ.disk).flatMap deleteFiles ++
        (loadLoop C σ.sources σ.disk inputs seq (removed names σ.sources σ.disk ++ [])).1) l := by
    unfold buildPlan plan
    simp only [hin, hseq, hl]
  have hloaded : (buildPlan C codegen names σ.sources σ.disk).loaded = true := by
    rw [hplan]
    unfold compileLoaded
    cases analyse C l.toCompile (register (fun _ => none) l.cached) <;> rfl
  -- analysis has no error
  obtain ⟨dels, l', seq', f, hplan'⟩ := facts C codegen names hnames σ now careful inv hloaded
  rw [hplan']
  have := analyse_total C σ.sources l'.toCompile f.nodup f.ordered (register (fun _ => none) l'.cached)
    (by intro u hu
        obtain ⟨s, h1, h2, _, h4⟩ := f.src u hu
        exact ⟨s, h1, h2.symm, h4⟩)
    (by intro u hu
        obtain ⟨s, h1, _⟩ := f.src u hu
        exact hc _ s h1)
    (by intro d i hi hd
        obtain ⟨_, s, _, _, _, hs, _⟩ := id hi
        rcases f.cover d s hs with h | ⟨j, hj⟩
        · exact absurd h hd
        · have := hi.unique j (cached_correct C codegen σ dels l' seq' f d j hj)
          simp [register, hj, this])
  obtain ⟨⟨ms, env⟩, ha⟩ := this
  simp [compileLoaded, ha]

/-- A build that runs to its end, whether it succeeds or not, leaves no `.cache_meta` file without its `.cache` file. -/
theorem loadLoop_paired (C : Compiler Text Iface Out) (sources : String → Option (Source Text)) (disk : Disk Text Iface Out)
    (inputs : List (String × Input Text)) (seq stale : List String) (n : String)
    (h : .deleteCache n ∈ (loadLoop C sources disk inputs seq stale).1) :
    .deleteMeta n ∈ (loadLoop C sources disk inputs seq stale).1 := by
  induction seq generalizing stale with
  | nil => simp [loadLoop] at h
  | cons k seq ih =>
    simp only [loadLoop] at h ⊢
    cases hl : lookup inputs k with
    | none => simp [hl] at h
    | some i =>
      cases i with
      | new u => simp only [hl] at h ⊢; exact ih _ h
      | cached ds =>
        simp only [hl] at h ⊢
        by_cases hst : (ds.any fun d => decide (d ∈ stale)) = true
        · rw [if_pos hst] at h ⊢
          cases hr : (sources k).bind (readSource C k) with
          | none => simp only [hr, deleteFiles] at h ⊢; simpa using h
          | some u =>
            simp only [hr, deleteFiles, List.cons_append, List.nil_append, List.mem_cons, reduceCtorEq, false_or,
              Op.deleteCache.injEq, Op.deleteMeta.injEq] at h ⊢
            rcases h with h | h
            · exact .inl h
            · exact .inr (ih _ h)
        · rw [if_neg hst] at h ⊢
          cases hc : disk.cache k with
          | none => simp [hc] at h
          | some i => simp only [hc] at h ⊢; exact ih _ h

/-- The shape of all the changes of a build. -/
theorem ops_shape (C : Compiler Text Iface Out) (codegen : Bool) (names : List String) (σ : State Text Iface Out) :
    (∀ n, .deleteCache n ∈ (buildPlan C codegen names σ.sources σ.disk).deletions →
      .deleteMeta n ∈ (buildPlan C codegen names σ.sources σ.disk).deletions) ∧
    ((buildPlan C codegen names σ.sources σ.disk).writes = [] ∨ ∃ ms,
      (buildPlan C codegen names σ.sources σ.disk).writes = codegenOps codegen ms ++ metadataOps codegen ms) := by
  unfold buildPlan plan
  have hrem : ∀ n, (.deleteCache n : Op Text Iface Out) ∈ (removed names σ.sources σ.disk).flatMap deleteFiles →
      (.deleteMeta n : Op Text Iface Out) ∈ (removed names σ.sources σ.disk).flatMap deleteFiles := by
    intro n h
    rw [mem_flatMap_delete] at h ⊢
    obtain ⟨k, hk, h⟩ := h
    refine ⟨k, hk, .inr ?_⟩
    rcases h with h | h <;> cases h
    rfl
  cases hr : readInputs C codegen σ.sources σ.disk names with
  | none => simp
  | some inputs =>
    simp only
    cases ho : DepTree.toposortDeps (inputs.map fun i => (i.1, i.2.deps)) with
    | ordered seq =>
      simp only
      have hall : ∀ n, .deleteCache n ∈ (removed names σ.sources σ.disk).flatMap deleteFiles ++
            (loadLoop C σ.sources σ.disk inputs seq (removed names σ.sources σ.disk ++ [])).1 →
          .deleteMeta n ∈ (removed names σ.sources σ.disk).flatMap deleteFiles ++
            (loadLoop C σ.sources σ.disk inputs seq (removed names σ.sources σ.disk ++ [])).1 := by
        intro n h
        rcases List.mem_append.mp h with h | h
        · exact List.mem_append_left _ (hrem n h)
        · exact List.mem_append_right _ (loadLoop_paired C _ _ _ _ _ n h)
      cases hl : (loadLoop C σ.sources σ.disk inputs seq (removed names σ.sources σ.disk ++ [])).2 with
      | none => exact ⟨hall, .inl rfl⟩
      | some l =>
        simp only
        unfold compileLoaded
        cases ha : analyse C l.toCompile (register (fun _ => none) l.cached) with
        | none => exact ⟨hall, .inl rfl⟩
        | some r => obtain ⟨ms, env⟩ := r; exact ⟨hall, .inr ⟨ms, rfl⟩⟩
    | cycle _ => exact ⟨hrem, .inl rfl⟩
    | panic => exact ⟨hrem, .inl rfl⟩

theorem whole_build (C : Compiler Text Iface Out) (codegen : Bool) (names : List String) (σ : State Text Iface Out)
    (hw : Whole σ) (k : Nat) (hk : (buildPlan C codegen names σ.sources σ.disk).ops.length ≤ k) :
    Whole (step C names σ (.build codegen k)) := by
  intro n m hm
  simp only [step] at hm ⊢
  rw [List.take_of_length_le hk] at hm ⊢
  obtain ⟨hpair, hwr⟩ := ops_shape C codegen names σ
  unfold Plan.ops at hm ⊢
  generalize (buildPlan C codegen names σ.sources σ.disk).writes = writes at *
  have hdw : ∀ o ∈ writes, (∀ n, o ≠ .deleteCache n) ∧ (∀ n, o ≠ .deleteMeta n) := by
    intro o ho
    rcases hwr with rfl | ⟨ms, rfl⟩
    · simp at ho
    · rcases List.mem_append.mp ho with ho | ho
      · obtain ⟨_, m, _, rfl⟩ := (mem_codegenOps _ _ _).mp ho; simp
      · obtain ⟨m, _, rfl | rfl⟩ := (mem_metadataOps _ _ _).mp ho <;> simp
  have hdd : ∀ o ∈ (buildPlan C codegen names σ.sources σ.disk).deletions,
      (∀ n i, o ≠ .writeCache n i) ∧ (∀ n i, o ≠ .writeMeta n i) := by
    intro o ho
    obtain ⟨k, rfl | rfl, _⟩ := deletions_ok C codegen names σ o ho <;> simp
  generalize (buildPlan C codegen names σ.sources σ.disk).deletions = dels at *
  rw [applyAll_append] at hm ⊢
  -- a cache that is written is there
  have hcw : ∀ (ops : List (Op Text Iface Out)) (d : Disk Text Iface Out), (∀ o ∈ ops, ∀ n, o ≠ .deleteCache n) →
      ((∃ i, .writeCache n i ∈ ops) ∨ ∃ i, d.cache n = some i) → ∃ i, (d.applyAll ops).cache n = some i := by
    intro ops
    induction ops with
    | nil => rintro d _ (⟨i, h⟩ | h)
             · simp at h
             · exact h
    | cons o ops ih =>
      intro d hnd h
      rw [applyAll_cons]
      apply ih _ (fun o ho => hnd o (.tail _ ho))
      by_cases ho : ∃ i, o = .writeCache n i
      · obtain ⟨i, rfl⟩ := ho
        right; exact ⟨i, by simp [Disk.apply, set]⟩
      · rcases h with ⟨i, h⟩ | ⟨i, h⟩
        · rcases List.mem_cons.mp h with h | h
          · exact absurd ⟨i, h.symm⟩ ho
          · exact .inl ⟨i, h⟩
        · right
          exact ⟨i, by rw [cache_apply_other d o n (hnd o (.head _) n) (fun m e => ho ⟨m, e⟩)]; exact h⟩
  apply hcw writes _ (fun o ho => (hdw o ho).1)
  by_cases hwm : ∃ m', .writeMeta n m' ∈ writes
  · left
    obtain ⟨m', hm'⟩ := hwm
    rcases hwr with rfl | ⟨ms, rfl⟩
    · simp at hm'
    · rcases List.mem_append.mp hm' with h | h
      · obtain ⟨_, x, _, h⟩ := (mem_codegenOps _ _ _).mp h; cases h
      · obtain ⟨x, hx, h | h⟩ := (mem_metadataOps _ _ _).mp h
        · cases h
        · cases h
          exact ⟨x.iface, List.mem_append_right _ ((mem_metadataOps _ _ _).mpr ⟨x, hx, .inl rfl⟩)⟩
  · right
    rw [info_other writes _ n (fun h => (hdw _ h).2 n rfl) (fun m' h => hwm ⟨m', h⟩)] at hm
    by_cases hd : .deleteMeta n ∈ dels
    · rw [info_deleted dels _ n hd (fun m h => (hdd _ h).2 n m rfl)] at hm; cases hm
    · rw [info_other dels _ n hd (fun m h => (hdd _ h).2 n m rfl)] at hm
      obtain ⟨i, hi⟩ := hw n m hm
      exact ⟨i, by rw [cache_other dels _ n (fun h => hd (hpair n h)) (fun m h => (hdd _ h).1 n m rfl)]; exact hi⟩

end Verif.Build
