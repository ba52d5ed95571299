import Verif.Build.Lemmas

/-
The invariant of the build directory.
-/
namespace Verif.Build

variable {Text Iface Out : Type}

/-- The cached interface of `d`, if there is one, is `i`. -/
def Consistent (σ : State Text Iface Out) (d : String) (i : Iface) : Prop :=
  (∃ m, σ.disk.info d = some m) ∧ ∀ j, σ.disk.cache d = some j → j = i

/-- The next build will find `d` to be stale. -/
def WillBeStale (σ : State Text Iface Out) (careful : Bool) (d : String) : Prop :=
  ((∃ s, σ.sources d = some s) ∧ σ.disk.info d = none) ∨
  (careful = true ∧ ∃ m, σ.disk.info d = some m ∧ ∀ s, σ.sources d = some s → s.text ≠ m.text)

/-- The cache entry of a module is right about its text and about the interfaces it was compiled with. -/
structure Inv (C : Compiler Text Iface Out) (names : List String) (σ : State Text Iface Out) (now : Nat) (careful : Bool) :
    Prop where
  srcTime : ∀ n s, σ.sources n = some s → s.mtime ≤ now
  infoTime : ∀ n m, σ.disk.info n = some m → m.mtime ≤ now
  text : ∀ n s m, σ.sources n = some s → σ.disk.info n = some m → ¬ m.mtime < s.mtime → m.text = s.text
  srcName : ∀ n s, σ.sources n = some s → n ∈ names
  infoName : ∀ n m, σ.disk.info n = some m → n ∈ names
  deps : ∀ n m, σ.disk.info n = some m → C.imports m.text = some m.deps
  valid : ∀ n m i, σ.disk.info n = some m → σ.disk.cache n = some i →
    (careful = true → ∃ s, σ.sources n = some s ∧ s.text = m.text) →
    ∃ used : String → Iface, C.check n m.text (m.deps.map used) = some i ∧
      (m.codegen = true → σ.disk.out n = some (C.gen n m.text (m.deps.map used))) ∧
      ∀ d ∈ m.deps, Consistent σ d (used d) ∨ WillBeStale σ careful d

/-- What is known about a build that loaded its modules. -/
structure Facts (C : Compiler Text Iface Out) (codegen : Bool) (σ : State Text Iface Out)
    (dels : List (Op Text Iface Out)) (l : Loaded Text Iface) (seq : List String) : Prop where
  seqNodup : seq.Nodup
  nodup : (l.toCompile.map (·.name)).Nodup
  ordered : Ordered l.toCompile
  seqIff : ∀ n, n ∈ seq ↔ ∃ s, σ.sources n = some s
  src : ∀ u ∈ l.toCompile, ∃ s, σ.sources u.name = some s ∧ u.text = s.text ∧ u.mtime = s.mtime ∧ C.imports s.text = some u.deps
  cover : ∀ n s, σ.sources n = some s → n ∈ l.toCompile.map (·.name) ∨ ∃ i, lookup l.cached n = some i
  before : ∀ u ∈ l.toCompile, ∀ d ∈ u.deps, ∀ s, σ.sources d = some s → DepTree.Before seq d u.name
  cached : ∀ n i, lookup l.cached n = some i → n ∉ l.toCompile.map (·.name) ∧ ∃ s m, σ.sources n = some s ∧
    σ.disk.info n = some m ∧ σ.disk.cache n = some i ∧ m.text = s.text ∧ (codegen = true → m.codegen = true) ∧
    C.imports m.text = some m.deps ∧ ∃ used : String → Iface, C.check n m.text (m.deps.map used) = some i ∧
      (m.codegen = true → σ.disk.out n = some (C.gen n m.text (m.deps.map used))) ∧
      ∀ d ∈ m.deps, lookup l.cached d = some (used d) ∧ DepTree.Before seq d n
  onlyDel : ∀ o ∈ dels, ∃ n, (o = .deleteCache n ∨ o = .deleteMeta n) ∧ lookup l.cached n = none
  delGone : ∀ n m, σ.sources n = none → σ.disk.info n = some m → .deleteMeta n ∈ dels
  delStale : ∀ u ∈ l.toCompile, .deleteMeta u.name ∈ dels ∨
    ∀ m, σ.disk.info u.name = some m → m.text ≠ u.text ∨ (codegen = true ∧ m.codegen = false)

theorem not_sublist_swapped {a b : List String} {x d : String} (hn : (a ++ x :: b).Nodup) (hd : d ∈ a) :
    ¬ [x, d].Sublist (a ++ x :: b) := by
  intro h
  obtain ⟨hna, hnb, hdis⟩ := List.nodup_append.mp hn
  have hxa : x ∉ a := fun hx => hdis x hx x (.head _) rfl
  have hdx : d ≠ x := fun e => hxa (e ▸ hd)
  obtain ⟨l1, l2, e, h1, h2⟩ := List.sublist_append_iff.mp h
  match l1, e with
  | [], e =>
    simp only [List.nil_append] at e
    subst e
    have : d ∈ x :: b := h2.subset (.tail _ (.head _))
    exact hdis d hd d this rfl
  | y :: l1, e =>
    simp only [List.cons_append, List.cons.injEq] at e
    exact hxa (e.1 ▸ h1.subset (.head _))

variable [DecidableEq Text]

theorem buildPlan_loaded (C : Compiler Text Iface Out) (codegen : Bool) (names : List String) (σ : State Text Iface Out)
    (h : (buildPlan C codegen names σ.sources σ.disk).loaded = true) :
    ∃ inputs seq l, readInputs C codegen σ.sources σ.disk names = some inputs ∧
      DepTree.toposortDeps (inputs.map fun i => (i.1, i.2.deps)) = .ordered seq ∧
      (loadLoop C σ.sources σ.disk inputs seq (removed names σ.sources σ.disk ++ [])).2 = some l ∧
      buildPlan C codegen names σ.sources σ.disk = compileLoaded C codegen (fun _ => none)
        ((removed names σ.sources σ.disk).flatMap deleteFiles ++
          (loadLoop C σ.sources σ.disk inputs seq (removed names σ.sources σ.disk ++ [])).1) l := by
  unfold buildPlan plan at h ⊢
  cases hr : readInputs C codegen σ.sources σ.disk names with
  | none => simp [hr] at h
  | some inputs =>
    simp only [hr] at h ⊢
    cases ho : DepTree.toposortDeps (inputs.map fun i => (i.1, i.2.deps)) with
    | ordered seq =>
      simp only [ho] at h ⊢
      cases hl : (loadLoop C σ.sources σ.disk inputs seq (removed names σ.sources σ.disk ++ [])).2 with
      | none => simp only [hl] at h; cases h
      | some l => exact ⟨inputs, seq, l, rfl, ho, hl, by simp only [hl]⟩
    | cycle _ => simp [ho] at h
    | panic => simp [ho] at h

theorem mem_removed (names : List String) (sources : String → Option (Source Text)) (disk : Disk Text Iface Out) (n : String) :
    n ∈ removed names sources disk ↔ n ∈ names ∧ (∃ m, disk.info n = some m) ∧ sources n = none := by
  unfold removed
  simp only [List.mem_filter, Bool.and_eq_true, Option.isSome_iff_exists, Option.isNone_iff_eq_none]

theorem mem_flatMap_delete (ns : List String) (o : Op Text Iface Out) :
    o ∈ ns.flatMap deleteFiles ↔ ∃ n ∈ ns, o = .deleteCache n ∨ o = .deleteMeta n := by
  simp [List.mem_flatMap, deleteFiles]

theorem inputs_names (inputs : List (String × Input Text)) :
    (inputs.map fun i => (i.1, i.2.deps)).map (·.1) = inputs.map (·.1) := by
  rw [List.map_map]; rfl

theorem facts (C : Compiler Text Iface Out) (codegen : Bool) (names : List String) (hnames : names.Nodup)
    (σ : State Text Iface Out) (now : Nat) (careful : Bool) (inv : Inv C names σ now careful)
    (h : (buildPlan C codegen names σ.sources σ.disk).loaded = true) :
    ∃ dels l seq, Facts C codegen σ dels l seq ∧
      buildPlan C codegen names σ.sources σ.disk = compileLoaded C codegen (fun _ => none) dels l := by
  obtain ⟨inputs, seq, l, hin, hord, hloop, hplan⟩ := buildPlan_loaded C codegen names σ h
  refine ⟨_, l, seq, ?_, hplan⟩
  rw [List.append_nil] at hloop ⊢
  obtain ⟨i1, i2, i3⟩ := readInputs_ok C codegen σ.sources σ.disk names inputs hin
  have hind : (inputs.map (·.1)).Nodup := i1.nodup hnames
  have hdf := DepTree.toposortDeps_correct (inputs.map fun i => (i.1, i.2.deps)) (by rw [inputs_names]; exact hind)
  rw [hord] at hdf
  obtain ⟨hperm, hbef⟩ := hdf
  rw [inputs_names] at hperm
  have hsnd : seq.Nodup := hperm.nodup_iff.mpr hind
  have hseq : ∀ n, n ∈ seq ↔ ∃ s, σ.sources n = some s := by
    intro n
    rw [hperm.mem_iff]
    constructor
    · intro hm
      obtain ⟨⟨k, i⟩, hi, rfl⟩ := List.mem_map.mp hm
      obtain ⟨s, hs, _⟩ := i3 k i hi
      exact ⟨s, hs⟩
    · rintro ⟨s, hs⟩
      obtain ⟨i, hi⟩ := i2 n (inv.srcName n s hs) s hs
      exact List.mem_map.mpr ⟨_, hi, rfl⟩
  -- what a lookup says
  have hlk : ∀ n i, lookup inputs n = some i → ∃ s, σ.sources n = some s ∧
      ((∃ u, i = .new u ∧ readSource C n s = some u ∧
        (σ.disk.info n = none ∨ ∃ m, σ.disk.info n = some m ∧ (m.text ≠ s.text ∨ (codegen = true ∧ m.codegen = false)))) ∨
      (∃ m, i = .cached m.deps ∧ σ.disk.info n = some m ∧ m.text = s.text ∧ (codegen = true → m.codegen = true))) := by
    intro n i hi
    obtain ⟨s, hs, hload⟩ := i3 n i (lookup_some _ _ _ hi)
    exact ⟨s, hs, load_ok C codegen n s _ (fun m hm ht => inv.text n s m hs hm ht) i hload⟩
  have hinu : ∀ n u, lookup inputs n = some (.new u) → u.name = n := by
    intro n u hu
    obtain ⟨s, _, ⟨u', e, hr, _⟩ | ⟨m, e, _⟩⟩ := hlk n _ hu
    · cases e; exact (readSource_name C n s u hr).1
    · cases e
  have f := loadLoop_ok C σ.sources σ.disk inputs hinu seq _ hsnd l hloop
  -- imports
  have himp : ∀ n i d s, lookup inputs n = some i → d ∈ i.deps → σ.sources d = some s → DepTree.Before seq d n := by
    intro n i d s hi hd hs
    apply hbef
    refine ⟨⟨i.deps, List.mem_map.mpr ⟨(n, i), lookup_some _ _ _ hi, rfl⟩, hd⟩, ?_⟩
    obtain ⟨j, hj⟩ := i2 d (inv.srcName d s hs) s hs
    exact ⟨j.deps, List.mem_map.mpr ⟨(d, j), hj, rfl⟩⟩
  have hcnd : (l.cached.map (·.1)).Nodup := f.csub.nodup hsnd
  -- modules to compile
  have hsrc : ∀ u ∈ l.toCompile, ∃ s i, σ.sources u.name = some s ∧ u.text = s.text ∧ u.mtime = s.mtime ∧
      C.imports s.text = some u.deps ∧ lookup inputs u.name = some i ∧ i.deps = u.deps := by
    intro u hu
    rcases f.compile u hu with hl | ⟨ds, s, hl, hs, hr, _⟩
    · obtain ⟨s, hs, ⟨u', e, hr, _⟩ | ⟨m, e, _⟩⟩ := hlk _ _ hl
      · cases e
        obtain ⟨_, h2, h3, h4⟩ := readSource_name C _ s u hr
        exact ⟨s, _, hs, h2, h3, h4, hl, rfl⟩
      · cases e
    · obtain ⟨_, h2, h3, h4⟩ := readSource_name C _ s u hr
      refine ⟨s, _, hs, h2, h3, h4, hl, ?_⟩
      obtain ⟨s', hs', ⟨u', e, _⟩ | ⟨m, e, hm, ht, _⟩⟩ := hlk _ _ hl
      · cases e
      · cases e
        rw [hs] at hs'; cases hs'
        have := inv.deps _ m hm
        rw [ht, h4] at this
        exact (Option.some.inj this).symm
  have hbefore : ∀ u ∈ l.toCompile, ∀ d ∈ u.deps, ∀ s, σ.sources d = some s → DepTree.Before seq d u.name := by
    intro u hu d hd s hs
    obtain ⟨s', i, _, _, _, _, hl, hdeps⟩ := hsrc u hu
    exact himp _ i d s hl (hdeps ▸ hd) hs
  have hcover : ∀ n s, σ.sources n = some s → n ∈ l.toCompile.map (·.name) ∨ ∃ i, lookup l.cached n = some i := by
    intro n s hs
    rcases f.cover n ((hseq n).mpr ⟨s, hs⟩) with h | ⟨i, h⟩
    · exact .inl h
    · exact .inr ⟨i, lookup_mem _ hcnd _ _ h⟩
  -- modules from the cache: what the metadata says
  have hc1 : ∀ n i, lookup l.cached n = some i → n ∉ l.toCompile.map (·.name) ∧ ∃ s m, σ.sources n = some s ∧
      σ.disk.info n = some m ∧ σ.disk.cache n = some i ∧ m.text = s.text ∧ (codegen = true → m.codegen = true) ∧
      lookup inputs n = some (.cached m.deps) ∧ ∀ d ∈ m.deps, d ∉ removed names σ.sources σ.disk ∧
        ∀ pre post, seq = pre ++ n :: post → d ∈ pre → d ∉ l.toCompile.map (·.name) := by
    intro n i hl
    obtain ⟨_, h2, h3, ds, h4, h5⟩ := f.cached n i (lookup_some _ _ _ hl)
    obtain ⟨s, hs, ⟨u', e, _⟩ | ⟨m, e, hm, ht, hc⟩⟩ := hlk _ _ h4
    · cases e
    · cases e
      exact ⟨h2, s, m, hs, hm, h3, ht, hc, h4, h5⟩
  refine ⟨hsnd, f.sub.nodup hsnd, ?_, hseq, ?_, hcover, hbefore, ?_, ?_, ?_, ?_⟩
  · -- ordered
    intro pre u post hp d hd hmem
    have hu : u ∈ l.toCompile := by rw [hp]; exact List.mem_append_right _ (.head _)
    have hdt : d ∈ l.toCompile.map (·.name) := by
      rw [hp, List.map_append]; exact List.mem_append_right _ hmem
    obtain ⟨v, hv, rfl⟩ := List.mem_map.mp hdt
    obtain ⟨s, hs⟩ := hsrc v hv
    obtain ⟨a, b, hab, hda⟩ := hbefore u hu v.name hd s hs.choose_spec.1
    rw [hab] at hsnd
    rcases List.mem_cons.mp hmem with he | hmem
    · exact (List.nodup_append.mp hsnd).2.2 v.name hda u.name (.head _) he
    · apply not_sublist_swapped hsnd hda
      rw [← hab]
      refine List.Sublist.trans ?_ f.sub
      rw [hp, List.map_append]
      refine List.Sublist.trans ?_ (List.sublist_append_right _ _)
      rw [List.map_cons]
      exact (List.singleton_sublist.mpr hmem).cons_cons _
  · intro u hu
    obtain ⟨s, _, h1, h2, h3, h4, _⟩ := hsrc u hu
    exact ⟨s, h1, h2, h3, h4⟩
  · -- cached modules
    intro n i hl
    obtain ⟨h1, s, m, hs, hm, hcache, ht, hcg, hlook, hd⟩ := hc1 n i hl
    obtain ⟨used, u1, u2, u3⟩ := inv.valid n m i hm hcache (fun _ => ⟨s, hs, ht.symm⟩)
    refine ⟨h1, s, m, hs, hm, hcache, ht, hcg, inv.deps n m hm, used, u1, u2, ?_⟩
    intro d hdm
    obtain ⟨hd1, hd2⟩ := hd d hdm
    -- a dependency with a source is loaded from the cache
    have hcd : ∀ s', σ.sources d = some s' → (∃ j, lookup l.cached d = some j) ∧ DepTree.Before seq d n := by
      intro s' hs'
      have hb := himp n _ d s' hlook (by simpa [Input.deps] using hdm) hs'
      obtain ⟨pre, post, hpp, hdp⟩ := hb
      refine ⟨?_, pre, post, hpp, hdp⟩
      rcases hcover d s' hs' with h | h
      · exact absurd h (hd2 pre post hpp hdp)
      · exact h
    have hsome : ∀ m', σ.disk.info d = some m' → ∃ s', σ.sources d = some s' := by
      intro m' hm'
      cases hsd : σ.sources d with
      | some s' => exact ⟨s', rfl⟩
      | none => exact absurd ((mem_removed names σ.sources σ.disk d).mpr ⟨inv.infoName d m' hm', ⟨m', hm'⟩, hsd⟩) hd1
    rcases u3 d hdm with ⟨⟨m', hm'⟩, hcons⟩ | ⟨⟨s', hs'⟩, hnone⟩ | ⟨_, m', hm', hne⟩
    · obtain ⟨s', hs'⟩ := hsome m' hm'
      obtain ⟨⟨j, hj⟩, hb⟩ := hcd s' hs'
      obtain ⟨_, _, _, _, _, hcj, _⟩ := hc1 d j hj
      rw [hcons j hcj] at hj
      exact ⟨hj, hb⟩
    · obtain ⟨⟨j, hj⟩, hb⟩ := hcd s' hs'
      obtain ⟨_, _, m', _, hm', _⟩ := hc1 d j hj
      rw [hnone] at hm'; cases hm'
    · obtain ⟨s', hs'⟩ := hsome m' hm'
      obtain ⟨⟨j, hj⟩, hb⟩ := hcd s' hs'
      obtain ⟨_, s'', m'', hs'', hm'', _, ht', _⟩ := hc1 d j hj
      rw [hm'] at hm''; cases hm''
      rw [hs'] at hs''; cases hs''
      exact absurd ht'.symm (hne s' hs')
  · -- deletions
    intro o ho
    rcases List.mem_append.mp ho with ho | ho
    · obtain ⟨n, hn, h⟩ := (mem_flatMap_delete _ o).mp ho
      refine ⟨n, h, ?_⟩
      cases hl : lookup l.cached n with
      | none => rfl
      | some i =>
        obtain ⟨_, s, _, hs, _⟩ := hc1 n i hl
        rw [((mem_removed _ _ _ n).mp hn).2.2] at hs; cases hs
    · obtain ⟨n, h, hn⟩ := f.ops_iff o ho
      refine ⟨n, h, ?_⟩
      cases hl : lookup l.cached n with
      | none => rfl
      | some i => exact absurd hn (hc1 n i hl).1
  · intro n m hs hm
    apply List.mem_append_left
    rw [mem_flatMap_delete]
    exact ⟨n, (mem_removed _ _ _ n).mpr ⟨inv.infoName n m hm, ⟨m, hm⟩, hs⟩, .inr rfl⟩
  · intro u hu
    rcases f.compile u hu with hl | ⟨ds, s, hl, hs, hr, h, _⟩
    · right
      obtain ⟨s, hs, ⟨u', e, hr, hor⟩ | ⟨m, e, _⟩⟩ := hlk _ _ hl
      · cases e
        intro m hm
        rcases hor with h | ⟨m', hm', h⟩
        · rw [hm] at h; cases h
        · rw [hm] at hm'; cases hm'
          rw [(readSource_name C _ s u hr).2.1]
          exact h
      · cases e
    · left; exact List.mem_append_right _ h

/-! ### Results -/

/-- Position in a list without duplicates. -/
theorem before_idx {seq : List String} (hn : seq.Nodup) {d n : String} (h : DepTree.Before seq d n) :
    seq.idxOf d < seq.idxOf n := by
  obtain ⟨a, b, rfl, hd⟩ := h
  have hna : n ∉ a := fun hx => (List.nodup_append.mp hn).2.2 n hx n (.head _) rfl
  rw [List.idxOf_append_of_mem hd, List.idxOf_append_of_notMem hna]
  have := List.idxOf_lt_length_of_mem hd
  omega

/-- What analysis gives for a loaded build. -/
structure Result (C : Compiler Text Iface Out) (codegen : Bool) (σ : State Text Iface Out) (l : Loaded Text Iface)
    (ms : List (Compiled Text Iface Out)) (env : String → Option Iface) : Prop where
  sources : ms.map (·.source) = l.toCompile
  cached : ∀ n i, lookup l.cached n = some i → env n = some i
  known : ∀ d i, env d = some i → d ∈ l.toCompile.map (·.name) ∨ lookup l.cached d = some i
  compiled : ∀ m ∈ ms, env m.source.name = some m.iface ∧ ∃ is, C.check m.source.name m.source.text is = some m.iface ∧
      m.out = C.gen m.source.name m.source.text is ∧ interfaces env m.source.deps = some is

theorem compileLoaded_result (C : Compiler Text Iface Out) (codegen : Bool) (σ : State Text Iface Out)
    (dels : List (Op Text Iface Out)) (l : Loaded Text Iface) (seq : List String) (f : Facts C codegen σ dels l seq) :
    (compileLoaded C codegen (fun _ => none) dels l).deletions = dels ∧
    (((compileLoaded C codegen (fun _ => none) dels l).writes = [] ∧
      (compileLoaded C codegen (fun _ => none) dels l).result = none) ∨
    ∃ ms env, (compileLoaded C codegen (fun _ => none) dels l).writes = codegenOps codegen ms ++ metadataOps codegen ms ∧
      (compileLoaded C codegen (fun _ => none) dels l).result = some (env, l.stale) ∧ Result C codegen σ l ms env) := by
  unfold compileLoaded
  cases ha : analyse C l.toCompile (register (fun _ => none) l.cached) with
  | none => exact ⟨rfl, .inl ⟨rfl, rfl⟩⟩
  | some r =>
    obtain ⟨ms, env⟩ := r
    refine ⟨rfl, .inr ⟨ms, env, rfl, rfl, ?_⟩⟩
    obtain ⟨h1, h2, h3⟩ := analyse_ok C _ f.nodup f.ordered _ _ _ ha
    refine ⟨h1, ?_, ?_, h3⟩
    · intro n i hi
      rw [h2 n (f.cached n i hi).1]
      simp [register, hi]
    · intro d i hd
      by_cases hm : d ∈ l.toCompile.map (·.name)
      · exact .inl hm
      · right
        rw [h2 d hm] at hd
        simpa [register] using hd

theorem names_of_sources {ms : List (Compiled Text Iface Out)} {us : List (Uncompiled Text)} (h : ms.map (·.source) = us) :
    ms.map (·.source.name) = us.map (·.name) := by
  rw [← h, List.map_map]; rfl

/-- The interfaces found by a build are the ones the sources have. -/
theorem result_correct (C : Compiler Text Iface Out) (codegen : Bool) (σ : State Text Iface Out)
    (dels : List (Op Text Iface Out)) (l : Loaded Text Iface) (seq : List String) (f : Facts C codegen σ dels l seq)
    (ms : List (Compiled Text Iface Out)) (env : String → Option Iface) (r : Result C codegen σ l ms env) :
    (∀ n s, σ.sources n = some s → ∃ i, env n = some i) ∧ ∀ n i, env n = some i → Interface C σ.sources n i := by
  have hmem : ∀ n, n ∈ l.toCompile.map (·.name) → ∃ m ∈ ms, m.source.name = n := by
    intro n hn
    rw [← names_of_sources r.sources] at hn
    exact List.mem_map.mp hn
  have hsource : ∀ n i, env n = some i → ∃ s, σ.sources n = some s := by
    intro n i hi
    rcases r.known n i hi with h | h
    · obtain ⟨u, hu, rfl⟩ := List.mem_map.mp h
      obtain ⟨s, hs, _⟩ := f.src u hu
      exact ⟨s, hs⟩
    · obtain ⟨_, s, _, hs, _⟩ := f.cached n i h
      exact ⟨s, hs⟩
  refine ⟨?_, ?_⟩
  · intro n s hs
    rcases f.cover n s hs with h | ⟨i, h⟩
    · obtain ⟨m, hm, rfl⟩ := hmem n h
      exact ⟨_, (r.compiled m hm).1⟩
    · exact ⟨i, r.cached n i h⟩
  · have key : ∀ k n i, seq.idxOf n < k → env n = some i → Interface C σ.sources n i := by
      intro k
      induction k with
      | zero => intro n i h; omega
      | succ k ih =>
        intro n i hk hi
        rcases r.known n i hi with h | h
        · obtain ⟨m, hm, rfl⟩ := hmem n h
          obtain ⟨he, is, hc, _, his⟩ := r.compiled m hm
          rw [hi] at he; cases he
          obtain ⟨e1, e2⟩ := interfaces_some env m.source.deps is his m.iface
          have hu : m.source ∈ l.toCompile := by rw [← r.sources]; exact List.mem_map.mpr ⟨m, hm, rfl⟩
          obtain ⟨s, hs, ht, _, him⟩ := f.src m.source hu
          refine Interface.mk _ s m.source.deps (fun d => (env d).getD m.iface) _ hs him ?_ ?_
          · intro d hd
            obtain ⟨j, hj⟩ := e2 d hd
            obtain ⟨s', hs'⟩ := hsource d j hj
            have hb := before_idx f.seqNodup (f.before m.source hu d hd s' hs')
            simp only [hj, Option.getD_some]
            exact ih d j (by omega) hj
          · rw [← e1, ← ht]; exact hc
        · obtain ⟨_, s, mt, hs, _, _, ht, _, him, used, hc, _, hd⟩ := f.cached n i h
          refine Interface.mk _ s mt.deps used _ hs (ht ▸ him) ?_ (ht ▸ hc)
          intro d hdm
          obtain ⟨h1, h2⟩ := hd d hdm
          exact ih d _ (by have := before_idx f.seqNodup h2; omega) (r.cached d _ h1)
    intro n i hi
    exact key _ n i (Nat.lt_succ_self _) hi

end Verif.Build
