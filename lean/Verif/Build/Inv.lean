import Verif.Build.Main

/-
The invariant holds in all the histories of the specification.
-/
namespace Verif.Build

variable {Text Iface Out : Type} [DecidableEq Text]

/-- The build directory after the deletions of a build and some of its writes. -/
theorem inv_written (C : Compiler Text Iface Out) (codegen : Bool) (names : List String) (σ : State Text Iface Out) (now : Nat)
    (careful careful' : Bool) (inv : Inv C names σ now careful) (dels : List (Op Text Iface Out)) (l : Loaded Text Iface)
    (seq : List String) (f : Facts C codegen σ dels l seq) (d2 : Disk Text Iface Out) (pre : List (Compiled Text Iface Out))
    (env : String → Option Iface)
    (h1 : ∀ n, n ∉ l.toCompile.map (·.name) → d2.info n = (σ.disk.applyAll dels).info n ∧
      d2.cache n = (σ.disk.applyAll dels).cache n ∧ d2.out n = (σ.disk.applyAll dels).out n)
    (h2 : ∀ m ∈ pre, d2.info m.source.name = some ⟨m.source.mtime, codegen, m.source.deps, m.source.text⟩ ∧
      d2.cache m.source.name = some m.iface ∧ (codegen = true → d2.out m.source.name = some m.out))
    (h3 : ∀ u ∈ l.toCompile, u.name ∉ pre.map (·.source.name) → d2.info u.name = (σ.disk.applyAll dels).info u.name)
    (h4 : ∀ m ∈ pre, m.source ∈ l.toCompile ∧ ∃ is, C.check m.source.name m.source.text is = some m.iface ∧
      m.out = C.gen m.source.name m.source.text is ∧ interfaces env m.source.deps = some is)
    (h5 : ∀ m ∈ pre, ∀ d ∈ m.source.deps, ∀ i, env d = some i →
      lookup l.cached d = some i ∨ ∃ m' ∈ pre, m'.source.name = d ∧ m'.iface = i)
    (h6 : (∀ u ∈ l.toCompile, u.name ∈ pre.map (·.source.name)) ∨ (careful' = true ∧ CodePresent codegen σ)) :
    Inv C names ⟨σ.sources, d2⟩ now careful' := by
  have hnw : ∀ n m, Op.writeMeta n m ∉ dels := by
    intro n m h; obtain ⟨k, h | h, _⟩ := f.onlyDel _ h <;> cases h
  have hnc : ∀ n m, Op.writeCache n m ∉ dels := by
    intro n m h; obtain ⟨k, h | h, _⟩ := f.onlyDel _ h <;> cases h
  have hno : ∀ n m, Op.writeOut n m ∉ dels := by
    intro n m h; obtain ⟨k, h | h, _⟩ := f.onlyDel _ h <;> cases h
  have hi1 : ∀ n m, (σ.disk.applyAll dels).info n = some m → Op.deleteMeta n ∉ dels ∧ σ.disk.info n = some m := by
    intro n m h
    by_cases hd : Op.deleteMeta n ∈ dels
    · rw [info_deleted dels _ n hd (hnw n)] at h; cases h
    · rw [info_other dels _ n hd (hnw n)] at h; exact ⟨hd, h⟩
  have hcu : ∀ n i, lookup l.cached n = some i → (σ.disk.applyAll dels).info n = σ.disk.info n ∧
      (σ.disk.applyAll dels).cache n = σ.disk.cache n := by
    intro n i hi
    refine ⟨info_other dels _ n ?_ (hnw n), cache_other dels _ n ?_ (hnc n)⟩
    · intro h; obtain ⟨k, h | h, hk⟩ := f.onlyDel _ h
      · cases h
      · cases h; rw [hi] at hk; cases hk
    · intro h; obtain ⟨k, h | h, hk⟩ := f.onlyDel _ h
      · cases h; rw [hi] at hk; cases hk
      · cases h
  have hou : ∀ n, (σ.disk.applyAll dels).out n = σ.disk.out n := fun n => out_other dels _ n (hno n)
  -- where the metadata come from
  have hinfo : ∀ n m, d2.info n = some m →
      (∃ x ∈ pre, x.source.name = n ∧ m = ⟨x.source.mtime, codegen, x.source.deps, x.source.text⟩) ∨
      (n ∉ pre.map (·.source.name) ∧ Op.deleteMeta n ∉ dels ∧ σ.disk.info n = some m) := by
    intro n m hm
    by_cases hp : n ∈ pre.map (·.source.name)
    · obtain ⟨x, hx, rfl⟩ := List.mem_map.mp hp
      rw [(h2 x hx).1] at hm
      exact .inl ⟨x, hx, rfl, (Option.some.inj hm).symm⟩
    · right
      refine ⟨hp, ?_⟩
      apply hi1
      by_cases ht : n ∈ l.toCompile.map (·.name)
      · obtain ⟨u, hu, rfl⟩ := List.mem_map.mp ht
        rw [← h3 u hu hp]; exact hm
      · rw [← (h1 n ht).1]; exact hm
  have hcons : ∀ d i, lookup l.cached d = some i → Consistent (⟨σ.sources, d2⟩ : State Text Iface Out) d i := by
    intro d i hi
    obtain ⟨hnt, s, m, _, hm, hc, _⟩ := f.cached d i hi
    obtain ⟨e1, e2, _⟩ := h1 d hnt
    obtain ⟨e3, e4⟩ := hcu d i hi
    refine ⟨⟨m, ?_⟩, ?_⟩
    · change d2.info d = some m
      rw [e1, e3, hm]
    · intro j hj
      change d2.cache d = some j at hj
      rw [e2, e4, hc] at hj
      exact (Option.some.inj hj).symm
  refine ⟨inv.srcTime, ?_, ?_, inv.srcName, ?_, ?_, ?_⟩
  · intro n m hm
    rcases hinfo n m hm with ⟨x, hx, rfl, rfl⟩ | ⟨_, _, h⟩
    · obtain ⟨s, hs, _, e, _⟩ := f.src x.source (h4 x hx).1
      simp only [e]; exact inv.srcTime _ s hs
    · exact inv.infoTime n m h
  · intro n s m hs hm ht
    rcases hinfo n m hm with ⟨x, hx, rfl, rfl⟩ | ⟨_, _, h⟩
    · obtain ⟨s', hs', e, _⟩ := f.src x.source (h4 x hx).1
      rw [show σ.sources x.source.name = some s from hs] at hs'; cases hs'
      exact e
    · exact inv.text n s m hs h ht
  · intro n m hm
    rcases hinfo n m hm with ⟨x, hx, rfl, rfl⟩ | ⟨_, _, h⟩
    · obtain ⟨s, hs, _⟩ := f.src x.source (h4 x hx).1
      exact inv.srcName _ s hs
    · exact inv.infoName n m h
  · intro n m hm
    rcases hinfo n m hm with ⟨x, hx, rfl, rfl⟩ | ⟨_, _, h⟩
    · obtain ⟨s, _, e, _, him⟩ := f.src x.source (h4 x hx).1
      simp only [e]; exact him
    · exact inv.deps n m h
  · intro n m i hm hc hel
    change d2.info n = some m at hm
    change d2.cache n = some i at hc
    rcases hinfo n m hm with ⟨x, hx, rfl, rfl⟩ | ⟨hnp, hnd, hσ⟩
    · -- a module that was written
      obtain ⟨w1, w2, w3⟩ := h2 x hx
      rw [w2] at hc; cases hc
      obtain ⟨hxt, is, hck, hgen, his⟩ := h4 x hx
      obtain ⟨e1, e2⟩ := interfaces_some env x.source.deps is his x.iface
      refine ⟨fun d => (env d).getD x.iface, ?_, ?_, ?_⟩
      · simp only; rw [← e1]; exact hck
      · intro hcg; simp only at hcg ⊢
        rw [w3 hcg, hgen, ← e1]
      · intro d hd
        left
        obtain ⟨j, hj⟩ := e2 d hd
        simp only [hj, Option.getD_some]
        rcases h5 x hx d hd j hj with h | ⟨m', hm', rfl, rfl⟩
        · exact hcons d j h
        · obtain ⟨v1, v2, _⟩ := h2 m' hm'
          refine ⟨⟨_, v1⟩, ?_⟩
          intro k hk
          change d2.cache _ = some k at hk
          rw [v2] at hk
          exact (Option.some.inj hk).symm
    · by_cases ht : n ∈ l.toCompile.map (·.name)
      · -- a module that was not written yet: its entry is not for its present text
        exfalso
        obtain ⟨u, hu, rfl⟩ := List.mem_map.mp ht
        rcases h6 with h6 | ⟨hcare, hcp⟩
        · exact hnp (h6 u hu)
        · rcases f.delStale u hu with h | h
          · exact hnd h
          · obtain ⟨s, hs, hst⟩ := hel hcare
            obtain ⟨s', hs', e, _⟩ := f.src u hu
            rw [show σ.sources u.name = some s from hs] at hs'; cases hs'
            rcases h m hσ with h | ⟨ha, hb⟩
            · exact h (by rw [e]; exact hst.symm)
            · rw [hcp ha _ m hσ] at hb; cases hb
      · -- a module from the cache
        obtain ⟨e1, e2, e3⟩ := h1 n ht
        cases hsn : σ.sources n with
        | none => exact absurd (f.delGone n m hsn hσ) hnd
        | some s =>
          rcases f.cover n s hsn with h | ⟨j, hj⟩
          · exact absurd h ht
          · obtain ⟨_, s', m', hs', hm', hc', _, _, _, used, hck, hgen, hd⟩ := f.cached n j hj
            rw [hσ] at hm'; cases hm'
            rw [e2, (hcu n j hj).2, hc'] at hc; cases hc
            refine ⟨used, hck, ?_, fun d hdm => .inl (hcons d _ (hd d hdm).1)⟩
            intro hcg
            change d2.out n = _
            rw [e3, hou]
            exact hgen hcg

theorem deletions_ok (C : Compiler Text Iface Out) (codegen : Bool) (names : List String) (σ : State Text Iface Out)
    (o : Op Text Iface Out) (ho : o ∈ (buildPlan C codegen names σ.sources σ.disk).deletions) :
    ∃ n, (o = .deleteCache n ∨ o = .deleteMeta n) ∧
      (n ∈ removed names σ.sources σ.disk ∨ ∃ s, σ.sources n = some s) := by
  unfold buildPlan plan at ho
  have hrem : ∀ o : Op Text Iface Out, o ∈ (removed names σ.sources σ.disk).flatMap deleteFiles →
      ∃ n, (o = .deleteCache n ∨ o = .deleteMeta n) ∧ (n ∈ removed names σ.sources σ.disk ∨ ∃ s, σ.sources n = some s) := by
    intro o ho
    obtain ⟨n, hn, h⟩ := (mem_flatMap_delete _ o).mp ho
    exact ⟨n, h, .inl hn⟩
  cases hr : readInputs C codegen σ.sources σ.disk names with
  | none => simp [hr] at ho
  | some inputs =>
    simp only [hr] at ho
    have hloop : ∀ seq stale (o : Op Text Iface Out), o ∈ (loadLoop C σ.sources σ.disk inputs seq stale).1 →
        ∃ n, (o = .deleteCache n ∨ o = .deleteMeta n) ∧ (n ∈ removed names σ.sources σ.disk ∨ ∃ s, σ.sources n = some s) := by
      intro seq stale o ho
      obtain ⟨n, _, h, ds, hl⟩ := loadLoop_ops C σ.sources σ.disk inputs seq stale o ho
      obtain ⟨s, hs, _⟩ := (readInputs_ok C codegen σ.sources σ.disk names inputs hr).2.2 n _ (lookup_some _ _ _ hl)
      exact ⟨n, h, .inr ⟨s, hs⟩⟩
    cases hord : DepTree.toposortDeps (inputs.map fun i => (i.1, i.2.deps)) with
    | ordered seq =>
      simp only [hord] at ho
      have : o ∈ (removed names σ.sources σ.disk).flatMap deleteFiles ++
          (loadLoop C σ.sources σ.disk inputs seq (removed names σ.sources σ.disk ++ [])).1 := by
        cases hl : (loadLoop C σ.sources σ.disk inputs seq (removed names σ.sources σ.disk ++ [])).2 with
        | none => simp only [hl] at ho; exact ho
        | some l =>
          simp only [hl] at ho
          unfold compileLoaded at ho
          cases ha : analyse C l.toCompile (register (fun _ => none) l.cached) with
          | none => simp only [ha] at ho; exact ho
          | some r => obtain ⟨ms, env⟩ := r; simp only [ha] at ho; exact ho
      rcases List.mem_append.mp this with h | h
      · exact hrem o h
      · exact hloop _ _ o h
    | cycle _ => simp only [hord] at ho; exact hrem o ho
    | panic => simp only [hord] at ho; exact hrem o ho

/-- Stopping while loading. -/
theorem inv_loading (C : Compiler Text Iface Out) (names : List String) (σ : State Text Iface Out) (now : Nat) (careful : Bool)
    (inv : Inv C names σ now careful) (ops : List (Op Text Iface Out))
    (h : ∀ o ∈ ops, ∃ n, (o = .deleteCache n ∨ o = .deleteMeta n) ∧ ∃ s, σ.sources n = some s) :
    Inv C names ⟨σ.sources, σ.disk.applyAll ops⟩ now careful := by
  have hnw : ∀ n m, Op.writeMeta n m ∉ ops := by
    intro n m h'; obtain ⟨k, h | h, _⟩ := h _ h' <;> cases h
  have hnc : ∀ n m, Op.writeCache n m ∉ ops := by
    intro n m h'; obtain ⟨k, h | h, _⟩ := h _ h' <;> cases h
  have hno : ∀ n m, Op.writeOut n m ∉ ops := by
    intro n m h'; obtain ⟨k, h | h, _⟩ := h _ h' <;> cases h
  have hi1 : ∀ n m, (σ.disk.applyAll ops).info n = some m → Op.deleteMeta n ∉ ops ∧ σ.disk.info n = some m := by
    intro n m h
    by_cases hd : Op.deleteMeta n ∈ ops
    · rw [info_deleted ops _ n hd (hnw n)] at h; cases h
    · rw [info_other ops _ n hd (hnw n)] at h; exact ⟨hd, h⟩
  have hc1 : ∀ n m, (σ.disk.applyAll ops).cache n = some m → σ.disk.cache n = some m := by
    intro n m h
    by_cases hd : Op.deleteCache n ∈ ops
    · rw [cache_deleted ops _ n hd (hnc n)] at h; cases h
    · rw [cache_other ops _ n hd (hnc n)] at h; exact h
  refine ⟨inv.srcTime, fun n m hm => inv.infoTime n m (hi1 n m hm).2, fun n s m hs hm => inv.text n s m hs (hi1 n m hm).2,
    inv.srcName, fun n m hm => inv.infoName n m (hi1 n m hm).2, fun n m hm => inv.deps n m (hi1 n m hm).2, ?_⟩
  intro n m i hm hc hel
  obtain ⟨used, u1, u2, u3⟩ := inv.valid n m i (hi1 n m hm).2 (hc1 n i hc) hel
  refine ⟨used, u1, ?_, ?_⟩
  · intro hcg
    change (σ.disk.applyAll ops).out n = _
    rw [out_other ops _ n (hno n)]
    exact u2 hcg
  · intro d hd
    by_cases hdel : Op.deleteMeta d ∈ ops
    · right; left
      obtain ⟨k, e | e, s, hs⟩ := h _ hdel
      · cases e
      · cases e
        exact ⟨⟨s, hs⟩, info_deleted ops _ _ hdel (hnw _)⟩
    · have hsame : (σ.disk.applyAll ops).info d = σ.disk.info d := info_other ops _ d hdel (hnw d)
      rcases u3 d hd with ⟨⟨m', hm'⟩, hcons⟩ | ⟨hs, hn⟩ | ⟨hcare, m', hm', hne⟩
      · left
        exact ⟨⟨m', by change (σ.disk.applyAll ops).info d = _; rw [hsame, hm']⟩, fun j hj => hcons j (hc1 d j hj)⟩
      · right; left
        exact ⟨hs, by change (σ.disk.applyAll ops).info d = _; rw [hsame, hn]⟩
      · right; right
        exact ⟨hcare, m', by change (σ.disk.applyAll ops).info d = _; rw [hsame, hm'], hne⟩

/-- Stopping after loading, or not stopping. -/
theorem inv_writing (C : Compiler Text Iface Out) (codegen : Bool) (names : List String) (hnames : names.Nodup)
    (σ : State Text Iface Out) (now : Nat) (careful careful' : Bool) (inv : Inv C names σ now careful) (k : Nat)
    (hl : (buildPlan C codegen names σ.sources σ.disk).loaded = true)
    (hk : (buildPlan C codegen names σ.sources σ.disk).deletions.length ≤ k)
    (h6 : ((buildPlan C codegen names σ.sources σ.disk).result.isSome ∧
        (buildPlan C codegen names σ.sources σ.disk).ops.length ≤ k) ∨ (careful' = true ∧ CodePresent codegen σ)) :
    Inv C names ⟨σ.sources, σ.disk.applyAll ((buildPlan C codegen names σ.sources σ.disk).ops.take k)⟩ now careful' := by
  obtain ⟨dels, l, seq, f, hplan⟩ := facts C codegen names hnames σ now careful inv hl
  rw [hplan] at h6 hk ⊢
  obtain ⟨hd, hw⟩ := compileLoaded_result C codegen σ dels l seq f
  have hops : (compileLoaded C codegen (fun _ => none) dels l).ops.take k =
      dels ++ (compileLoaded C codegen (fun _ => none) dels l).writes.take (k - dels.length) := by
    unfold Plan.ops
    rw [hd] at hk ⊢
    rw [List.take_append, List.take_of_length_le hk]
  rw [hops, applyAll_append]
  rcases hw with ⟨hw, hr⟩ | ⟨ms, env, hw, hr, r⟩
  · rw [hw]
    simp only [List.take_nil, applyAll_nil]
    apply inv_written C codegen names σ now careful careful' inv dels l seq f _ [] (fun _ => none)
    · intro n _; exact ⟨rfl, rfl, rfl⟩
    · simp
    · intro u _ _; rfl
    · simp
    · simp
    · right
      rcases h6 with ⟨h6, _⟩ | h6
      · rw [hr] at h6; cases h6
      · exact h6
  · rw [hw]
    have hnm := names_of_sources r.sources
    obtain ⟨pre, rest, hpr, hwr, hall⟩ := writes_prefix codegen (σ.disk.applyAll dels) ms (by rw [hnm]; exact f.nodup)
      (k - dels.length)
    have hmsrc : ∀ m ∈ ms, m.source ∈ l.toCompile := by
      intro m hm; rw [← r.sources]; exact List.mem_map.mpr ⟨m, hm, rfl⟩
    have hpm : ∀ m ∈ pre, m ∈ ms := fun m hm => by rw [hpr]; exact List.mem_append_left _ hm
    apply inv_written C codegen names σ now careful careful' inv dels l seq f _ pre env
    · intro n hn
      apply hwr.other
      rw [← hpr, hnm]; exact hn
    · exact hwr.done
    · intro u hu hup
      rw [← r.sources] at hu
      obtain ⟨m, hm, rfl⟩ := List.mem_map.mp hu
      apply hwr.todo
      rw [hpr] at hm
      rcases List.mem_append.mp hm with h | h
      · exact absurd (List.mem_map.mpr ⟨m, h, rfl⟩) hup
      · exact h
    · intro m hm
      exact ⟨hmsrc m (hpm m hm), (r.compiled m (hpm m hm)).2⟩
    · intro m hm d hd i hi
      rcases r.known d i hi with h | h
      · right
        rw [← hnm] at h
        obtain ⟨m', hm', rfl⟩ := List.mem_map.mp h
        refine ⟨m', ?_, rfl, ?_⟩
        · -- a dependency that is compiled is compiled before
          rw [hpr] at hm'
          rcases List.mem_append.mp hm' with h' | h'
          · exact h'
          · exfalso
            obtain ⟨a, b, rfl⟩ := List.append_of_mem hm
            refine f.ordered (a.map (·.source)) m.source ((b ++ rest).map (·.source)) ?_ m'.source.name hd ?_
            · rw [← r.sources, hpr]; simp
            · simp only [List.map_cons, List.mem_cons, List.map_append, List.mem_append, List.map_map]
              right; right
              exact List.mem_map.mpr ⟨m', h', rfl⟩
        · have := (r.compiled m' hm').1
          rw [hi] at this
          exact (Option.some.inj this).symm
      · exact .inl h
    · rcases h6 with ⟨_, h6⟩ | h6
      · left
        have hrest : rest = [] := by
          apply hall
          unfold Plan.ops at h6
          rw [hd, hw, List.length_append] at h6
          omega
        intro u hu
        rw [← r.sources, hpr, hrest, List.append_nil] at hu
        obtain ⟨m, hm, rfl⟩ := List.mem_map.mp hu
        exact List.mem_map.mpr ⟨m, hm, rfl⟩
      · exact .inr h6

theorem loaded_of_result (C : Compiler Text Iface Out) (codegen : Bool) (names : List String) (σ : State Text Iface Out)
    (h : (buildPlan C codegen names σ.sources σ.disk).result.isSome) :
    (buildPlan C codegen names σ.sources σ.disk).loaded = true := by
  unfold buildPlan plan at h ⊢
  cases hr : readInputs C codegen σ.sources σ.disk names with
  | none => simp [hr] at h
  | some inputs =>
    simp only [hr] at h ⊢
    cases ho : DepTree.toposortDeps (inputs.map fun i => (i.1, i.2.deps)) with
    | ordered seq =>
      simp only [ho] at h ⊢
      cases hl : (loadLoop C σ.sources σ.disk inputs seq (removed names σ.sources σ.disk ++ [])).2 with
      | none => simp only [hl] at h; cases h
      | some l =>
        simp only
        unfold compileLoaded
        cases analyse C l.toCompile (register (fun _ => none) l.cached) <;> rfl
    | cycle _ => simp [ho] at h
    | panic => simp [ho] at h

theorem history_inv (C : Compiler Text Iface Out) (names : List String) (hnames : names.Nodup) (σ : State Text Iface Out)
    (now : Nat) (careful : Bool) (h : History C names σ now careful) : Inv C names σ now careful := by
  induction h with
  | start => constructor <;> simp [Disk.empty]
  | @write σ now careful n t mt _ hn hmt hres inv =>
    have hset : ∀ x s, (set σ.sources n (some (⟨t, mt⟩ : Source Text))) x = some s →
        (x = n ∧ s = ⟨t, mt⟩) ∨ (x ≠ n ∧ σ.sources x = some s) := by
      intro x s hs
      unfold set at hs
      by_cases hx : x = n
      · rw [if_pos hx] at hs; exact .inl ⟨hx, (Option.some.inj hs).symm⟩
      · rw [if_neg hx] at hs; exact .inr ⟨hx, hs⟩
    refine ⟨?_, ?_, ?_, ?_, inv.infoName, inv.deps, ?_⟩
    · intro x s hs
      rcases hset x s hs with ⟨_, rfl⟩ | ⟨_, h⟩
      · exact Nat.le_refl _
      · have := inv.srcTime x s h; omega
    · intro x m hm
      have := inv.infoTime x m hm; omega
    · intro x s m hs hm hlt
      rcases hset x s hs with ⟨rfl, rfl⟩ | ⟨_, h⟩
      · have := inv.infoTime x m hm
        simp only at hlt; omega
      · exact inv.text x s m h hm hlt
    · intro x s hs
      rcases hset x s hs with ⟨rfl, rfl⟩ | ⟨_, h⟩
      · exact hn
      · exact inv.srcName x s h
    · intro x m i hm hc hel
      have hel' : careful = true → ∃ s, σ.sources x = some s ∧ s.text = m.text := by
        intro hcare
        obtain ⟨s, hs, hst⟩ := hel hcare
        rcases hset x s hs with ⟨rfl, rfl⟩ | ⟨_, h⟩
        · obtain ⟨s', hs', e⟩ := hres hcare m hm hst.symm
          exact ⟨s', hs', e.trans hst⟩
        · exact ⟨s, h, hst⟩
      obtain ⟨used, u1, u2, u3⟩ := inv.valid x m i hm hc hel'
      refine ⟨used, u1, u2, ?_⟩
      intro d hd
      rcases u3 d hd with h | ⟨⟨s, hs⟩, h⟩ | ⟨hcare, m', hm', hne⟩
      · exact .inl h
      · right; left
        refine ⟨?_, h⟩
        by_cases hx : d = n
        · exact ⟨⟨t, mt⟩, by simp [step, set, hx]⟩
        · exact ⟨s, by simp [step, set, hx, hs]⟩
      · right; right
        refine ⟨hcare, m', hm', ?_⟩
        intro s hs
        rcases hset d s hs with ⟨rfl, rfl⟩ | ⟨_, h⟩
        · intro e
          obtain ⟨s', hs', e'⟩ := hres hcare m' hm' e.symm
          exact hne s' hs' (e'.trans e)
        · exact hne s h
  | @remove σ now careful n _ hrem inv =>
    have hset : ∀ x s, (set σ.sources n (none : Option (Source Text))) x = some s → x ≠ n ∧ σ.sources x = some s := by
      intro x s hs
      unfold set at hs
      by_cases hx : x = n
      · rw [if_pos hx] at hs; cases hs
      · rw [if_neg hx] at hs; exact ⟨hx, hs⟩
    refine ⟨fun x s hs => inv.srcTime x s (hset x s hs).2, inv.infoTime, fun x s m hs => inv.text x s m (hset x s hs).2,
      fun x s hs => inv.srcName x s (hset x s hs).2, inv.infoName, inv.deps, ?_⟩
    intro x m i hm hc hel
    obtain ⟨used, u1, u2, u3⟩ := inv.valid x m i hm hc (fun hcare => by
      obtain ⟨s, hs, e⟩ := hel hcare
      exact ⟨s, (hset x s hs).2, e⟩)
    refine ⟨used, u1, u2, ?_⟩
    intro d hd
    rcases u3 d hd with h | ⟨⟨s, hs⟩, h⟩ | ⟨hcare, m', hm', hne⟩
    · exact .inl h
    · right; left
      refine ⟨?_, h⟩
      by_cases hx : d = n
      · subst hx; exact absurd hd (hrem h x m hm)
      · exact ⟨s, by simp [step, set, hx, hs]⟩
    · right; right
      exact ⟨hcare, m', hm', fun s hs => hne s (hset d s hs).2⟩
  | @success σ now careful codegen k _ hres hk inv =>
    have hl := loaded_of_result C codegen names σ hres
    apply inv_writing C codegen names hnames σ now careful false inv k hl
    · unfold Plan.ops at hk; rw [List.length_append] at hk; omega
    · exact .inl ⟨hres, hk⟩
  | @stoppedLoading σ now careful codegen k _ hk hor inv =>
    apply inv_loading C names σ now careful inv
    intro o ho
    rcases hor with rfl | hnr
    · simp at ho
    · unfold Plan.ops at ho
      rw [List.take_append_of_le_length hk] at ho
      obtain ⟨n, h, h' | h'⟩ := deletions_ok C codegen names σ o (List.mem_of_mem_take ho)
      · obtain ⟨_, ⟨m, hm⟩, hs⟩ := (mem_removed _ _ _ n).mp h'
        obtain ⟨s, hs'⟩ := hnr n m hm
        rw [hs] at hs'; cases hs'
      · exact ⟨n, h, h'⟩
  | @stoppedWriting σ now careful codegen k _ hl hk hcp inv =>
    exact inv_writing C codegen names hnames σ now careful true inv k hl hk (.inr ⟨rfl, hcp⟩)

end Verif.Build
