import Verif.Build.Spec
import Verif.DepTree.Props
import Mathlib.Data.List.Nodup

/-
Facts about the parts of a build.
-/
namespace Verif.Build

variable {Text Iface Out : Type}

/-! ### Changes of the build directory -/

theorem applyAll_nil (d : Disk Text Iface Out) : d.applyAll [] = d := rfl

theorem applyAll_cons (d : Disk Text Iface Out) (o : Op Text Iface Out) (ops : List (Op Text Iface Out)) :
    d.applyAll (o :: ops) = (d.apply o).applyAll ops := rfl

theorem applyAll_append (d : Disk Text Iface Out) (a b : List (Op Text Iface Out)) :
    d.applyAll (a ++ b) = (d.applyAll a).applyAll b := by simp [Disk.applyAll]

theorem info_apply_other (d : Disk Text Iface Out) (o : Op Text Iface Out) (n : String) (h1 : o ≠ .deleteMeta n)
    (h2 : ∀ m, o ≠ .writeMeta n m) : (d.apply o).info n = d.info n := by
  cases o with
  | deleteMeta k => simp only [Disk.apply, set]; rw [if_neg]; rintro rfl; exact h1 rfl
  | writeMeta k m => simp only [Disk.apply, set]; rw [if_neg]; rintro rfl; exact h2 m rfl
  | _ => rfl

theorem cache_apply_other (d : Disk Text Iface Out) (o : Op Text Iface Out) (n : String) (h1 : o ≠ .deleteCache n)
    (h2 : ∀ m, o ≠ .writeCache n m) : (d.apply o).cache n = d.cache n := by
  cases o with
  | deleteCache k => simp only [Disk.apply, set]; rw [if_neg]; rintro rfl; exact h1 rfl
  | writeCache k m => simp only [Disk.apply, set]; rw [if_neg]; rintro rfl; exact h2 m rfl
  | _ => rfl

theorem out_apply_other (d : Disk Text Iface Out) (o : Op Text Iface Out) (n : String)
    (h2 : ∀ m, o ≠ .writeOut n m) : (d.apply o).out n = d.out n := by
  cases o with
  | writeOut k m => simp only [Disk.apply, set]; rw [if_neg]; rintro rfl; exact h2 m rfl
  | _ => rfl

theorem info_other (ops : List (Op Text Iface Out)) (d : Disk Text Iface Out) (n : String) (h1 : .deleteMeta n ∉ ops)
    (h2 : ∀ m, .writeMeta n m ∉ ops) : (d.applyAll ops).info n = d.info n := by
  induction ops generalizing d with
  | nil => rfl
  | cons o ops ih =>
    rw [applyAll_cons, ih _ (fun h => h1 (.tail _ h)) (fun m h => h2 m (.tail _ h))]
    exact info_apply_other d o n (fun h => h1 (h ▸ .head _)) (fun m h => h2 m (h ▸ .head _))

theorem cache_other (ops : List (Op Text Iface Out)) (d : Disk Text Iface Out) (n : String) (h1 : .deleteCache n ∉ ops)
    (h2 : ∀ m, .writeCache n m ∉ ops) : (d.applyAll ops).cache n = d.cache n := by
  induction ops generalizing d with
  | nil => rfl
  | cons o ops ih =>
    rw [applyAll_cons, ih _ (fun h => h1 (.tail _ h)) (fun m h => h2 m (.tail _ h))]
    exact cache_apply_other d o n (fun h => h1 (h ▸ .head _)) (fun m h => h2 m (h ▸ .head _))

theorem out_other (ops : List (Op Text Iface Out)) (d : Disk Text Iface Out) (n : String)
    (h2 : ∀ m, .writeOut n m ∉ ops) : (d.applyAll ops).out n = d.out n := by
  induction ops generalizing d with
  | nil => rfl
  | cons o ops ih =>
    rw [applyAll_cons, ih _ (fun m h => h2 m (.tail _ h))]
    exact out_apply_other d o n (fun m h => h2 m (h ▸ .head _))

theorem info_deleted (ops : List (Op Text Iface Out)) (d : Disk Text Iface Out) (n : String) (h1 : .deleteMeta n ∈ ops)
    (h2 : ∀ m, .writeMeta n m ∉ ops) : (d.applyAll ops).info n = none := by
  induction ops generalizing d with
  | nil => simp at h1
  | cons o ops ih =>
    rw [applyAll_cons]
    by_cases h : .deleteMeta n ∈ ops
    · exact ih _ h (fun m h => h2 m (.tail _ h))
    · rw [info_other ops _ n h (fun m h => h2 m (.tail _ h))]
      have ho : o = .deleteMeta n := by
        rcases List.mem_cons.mp h1 with h' | h'
        · exact h'.symm
        · exact absurd h' h
      subst ho
      simp [Disk.apply, set]

theorem cache_deleted (ops : List (Op Text Iface Out)) (d : Disk Text Iface Out) (n : String) (h1 : .deleteCache n ∈ ops)
    (h2 : ∀ m, .writeCache n m ∉ ops) : (d.applyAll ops).cache n = none := by
  induction ops generalizing d with
  | nil => simp at h1
  | cons o ops ih =>
    rw [applyAll_cons]
    by_cases h : .deleteCache n ∈ ops
    · exact ih _ h (fun m h => h2 m (.tail _ h))
    · rw [cache_other ops _ n h (fun m h => h2 m (.tail _ h))]
      have ho : o = .deleteCache n := by
        rcases List.mem_cons.mp h1 with h' | h'
        · exact h'.symm
        · exact absurd h' h
      subst ho
      simp [Disk.apply, set]

theorem info_written (ops : List (Op Text Iface Out)) (d : Disk Text Iface Out) (n : String) (m : Meta Text)
    (h1 : .writeMeta n m ∈ ops) (h2 : .deleteMeta n ∉ ops) (h3 : ∀ m', .writeMeta n m' ∈ ops → m' = m) :
    (d.applyAll ops).info n = some m := by
  induction ops generalizing d with
  | nil => simp at h1
  | cons o ops ih =>
    rw [applyAll_cons]
    by_cases h : .writeMeta n m ∈ ops
    · exact ih _ h (fun h => h2 (.tail _ h)) (fun m' h => h3 m' (.tail _ h))
    · have ho : o = .writeMeta n m := by
        rcases List.mem_cons.mp h1 with h' | h'
        · exact h'.symm
        · exact absurd h' h
      rw [info_other ops _ n (fun h => h2 (.tail _ h)) (fun m' h' => h (by rw [← h3 m' (.tail _ h')]; exact h'))]
      subst ho
      simp [Disk.apply, set]

theorem cache_written (ops : List (Op Text Iface Out)) (d : Disk Text Iface Out) (n : String) (m : Iface)
    (h1 : .writeCache n m ∈ ops) (h2 : .deleteCache n ∉ ops) (h3 : ∀ m', .writeCache n m' ∈ ops → m' = m) :
    (d.applyAll ops).cache n = some m := by
  induction ops generalizing d with
  | nil => simp at h1
  | cons o ops ih =>
    rw [applyAll_cons]
    by_cases h : .writeCache n m ∈ ops
    · exact ih _ h (fun h => h2 (.tail _ h)) (fun m' h => h3 m' (.tail _ h))
    · have ho : o = .writeCache n m := by
        rcases List.mem_cons.mp h1 with h' | h'
        · exact h'.symm
        · exact absurd h' h
      rw [cache_other ops _ n (fun h => h2 (.tail _ h)) (fun m' h' => h (by rw [← h3 m' (.tail _ h')]; exact h'))]
      subst ho
      simp [Disk.apply, set]

theorem out_written (ops : List (Op Text Iface Out)) (d : Disk Text Iface Out) (n : String) (m : Out)
    (h1 : .writeOut n m ∈ ops) (h3 : ∀ m', .writeOut n m' ∈ ops → m' = m) :
    (d.applyAll ops).out n = some m := by
  induction ops generalizing d with
  | nil => simp at h1
  | cons o ops ih =>
    rw [applyAll_cons]
    by_cases h : .writeOut n m ∈ ops
    · exact ih _ h (fun m' h => h3 m' (.tail _ h))
    · have ho : o = .writeOut n m := by
        rcases List.mem_cons.mp h1 with h' | h'
        · exact h'.symm
        · exact absurd h' h
      rw [out_other ops _ n (fun m' h' => h (by rw [← h3 m' (.tail _ h')]; exact h'))]
      subst ho
      simp [Disk.apply, set]

/-! ### Lookups -/

theorem lookup_some {α : Type} (l : List (String × α)) (n : String) (v : α) (h : lookup l n = some v) : (n, v) ∈ l := by
  induction l with
  | nil => simp [lookup] at h
  | cons e rest ih =>
    obtain ⟨k, w⟩ := e
    simp only [lookup] at h
    by_cases hk : n = k
    · rw [if_pos hk] at h; cases h; subst hk; exact .head _
    · rw [if_neg hk] at h; exact .tail _ (ih h)

theorem lookup_mem {α : Type} (l : List (String × α)) (hn : (l.map (·.1)).Nodup) (n : String) (v : α) (h : (n, v) ∈ l) :
    lookup l n = some v := by
  induction l with
  | nil => simp at h
  | cons e rest ih =>
    obtain ⟨k, w⟩ := e
    simp only [List.map_cons, List.nodup_cons] at hn
    simp only [lookup]
    rcases List.mem_cons.mp h with h' | h'
    · cases h'; simp
    · rw [if_neg]
      · exact ih hn.2 h'
      · rintro rfl; exact hn.1 (List.mem_map.mpr ⟨_, h', rfl⟩)

theorem lookup_none {α : Type} (l : List (String × α)) (n : String) (h : lookup l n = none) (v : α) : (n, v) ∉ l := by
  induction l with
  | nil => simp
  | cons e rest ih =>
    obtain ⟨k, w⟩ := e
    simp only [lookup] at h
    by_cases hk : n = k
    · rw [if_pos hk] at h; cases h
    · rw [if_neg hk] at h
      intro hm
      rcases List.mem_cons.mp hm with h' | h'
      · cases h'; exact hk rfl
      · exact ih h h'

/-! ### Reading the inputs -/

section
variable [DecidableEq Text]

theorem readInputs_ok (C : Compiler Text Iface Out) (codegen : Bool) (sources : String → Option (Source Text))
    (disk : Disk Text Iface Out) (names : List String) (inputs : List (String × Input Text))
    (h : readInputs C codegen sources disk names = some inputs) :
    (inputs.map (·.1)).Sublist names ∧
    (∀ n ∈ names, ∀ s, sources n = some s → ∃ i, (n, i) ∈ inputs) ∧
    ∀ n i, (n, i) ∈ inputs → ∃ s, sources n = some s ∧ load C codegen n s (disk.info n) = some i := by
  induction names generalizing inputs with
  | nil => simp only [readInputs, Option.some.injEq] at h; subst h; simp
  | cons a names ih =>
    simp only [readInputs] at h
    cases hs : sources a with
    | none =>
      simp only [hs] at h
      obtain ⟨h1, h2, h3⟩ := ih inputs h
      refine ⟨h1.cons a, ?_, h3⟩
      intro n hn s hs'
      rcases List.mem_cons.mp hn with rfl | hn
      · rw [hs] at hs'; cases hs'
      · exact h2 n hn s hs'
    | some s =>
      simp only [hs] at h
      cases hl : load C codegen a s (disk.info a) with
      | none => simp [hl] at h
      | some i =>
        simp only [hl] at h
        cases hr : readInputs C codegen sources disk names with
        | none => simp [hr] at h
        | some rest =>
          simp only [hr, Option.some.injEq] at h
          subst h
          obtain ⟨h1, h2, h3⟩ := ih rest hr
          refine ⟨h1.cons_cons a, ?_, ?_⟩
          · intro n hn s' hs'
            rcases List.mem_cons.mp hn with rfl | hn
            · exact ⟨i, .head _⟩
            · obtain ⟨j, hj⟩ := h2 n hn s' hs'
              exact ⟨j, .tail _ hj⟩
          · intro n j hj
            rcases List.mem_cons.mp hj with h' | h'
            · cases h'; exact ⟨s, hs, hl⟩
            · exact h3 n j h'

theorem readInputs_total (C : Compiler Text Iface Out) (codegen : Bool) (sources : String → Option (Source Text))
    (disk : Disk Text Iface Out) (names : List String)
    (h : ∀ n s, sources n = some s → ∃ ds, C.imports s.text = some ds) :
    ∃ inputs, readInputs C codegen sources disk names = some inputs := by
  induction names with
  | nil => exact ⟨[], rfl⟩
  | cons a names ih =>
    obtain ⟨rest, hr⟩ := ih
    simp only [readInputs]
    cases hs : sources a with
    | none => exact ⟨rest, by simpa using hr⟩
    | some s =>
      obtain ⟨ds, hd⟩ := h a s hs
      have : ∃ i, load C codegen a s (disk.info a) = some i := by
        unfold load
        simp only [readSource, hd, Option.map_some]
        cases disk.info a with
        | none => simp
        | some m =>
          simp only
          split
          · simp
          · split
            · split <;> simp
            · simp
      obtain ⟨i, hi⟩ := this
      exact ⟨(a, i) :: rest, by simp [hi, hr]⟩

/-- What loading a module says about it, if its metadata is right about its text. -/
theorem load_ok (C : Compiler Text Iface Out) (codegen : Bool) (n : String) (s : Source Text) (info : Option (Meta Text))
    (hmt : ∀ m, info = some m → ¬ m.mtime < s.mtime → m.text = s.text) (i : Input Text)
    (h : load C codegen n s info = some i) :
    (∃ u, i = .new u ∧ readSource C n s = some u ∧
      (info = none ∨ ∃ m, info = some m ∧ (m.text ≠ s.text ∨ (codegen = true ∧ m.codegen = false)))) ∨
    (∃ m, i = .cached m.deps ∧ info = some m ∧ m.text = s.text ∧ (codegen = true → m.codegen = true)) := by
  unfold load at h
  cases hi : info with
  | none =>
    subst hi
    simp only at h
    cases hr : readSource C n s with
    | none => simp [hr] at h
    | some u => simp only [hr, Option.map_some, Option.some.injEq] at h; exact .inl ⟨u, h.symm, rfl, .inl rfl⟩
  | some m =>
    subst hi
    simp only at h
    by_cases hc : (codegen && !m.codegen) = true
    · rw [if_pos hc] at h
      cases hr : readSource C n s with
      | none => simp [hr] at h
      | some u =>
        simp only [hr, Option.map_some, Option.some.injEq] at h
        exact .inl ⟨u, h.symm, rfl, .inr ⟨m, rfl, .inr (by simpa using hc)⟩⟩
    · rw [if_neg hc] at h
      have hc' : codegen = true → m.codegen = true := by
        intro h1
        cases hm : m.codegen with
        | true => rfl
        | false => simp [h1, hm] at hc
      by_cases ht : m.mtime < s.mtime
      · rw [if_pos ht] at h
        cases hr : readSource C n s with
        | none => simp [hr] at h
        | some u =>
          simp only [hr] at h
          by_cases he : m.text ≠ s.text
          · rw [if_pos he] at h; cases h
            exact .inl ⟨u, rfl, rfl, .inr ⟨m, rfl, .inl he⟩⟩
          · rw [if_neg he] at h; cases h
            exact .inr ⟨m, rfl, rfl, not_not.mp he, hc'⟩
      · rw [if_neg ht] at h; cases h
        exact .inr ⟨m, rfl, rfl, hmt m rfl ht, hc'⟩

end

/-! ### The loop over the modules -/

section
variable (C : Compiler Text Iface Out) (sources : String → Option (Source Text)) (disk : Disk Text Iface Out)
  (inputs : List (String × Input Text))

theorem loadLoop_ops (seq stale : List String) (o : Op Text Iface Out) (ho : o ∈ (loadLoop C sources disk inputs seq stale).1) :
    ∃ n ∈ seq, (o = .deleteCache n ∨ o = .deleteMeta n) ∧ ∃ ds, lookup inputs n = some (.cached ds) := by
  induction seq generalizing stale with
  | nil => simp [loadLoop] at ho
  | cons n seq ih =>
    simp only [loadLoop] at ho
    cases hl : lookup inputs n with
    | none => simp [hl] at ho
    | some i =>
      cases i with
      | new u =>
        simp only [hl] at ho
        obtain ⟨k, hk, h⟩ := ih _ ho
        exact ⟨k, .tail _ hk, h⟩
      | cached ds =>
        simp only [hl] at ho
        by_cases hst : (ds.any fun d => decide (d ∈ stale)) = true
        · rw [if_pos hst] at ho
          cases hr : (sources n).bind (readSource C n) with
          | none =>
            simp only [hr, deleteFiles, List.mem_cons, List.not_mem_nil, or_false] at ho
            exact ⟨n, .head _, ho, ds, hl⟩
          | some u =>
            simp only [hr, deleteFiles, List.cons_append, List.nil_append, List.mem_cons] at ho
            rcases ho with h | h | h
            · exact ⟨n, .head _, .inl h, ds, hl⟩
            · exact ⟨n, .head _, .inr h, ds, hl⟩
            · obtain ⟨k, hk, h⟩ := ih _ h
              exact ⟨k, .tail _ hk, h⟩
        · rw [if_neg hst] at ho
          cases hc : disk.cache n with
          | none => simp [hc] at ho
          | some i =>
            simp only [hc] at ho
            obtain ⟨k, hk, h⟩ := ih _ ho
            exact ⟨k, .tail _ hk, h⟩

/-- What is known after the loop. -/
structure LoopFacts (seq stale : List String) (ops : List (Op Text Iface Out)) (l : Loaded Text Iface) : Prop where
  stale_iff : ∀ x, x ∈ l.stale ↔ x ∈ stale ∨ x ∈ l.toCompile.map (·.name)
  sub : (l.toCompile.map (·.name)).Sublist seq
  csub : (l.cached.map (·.1)).Sublist seq
  cover : ∀ n ∈ seq, n ∈ l.toCompile.map (·.name) ∨ ∃ i, (n, i) ∈ l.cached
  cached : ∀ n i, (n, i) ∈ l.cached → n ∈ seq ∧ n ∉ l.toCompile.map (·.name) ∧ disk.cache n = some i ∧
    ∃ ds, lookup inputs n = some (.cached ds) ∧ ∀ d ∈ ds, d ∉ stale ∧
      ∀ pre post, seq = pre ++ n :: post → d ∈ pre → d ∉ l.toCompile.map (·.name)
  compile : ∀ u ∈ l.toCompile, lookup inputs u.name = some (.new u) ∨
    (∃ ds s, lookup inputs u.name = some (.cached ds) ∧ sources u.name = some s ∧ readSource C u.name s = some u ∧
      .deleteMeta u.name ∈ ops ∧ .deleteCache u.name ∈ ops)
  ops_iff : ∀ o ∈ ops, ∃ n, (o = .deleteCache n ∨ o = .deleteMeta n) ∧ n ∈ l.toCompile.map (·.name)

theorem readSource_name (n : String) (s : Source Text) (u : Uncompiled Text) (h : readSource C n s = some u) :
    u.name = n ∧ u.text = s.text ∧ u.mtime = s.mtime ∧ C.imports s.text = some u.deps := by
  unfold readSource at h
  cases hi : C.imports s.text with
  | none => simp [hi] at h
  | some ds => simp only [hi, Option.map_some, Option.some.injEq] at h; subst h; simp

theorem loadLoop_ok (hin : ∀ n u, lookup inputs n = some (.new u) → u.name = n) (seq stale : List String) (hnd : seq.Nodup)
    (l : Loaded Text Iface) (h : (loadLoop C sources disk inputs seq stale).2 = some l) :
    LoopFacts C sources disk inputs seq stale (loadLoop C sources disk inputs seq stale).1 l := by
  induction seq generalizing stale l with
  | nil =>
    simp only [loadLoop, Option.some.injEq] at h
    subst h
    constructor <;> simp [loadLoop]
  | cons n seq ih =>
    obtain ⟨hn1, hn2⟩ := List.nodup_cons.mp hnd
    have hsplit : ∀ {x : String} {pre post : List String}, n :: seq = pre ++ x :: post → x ≠ n →
        ∃ pre', pre = n :: pre' ∧ seq = pre' ++ x :: post := by
      intro x pre post h hx
      cases pre with
      | nil => simp only [List.nil_append, List.cons.injEq] at h; exact absurd h.1.symm hx
      | cons a pre => simp only [List.cons_append, List.cons.injEq] at h; exact ⟨pre, by rw [h.1], h.2⟩
    simp only [loadLoop] at h ⊢
    cases hl : lookup inputs n with
    | none => simp [hl] at h
    | some i =>
      cases i with
      | new u =>
        simp only [hl] at h ⊢
        cases hr : (loadLoop C sources disk inputs seq (n :: stale)).2 with
        | none => simp [hr] at h
        | some l' =>
          simp only [hr, Option.map_some, Option.some.injEq] at h
          subst h
          have f := ih (n :: stale) hn2 l' hr
          have hun := hin n u hl
          constructor
          · intro x
            simp only [f.stale_iff, List.mem_cons, List.map_cons, hun]
            tauto
          · simp only [List.map_cons, hun]; exact f.sub.cons_cons n
          · exact f.csub.cons n
          · intro x hx
            simp only [List.map_cons, hun, List.mem_cons]
            rcases List.mem_cons.mp hx with rfl | hx
            · exact .inl (.inl rfl)
            · rcases f.cover x hx with h | h
              · exact .inl (.inr h)
              · exact .inr h
          · intro x i hx
            obtain ⟨h1, h2, h3, ds, h4, h5⟩ := f.cached x i hx
            have hxn : x ≠ n := fun e => hn1 (e ▸ h1)
            refine ⟨.tail _ h1, ?_, h3, ds, h4, ?_⟩
            · simp only [List.map_cons, hun, List.mem_cons, not_or]; exact ⟨hxn, h2⟩
            · intro d hd
              obtain ⟨h6, h7⟩ := h5 d hd
              refine ⟨fun h => h6 (.tail _ h), ?_⟩
              intro pre post hp hdp
              obtain ⟨pre', rfl, hp'⟩ := hsplit hp hxn
              simp only [List.map_cons, hun, List.mem_cons, not_or]
              refine ⟨fun e => h6 (e ▸ .head _), ?_⟩
              rcases List.mem_cons.mp hdp with rfl | hdp
              · exact absurd (List.mem_cons_self) h6
              · exact h7 pre' post hp' hdp
          · intro v hv
            rcases List.mem_cons.mp hv with rfl | hv
            · left; rw [hun]; exact hl
            · exact f.compile v hv
          · intro o ho
            obtain ⟨k, h1, h2⟩ := f.ops_iff o ho
            exact ⟨k, h1, by simp only [List.map_cons]; exact .tail _ h2⟩
      | cached ds =>
        simp only [hl] at h ⊢
        by_cases hst : (ds.any fun d => decide (d ∈ stale)) = true
        · rw [if_pos hst] at h ⊢
          cases hb : (sources n).bind (readSource C n) with
          | none => simp [hb] at h
          | some u =>
            simp only [hb] at h ⊢
            cases hr : (loadLoop C sources disk inputs seq (n :: stale)).2 with
            | none => simp [hr] at h
            | some l' =>
              simp only [hr, Option.map_some, Option.some.injEq] at h
              subst h
              have f := ih (n :: stale) hn2 l' hr
              obtain ⟨s, hs, hrs⟩ := Option.bind_eq_some_iff.mp hb
              have hun := (readSource_name C n s u hrs).1
              constructor
              · intro x
                simp only [f.stale_iff, List.mem_cons, List.map_cons, hun]
                tauto
              · simp only [List.map_cons, hun]; exact f.sub.cons_cons n
              · exact f.csub.cons n
              · intro x hx
                simp only [List.map_cons, hun, List.mem_cons]
                rcases List.mem_cons.mp hx with rfl | hx
                · exact .inl (.inl rfl)
                · rcases f.cover x hx with h | h
                  · exact .inl (.inr h)
                  · exact .inr h
              · intro x i hx
                obtain ⟨h1, h2, h3, ds, h4, h5⟩ := f.cached x i hx
                have hxn : x ≠ n := fun e => hn1 (e ▸ h1)
                refine ⟨.tail _ h1, ?_, h3, ds, h4, ?_⟩
                · simp only [List.map_cons, hun, List.mem_cons, not_or]; exact ⟨hxn, h2⟩
                · intro d hd
                  obtain ⟨h6, h7⟩ := h5 d hd
                  refine ⟨fun h => h6 (.tail _ h), ?_⟩
                  intro pre post hp hdp
                  obtain ⟨pre', rfl, hp'⟩ := hsplit hp hxn
                  simp only [List.map_cons, hun, List.mem_cons, not_or]
                  refine ⟨fun e => h6 (e ▸ .head _), ?_⟩
                  rcases List.mem_cons.mp hdp with rfl | hdp
                  · exact absurd (List.mem_cons_self) h6
                  · exact h7 pre' post hp' hdp
              · intro v hv
                rcases List.mem_cons.mp hv with rfl | hv
                · right; refine ⟨ds, s, by rw [hun]; exact hl, by rw [hun]; exact hs, by rw [hun]; exact hrs, ?_, ?_⟩ <;>
                    simp [deleteFiles, hun]
                · rcases f.compile v hv with h | ⟨ds', s', h1, h2, h3, h4, h5⟩
                  · exact .inl h
                  · exact .inr ⟨ds', s', h1, h2, h3, List.mem_append_right _ h4, List.mem_append_right _ h5⟩
              · intro o ho
                simp only [List.map_cons, hun]
                rcases List.mem_append.mp ho with ho | ho
                · simp only [deleteFiles, List.mem_cons, List.not_mem_nil, or_false] at ho
                  exact ⟨n, ho, .head _⟩
                · obtain ⟨k, h1, h2⟩ := f.ops_iff o ho
                  exact ⟨k, h1, .tail _ h2⟩
        · rw [if_neg hst] at h ⊢
          cases hc : disk.cache n with
          | none => simp [hc] at h
          | some i =>
            simp only [hc] at h ⊢
            cases hr : (loadLoop C sources disk inputs seq stale).2 with
            | none => simp [hr] at h
            | some l' =>
              simp only [hr, Option.map_some, Option.some.injEq] at h
              subst h
              have f := ih stale hn2 l' hr
              have hnc : n ∉ l'.toCompile.map (·.name) := fun h => hn1 (f.sub.subset h)
              constructor
              · exact f.stale_iff
              · exact f.sub.cons n
              · exact f.csub.cons_cons n
              · intro x hx
                rcases List.mem_cons.mp hx with rfl | hx
                · exact .inr ⟨i, .head _⟩
                · rcases f.cover x hx with h | ⟨j, h⟩
                  · exact .inl h
                  · exact .inr ⟨j, .tail _ h⟩
              · intro x j hx
                rcases List.mem_cons.mp hx with hx | hx
                · cases hx
                  refine ⟨.head _, hnc, hc, ds, hl, ?_⟩
                  intro d hd
                  refine ⟨?_, ?_⟩
                  · intro hds
                    apply hst
                    rw [List.any_eq_true]
                    exact ⟨d, hd, by simpa using hds⟩
                  · intro pre post hp hdp
                    cases pre with
                    | nil => simp at hdp
                    | cons a pre =>
                      simp only [List.cons_append, List.cons.injEq] at hp
                      exact absurd (hp.2 ▸ List.mem_append_right _ (.head _)) hn1
                · obtain ⟨h1, h2, h3, ds', h4, h5⟩ := f.cached x j hx
                  have hxn : x ≠ n := fun e => hn1 (e ▸ h1)
                  refine ⟨.tail _ h1, h2, h3, ds', h4, ?_⟩
                  intro d hd
                  obtain ⟨h6, h7⟩ := h5 d hd
                  refine ⟨h6, ?_⟩
                  intro pre post hp hdp
                  obtain ⟨pre', rfl, hp'⟩ := hsplit hp hxn
                  rcases List.mem_cons.mp hdp with rfl | hdp
                  · exact hnc
                  · exact h7 pre' post hp' hdp
              · exact f.compile
              · exact f.ops_iff

theorem loadLoop_total (seq stale : List String)
    (h : ∀ n ∈ seq, ∃ i, lookup inputs n = some i ∧ ∀ ds, i = .cached ds →
      (∃ u, (sources n).bind (readSource C n) = some u) ∧ ∃ j, disk.cache n = some j) :
    ∃ l, (loadLoop C sources disk inputs seq stale).2 = some l := by
  induction seq generalizing stale with
  | nil => exact ⟨_, rfl⟩
  | cons n seq ih =>
    obtain ⟨i, hi, hd⟩ := h n (.head _)
    have ih' := fun stale => ih stale (fun k hk => h k (.tail _ hk))
    simp only [loadLoop, hi]
    cases i with
    | new u =>
      obtain ⟨l, hl⟩ := ih' (n :: stale)
      exact ⟨_, by simp only [hl, Option.map_some]; rfl⟩
    | cached ds =>
      obtain ⟨⟨u, hu⟩, j, hj⟩ := hd ds rfl
      simp only
      split
      · obtain ⟨l, hl⟩ := ih' (n :: stale)
        exact ⟨_, by simp only [hu, hl, Option.map_some]; rfl⟩
      · obtain ⟨l, hl⟩ := ih' stale
        exact ⟨_, by simp only [hj, hl, Option.map_some]; rfl⟩

end

/-! ### Analysis -/

theorem interfaces_some (env : String → Option Iface) (ds : List String) (is : List Iface) (h : interfaces env ds = some is)
    (z : Iface) : is = ds.map (fun d => (env d).getD z) ∧ ∀ d ∈ ds, ∃ i, env d = some i := by
  induction ds generalizing is with
  | nil => simp only [interfaces, Option.some.injEq] at h; subst h; simp
  | cons d ds ih =>
    simp only [interfaces] at h
    cases he : env d with
    | none => simp [he] at h
    | some i =>
      cases hr : interfaces env ds with
      | none => simp [he, hr] at h
      | some is' =>
        simp only [he, hr, Option.some.injEq] at h
        subst h
        obtain ⟨h1, h2⟩ := ih is' hr
        refine ⟨by simp [he, ← h1], ?_⟩
        intro x hx
        rcases List.mem_cons.mp hx with rfl | hx
        · exact ⟨i, he⟩
        · exact h2 x hx

theorem interfaces_map (env : String → Option Iface) (ds : List String) (f : String → Iface)
    (h : ∀ d ∈ ds, env d = some (f d)) : interfaces env ds = some (ds.map f) := by
  induction ds with
  | nil => rfl
  | cons d ds ih =>
    simp [interfaces, h d (.head _), ih (fun x hx => h x (.tail _ hx))]

theorem interfaces_congr (env env' : String → Option Iface) (ds : List String) (h : ∀ d ∈ ds, env d = env' d) :
    interfaces env ds = interfaces env' ds := by
  induction ds with
  | nil => rfl
  | cons d ds ih =>
    simp only [interfaces, h d (.head _), ih (fun x hx => h x (.tail _ hx))]

/-- Every import of a module of the list that is in the list is before it. -/
def Ordered (us : List (Uncompiled Text)) : Prop :=
  ∀ pre u post, us = pre ++ u :: post → ∀ d ∈ u.deps, d ∉ (u :: post).map (·.name)

theorem Ordered.tail {u : Uncompiled Text} {us : List (Uncompiled Text)} (h : Ordered (u :: us)) : Ordered us := by
  intro pre v post hp
  exact h (u :: pre) v post (by rw [hp]; rfl)

theorem analyse_ok (C : Compiler Text Iface Out) (us : List (Uncompiled Text)) (hnd : (us.map (·.name)).Nodup)
    (hord : Ordered us) (env env' : String → Option Iface) (ms : List (Compiled Text Iface Out))
    (h : analyse C us env = some (ms, env')) :
    ms.map (·.source) = us ∧ (∀ x, x ∉ us.map (·.name) → env' x = env x) ∧
    ∀ m ∈ ms, env' m.source.name = some m.iface ∧ ∃ is, C.check m.source.name m.source.text is = some m.iface ∧
      m.out = C.gen m.source.name m.source.text is ∧ interfaces env' m.source.deps = some is := by
  induction us generalizing env ms with
  | nil =>
    simp only [analyse, Option.some.injEq, Prod.mk.injEq] at h
    obtain ⟨rfl, rfl⟩ := h
    simp
  | cons u us ih =>
    simp only [analyse] at h
    cases hi : interfaces env u.deps with
    | none => simp [hi] at h
    | some is =>
      simp only [hi] at h
      cases hc : C.check u.name u.text is with
      | none => simp [hc] at h
      | some i =>
        simp only [hc] at h
        cases hr : analyse C us (set env u.name (some i)) with
        | none => simp [hr] at h
        | some r =>
          obtain ⟨ms', env''⟩ := r
          simp only [hr, Option.some.injEq, Prod.mk.injEq] at h
          obtain ⟨rfl, rfl⟩ := h
          simp only [List.map_cons, List.nodup_cons] at hnd
          obtain ⟨h1, h2, h3⟩ := ih hnd.2 hord.tail (set env u.name (some i)) ms' hr
          refine ⟨by simp [h1], ?_, ?_⟩
          · intro x hx
            simp only [List.map_cons, List.mem_cons, not_or] at hx
            rw [h2 x hx.2]
            simp [set, hx.1]
          · intro m hm
            rcases List.mem_cons.mp hm with rfl | hm
            · refine ⟨?_, is, hc, rfl, ?_⟩
              · simp only
                rw [h2 _ hnd.1]
                simp [set]
              · rw [← hi]
                apply interfaces_congr
                intro d hd
                have := hord [] u us rfl d hd
                simp only [List.map_cons, List.mem_cons, not_or] at this
                rw [h2 d this.2]
                simp [set, this.1]
            · exact h3 m hm

theorem Interface.unique {C : Compiler Text Iface Out} {sources : String → Option (Source Text)} {n : String} {i : Iface}
    (h : Interface C sources n i) : ∀ j, Interface C sources n j → j = i := by
  induction h with
  | mk n s ds f i hs hd _ hc ih =>
    rintro j ⟨_, s', ds', f', _, hs', hd', hf', hc'⟩
    rw [hs] at hs'; cases hs'
    rw [hd] at hd'; cases hd'
    have : ds.map f' = ds.map f := List.map_congr_left fun d hd => ih d hd (f' d) (hf' d hd)
    rw [this, hc] at hc'
    exact (Option.some.inj hc').symm

theorem analyse_total (C : Compiler Text Iface Out) (sources : String → Option (Source Text)) (us : List (Uncompiled Text))
    (hnd : (us.map (·.name)).Nodup) (hord : Ordered us) (env : String → Option Iface)
    (hs : ∀ u ∈ us, ∃ s, sources u.name = some s ∧ s.text = u.text ∧ C.imports s.text = some u.deps)
    (hc : ∀ u ∈ us, ∃ i, Interface C sources u.name i)
    (henv : ∀ d i, Interface C sources d i → d ∉ us.map (·.name) → env d = some i) :
    ∃ r, analyse C us env = some r := by
  induction us generalizing env with
  | nil => exact ⟨_, rfl⟩
  | cons u us ih =>
    obtain ⟨i, hi⟩ := hc u (.head _)
    obtain ⟨s, hs1, hs2, hs3⟩ := hs u (.head _)
    obtain ⟨_, s', ds, f, _, h1, h2, h3, h4⟩ := hi
    rw [hs1] at h1; cases h1
    rw [hs3] at h2; cases h2
    have hii : Interface C sources u.name i := ⟨_, s, u.deps, f, i, hs1, hs3, h3, h4⟩
    have hif : interfaces env u.deps = some (u.deps.map f) := by
      apply interfaces_map
      intro d hd
      exact henv d (f d) (h3 d hd) (hord [] u us rfl d hd)
    simp only [List.map_cons, List.nodup_cons] at hnd
    have := ih hnd.2 hord.tail (set env u.name (some i)) (fun v hv => hs v (.tail _ hv)) (fun v hv => hc v (.tail _ hv)) (by
      intro d j hj hd
      simp only [set]
      by_cases he : d = u.name
      · subst he; simp [hii.unique j hj]
      · rw [if_neg he]
        apply henv d j hj
        simp only [List.map_cons, List.mem_cons, not_or]
        exact ⟨he, hd⟩)
    obtain ⟨⟨ms, env'⟩, hr⟩ := this
    rw [hs2] at h4
    exact ⟨_, by simp only [analyse, hif, h4, hr]; rfl⟩

/-! ### The files written -/

theorem metadata_prefix (codegen : Bool) (ms : List (Compiled Text Iface Out)) (k : Nat) :
    ∃ pre rest, ms = pre ++ rest ∧ ((metadataOps codegen ms).take k = metadataOps codegen pre ∨
      ∃ x rest', rest = x :: rest' ∧
        (metadataOps codegen ms).take k = metadataOps codegen pre ++ [.writeCache x.source.name x.iface]) := by
  induction ms generalizing k with
  | nil => exact ⟨[], [], rfl, .inl (by simp [metadataOps])⟩
  | cons m ms ih =>
    match k with
    | 0 => exact ⟨[], m :: ms, rfl, .inl (by simp [metadataOps])⟩
    | 1 => exact ⟨[], m :: ms, rfl, .inr ⟨m, ms, rfl, by simp [metadataOps]⟩⟩
    | k + 2 =>
      obtain ⟨pre, rest, h1, h2⟩ := ih k
      refine ⟨m :: pre, rest, by simp [h1], ?_⟩
      rcases h2 with h2 | ⟨x, rest', h3, h4⟩
      · left; simp [metadataOps, h2]
      · right; exact ⟨x, rest', h3, by simp [metadataOps, h4]⟩

theorem mem_metadataOps (codegen : Bool) (ms : List (Compiled Text Iface Out)) (o : Op Text Iface Out) :
    o ∈ metadataOps codegen ms ↔ ∃ m ∈ ms, o = .writeCache m.source.name m.iface ∨
      o = .writeMeta m.source.name ⟨m.source.mtime, codegen, m.source.deps, m.source.text⟩ := by
  induction ms with
  | nil => simp [metadataOps]
  | cons m ms ih =>
    simp only [metadataOps, List.mem_cons, ih]
    constructor
    · rintro (h | h | ⟨m', h1, h2⟩)
      · exact ⟨m, .inl rfl, .inl h⟩
      · exact ⟨m, .inl rfl, .inr h⟩
      · exact ⟨m', .inr h1, h2⟩
    · rintro ⟨m', rfl | h1, h2⟩
      · rcases h2 with h2 | h2
        · exact .inl h2
        · exact .inr (.inl h2)
      · exact .inr (.inr ⟨m', h1, h2⟩)

theorem mem_codegenOps (codegen : Bool) (ms : List (Compiled Text Iface Out)) (o : Op Text Iface Out) :
    o ∈ codegenOps codegen ms ↔ codegen = true ∧ ∃ m ∈ ms, o = .writeOut m.source.name m.out := by
  cases codegen <;> simp [codegenOps, eq_comm]

/-- What is known of the build directory after some of the writes: the modules in `pre` are written, those of `rest` may be
half written. -/
structure Written (codegen : Bool) (d d' : Disk Text Iface Out) (pre rest : List (Compiled Text Iface Out)) : Prop where
  other : ∀ n, n ∉ (pre ++ rest).map (·.source.name) → d'.info n = d.info n ∧ d'.cache n = d.cache n ∧ d'.out n = d.out n
  done : ∀ m ∈ pre, d'.info m.source.name = some ⟨m.source.mtime, codegen, m.source.deps, m.source.text⟩ ∧
    d'.cache m.source.name = some m.iface ∧ (codegen = true → d'.out m.source.name = some m.out)
  todo : ∀ m ∈ rest, d'.info m.source.name = d.info m.source.name

theorem unique_of_nodup {ms : List (Compiled Text Iface Out)} (hnd : (ms.map (·.source.name)).Nodup)
    {a b : Compiled Text Iface Out} (ha : a ∈ ms) (hb : b ∈ ms) (h : a.source.name = b.source.name) : a = b :=
  List.inj_on_of_nodup_map hnd ha hb h

theorem writes_prefix (codegen : Bool) (d : Disk Text Iface Out) (ms : List (Compiled Text Iface Out))
    (hnd : (ms.map (·.source.name)).Nodup) (k : Nat) :
    ∃ pre rest, ms = pre ++ rest ∧
      Written codegen d (d.applyAll ((codegenOps codegen ms ++ metadataOps codegen ms).take k)) pre rest ∧
      ((codegenOps codegen ms ++ metadataOps codegen ms).length ≤ k → rest = []) := by
  by_cases hk : k ≤ (codegenOps codegen ms).length
  · refine ⟨[], ms, rfl, ?_, ?_⟩
    · rw [List.take_append_of_le_length hk]
      have hmem : ∀ o ∈ (codegenOps codegen ms).take k, ∃ m ∈ ms, o = .writeOut m.source.name m.out := by
        intro o ho
        exact ((mem_codegenOps codegen ms o).mp (List.mem_of_mem_take ho)).2
      refine ⟨?_, by simp, ?_⟩
      · intro n hn
        refine ⟨info_other _ _ _ ?_ ?_, cache_other _ _ _ ?_ ?_, out_other _ _ _ ?_⟩
        · intro h; obtain ⟨m, _, h⟩ := hmem _ h; cases h
        · intro x h; obtain ⟨m, _, h⟩ := hmem _ h; cases h
        · intro h; obtain ⟨m, _, h⟩ := hmem _ h; cases h
        · intro x h; obtain ⟨m, _, h⟩ := hmem _ h; cases h
        · intro x h; obtain ⟨m, hm, h⟩ := hmem _ h; cases h
          exact hn (List.mem_map.mpr ⟨m, hm, rfl⟩)
      · intro m _
        apply info_other
        · intro h; obtain ⟨m, _, h⟩ := hmem _ h; cases h
        · intro x h; obtain ⟨m, _, h⟩ := hmem _ h; cases h
    · intro h
      have : (metadataOps codegen ms).length = 0 := by
        simp only [List.length_append] at h; omega
      cases ms with
      | nil => rfl
      | cons m ms => simp [metadataOps] at this
  · have hk' : (codegenOps codegen ms).length ≤ k := by omega
    obtain ⟨pre, rest, h1, h2⟩ := metadata_prefix codegen ms (k - (codegenOps codegen ms).length)
    have htake : (codegenOps codegen ms ++ metadataOps codegen ms).take k =
        codegenOps codegen ms ++ (metadataOps codegen ms).take (k - (codegenOps codegen ms).length) := by
      rw [List.take_append, List.take_of_length_le hk']
    have hsub : ∀ o, o ∈ codegenOps codegen ms ++ (metadataOps codegen ms).take (k - (codegenOps codegen ms).length) ↔
        (codegen = true ∧ ∃ m ∈ ms, o = .writeOut m.source.name m.out) ∨
        o ∈ (metadataOps codegen ms).take (k - (codegenOps codegen ms).length) := by
      intro o; rw [List.mem_append, mem_codegenOps]
    have hmeta : ∀ o, o ∈ (metadataOps codegen ms).take (k - (codegenOps codegen ms).length) →
        (∃ m ∈ pre, o = .writeCache m.source.name m.iface ∨
          o = .writeMeta m.source.name ⟨m.source.mtime, codegen, m.source.deps, m.source.text⟩) ∨
        ∃ x ∈ rest, o = .writeCache x.source.name x.iface := by
      intro o ho
      rcases h2 with h2 | ⟨x, rest', h3, h4⟩
      · rw [h2] at ho; exact .inl ((mem_metadataOps codegen pre o).mp ho)
      · rw [h4, List.mem_append] at ho
        rcases ho with ho | ho
        · exact .inl ((mem_metadataOps codegen pre o).mp ho)
        · right; rw [h3]; exact ⟨x, .head _, by simpa using ho⟩
    have hmeta' : ∀ m ∈ pre, .writeCache m.source.name m.iface ∈ (metadataOps codegen ms).take (k - (codegenOps codegen ms).length) ∧
        .writeMeta m.source.name ⟨m.source.mtime, codegen, m.source.deps, m.source.text⟩ ∈
          (metadataOps codegen ms).take (k - (codegenOps codegen ms).length) := by
      intro m hm
      rcases h2 with h2 | ⟨x, rest', h3, h4⟩
      · rw [h2, mem_metadataOps, mem_metadataOps]; exact ⟨⟨m, hm, .inl rfl⟩, m, hm, .inr rfl⟩
      · rw [h4, List.mem_append, List.mem_append, mem_metadataOps, mem_metadataOps]
        exact ⟨.inl ⟨m, hm, .inl rfl⟩, .inl ⟨m, hm, .inr rfl⟩⟩
    have hin1 : ∀ m ∈ pre, m ∈ ms := fun m hm => by rw [h1]; exact List.mem_append_left _ hm
    have hin2 : ∀ m ∈ rest, m ∈ ms := fun m hm => by rw [h1]; exact List.mem_append_right _ hm
    have hdis : ∀ a ∈ pre, ∀ b ∈ rest, a.source.name ≠ b.source.name := by
      intro a ha b hb he
      rw [h1, List.map_append, List.nodup_append] at hnd
      exact hnd.2.2 _ (List.mem_map.mpr ⟨a, ha, rfl⟩) _ (List.mem_map.mpr ⟨b, hb, rfl⟩) he
    refine ⟨pre, rest, h1, ?_, ?_⟩
    · rw [htake]
      refine ⟨?_, ?_, ?_⟩
      · intro n hn
        rw [← h1] at hn
        have hnn : ∀ m ∈ ms, m.source.name ≠ n := fun m hm e => hn (List.mem_map.mpr ⟨m, hm, e⟩)
        refine ⟨info_other _ _ _ ?_ ?_, cache_other _ _ _ ?_ ?_, out_other _ _ _ ?_⟩
        · intro h; rcases (hsub _).mp h with ⟨_, m, _, h⟩ | h
          · cases h
          · rcases hmeta _ h with ⟨m, _, h | h⟩ | ⟨m, _, h⟩ <;> cases h
        · intro x h; rcases (hsub _).mp h with ⟨_, m, _, h⟩ | h
          · cases h
          · rcases hmeta _ h with ⟨m, hm, h | h⟩ | ⟨m, _, h⟩
            · cases h
            · simp only [Op.writeMeta.injEq] at h; exact hnn m (hin1 m hm) h.1.symm
            · cases h
        · intro h; rcases (hsub _).mp h with ⟨_, m, _, h⟩ | h
          · cases h
          · rcases hmeta _ h with ⟨m, _, h | h⟩ | ⟨m, _, h⟩ <;> cases h
        · intro x h; rcases (hsub _).mp h with ⟨_, m, _, h⟩ | h
          · cases h
          · rcases hmeta _ h with ⟨m, hm, h | h⟩ | ⟨m, hm, h⟩
            · simp only [Op.writeCache.injEq] at h; exact hnn m (hin1 m hm) h.1.symm
            · cases h
            · simp only [Op.writeCache.injEq] at h; exact hnn m (hin2 m hm) h.1.symm
        · intro x h; rcases (hsub _).mp h with ⟨_, m, hm, h⟩ | h
          · simp only [Op.writeOut.injEq] at h; exact hnn m hm h.1.symm
          · rcases hmeta _ h with ⟨m, hm, h | h⟩ | ⟨m, hm, h⟩ <;> cases h
      · intro m hm
        obtain ⟨w1, w2⟩ := hmeta' m hm
        refine ⟨info_written _ _ _ _ ((hsub _).mpr (.inr w2)) ?_ ?_, cache_written _ _ _ _ ((hsub _).mpr (.inr w1)) ?_ ?_, ?_⟩
        · intro h; rcases (hsub _).mp h with ⟨_, m, _, h⟩ | h
          · cases h
          · rcases hmeta _ h with ⟨m, _, h | h⟩ | ⟨m, _, h⟩ <;> cases h
        · intro x h; rcases (hsub _).mp h with ⟨_, m, _, h⟩ | h
          · cases h
          · rcases hmeta _ h with ⟨m', hm', h | h⟩ | ⟨m', _, h⟩
            · cases h
            · simp only [Op.writeMeta.injEq] at h
              obtain ⟨e, rfl⟩ := h
              have := unique_of_nodup hnd (hin1 m hm) (hin1 m' hm') e
              subst this; rfl
            · cases h
        · intro h; rcases (hsub _).mp h with ⟨_, m, _, h⟩ | h
          · cases h
          · rcases hmeta _ h with ⟨m, _, h | h⟩ | ⟨m, _, h⟩ <;> cases h
        · intro x h; rcases (hsub _).mp h with ⟨_, m, _, h⟩ | h
          · cases h
          · rcases hmeta _ h with ⟨m', hm', h | h⟩ | ⟨m', hm', h⟩
            · simp only [Op.writeCache.injEq] at h
              obtain ⟨e, rfl⟩ := h
              have := unique_of_nodup hnd (hin1 m hm) (hin1 m' hm') e
              subst this; rfl
            · cases h
            · simp only [Op.writeCache.injEq] at h
              exact absurd h.1 (hdis m hm m' hm')
        · intro hc
          refine out_written _ _ _ _ ((hsub _).mpr (.inl ⟨hc, m, hin1 m hm, rfl⟩)) ?_
          intro x h; rcases (hsub _).mp h with ⟨_, m', hm', h⟩ | h
          · simp only [Op.writeOut.injEq] at h
            obtain ⟨e, rfl⟩ := h
            have := unique_of_nodup hnd (hin1 m hm) hm' e
            subst this; rfl
          · rcases hmeta _ h with ⟨m, _, h | h⟩ | ⟨m, _, h⟩ <;> cases h
      · intro m hm
        apply info_other
        · intro h; rcases (hsub _).mp h with ⟨_, m, _, h⟩ | h
          · cases h
          · rcases hmeta _ h with ⟨m, _, h | h⟩ | ⟨m, _, h⟩ <;> cases h
        · intro x h; rcases (hsub _).mp h with ⟨_, m, _, h⟩ | h
          · cases h
          · rcases hmeta _ h with ⟨m', hm', h | h⟩ | ⟨m', hm', h⟩
            · cases h
            · simp only [Op.writeMeta.injEq] at h
              exact absurd h.1.symm (hdis m' hm' m hm)
            · cases h
    · intro hlen
      have hall : (metadataOps codegen ms).take (k - (codegenOps codegen ms).length) = metadataOps codegen ms := by
        apply List.take_of_length_le
        simp only [List.length_append] at hlen
        omega
      cases hrest : rest with
      | nil => rfl
      | cons x rest' =>
        exfalso
        have hx : Op.writeMeta x.source.name ⟨x.source.mtime, codegen, x.source.deps, x.source.text⟩ ∈
            (metadataOps codegen ms).take (k - (codegenOps codegen ms).length) := by
          rw [hall, mem_metadataOps]
          exact ⟨x, hin2 x (hrest ▸ .head _), .inr rfl⟩
        rcases hmeta _ hx with ⟨m', hm', h | h⟩ | ⟨m', hm', h⟩
        · cases h
        · simp only [Op.writeMeta.injEq] at h
          exact absurd h.1.symm (hdis m' hm' x (hrest ▸ .head _))
        · cases h

end Verif.Build
