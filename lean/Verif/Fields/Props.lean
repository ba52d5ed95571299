import Verif.Fields.Lemmas

/-! Properties C09 and C10 (labelled call arguments). -/
namespace Verif.Fields
open Spec
variable {α : Type}

/-- C10: building a declaration's label map reports an error iff the declaration is illegal. -/
theorem build_errors_iff (decl : List (Option String)) : (build decl).2 = [] ↔ LegalDecl decl :=
  (build_ok decl).1

example : LegalDecl [none, none, some "with", some "by"] := (build_errors_iff _).1 (by decide)
example : ¬ LegalDecl [some "with", none] := fun h => absurd ((build_errors_iff _).2 h) (by decide)

/-- C10: the complete outcome of reordering a call to a legally declared function. In particular it
never panics and the error reported is of the kind the call has. -/
theorem reorder_outcome (decl : List (Option String)) (hd : LegalDecl decl) (args : List (CallArg α)) :
    match (build decl).1.reorder args with
    | .ok result => args.length = decl.length ∧ ¬ PositionalAfterLabelled args ∧
        ¬ DuplicateLabel decl args ∧ ¬ UnknownLabel decl args ∧ Reordered decl args result
    | .error (.incorrectArity _ expected given) =>
        args.length ≠ decl.length ∧ expected = decl.length ∧ given = args.length
    | .error .positionalAfterLabelled => args.length = decl.length ∧ PositionalAfterLabelled args
    | .error (.duplicateArgument l) => args.length = decl.length ∧ ¬ PositionalAfterLabelled args ∧
        some l ∈ decl ∧ 2 ≤ (args.filterMap (·.label)).count l
    | .error (.unknownLabels unknown) => args.length = decl.length ∧ ¬ PositionalAfterLabelled args ∧
        ¬ DuplicateLabel decl args ∧ unknown ≠ [] ∧
        ∀ l, l ∈ unknown ↔ (∃ a ∈ args, a.label = some l) ∧ some l ∉ decl
    | .error .panic => False := by
  have hr := (build_ok decl).2 hd
  generalize (build decl).1 = fm at hr
  unfold FieldMap.reorder
  by_cases ha : fm.arity = args.length
  · rw [if_neg (by simpa using ha)]
    have halen : args.length = decl.length := by rw [← ha, hr.arity]
    cases hp : positionalCheck false args
    · simp only [Bool.not_false, if_true]
      have := (positionalCheck_iff args false).1 hp
      simp at this
      exact ⟨halen, this⟩
    · have hnp : ¬ PositionalAfterLabelled args := by
        intro h
        have := (positionalCheck_iff args false).2 (Or.inr h)
        rw [hp] at this; cases this
      simp only [Bool.not_true, Bool.false_eq_true, if_false]
      by_cases hnd : (args.filterMap (knownLabel fm)).Nodup
      · have hndl : ¬ DuplicateLabel decl args := fun h => (nodup_iff hr args).2 h hnd
        have hc := collect_ok fm hr.inj args [] [] [] [] hnd (by simp) (by simp)
        simp only [List.append_nil, List.nil_append] at hc
        simp only [hc]
        obtain ⟨result, h1, h2, h3, h4⟩ := reinsert_ok fm decl hr args ha hnd
        simp only [h1]
        by_cases hu : (args.filterMap (unknownLabel fm)).reverse.isEmpty = true
        · simp only [hu, if_true]
          refine ⟨halen, hnp, hndl, ?_, ⟨h2, h3, h4⟩⟩
          rintro ⟨a, ham, l, hal, hld⟩
          have := (unknown_iff hr args l).2 ⟨a, ham, hal, hld⟩
          simp only [List.isEmpty_iff, List.reverse_eq_nil_iff] at hu
          rw [hu] at this; simp at this
        · simp only [hu, Bool.false_eq_true, if_false]
          refine ⟨halen, hnp, hndl, by simpa [List.isEmpty_iff] using hu, fun l => ?_⟩
          rw [List.mem_reverse, unknown_iff hr args l]
          constructor
          · rintro ⟨a, h1, h2, h3⟩; exact ⟨⟨a, h1, h2⟩, h3⟩
          · rintro ⟨⟨a, h1, h2⟩, h3⟩; exact ⟨a, h1, h2, h3⟩
      · obtain ⟨l, hlm, hcount, he⟩ := collect_err fm args [] [] [] [] (fun h => hnd h.1)
        simp only [List.append_nil] at he
        simp only [he]
        obtain ⟨b, hb, hbl⟩ := List.mem_filterMap.1 hlm
        refine ⟨halen, hnp, ((knownLabel_eq_some hr b l).1 hbl).2, ?_⟩
        have hle : (args.filterMap (knownLabel fm)).count l ≤ (args.filterMap (·.label)).count l := by
          clear he hcount hlm hb hbl hnd hnp hp ha halen
          induction args with
          | nil => simp
          | cons a as ih =>
            simp only [List.filterMap_cons]
            rcases knownLabel_cases fm a with hk | hk <;> rw [hk] <;> cases hl : a.label <;>
              simp only [List.count_cons] <;> omega
        simp at hcount
        omega
  · rw [if_pos (by simpa using ha)]
    exact ⟨by rw [hr.arity] at ha; omega, hr.arity, rfl⟩

example : (build [none, some "with", some "by"]).1.reorder
    [⟨none, none, 1⟩, ⟨some "by", none, 2⟩, ⟨some "with", none, 3⟩] =
    .ok [⟨none, none, 1⟩, ⟨some "with", none, 3⟩, ⟨some "by", none, 2⟩] := by decide

/-- C09: when reordering succeeds every argument is kept once, every labelled argument is at the index of
its label, and unlabelled arguments keep their order. -/
theorem reorder_places_arguments (decl : List (Option String)) (hd : LegalDecl decl)
    (args result : List (CallArg α)) (h : (build decl).1.reorder args = .ok result) :
    Reordered decl args result := by
  have := reorder_outcome decl hd args
  rw [h] at this
  exact this.2.2.2.2

/-- C10: reordering succeeds exactly on correct calls. -/
theorem reorder_ok_iff (decl : List (Option String)) (hd : LegalDecl decl) (args : List (CallArg α)) :
    (∃ result, (build decl).1.reorder args = .ok result) ↔
      args.length = decl.length ∧ ¬ PositionalAfterLabelled args ∧
      ¬ DuplicateLabel decl args ∧ ¬ UnknownLabel decl args := by
  have ho := reorder_outcome decl hd args
  constructor
  · rintro ⟨r, hr⟩
    rw [hr] at ho
    exact ⟨ho.1, ho.2.1, ho.2.2.1, ho.2.2.2.1⟩
  · rintro ⟨h1, h2, h3, h4⟩
    cases he : (build decl).1.reorder args with
    | ok r => exact ⟨r, rfl⟩
    | error e =>
      rw [he] at ho
      cases e with
      | incorrectArity ls e g => exact absurd h1 ho.1
      | positionalAfterLabelled => exact absurd ho.2 h2
      | duplicateArgument l =>
        exfalso
        obtain ⟨hA, hB, hld, hc⟩ := ho
        apply h3
        clear hA hB h1 h2 h4 he h3
        induction args with
        | nil => simp at hc
        | cons a as ih =>
          have lift : DuplicateLabel decl as → DuplicateLabel decl (a :: as) := by
            rintro ⟨i, j, hij, x, y, m, hx, hy, hxl, hyl, hd⟩
            exact ⟨i + 1, j + 1, by omega, x, y, m, by simpa using hx, by simpa using hy, hxl, hyl, hd⟩
          rw [List.filterMap_cons] at hc
          cases hl : a.label with
          | none => simp only [hl] at hc; exact lift (ih hc)
          | some m =>
            simp only [hl] at hc
            by_cases hml : m = l
            · subst hml
              rw [List.count_cons_self] at hc
              have : m ∈ as.filterMap (·.label) := List.count_pos_iff.1 (by omega)
              obtain ⟨b, hb, hbl⟩ := List.mem_filterMap.1 this
              obtain ⟨j, hj⟩ := List.getElem?_of_mem hb
              exact ⟨0, j + 1, by omega, a, b, m, by simp, by simpa using hj, hl, hbl, hld⟩
            · rw [List.count_cons_of_ne (by simpa using hml)] at hc
              exact lift (ih hc)
      | unknownLabels u =>
        exfalso
        obtain ⟨_, _, _, hne, hu⟩ := ho
        cases u with
        | nil => exact hne rfl
        | cons l ls =>
          obtain ⟨⟨a, h5, h6⟩, h7⟩ := (hu l).1 (List.mem_cons_self ..)
          exact h4 ⟨a, h5, l, h6, h7⟩
      | panic => exact absurd ho (by simp)

/-- C10: the labels suggested for an incomplete call are the right ones: given at least the
positional arguments, adding exactly the suggested labelled arguments makes the call correct. -/
theorem missing_labels_complete (decl : List (Option String)) (hd : LegalDecl decl)
    (args : List (CallArg α)) (hi : ∀ a ∈ args, a.implicit = none)
    (hp : ¬ PositionalAfterLabelled args) (hdup : ¬ DuplicateLabel decl args)
    (hunk : ¬ UnknownLabel decl args)
    (hpos : decl.count none ≤ (args.filter (·.label.isNone)).length) (hlen : args.length ≤ decl.length)
    (value : String → α) :
    ∃ result, (build decl).1.reorder
      (args ++ ((build decl).1.missingLabels args).map fun l => ⟨some l, none, value l⟩) = .ok result := by
  rw [reorder_ok_iff decl hd]
  have hr := (build_ok decl).2 hd
  generalize (build decl).1 = fm at hr
  have hfp := fields_perm hr hd
  have hargs : (args.filter (·.label.isNone)).length + (args.filterMap (·.label)).length = args.length := by
    clear hi hp hdup hunk hpos hlen
    induction args with
    | nil => rfl
    | cons a as ih => cases h : a.label <;> simp [h] <;> omega
  have hdecl : decl.count none + (decl.filterMap id).length = decl.length := by
    clear hd hp hdup hunk hpos hlen hr hfp
    induction decl with
    | nil => rfl
    | cons a as ih =>
      cases a with
      | none => rw [List.count_cons_self, List.filterMap_cons_none rfl, List.length_cons]; omega
      | some l =>
        rw [List.count_cons_of_ne (by simp), List.filterMap_cons_some (f := id) (a := some l) (b := l) rfl, List.length_cons, List.length_cons]
        omega
  have hexp : (args.filterMap (·.label)).Nodup := by
    have h1 := mt (nodup_iff hr args).1 hdup
    rw [not_not] at h1
    have : args.filterMap (knownLabel fm) = args.filterMap (·.label) := by
      apply List.filterMap_congr
      intro a ha
      cases hl : a.label with
      | none => simp [knownLabel, hl]
      | some l =>
        rw [knownLabel_eq_some hr]
        exact ⟨hl, Classical.byContradiction fun h => hunk ⟨a, ha, l, hl, h⟩⟩
    rwa [this] at h1
  have hsub : ∀ l ∈ args.filterMap (·.label), l ∈ fm.fields.map Prod.fst := by
    intro l hl
    obtain ⟨a, ha, hal⟩ := List.mem_filterMap.1 hl
    rw [hfp.mem_iff]
    have : some l ∈ decl := Classical.byContradiction fun h => hunk ⟨a, ha, l, hal, h⟩
    simpa using this
  have hmiss : ∃ m, (fm.missingLabels args) = m ∧ m.Nodup ∧ (∀ l ∈ m, some l ∈ decl ∧ l ∉ args.filterMap (·.label)) ∧
      args.length + m.length = decl.length := by
    refine ⟨_, rfl, ?_⟩
    unfold FieldMap.missingLabels
    cases hmin : (fm.fields.map Prod.snd).min? with
    | none =>
      have : fm.fields = [] := by simpa using hmin
      rw [this] at hfp
      have := hfp.length_eq
      simp only [List.map_nil, List.length_nil] at this
      exact ⟨by simp, by simp, by simp only [List.length_nil]; omega⟩
    | some k =>
      have hk := min_position hr hd k hmin
      subst hk
      simp only
      have hgp : (args.filter fun a => a.label.isNone && !a.isUseImplicitCallback).length =
          (args.filter (·.label.isNone)).length := by
        congr 1
        apply List.filter_congr
        intro a ha
        simp [CallArg.isUseImplicitCallback, hi a ha]
      rw [hgp]
      have hperm := sortByPos_perm (fm.fields.filter fun e => !(args.filterMap (·.label)).contains e.1)
      generalize sortByPos (fm.fields.filter fun e => !(args.filterMap (·.label)).contains e.1) = sorted at hperm
      have hsl : sorted.length + (args.filterMap (·.label)).length = fm.fields.length := by
        rw [hperm.length_eq]
        have h1 : (fm.fields.filter fun e => !(args.filterMap (·.label)).contains e.1).length +
            (fm.fields.filter fun e => (args.filterMap (·.label)).contains e.1).length = fm.fields.length := by
          have := List.length_eq_length_filter_add (l := fm.fields) (fun e => (args.filterMap (·.label)).contains e.1)
          omega
        have h2 : ((fm.fields.filter fun e => (args.filterMap (·.label)).contains e.1).map Prod.fst).Perm
            (args.filterMap (·.label)) := by
          rw [List.perm_ext_iff_of_nodup (hr.keys.sublist (List.Sublist.map _ List.filter_sublist)) hexp]
          intro l
          constructor
          · intro h
            obtain ⟨e, he, rfl⟩ := List.mem_map.1 h
            simpa using (List.mem_filter.1 he).2
          · intro h
            obtain ⟨e, he, rfl⟩ := List.mem_map.1 (hsub l h)
            exact List.mem_map.2 ⟨e, List.mem_filter.2 ⟨he, by simpa using h⟩, rfl⟩
        have := h2.length_eq
        rw [List.length_map] at this
        omega
      have hfl : fm.fields.length = (decl.filterMap id).length := by
        have := hfp.length_eq
        rwa [List.length_map] at this
      have hkeys : (sorted.map Prod.fst).Nodup := by
        rw [(hperm.map Prod.fst).nodup_iff]
        exact hr.keys.sublist (List.Sublist.map _ List.filter_sublist)
      refine ⟨?_, ?_, ?_⟩
      · exact hkeys.sublist (List.Sublist.map _ (List.drop_sublist _ _))
      · intro l hl
        obtain ⟨e, he, rfl⟩ := List.mem_map.1 hl
        have he' := hperm.mem_iff.1 ((List.drop_sublist _ _).subset he)
        obtain ⟨h1, h2⟩ := List.mem_filter.1 he'
        refine ⟨?_, by simpa using h2⟩
        have := hfp.mem_iff.1 (List.mem_map_of_mem (f := Prod.fst) h1)
        simpa using this
      · rw [List.length_map, List.length_drop]
        omega
  obtain ⟨m, hm, hnd, hmem, hml⟩ := hmiss
  rw [hm]
  refine ⟨by simpa using hml, ?_, ?_, ?_⟩
  · rintro ⟨i, j, hij, ⟨a, ha, hal⟩, ⟨b, hb, hbl, hbi⟩⟩
    rw [List.getElem?_append] at hb
    split at hb
    · rename_i hjl
      rw [List.getElem?_append_left (by omega)] at ha
      exact hp ⟨i, j, hij, ⟨a, ha, hal⟩, ⟨b, hb, hbl, hbi⟩⟩
    · have := List.mem_of_getElem? hb
      obtain ⟨l, _, rfl⟩ := List.mem_map.1 this
      simp at hbl
  · rw [← nodup_iff hr, not_not]
    have hle : ((args ++ m.map fun l => (⟨some l, none, value l⟩ : CallArg α)).filterMap (knownLabel fm)).Sublist
        (args.filterMap (·.label) ++ m) := by
      rw [List.filterMap_append]
      apply List.Sublist.append
      · clear hi hp hdup hunk hpos hlen hargs hexp hsub hmem hml hm
        induction args with
        | nil => simp
        | cons a as ih =>
          simp only [List.filterMap_cons]
          rcases knownLabel_cases fm a with hk | hk <;> rw [hk] <;> cases a.label <;> simp only
          · exact ih
          · exact ih.trans (List.sublist_cons_self _ _)
          · exact ih
          · exact ih.cons_cons _
      · clear hm hnd hmem hml
        induction m with
        | nil => simp
        | cons a as ih =>
          simp only [List.filterMap_cons, List.map_cons]
          rcases knownLabel_cases fm (⟨some a, none, value a⟩ : CallArg α) with hk | hk <;> rw [hk] <;> simp only
          · exact ih.trans (List.sublist_cons_self _ _)
          · exact ih.cons_cons _
    refine List.Nodup.sublist hle ?_
    rw [List.nodup_append]
    exact ⟨hexp, hnd, fun a ha b hb hab => (hmem b hb).2 (hab ▸ ha)⟩
  · rintro ⟨a, ha, l, hal, hld⟩
    rcases List.mem_append.1 ha with h | h
    · exact hunk ⟨a, h, l, hal, hld⟩
    · obtain ⟨l', hl', rfl⟩ := List.mem_map.1 h
      simp at hal; subst hal
      exact hld (hmem _ hl').1

example : (build [none, some "with", some "by", some "to"]).1.missingLabels
    [⟨none, none, 1⟩, ⟨none, none, 2⟩, ⟨some "to", none, 3⟩] = ["by"] := by decide

end Verif.Fields
