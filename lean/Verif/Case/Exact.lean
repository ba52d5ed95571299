import Verif.Case.First

/-!
# Splitting keeps the first branch that matches

Lemmas: which choices a pattern overlaps, and what that means for the branches left out of them.
-/

namespace Verif.Case

variable {B : BitSys}

theorem ancestor_some {value a : Lit} : ∀ {chs : List (Check B × List (Branch B))},
    ancestor value chs = some a → a <+: value ∧ (∃ ch ∈ chs, ch.1.prefixText = some a) ∧
      ∀ ch ∈ chs, ∀ s, ch.1.prefixText = some s → s <+: value → s.length ≤ a.length
  | [], h => by simp [ancestor] at h
  | ch :: chs, h => by
    simp only [ancestor] at h
    cases hp : ch.1.prefixText with
    | none =>
      simp only [hp] at h
      obtain ⟨h1, ⟨c, hc, h2⟩, h3⟩ := ancestor_some h
      refine ⟨h1, ⟨c, by simp [hc], h2⟩, ?_⟩
      intro c' hc' s hs
      simp only [List.mem_cons] at hc'
      rcases hc' with rfl | hc'
      · rw [hp] at hs; simp at hs
      · exact h3 c' hc' s hs
    | some s =>
      cases ha : ancestor value chs with
      | none =>
        simp only [hp, ha] at h
        split at h
        · rename_i hpre
          simp only [Option.some.injEq] at h
          subst h
          rw [isPrefixOf_eq] at hpre
          refine ⟨hpre, ⟨ch, by simp, hp⟩, ?_⟩
          intro c' hc' t ht htv
          simp only [List.mem_cons] at hc'
          rcases hc' with rfl | hc'
          · rw [hp] at ht; simp only [Option.some.injEq] at ht; subst ht; exact Nat.le_refl _
          · exact absurd htv (ancestor_none ha c' hc' t ht)
        · simp at h
      | some b =>
        simp only [hp, ha] at h
        obtain ⟨h1, ⟨c, hc, h2⟩, h3⟩ := ancestor_some ha
        split at h
        · rename_i hpre
          simp only [Bool.and_eq_true, isPrefixOf_eq, decide_eq_true_eq] at hpre
          simp only [Option.some.injEq] at h
          subst h
          refine ⟨hpre.1, ⟨ch, by simp, hp⟩, ?_⟩
          intro c' hc' t ht htv
          simp only [List.mem_cons] at hc'
          rcases hc' with rfl | hc'
          · rw [hp] at ht; simp only [Option.some.injEq] at ht; subst ht; exact Nat.le_refl _
          · exact Nat.le_trans (h3 c' hc' t ht htv) hpre.2
        · rename_i hpre
          simp only [Bool.and_eq_true, isPrefixOf_eq, decide_eq_true_eq, not_and] at hpre
          simp only [Option.some.injEq] at h
          subst h
          refine ⟨h1, ⟨c, by simp [hc], h2⟩, ?_⟩
          intro c' hc' t ht htv
          simp only [List.mem_cons] at hc'
          rcases hc' with rfl | hc'
          · rw [hp] at ht
            simp only [Option.some.injEq] at ht
            subst ht
            have := hpre htv
            omega
          · exact h3 c' hc' t ht htv
where
  ancestor_none {value : Lit} : ∀ {chs : List (Check B × List (Branch B))},
      ancestor value chs = none → ∀ ch ∈ chs, ∀ s, ch.1.prefixText = some s → ¬ s <+: value
    | [], _, c, hc => by simp at hc
    | ch :: chs, h, c, hc => by
      intro s hs
      simp only [ancestor] at h
      simp only [List.mem_cons] at hc
      cases ha : ancestor value chs with
      | some b => cases hp : ch.1.prefixText with
        | none => simp [hp, ha] at h
        | some t =>
          simp only [hp, ha] at h
          split at h <;> simp at h
      | none =>
        rcases hc with rfl | hc
        · simp only [hs, ha] at h
          split at h
          · simp at h
          · rename_i hp
            rwa [isPrefixOf_eq] at hp
        · exact ancestor_none ha c hc s hs

/-- The ancestor of a literal extends every other prefix of it. -/
theorem ancestor_longest {value a : Lit} {chs : List (Check B × List (Branch B))}
    (h : ancestor value chs = some a) {ch : Check B × List (Branch B)} (hc : ch ∈ chs) {s : Lit}
    (hs : ch.1.prefixText = some s) (hv : s <+: value) : s <+: a := by
  obtain ⟨h1, -, h3⟩ := ancestor_some h
  exact List.prefix_of_prefix_length_le hv h1 (h3 ch hc s hs hv)

theorem Pat.runs_length : ∀ {ps : List (Pat B)} {xs : List (Val B.Bits)},
    (Pat.runs ps xs).isSome = true → ps.length = xs.length
  | [], [], _ => rfl
  | [], _ :: _, h => by simp [Pat.runs] at h
  | _ :: _, [], h => by simp [Pat.runs] at h
  | p :: ps, x :: xs, h => by
    simp only [Pat.runs] at h
    cases hp : p.run x with
    | none => rw [hp] at h; simp at h
    | some l =>
      rw [hp] at h
      simp only [Option.bind_some, Option.isSome_map] at h
      simp [Pat.runs_length h]

/-- A check of the kind of a pattern that matches succeeds. -/
theorem holds_of_kind {p : Pat B} {c : Check B} {k : Kind} {x : Val B.Bits}
    (hp : p.kind = some k) (hc : c.kind = some k) (h : (p.run x).isSome = true) :
    c.holds x = true := by
  cases p <;> simp only [Pat.kind, Option.some.injEq, reduceCtorEq] at hp <;> subst hp <;>
    cases c <;> simp only [Check.kind, Option.some.injEq, reduceCtorEq, Kind.int.injEq,
      Kind.float.injEq, Kind.str.injEq, Kind.strPrefix.injEq, Kind.tuple.injEq,
      Kind.variant.injEq] at hc <;>
    cases x <;> simp only [Pat.run, Check.holds, Option.isSome_none, Bool.false_eq_true,
      decide_eq_true_eq] at h ⊢
  case int.int.int => split at h <;> simp_all
  case float.float.float => split at h <;> simp_all
  case str.str.str => split at h <;> simp_all
  case strPrefix.strPrefix.str => split at h <;> simp_all
  case tuple.tuple.tuple => have := Pat.runs_length h; omega
  case variant.variant.variant => split at h <;> simp_all

/-- A check that succeeds where a pattern matches is of its kind, unless they are about strings or
bit arrays. -/
theorem kind_of_holds {ds : Decls} {t : Ty} {p : Pat B} {c : Check B} {k : Kind} {x : Val B.Bits}
    (hpt : p.hasTy ds t) (hct : c.hasTy ds t) (hns : t ≠ .string) (hp : p.kind = some k)
    (hc : c.holds x = true) (h : (p.run x).isSome = true) : c.kind = some k := by
  cases p <;> simp only [Pat.kind, Option.some.injEq, reduceCtorEq] at hp <;> subst hp <;>
    cases t <;> simp only [Pat.hasTy] at hpt <;>
    cases c <;> simp only [Check.hasTy] at hct <;>
    cases x <;> simp only [Pat.run, Check.holds, Option.isSome_none, Bool.false_eq_true,
      decide_eq_true_eq] at h hc <;> simp only [Check.kind, ne_eq, not_true_eq_false] at hns ⊢
  case int.int.int.int => split at h <;> simp_all
  case float.float.float.float => split at h <;> simp_all
  case tuple.tuple.tuple.tuple => have := Pat.runs_length h; simp; omega
  case variant.named.variant.variant => split at h <;> simp_all

theorem freshCheck_kind {ds : Decls} {n : Nat} {t : Ty} {p : Pat B} {k : Kind}
    {c : Check B × Nat} (hp : p.hasTy ds t) (hk : p.kind = some k)
    (h : freshCheck n k (branchMode ds t) = some c) :
    c.1.kind = some k ∧ (c.1.ignored = false ∨ ∃ nm args inf, t = .named nm args inf) := by
  cases p <;> simp only [Pat.kind, Option.some.injEq, reduceCtorEq] at hk <;> subst hk <;>
    cases t <;> simp only [Pat.hasTy] at hp <;>
    simp only [freshCheck, branchMode, Option.some.injEq, Option.map_eq_some_iff] at h
  case variant.named =>
    obtain ⟨fs, hfs, rfl⟩ := h
    exact ⟨rfl, .inr ⟨_, _, _, rfl⟩⟩
  case tuple.tuple ps ts =>
    subst h
    refine ⟨?_, .inl rfl⟩
    have := Pat.haveTys_length hp
    simp [tupleCheck, Check.kind, freshVars_length, this]
  all_goals (subst h; exact ⟨rfl, .inl rfl⟩)

section
variable {ds : Decls} {n0 n : Nat} {guards : Guards B} {env : Env B} {v : Var}
  {seen : List (Branch B)} {sp : Splitter B} {R : Branch B → Branch B → Prop}

theorem settled {e : Branch B} {q : Pat B} (he : e ∈ seen) (hst : e.stuck) (hw : e.width ≤ 1)
    (hg : e.guard = none) (hm : (v, q) ∈ e.checks) (hr : (q.run (env v)).isSome = true) :
    (pick guards env seen).isSome = true := by
  refine pick_isSome guards he hg ?_
  have := Branch.width_one hst hw hm
  rw [Branch.run_eq, seq2_isSome, this, runChecks_cons]
  simp [seq2_isSome, runChecks, hr]

theorem OverlapOk.plain {b : Branch B} {p : Pat B} {cs : List (PCheck B)} {k : Kind}
    (ha : Adding ds n0 env v b p cs) (hk : p.kind = some k) (hns : v.ty ≠ .string)
    (hw : SpWf ds n0 n env v sp)
    (hcov : (branchMode ds v.ty).isInfinite = false → Cover (env v) sp.choices) :
    OverlapOk guards ds n env v seen sp p k := by
  have hpt := ha.pat
  have hov : checkOverlaps sp.choices k =
      ⟨fun ch => ch.1.kind == some k, !(sp.choices.any fun ch => ch.1.kind == some k)⟩ := by
    cases p <;> simp only [Pat.kind, Option.some.injEq, reduceCtorEq] at hk <;> subst hk <;>
      first
      | rfl
      | (exfalso; revert hpt hns; generalize v.ty = t; cases t <;> simp [Pat.hasTy])
  constructor
  all_goals rw [hov]
  · intro pre ch suf hs hh _ hno hr
    have := kind_of_holds hpt (hw.checks ch (by rw [hs]; simp)).ty hns hk hh hr
    simp [this] at hno
  · intro hn hr
    simp only [Bool.not_eq_false', List.any_eq_true, beq_iff_eq] at hn
    obtain ⟨ch, hch, hkc⟩ := hn
    exact ⟨ch, hch, by simp [hkc], holds_of_kind hk hkc hr⟩
  · intro c hn hc hr
    obtain ⟨h1, h2⟩ := freshCheck_kind hpt hk hc
    refine ⟨holds_of_kind hk h1 hr, ?_⟩
    rcases h2 with h2 | ⟨nm, args, inf, ht⟩
    · exact h2
    · exfalso
      obtain ⟨ch, hch, hh⟩ := hcov (by rw [ht]; rfl)
      have := kind_of_holds hpt (hw.checks ch hch).ty hns hk hh hr
      simp only [Bool.not_eq_true', List.any_eq_false, beq_iff_eq] at hn
      exact hn ch hch this
  · rintro s rfl
    exfalso
    obtain ⟨name, rest, rfl⟩ := Pat.kind_strPrefix hk
    revert hpt hns
    generalize v.ty = t
    cases t <;> simp [Pat.hasTy]

/-- What is known of the branches added so far, and the one that is about to be. -/
structure Before (ds : Decls) (sk : Char → Nat) (seen : List (Branch B)) (b : Branch B) : Prop where
  stuck : ∀ e ∈ seen, e.stuck
  nc : ∀ e ∈ seen, NC e b
  tidy : ∀ e ∈ seen, ∀ c ∈ e.checks, Tidy ds sk c
  here : ∀ c ∈ b.checks, Tidy ds sk c

/-- Of the prefixes a literal extends, the longest one has the first choice that succeeds. -/
theorem first_ancestor {pre suf : List (Check B × List (Branch B))}
    {ch : Check B × List (Branch B)} {t a value : Lit} {w : List Char}
    (he : SpExact guards env v seen sp) (hs : sp.choices = pre ++ ch :: suf)
    (hf : ∀ e ∈ pre, e.1.ignored = false → e.1.holds (env v) = false)
    (hx : env v = .str w) (hw : Lit.decode value <+: w) (ht : ch.1.prefixText = some t)
    (htv : t <+: value) (hanc : ancestor value sp.choices = some a) : a = t := by
  obtain ⟨h1, ⟨c, hc, h2⟩, -⟩ := ancestor_some hanc
  have hta : t <+: a := ancestor_longest hanc (by rw [hs]; simp) ht htv
  have ho := he.order
  rw [hs] at hc ho
  simp only [List.mem_append, List.mem_cons] at hc
  rcases hc with hc | rfl | hc
  · exfalso
    obtain ⟨r, hr⟩ := prefixText_iff.1 h2
    have := hf c hc (by rw [hr]; rfl)
    rw [hr, hx] at this
    simp only [Check.holds, decide_eq_false_iff_not] at this
    exact this ((decode_prefix h1).trans hw)
  · rw [h2] at ht
    simpa using ht
  · exfalso
    have := (List.pairwise_cons.1 (List.pairwise_append.1 ho).2.1).1 c hc t a ht h2
    exact this hta

theorem Check.string_cases {c : Check B} (h : c.hasTy ds .string) :
    (∃ t, c = .str t) ∨ ∃ t r, c = .strPrefix t r := by
  cases c <;> simp [Check.hasTy] at h ⊢

theorem OverlapOk.str {b : Branch B} {s : Lit} {cs : List (PCheck B)} {sk : Char → Nat}
    (ha : Adding ds n0 env v b (.str s) cs) (hw : SpWf ds n0 n env v sp)
    (he : SpExact guards env v seen sp) (hb : Before ds sk seen b) :
    OverlapOk guards ds n env v seen sp (.str s) (.str s) := by
  have hty : v.ty = .string := by
    have := ha.pat
    revert this
    generalize v.ty = t
    cases t <;> simp [Pat.hasTy]
  have hsp : Lit.spelled sk s := (hb.here _ ha.mem).lits s (by simp [Pat.lits])
  have hmatch : ((Pat.str (B := B) s).run (env v)).isSome = true → env v = .str (Lit.decode s) := by
    generalize env v = x
    intro h
    cases x <;> simp only [Pat.run, Option.isSome_none, Bool.false_eq_true] at h
    split at h
    · rename_i e; rw [e]
    · simp at h
  constructor
  · intro pre ch suf hs hh hf hno hr
    exfalso
    have hx := hmatch hr
    have hm : ch ∈ sp.choices := by rw [hs]; simp
    have hct := (hw.checks ch hm).ty
    rw [hty] at hct
    simp only [checkOverlaps, strOverlapping, Bool.or_eq_false_iff, beq_eq_false_iff_ne] at hno
    rcases Check.string_cases hct with ⟨t, ht⟩ | ⟨t, r, ht⟩
    · rw [ht, hx] at hh
      simp only [Check.holds, decide_eq_true_eq] at hh
      obtain ⟨e, hem, hec⟩ := he.str ch hm t ht
      have : t = s := spelled_eq ((hb.tidy e hem _ hec).lits t (by simp [Pat.lits])) hsp hh
      rw [ht, this] at hno
      simp [Check.kind] at hno
    · rw [ht, hx] at hh
      simp only [Check.holds, decide_eq_true_eq] at hh
      obtain ⟨e, hem, rest, hec, -⟩ := he.pre ch hm t r ht
      have hts : t <+: s :=
        spelled_prefix ((hb.tidy e hem _ hec).prefs t (by simp [Pat.prefs])) hsp hh
      have htp : ch.1.prefixText = some t := by rw [ht]; rfl
      cases hanc : ancestor s sp.choices with
      | none => exact ancestor_some.ancestor_none hanc ch hm t htp hts
      | some a =>
        have := first_ancestor he hs hf hx (List.prefix_refl _) htp hts hanc
        subst this
        rw [hanc] at hno
        have h2 := hno.2
        simp only [Option.any_some] at h2
        have : prefixIs (fun s0 => a.isPrefixOf s0 && s0.isPrefixOf s) ch.1 = true :=
          prefixIs_iff.2 ⟨a, htp, by simp only [Bool.and_eq_true, isPrefixOf_eq]; exact ⟨List.prefix_refl _, hts⟩⟩
        rw [this] at h2
        simp at h2
  · intro hn hr
    have hx := hmatch hr
    simp only [checkOverlaps, Bool.not_eq_false', List.any_eq_true] at hn ⊢
    obtain ⟨ch, hm, hov⟩ := hn
    refine ⟨ch, hm, hov, ?_⟩
    simp only [strOverlapping, Bool.or_eq_true, beq_iff_eq, Option.any_eq_true] at hov
    rcases hov with hov | ⟨a, -, hov⟩
    · exact holds_of_kind (p := .str s) rfl hov hr
    · obtain ⟨t, ht, h2⟩ := prefixIs_iff.1 hov
      obtain ⟨r, hr⟩ := prefixText_iff.1 ht
      simp only [Bool.and_eq_true, isPrefixOf_eq] at h2
      rw [hr, hx]
      simp only [Check.holds, decide_eq_true_eq]
      exact decode_prefix h2.2
  · intro c _ hc hr
    obtain ⟨h1, h2⟩ := freshCheck_kind ha.pat rfl hc
    refine ⟨holds_of_kind (p := .str s) rfl h1 hr, ?_⟩
    rcases h2 with h2 | ⟨nm, args, inf, ht⟩
    · exact h2
    · rw [hty] at ht; simp at ht
  · rintro t ht
    simp at ht

theorem OverlapOk.strPrefix {b : Branch B} {s : Lit} {name : Option (Nat × Name)}
    {rest : Option Name} {cs : List (PCheck B)} {sk : Char → Nat}
    (ha : Adding ds n0 env v b (.strPrefix s name rest) cs) (hw : SpWf ds n0 n env v sp)
    (he : SpExact guards env v seen sp) (hb : Before ds sk seen b) :
    OverlapOk guards ds n env v seen sp (.strPrefix s name rest) (.strPrefix s) := by
  have hty : v.ty = .string := by
    have := ha.pat
    revert this
    generalize v.ty = t
    cases t <;> simp [Pat.hasTy]
  have hps : s ∈ (Pat.strPrefix (B := B) s name rest).prefs := by simp [Pat.prefs]
  have hsp : Lit.spelled sk s := (hb.here _ ha.mem).prefs s hps
  have hmatch : ((Pat.strPrefix (B := B) s name rest).run (env v)).isSome = true →
      ∃ w, env v = .str w ∧ Lit.decode s <+: w := by
    generalize env v = x
    intro h
    cases x <;> simp only [Pat.run, Option.isSome_none, Bool.false_eq_true] at h
    split at h
    · rename_i e; exact ⟨_, rfl, e⟩
    · simp at h
  constructor
  · intro pre ch suf hs hh hf hno hr
    obtain ⟨w, hx, hsw⟩ := hmatch hr
    have hm : ch ∈ sp.choices := by rw [hs]; simp
    have hct := (hw.checks ch hm).ty
    rw [hty] at hct
    simp only [checkOverlaps, prefixOverlaps] at hno
    rcases Check.string_cases hct with ⟨t, ht⟩ | ⟨t, r, ht⟩
    · rw [ht, hx] at hh
      simp only [Check.holds, decide_eq_true_eq] at hh
      obtain ⟨e, hem, hec⟩ := he.str ch hm t ht
      have hst : s <+: t := by
        refine spelled_prefix hsp ((hb.tidy e hem _ hec).lits t (by simp [Pat.lits])) ?_
        rw [hh]; exact hsw
      obtain ⟨hwd, hg⟩ := (hb.nc e hem).lit v _ _ t s hec ha.mem (by simp [Pat.lits]) hps hst
      exact settled hem (hb.stuck e hem) hwd hg hec (by rw [hx]; simp [Pat.run, hh])
    · rw [ht, hx] at hh
      simp only [Check.holds, decide_eq_true_eq] at hh
      obtain ⟨e, hem, rest', hec, hgd⟩ := he.pre ch hm t r ht
      have hpt : t ∈ (Pat.strPrefix (B := B) t none rest').prefs := by simp [Pat.prefs]
      have hspt := (hb.tidy e hem _ hec).prefs t hpt
      have htp : ch.1.prefixText = some t := by rw [ht]; rfl
      rcases Nat.le_total (Lit.decode t).length (Lit.decode s).length with hl | hl
      · exfalso
        have hts : t <+: s :=
          spelled_prefix hspt hsp (List.prefix_of_prefix_length_le hh hsw hl)
        cases hanc : ancestor s sp.choices with
        | none => exact ancestor_some.ancestor_none hanc ch hm t htp hts
        | some a =>
          have := first_ancestor he hs hf hx hsw htp hts hanc
          subst this
          rw [hanc] at hno
          have : prefixIs (fun s0 => a.isPrefixOf s0 &&
              (s0.isPrefixOf s || s.isPrefixOf s0 && hasGuard ch.2)) ch.1 = true :=
            prefixIs_iff.2 ⟨a, htp, by
              simp only [Bool.and_eq_true, Bool.or_eq_true, isPrefixOf_eq]
              exact ⟨List.prefix_refl _, .inl hts⟩⟩
          simp only [this] at hno
          simp at hno
      · have hst : s <+: t :=
          spelled_prefix hsp hspt (List.prefix_of_prefix_length_le hsw hh hl)
        by_cases hne : s = t
        · exfalso
          subst hne
          cases hanc : ancestor s sp.choices with
          | none => exact ancestor_some.ancestor_none hanc ch hm s htp (List.prefix_refl _)
          | some a =>
            have := first_ancestor he hs hf hx hsw htp (List.prefix_refl _) hanc
            subst this
            rw [hanc] at hno
            have : prefixIs (fun s0 => a.isPrefixOf s0 &&
                (s0.isPrefixOf a || a.isPrefixOf s0 && hasGuard ch.2)) ch.1 = true :=
              prefixIs_iff.2 ⟨a, htp, by
                simp only [Bool.and_eq_true, Bool.or_eq_true, isPrefixOf_eq]
                exact ⟨List.prefix_refl _, .inl (List.prefix_refl _)⟩⟩
            simp only [this] at hno
            simp at hno
        · rcases (hb.nc e hem).pre v _ _ t s hec ha.mem hpt hps hst hne with hg | ⟨hwd, hg⟩
          · exfalso
            have hgd := hgd hg
            cases hanc : ancestor s sp.choices with
            | none =>
              rw [hanc] at hno
              have : prefixIs (fun s0 => s.isPrefixOf s0 && hasGuard ch.2) ch.1 = true :=
                prefixIs_iff.2 ⟨t, htp, by
                  simp only [Bool.and_eq_true, isPrefixOf_eq]; exact ⟨hst, hgd⟩⟩
              simp only [this] at hno
              simp at hno
            | some a =>
              rw [hanc] at hno
              have : prefixIs (fun s0 => a.isPrefixOf s0 &&
                  (s0.isPrefixOf s || s.isPrefixOf s0 && hasGuard ch.2)) ch.1 = true :=
                prefixIs_iff.2 ⟨t, htp, by
                  simp only [Bool.and_eq_true, Bool.or_eq_true, isPrefixOf_eq]
                  exact ⟨(ancestor_some hanc).1.trans hst, .inr ⟨hst, hgd⟩⟩⟩
              simp only [this] at hno
              simp at hno
          · refine settled hem (hb.stuck e hem) hwd hg hec ?_
            rw [hx]
            simp [Pat.run, hh]
  · intro hn hr
    obtain ⟨w, hx, hsw⟩ := hmatch hr
    simp only [checkOverlaps, prefixOverlaps] at hn ⊢
    cases hanc : ancestor s sp.choices with
    | none => rw [hanc] at hn; simp at hn
    | some a =>
      obtain ⟨h1, ⟨ch, hm, h2⟩, -⟩ := ancestor_some hanc
      refine ⟨ch, hm, ?_, ?_⟩
      · exact prefixIs_iff.2 ⟨a, h2, by
          simp only [Bool.and_eq_true, Bool.or_eq_true, isPrefixOf_eq]
          exact ⟨List.prefix_refl _, .inl h1⟩⟩
      · obtain ⟨r, hr⟩ := prefixText_iff.1 h2
        rw [hr, hx]
        simp only [Check.holds, decide_eq_true_eq]
        exact (decode_prefix h1).trans hsw
  · intro c _ hc hr
    obtain ⟨h1, h2⟩ := freshCheck_kind ha.pat rfl hc
    refine ⟨holds_of_kind (p := .strPrefix s name rest) rfl h1 hr, ?_⟩
    rcases h2 with h2 | ⟨nm, args, inf, ht⟩
    · exact h2
    · rw [hty] at ht; simp at ht
  · intro t ht hn ch hch u hu
    simp only [Kind.strPrefix.injEq] at ht
    subst ht
    simp only [checkOverlaps, prefixOverlaps] at hn
    cases hanc : ancestor s sp.choices with
    | none => exact ancestor_some.ancestor_none hanc ch hch u hu
    | some a => rw [hanc] at hn; simp at hn

theorem SpExact.addKind' {b : Branch B} {p : Pat B} {cs : List (PCheck B)} {k : Kind}
    {r : Splitter B × Nat} {sk : Char → Nat} (ha : Adding ds n0 env v b p cs) (hk : p.kind = some k)
    (hw : SpWf ds n0 n env v sp) (h : SpExact guards env v seen sp) (hnd : NodupRun env b)
    (hb : Before ds sk seen b)
    (hcov : (branchMode ds v.ty).isInfinite = false → Cover (env v) sp.choices)
    (hadd : Verif.Case.addKind n sp v p k (b.popped cs) (branchMode ds v.ty) = some r) :
    SpExact guards env v (seen ++ [b]) r.1 := by
  refine h.addKind ha hk hw hnd ?_ hadd
  by_cases hs : v.ty = .string
  · have hpt := ha.pat
    rw [hs] at hpt
    cases p <;> simp only [Pat.hasTy] at hpt <;>
      simp only [Pat.kind, Option.some.injEq, reduceCtorEq] at hk <;> subst hk
    · exact OverlapOk.str ha hw h hb
    · exact OverlapOk.strPrefix ha hw h hb
  · exact OverlapOk.plain ha hk hs hw hcov

/-! ### Bit arrays -/

theorem leftTests_run (hs : B.Sound) (pivot : B.Test) {x : Val B.Bits}
    (hx : testHolds pivot x = true) : ∀ ts : List (BTest B), (∀ t ∈ ts, t.plain) →
    runTests x (leftTests pivot ts) = runTests x ts
  | [], _ => rfl
  | .bind y r :: ts, hp => by
    have ih := leftTests_run hs pivot hx ts fun t ht => hp t (by simp [ht])
    have he : leftTests pivot (.bind y r :: ts) = .bind y r :: leftTests pivot ts := rfl
    simp only [he, runTests, ih]
  | .discard :: ts, hp => by
    have ih := leftTests_run hs pivot hx ts fun t ht => hp t (by simp [ht])
    have he : leftTests pivot (.discard :: ts) = .discard :: leftTests pivot ts := rfl
    simp only [he, runTests, ih]
  | .check as t :: ts, hp => by
    have ih := leftTests_run hs pivot hx ts fun t ht => hp t (by simp [ht])
    have hpl := hp (.check as t) (by simp)
    simp only [BTest.plain] at hpl
    simp only [leftTests] at ih
    simp only [leftTests, List.filter_cons]
    have hb : (BTest.check (B := B) as t).test = some t := rfl
    simp only [hb, Option.any_some]
    cases hss : B.succeedsIfSucceeding t pivot with
    | false => simp [runTests, ih]
    | true =>
      simp only [Bool.not_true, Bool.false_eq_true, if_false]
      rw [ih]
      have hh : testHolds t x = true := by
        cases x <;> simp only [testHolds, Bool.false_eq_true] at hx ⊢
        exact hs.succeeds _ _ _ hss hx
      simp [runTests, hh, hpl.1]

theorem anyTest_fails {f : B.Test → B.Test → Bool} {pivot : B.Test} {x : Val B.Bits}
    (hf : ∀ t, f t pivot = true → testHolds t x = false) : ∀ {ts : List (BTest B)},
    anyTest f pivot ts = true → runTests x ts = none
  | [], h => by simp [anyTest] at h
  | .bind y r :: ts, h => by
    simp only [anyTest, List.any_cons, BTest.test, Option.any_none, Bool.false_or] at h
    simp only [runTests, anyTest_fails hf (ts := ts) h, Option.map_none]
  | .discard :: ts, h => by
    simp only [anyTest, List.any_cons, BTest.test, Option.any_none, Bool.false_or] at h
    simp only [runTests, anyTest_fails hf (ts := ts) h]
  | .check as t :: ts, h => by
    simp only [anyTest, List.any_cons, BTest.test, Option.any_some, Bool.or_eq_true] at h
    simp only [runTests]
    rcases h with h | h
    · simp [hf t h]
    · rw [anyTest_fails hf (ts := ts) h]
      split <;> rfl

theorem SpExact.addBits {b : Branch B} {p : Pat B} {cs : List (PCheck B)} {cell : Option Nat}
    {ts : List (BTest B)} {sp' : Splitter B} (hs : B.Sound) (ha : Adding ds n0 env v b p cs)
    (hp : p = .bits cell ts) (hpl : ∀ t ∈ ts, t.plain)
    (h : SpExact guards env v seen sp) (hnd : NodupRun env b)
    (hne : sp.choices = [] → seen = [])
    (hadd : Verif.Case.addBits sp v p ts (b.popped cs) = some sp') :
    SpExact guards env v (seen ++ [b]) sp' := by
  simp only [Verif.Case.addBits, Option.map_eq_some_iff] at hadd
  obtain ⟨r, hr, rfl⟩ := hadd
  have hbase : testHolds r.1 (env v) = true → pick guards env r.2 = pick guards env seen := by
    intro hh
    rcases pivotTest_cases hr with ⟨h1, h2, -⟩ | h2
    · rw [h2, hne h1]
    · have := h.choice [] (.bits r.1) r.2 [] h2 (by rw [Check.bits_holds]; exact hh) (by simp)
      rwa [Check.bits_binds, env_set_nil] at this
  have hfb : testHolds r.1 (env v) = false → pick guards env sp.fallback = pick guards env seen := by
    intro hh
    refine h.fallback ?_
    intro e he _
    rcases pivotTest_cases hr with ⟨h1, -, -⟩ | h2
    · rw [h1] at he; simp at he
    · rw [h2, List.mem_singleton] at he
      rw [he, Check.bits_holds]
      exact hh
  have hrun : p.run (env v) = runTests (env v) ts := by rw [hp]; cases env v <;> rfl
  have hleft : testHolds r.1 (env v) = true →
      Same (((b.popped cs).add [(v, .bits none (leftTests r.1 ts))]).run env) (b.run env) := by
    intro hh
    refine derived_run ha.ok ha.pop (fun _ _ => rfl) (Same.of_eq ?_)
    have : (Pat.bits (B := B) none (leftTests r.1 ts)).run (env v) =
        runTests (env v) (leftTests r.1 ts) := by cases env v <;> rfl
    rw [runChecks_cons, runChecks, seq2_nil', this, hrun, leftTests_run hs r.1 hh ts hpl]
  have hskip : runTests (env v) ts = none → (b.run env).isSome = true → False := by
    intro h0 h1
    have := ha.run_isSome h1
    rw [hrun, h0] at this
    simp at this
  refine ⟨?_, ?_, ?_, ?_, ?_, ?_, ?_⟩
  · intro hn
    have hh : testHolds r.1 (env v) = false := by
      have := hn (.bits r.1, if anyTest B.failsIfSucceeding r.1 ts then r.2
        else r.2 ++ [(b.popped cs).add [(v, .bits none (leftTests r.1 ts))]]) (by simp) rfl
      rwa [Check.bits_holds] at this
    rw [pick_append, pick_one, ← hfb hh]
    simp only
    split
    · rename_i hf
      rw [outcome_skip guards]
      intro h1
      refine absurd h1 fun h1 => hskip (anyTest_fails (fun t ht => ?_) hf) h1
      cases hx : env v <;> try rfl
      rw [hx] at hh
      exact hs.failsFailing t r.1 _ ht hh
    · rw [pick_append, pick_one, outcome_same guards (tag_add b cs _) ha.back_run hnd]
  · intro pre c l suf hsp hh hpre
    cases pre with
    | cons e pre => simp at hsp
    | nil =>
      simp only [List.nil_append, List.cons.injEq, Prod.mk.injEq] at hsp
      obtain ⟨⟨rfl, rfl⟩, -⟩ := hsp
      rw [Check.bits_holds] at hh
      rw [Check.bits_binds, env_set_nil, pick_append, pick_one, ← hbase hh]
      split
      · rename_i hf
        rw [outcome_skip guards]
        intro h1
        refine absurd h1 fun h1 => hskip (anyTest_fails (fun t ht => ?_) hf) h1
        cases hx : env v <;> try rfl
        rw [hx] at hh
        exact hs.failsSucceeding t r.1 _ ht hh
      · rw [pick_append, pick_one, outcome_same guards (tag_add b cs _) (hleft hh) hnd]
  · intro ch hch t ht
    simp only [List.mem_singleton] at hch
    rw [hch] at ht
    simp at ht
  · intro ch hch t r' ht
    simp only [List.mem_singleton] at hch
    rw [hch] at ht
    simp at ht
  · simp
  · intro ch hch hh b' hb'
    simp only [List.mem_singleton] at hch
    subst hch
    simp only [Check.bits_holds] at hh
    simp only [Check.bits_binds, env_set_nil]
    have hold : ∀ b' ∈ r.2, NodupRun env b' := by
      intro b' hb'
      rcases pivotTest_cases hr with ⟨-, h2, -⟩ | h2
      · rw [h2] at hb'; simp at hb'
      · have := h.cnodup (.bits r.1, r.2) (by rw [h2]; simp) (by rw [Check.bits_holds]; exact hh) b' hb'
        rwa [Check.bits_binds, env_set_nil] at this
    simp only at hb'
    split at hb'
    · exact hold b' hb'
    · simp only [List.mem_append, List.mem_singleton] at hb'
      rcases hb' with hb' | rfl
      · exact hold b' hb'
      · exact hnd.same (hleft hh)
  · intro b' hb'
    simp only at hb'
    split at hb'
    · exact h.fnodup b' hb'
    · simp only [List.mem_append, List.mem_singleton] at hb'
      rcases hb' with hb' | rfl
      · exact h.fnodup b' hb'
      · exact hnd.same ha.back_run

theorem SpDer.addBits {b : Branch B} {p : Pat B} {cs : List (PCheck B)} {cell : Option Nat}
    {ts : List (BTest B)} {sp' : Splitter B} (hR : Lasting R)
    (ha : Adding ds n0 env v b p cs)
    (hp : p = .bits cell ts) (h : SpDer R v seen sp)
    (hs : ∀ e ∈ seen, (∀ d ∈ e.checks, d.1.id < n0) ∧ R e b)
    (hadd : Verif.Case.addBits sp v p ts (b.popped cs) = some sp') :
    SpDer R v (seen ++ [b]) sp' := by
  simp only [Verif.Case.addBits, Option.map_eq_some_iff] at hadd
  obtain ⟨r, hr, rfl⟩ := hadd
  have hwd := popCheck_width ha.pop
  have hps := Pat.stuck_width ha.pstuck
  have hleft : Der v (.bits r.1) b ((b.popped cs).add [(v, .bits none (leftTests r.1 ts))]) := by
    refine ⟨tag_add b cs _, ?_, ?_⟩
    · simp only [Branch.width, Branch.add, Branch.popped, checksWidth_append, checksWidth]
      have : (Pat.bits (B := B) none (leftTests r.1 ts)).width ≤ 1 := by
        simp only [Pat.width]; split <;> omega
      omega
    · intro d hd
      simp only [Branch.add, Branch.popped, List.mem_append, List.mem_singleton] at hd
      rcases hd with hd | rfl
      · exact .inl ((popCheck_mem ha.pop).2 d hd)
      · refine .inr ⟨p, ha.mem, ?_⟩
        simp only [Pat.lits, Pat.prefs]
        exact ⟨Cut.nil _ _, Cut.nil _ _, by simp⟩
  have hback : ∀ c, Der v c b ((b.popped cs).add [(v, p)]) := by
    intro c
    refine ⟨tag_add b cs _, ?_, ?_⟩
    · simp only [Branch.width, Branch.add, Branch.popped, checksWidth_append, checksWidth]
      omega
    · intro d hd
      simp only [Branch.add, Branch.popped, List.mem_append, List.mem_singleton] at hd
      rcases hd with hd | rfl
      · exact .inl ((popCheck_mem ha.pop).2 d hd)
      · exact .inl ha.mem
  have hold : (∀ b' ∈ r.2, ∃ e ∈ seen, Der v (.bits r.1) e b') ∧ r.2.Pairwise R := by
    rcases pivotTest_cases hr with ⟨-, h2, -⟩ | h2
    · rw [h2]; simp
    · exact ⟨h.choice (.bits r.1, r.2) (by rw [h2]; simp), h.pairs (.bits r.1, r.2) (by rw [h2]; simp)⟩
  refine ⟨?_, ?_, ?_, ?_⟩
  · intro ch hch b' hb'
    simp only [List.mem_singleton] at hch
    subst hch
    simp only at hb' ⊢
    have h1 : b' ∈ r.2 → ∃ e ∈ seen ++ [b], Der v (.bits r.1) e b' := by
      intro hb'
      obtain ⟨e, he, hd⟩ := hold.1 b' hb'
      exact ⟨e, by simp [he], hd⟩
    split at hb'
    · exact h1 hb'
    · simp only [List.mem_append, List.mem_singleton] at hb'
      rcases hb' with hb' | rfl
      · exact h1 hb'
      · exact ⟨b, by simp, hleft⟩
  · intro ch hch
    simp only [List.mem_singleton] at hch
    subst hch
    simp only
    split
    · exact hold.2
    · simp only [List.pairwise_append, List.mem_singleton, forall_eq]
      refine ⟨hold.2, by simp, ?_⟩
      intro e' he'
      obtain ⟨e, he, hd⟩ := hold.1 e' he'
      exact hR (hs e he).2 hd hleft (hs e he).1 ha.ok.below (by simp [Check.vars])
  · intro b' hb'
    have h1 : b' ∈ sp.fallback → ∃ e ∈ seen ++ [b], ∀ c, Der v c e b' := by
      intro hb'
      obtain ⟨e, he, hd⟩ := h.fallback b' hb'
      exact ⟨e, by simp [he], hd⟩
    simp only at hb'
    split at hb'
    · exact h1 hb'
    · simp only [List.mem_append, List.mem_singleton] at hb'
      rcases hb' with hb' | rfl
      · exact h1 hb'
      · exact ⟨b, by simp, hback⟩
  · simp only
    split
    · exact h.fpairs
    · simp only [List.pairwise_append, List.mem_singleton, forall_eq]
      refine ⟨h.fpairs, by simp, ?_⟩
      intro e' he'
      obtain ⟨e, he, hd⟩ := h.fallback e' he'
      exact hR (hs e he).2 (hd .nil) (hback .nil) (hs e he).1 ha.ok.below (by simp [Check.vars])

/-! ### All branches -/

theorem SpExact.skip {b : Branch B} (h : SpExact guards env v seen sp) (hb : b.run env = none) :
    SpExact guards env v (seen ++ [b]) sp := by
  have hp : pick guards env (seen ++ [b]) = pick guards env seen := by
    rw [pick_append, pick_one, outcome_skip guards]
    rw [hb]; simp
  refine ⟨?_, ?_, ?_, ?_, h.order, h.cnodup, h.fnodup⟩
  · intro hn
    rw [hp]; exact h.fallback hn
  · intro pre c l suf h1 h2 h3
    rw [hp]; exact h.choice pre c l suf h1 h2 h3
  · intro ch hch t ht
    obtain ⟨e, he, hm⟩ := h.str ch hch t ht
    exact ⟨e, by simp [he], hm⟩
  · intro ch hch t r ht
    obtain ⟨e, he, rest, hm⟩ := h.pre ch hch t r ht
    exact ⟨e, by simp [he], rest, hm⟩

theorem SpDer.skip (b : Branch B) (h : SpDer R v seen sp) : SpDer R v (seen ++ [b]) sp := by
  refine ⟨?_, h.pairs, ?_, h.fpairs⟩
  · intro ch hch b' hb'
    obtain ⟨e, he, hd⟩ := h.choice ch hch b' hb'
    exact ⟨e, by simp [he], hd⟩
  · intro b' hb'
    obtain ⟨e, he, hd⟩ := h.fallback b' hb'
    exact ⟨e, by simp [he], hd⟩

/-- A branch that can be split. -/
structure Ready (ds : Decls) (n0 : Nat) (sk : Char → Nat) (env : Env B) (b : Branch B) : Prop where
  ok : BranchOk ds n0 env b
  stuck : b.stuck
  tidy : ∀ c ∈ b.checks, Tidy ds sk c
  nodup : NodupRun env b

theorem dead_run {b : Branch B} {p : Pat B} {cs : List (PCheck B)}
    (ha : Adding ds n0 env v b p cs) (hd : DeadCheck ds (v, p)) : b.run env = none := by
  cases hr : b.run env with
  | none => rfl
  | some l =>
    have := ha.run_isSome (by rw [hr]; rfl)
    rw [hd _ ha.val] at this
    simp at this

theorem splitBranches_exact {sk : Char → Nat} (hs : B.Sound) (hR : Lasting R)
    (hRN : ∀ e l, R e l → NC e l) :
    ∀ {bs seen sound : List (Branch B)} {st : St} {sp : Splitter B} {r : St × Splitter B},
    splitBranches (branchMode ds v.ty) v st sp bs = some r →
    (∀ b ∈ seen ++ bs, Ready ds n0 sk env b) → (seen ++ bs).Pairwise R →
    SpWf ds n0 st.next env v sp → SpSound env v sound sp → SpExact guards env v seen sp →
    SpDer R v seen sp →
    ((branchMode ds v.ty).isInfinite = false → Cover (env v) sp.choices) →
    (v.ty = .bitArray → sp.choices = [] → seen = [] ∧ ∀ b ∈ bs.head?, popCheck v b.checks ≠ none) →
    SpExact guards env v (seen ++ bs) r.2 ∧ SpDer R v (seen ++ bs) r.2
  | [], seen, sound, st, sp, r, h, _, _, _, _, hx, hd, _, _ => by
    simp only [splitBranches, Option.some.injEq] at h
    subst h
    simpa using ⟨hx, hd⟩
  | b :: bs, seen, sound, st, sp, r, h, hr, hnc, hw, hsd, hx, hd, hcov, hbit => by
    have happ : seen ++ b :: bs = (seen ++ [b]) ++ bs := by simp
    have hb := hr b (by simp)
    have hnc' := List.pairwise_append.1 hnc
    have hbe : Before ds sk seen b :=
      ⟨fun e he => (hr e (by simp [he])).stuck, fun e he => hRN _ _ (hnc'.2.2 e he b (by simp)),
        fun e he => (hr e (by simp [he])).tidy, hb.tidy⟩
    have hbelow : ∀ e ∈ seen, (∀ d ∈ e.checks, d.1.id < n0) ∧ R e b :=
      fun e he => ⟨(hr e (by simp [he])).ok.below, hnc'.2.2 e he b (by simp)⟩
    rw [happ] at hr hnc ⊢
    simp only [splitBranches] at h
    split at h
    · rename_i hpop
      have hne : v.ty = .bitArray → sp.choices ≠ [] := fun ht h0 =>
        (hbit ht h0).2 b rfl hpop
      refine splitBranches_exact hs hR hRN h hr hnc (hw.addFallback hb.ok)
        (SpSound.addFallback hw hsd hb.ok) (hx.addFallback hw hb.ok hb.nodup)
        (hd.addFallback hR hw hbelow hb.ok.below) (fun hf => (hcov hf).addFallback b) ?_
      intro ht h0
      simp only [addFallback, List.map_eq_nil_iff] at h0
      exact absurd h0 (hne ht)
    · rename_i p cs hpop
      have ha : Adding ds n0 env v b p cs := ⟨hb.ok, hb.stuck, hpop⟩
      have htd := hb.tidy _ ha.mem
      split at h
      · rename_i hun
        have hdead := dead_run ha (unreachableVariant_dead ha.pat hun)
        refine splitBranches_exact hs hR hRN h hr hnc hw hsd (hx.skip hdead) (hd.skip b) hcov ?_
        intro ht
        exfalso
        revert hun
        rw [ht]
        cases p <;> simp [branchMode, Pat.unreachableVariant]
      · split at h
        · rename_i hseg
          exfalso
          have hc := htd.clean
          cases p <;> simp only [Pat.impossibleSegment, Bool.false_eq_true] at hseg
          simp only [Pat.clean] at hc
          simp only [List.any_eq_true, Option.any_eq_true] at hseg
          obtain ⟨t, ht, u, hu, himp⟩ := hseg
          have := hc.2 t ht
          cases t <;> simp only [BTest.test, reduceCtorEq, Option.some.injEq] at hu
          subst hu
          simp only [BTest.plain] at this
          rw [this.2] at himp
          simp at himp
        · simp only [Option.bind_eq_some_iff] at h
          obtain ⟨a, hadd, h⟩ := h
          obtain ⟨h1, h2, h3⟩ := addChecked_inv hs ha hw hsd hadd
          have hkey : SpExact guards env v (seen ++ [b]) a.1 ∧ SpDer R v (seen ++ [b]) a.1 ∧
              (v.ty = .bitArray → a.1.choices ≠ []) := by
            have hbk : v.ty = .bitArray → p.kind = none := by
              intro ht
              have := ha.pat
              rw [ht] at this
              cases p <;> simp [Pat.hasTy] at this <;> rfl
            unfold addChecked at hadd
            split at hadd
            · rename_i p cell ts
              simp only [Option.map_eq_some_iff] at hadd
              obtain ⟨s, hadd, rfl⟩ := hadd
              have hcl := htd.clean
              simp only [Pat.clean] at hcl
              have hvt := ha.bits_ty rfl
              refine ⟨hx.addBits hs ha rfl hcl.2 hb.nodup (fun h0 => (hbit hvt h0).1) hadd,
                hd.addBits hR ha rfl hbelow hadd, fun _ => ?_⟩
              simp only [addBits, Option.map_eq_some_iff] at hadd
              obtain ⟨pv, -, rfl⟩ := hadd
              simp
            · simp only [Option.bind_eq_some_iff] at hadd
              obtain ⟨k, hk, hadd⟩ := hadd
              refine ⟨hx.addKind' ha hk hw hb.nodup hbe hcov hadd,
                hd.addKind hR ha hk hw hbelow hadd, fun ht => ?_⟩
              rw [hbk ht] at hk
              simp at hk
          refine splitBranches_exact hs hR hRN (st := { st with next := a.2 }) h hr hnc h1 h2 hkey.1 hkey.2.1
            (fun hf => h3 hf (hcov hf)) ?_
          intro ht h0
          exact absurd h0 (hkey.2.2 ht)

end

end Verif.Case
