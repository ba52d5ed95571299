import Verif.JsCase.Readable

/-!
# Choices that overlap

Lemmas: if the checks of two choices succeed, and the first one ends like the fallback, then so does
the second one.
-/

namespace Verif.JsCase

open Verif.Case

variable {B : BitSys}

/-- The later branch is of the same clause or a later one; and of a later one, with the earlier
branch settled, if it has a prefix of a string, or of another prefix, of the earlier one. -/
structure Later (e l : Branch B) : Prop where
  le : e.clause ≤ l.clause
  lt : ∀ v pe pl t s, (v, pe) ∈ e.checks → (v, pl) ∈ l.checks →
    (t ∈ pe.lits ∨ t ∈ pe.prefs ∧ s ≠ t) → s ∈ pl.prefs → s <+: t →
    (e.width ≤ 1 ∧ e.guard = none) ∧ e.clause < l.clause

theorem Later.nc {e l : Branch B} (h : Later e l) : NC e l :=
  ⟨fun v pe pl t s h1 h2 h3 h4 h5 => (h.lt v pe pl t s h1 h2 (.inl h3) h4 h5).1,
    fun v pe pl t s h1 h2 h3 h4 h5 h6 => .inr (h.lt v pe pl t s h1 h2 (.inr ⟨h3, h6⟩) h4 h5).1⟩

theorem Later.lasting : Lasting (Later (B := B)) := by
  intro v c e l e' l' n h he hl hbe hbl hc
  have hold : ∀ {w : Var}, w.id < n → w ∉ c.vars := fun hw hm => absurd (hc _ hm) (by omega)
  refine ⟨by rw [he.tag.clause, hl.tag.clause]; exact h.le, ?_⟩
  intro w pe pl t s h1 h2 ht hs hst
  rw [he.tag.guard, he.tag.clause, hl.tag.clause]
  have hw := he.width
  rcases he.checks _ h1 with h1 | ⟨p, hp, c1, c2, c3⟩ <;>
    rcases hl.checks _ h2 with h2 | ⟨q, hq, d1, d2, d3⟩
  · obtain ⟨⟨a, b⟩, g⟩ := h.lt w pe pl t s h1 h2 ht hs hst
    exact ⟨⟨Nat.le_trans hw a, b⟩, g⟩
  · exact absurd (d3 (.inr (List.ne_nil_of_mem hs))) (hold (w := w) (hbe (w, pe) h1))
  · refine absurd (c3 ?_) (hold (w := w) (hbl (w, pl) h2))
    rcases ht with ht | ⟨ht, -⟩
    · exact .inl (List.ne_nil_of_mem ht)
    · exact .inr (List.ne_nil_of_mem ht)
  · obtain ⟨s0, hs0, rfl, hs1⟩ := d2 s hs
    rcases ht with ht | ⟨ht, hne⟩
    · obtain ⟨t0, ht0, rfl, ht1⟩ := c1 t ht
      obtain ⟨⟨a, b⟩, g⟩ := h.lt v p q t0 s0 hp hq (.inl ht0) hs0 (cut_prefix hs1 ht1 hst)
      exact ⟨⟨Nat.le_trans hw a, b⟩, g⟩
    · obtain ⟨t0, ht0, rfl, ht1⟩ := c2 t ht
      obtain ⟨⟨a, b⟩, g⟩ := h.lt v p q t0 s0 hp hq (.inr ⟨ht0, fun e => hne (by rw [e])⟩) hs0
        (cut_prefix hs1 ht1 hst)
      exact ⟨⟨Nat.le_trans hw a, b⟩, g⟩

theorem Later.move {e l : Branch B} (h : Later e l) (t u : List Nat) :
    Later (moveBranch t e).1 (moveBranch u l).1 := by
  have hw : (moveBranch t e).1.width ≤ e.width := moveChecks_width e.checks t
  refine ⟨h.le, ?_⟩
  intro v pe pl x s h1 h2 hx hs hst
  obtain ⟨p, hp, a1, a2⟩ := moveBranch_checks h1
  obtain ⟨q, hq, b1, b2⟩ := moveBranch_checks h2
  simp only at a1 a2 b2
  obtain ⟨⟨a, b⟩, g⟩ := h.lt v p q x s hp hq (by rw [← a1, ← a2]; exact hx) (b2 ▸ hs) hst
  exact ⟨⟨Nat.le_trans hw a, b⟩, g⟩

/-! ### Picking from branches in order -/

theorem outcome_clause {guards : Guards B} {c : Nat} {g : Option Bool} {o : Option (Bindings B)}
    {r} (h : outcome guards c g o = some r) : r.1 = c := by
  unfold outcome at h
  cases o with
  | none => simp at h
  | some l =>
    simp only [Option.bind_some] at h
    split at h
    · simp only [Option.some.injEq] at h
      rw [← h]
    · simp at h

theorem pick_mem {guards : Guards B} {env : Env B} : ∀ {l : List (Branch B)} {r},
    pick guards env l = some r → ∃ b ∈ l, r.1 = b.clause
  | [], r, h => by simp [pick] at h
  | b :: l, r, h => by
    have hc : b :: l = [b] ++ l := rfl
    rw [hc, pick_append, pick_one] at h
    cases ho : outcome guards b.clause b.guard (b.run env) with
    | some q =>
      rw [ho] at h
      simp only [Option.some_or, Option.some.injEq] at h
      subst h
      exact ⟨b, by simp, outcome_clause ho⟩
    | none =>
      rw [ho] at h
      simp only [Option.none_or] at h
      obtain ⟨b', hb', he⟩ := pick_mem h
      exact ⟨b', by simp [hb'], he⟩

theorem pick_le {guards : Guards B} {env : Env B} {l : List (Branch B)} {e : Branch B}
    (hs : l.Pairwise fun a b => a.clause ≤ b.clause) (he : e ∈ l) (hg : e.guard = none)
    (hr : (e.run env).isSome = true) : ∃ o, pick guards env l = some o ∧ o.1 ≤ e.clause := by
  obtain ⟨pre, suf, rfl⟩ := List.append_of_mem he
  have hc : e :: suf = [e] ++ suf := rfl
  rw [hc, pick_append, pick_append, pick_one, hg]
  obtain ⟨m, hm⟩ := Option.isSome_iff_exists.1 hr
  rw [hm]
  cases hp : pick guards env pre with
  | some o =>
    refine ⟨o, by simp, ?_⟩
    obtain ⟨b, hb, ho⟩ := pick_mem hp
    rw [ho]
    exact (List.pairwise_append.1 hs).2.2 b hb e (by simp)
  | none => exact ⟨(e.clause, fun x => m.lookup x), by simp [outcome], Nat.le_refl _⟩

/-! ### The invariant of the splitter -/

/-- The first choice runs a clause before `m`; the branches from `m` on are at the end of the
fallback, and the second choice starts with the other ones. -/
def Agrees (guards : Guards B) (env : Env B) (v : Var) (seen fallback : List (Branch B))
    (a b : Check B × List (Branch B)) : Prop :=
  ∃ m f0 f1 b1, (∃ o, pick guards (env.set (a.1.binds (env v))) a.2 = some o ∧ o.1 < m) ∧
    fallback = f0 ++ f1 ∧ (∀ f ∈ f1, m ≤ f.clause) ∧ b.2 = f0 ++ b1 ∧ ∃ l ∈ seen, m ≤ l.clause

/-- A branch whose check is the one of the choice, and the branch it has become. -/
def MadeBy (env : Env B) (v : Var) (seen : List (Branch B)) (ch : Check B × List (Branch B)) : Prop :=
  ch.1.holds (env v) = true → ∃ e ∈ seen, ∃ q, (v, q) ∈ e.checks ∧
    (∀ t, ch.1 = .str t → q = .str t) ∧
    (∀ t r, ch.1 = .strPrefix t r → ∃ rest, q = .strPrefix t none rest) ∧
    ∃ e' ∈ ch.2, Tag e' e ∧ Same (e'.run (env.set (ch.1.binds (env v)))) (e.run env)

structure SpAgree (guards : Guards B) (env : Env B) (v : Var) (seen : List (Branch B))
    (sp : Splitter B) : Prop where
  read : ∀ ch ∈ sp.choices, ch.1.holds (env v) = true →
    ∀ b ∈ ch.2, Readable (env.set (ch.1.binds (env v))) b
  fread : ∀ b ∈ sp.fallback, Readable env b
  sorted : ∀ ch ∈ sp.choices, ch.2.Pairwise fun a b => a.clause ≤ b.clause
  kinds : v.ty ≠ .string → v.ty ≠ .bitArray → (sp.choices.map fun ch => ch.1.kind).Nodup
  bits : v.ty = .bitArray → sp.choices.length ≤ 1
  made : v.ty = .string → ∀ ch ∈ sp.choices, MadeBy env v seen ch
  agree : v.ty = .string → sp.choices.Pairwise fun a b => a.1.holds (env v) = true →
    b.1.holds (env v) = true → Agrees guards env v seen sp.fallback a b

section
variable {ds : Decls} {n0 n : Nat} {guards : Guards B} {env : Env B} {v : Var}
  {seen : List (Branch B)} {sp : Splitter B} {b : Branch B}

theorem Agrees.grow {fb more : List (Branch B)} {c d c' d' : Check B × List (Branch B)}
    (h : Agrees guards env v seen fb c d) (hb : ∀ e ∈ seen, e.clause ≤ b.clause)
    (hc : ∃ x, c'.2 = c.2 ++ x) (hcb : c'.1.binds (env v) = c.1.binds (env v))
    (hd : ∃ x, d'.2 = d.2 ++ x)
    (hm : ∀ f ∈ more, f.clause = b.clause) :
    Agrees guards env v (seen ++ [b]) (fb ++ more) c' d' := by
  obtain ⟨m, f0, f1, b1, ⟨o, ho, hlt⟩, h1, h2, h3, l, hl, hml⟩ := h
  obtain ⟨x, hx⟩ := hc
  obtain ⟨y, hy⟩ := hd
  refine ⟨m, f0, f1 ++ more, b1 ++ y, ⟨o, ?_, hlt⟩, by rw [h1]; simp, ?_, by rw [hy, h3]; simp,
    l, by simp [hl], hml⟩
  · rw [hx, hcb, pick_append, ho]; rfl
  · intro f hf
    simp only [List.mem_append] at hf
    rcases hf with hf | hf
    · exact h2 f hf
    · rw [hm f hf]
      exact Nat.le_trans hml (hb l hl)

theorem MadeBy.grow {c c' : Check B × List (Branch B)} (h : MadeBy env v seen c)
    (hc : ∃ x, c'.2 = c.2 ++ x) (hch : c'.1.holds (env v) = c.1.holds (env v))
    (hcb : c'.1.binds (env v) = c.1.binds (env v))
    (h1 : ∀ t, c'.1 = .str t → c.1 = .str t) (h2 : ∀ t r, c'.1 = .strPrefix t r → c.1 = .strPrefix t r) :
    MadeBy env v (seen ++ [b]) c' := by
  intro hh
  rw [hch] at hh
  obtain ⟨e, he, q, hq, k1, k2, e', he', k3, k4⟩ := h hh
  obtain ⟨x, hx⟩ := hc
  exact ⟨e, by simp [he], q, hq, fun t ht => k1 t (h1 t ht), fun t r ht => k2 t r (h2 t r ht), e',
    by rw [hx]; simp [he'], k3, by rw [hcb]; exact k4⟩

theorem SpAgree.addFallback (hw : SpWf ds n0 n env v sp) (hd : SpDer Later v seen sp)
    (h : SpAgree guards env v seen sp) (hb : BranchOk ds n0 env b) (hr : Readable env b)
    (hs : ∀ e ∈ seen, e.clause ≤ b.clause) : SpAgree guards env v (seen ++ [b]) (addFallback sp b) := by
  have hmem : ∀ ch ∈ (Verif.Case.addFallback sp b).choices, ∃ ch0 ∈ sp.choices,
      ch = (ch0.1, ch0.2 ++ [b]) := by
    intro ch hch
    simp only [Verif.Case.addFallback, List.mem_map] at hch
    obtain ⟨ch0, h0, rfl⟩ := hch
    exact ⟨ch0, h0, rfl⟩
  refine ⟨?_, ?_, ?_, ?_, ?_, ?_, ?_⟩
  · intro ch hch hh b' hb'
    obtain ⟨ch0, h0, rfl⟩ := hmem ch hch
    simp only [List.mem_append, List.mem_singleton] at hb'
    rcases hb' with hb' | rfl
    · exact h.read ch0 h0 hh b' hb'
    · exact hr.agree hb fun w hw' => env_set_old (hw.checks ch0 h0) env _ hw'
  · intro b' hb'
    simp only [Verif.Case.addFallback, List.mem_append, List.mem_singleton] at hb'
    rcases hb' with hb' | rfl
    · exact h.fread b' hb'
    · exact hr
  · intro ch hch
    obtain ⟨ch0, h0, rfl⟩ := hmem ch hch
    simp only [List.pairwise_append, List.mem_singleton, forall_eq]
    refine ⟨h.sorted ch0 h0, by simp, ?_⟩
    intro e' he'
    obtain ⟨e, he, hde⟩ := hd.choice ch0 h0 e' he'
    rw [hde.tag.clause]
    exact hs e he
  · intro h1 h2
    have := h.kinds h1 h2
    simpa [Verif.Case.addFallback, Function.comp_def] using this
  · intro ht
    simpa [Verif.Case.addFallback] using h.bits ht
  · intro ht ch hch
    obtain ⟨ch0, h0, rfl⟩ := hmem ch hch
    exact (h.made ht ch0 h0).grow ⟨[b], rfl⟩ rfl rfl (fun _ h => h) fun _ _ h => h
  · intro ht
    simp only [Verif.Case.addFallback]
    refine List.pairwise_map.2 ((h.agree ht).imp ?_)
    intro c d hcd hc hd'
    exact (hcd hc hd').grow hs ⟨[b], rfl⟩ rfl ⟨[b], rfl⟩ (by simp)

theorem SpAgree.skip (h : SpAgree guards env v seen sp) (hs : ∀ e ∈ seen, e.clause ≤ b.clause) :
    SpAgree guards env v (seen ++ [b]) sp := by
  refine ⟨h.read, h.fread, h.sorted, h.kinds, h.bits, ?_, ?_⟩
  · intro ht ch hch
    exact (h.made ht ch hch).grow ⟨[], by simp⟩ rfl rfl (fun _ h => h) fun _ _ h => h
  · intro ht
    refine (h.agree ht).imp ?_
    intro c d hcd hc hd'
    have := (hcd hc hd').grow (more := []) hs ⟨[], (List.append_nil _).symm⟩ rfl
      ⟨[], (List.append_nil _).symm⟩ (by simp)
    simpa using this

theorem JoinedTo.lists {p : Pat B} {ov : Check B × List (Branch B) → Bool}
    {ch ch' : Check B × List (Branch B)} (h : JoinedTo v p b ov ch ch') :
    (∃ x, ch'.2 = ch.2 ++ x) ∧ (∀ t, ch'.1 = .str t → ch.1 = .str t) ∧
      ∀ t r, ch'.1 = .strPrefix t r → ch.1 = .strPrefix t r := by
  cases h with
  | keep => exact ⟨⟨[], by simp⟩, fun _ h => h, fun _ _ h => h⟩
  | join hov hnew =>
    refine ⟨⟨_, rfl⟩, ?_, ?_⟩
    · intro t ht
      simp only at ht
      revert ht
      cases ch.1 <;> simp [Check.matched]
    · intro t r ht
      simp only at ht
      revert ht
      cases ch.1 <;> simp [Check.matched]

theorem forall₂_pairwise' {α β : Type} {R : α → β → Prop} {S : α → α → Prop} {S' : β → β → Prop}
    (hS : ∀ a a' b b', R a a' → R b b' → S a b → S' a' b') {l : List α} {l' : List β}
    (h : List.Forall₂ R l l') (hp : l.Pairwise S) : l'.Pairwise S' :=
  forall₂_pairwise (R := fun b a => R a b) (S := S) (fun a a' b b' h1 h2 h3 => hS _ _ _ _ h1 h2 h3)
    h.flip hp

theorem newChecks_same_kind {p : Pat B} {c : Check B} {k : Kind} {n : Nat}
    {mode : Mode} {m : Nat} (hk : p.kind = some k) (hc : freshCheck n k mode = some (c, m))
    (hst : p.stuck) : (∀ t, c = .str t → p = .str t) ∧
      ∀ t r, c = .strPrefix t r → ∃ rest, p = .strPrefix t none rest := by
  obtain ⟨h1, h2⟩ := freshCheck_str hc
  refine ⟨?_, ?_⟩
  · intro t ht
    rw [h1 t ht] at hk
    exact Pat.kind_str hk
  · intro t r ht
    rw [h2 t r ht] at hk
    obtain ⟨name, rest, rfl⟩ := Pat.kind_strPrefix hk
    simp only [Pat.stuck] at hst
    subst hst
    exact ⟨rest, rfl⟩

/-- Two string checks that succeed: the second one is a prefix of the first one. -/
theorem overlap_settles {p : Pat B} {cs : List (PCheck B)} {k : Kind} {sk : Char → Nat}
    {ch : Check B × List (Branch B)} {c : Check B × Nat} (ha : Adding ds n0 env v b p cs)
    (hk : p.kind = some k) (hty : v.ty = .string) (hw : SpWf ds n0 n env v sp)
    (hb : Before ds sk seen b) (hl : ∀ e ∈ seen, Later e b) (hch : ch ∈ sp.choices)
    (hm : MadeBy env v seen ch) (hs : ch.2.Pairwise fun a b => a.clause ≤ b.clause)
    (hn : (checkOverlaps sp.choices k).needsNew = true)
    (hc : freshCheck n k (branchMode ds v.ty) = some c) (h1 : ch.1.holds (env v) = true)
    (h2 : c.1.holds (env v) = true) :
    ∃ o, pick guards (env.set (ch.1.binds (env v))) ch.2 = some o ∧ o.1 < b.clause := by
  obtain ⟨e, he, q, hq, k1, k2, e', he', htag, hsame⟩ := hm h1
  have hct := (hw.checks ch hch).ty
  rw [hty] at hct
  have hkey : ((e.width ≤ 1 ∧ e.guard = none) ∧ e.clause < b.clause) ∧
      (q.run (env v)).isSome = true := by
    have hpt := ha.pat
    rw [hty] at hpt
    have hpc : (∃ s, p = .str s) ∨ ∃ s name rest, p = .strPrefix s name rest := by
      cases p <;> simp only [Pat.kind, reduceCtorEq] at hk <;> simp [Pat.hasTy] at hpt ⊢
    rcases hpc with ⟨s, rfl⟩ | ⟨s, name, rest, rfl⟩
    · exfalso
      simp only [Pat.kind, Option.some.injEq] at hk
      subst hk
      simp only [freshCheck, Option.some.injEq] at hc
      subst hc
      have hsp : Lit.spelled sk s := (hb.here _ ha.mem).lits s (by simp [Pat.lits])
      revert h1 h2
      generalize hxe : env v = x
      intro h1 h2
      cases x <;> simp only [Check.holds, Bool.false_eq_true, decide_eq_true_eq] at h2
      subst h2
      simp only [checkOverlaps, Bool.not_eq_true', List.any_eq_false] at hn
      rcases Check.string_cases hct with ⟨t, ht⟩ | ⟨t, r, ht⟩
      · rw [ht] at h1
        simp only [Check.holds, decide_eq_true_eq] at h1
        have hqt := k1 t ht
        subst hqt
        have : t = s := spelled_eq ((hb.tidy e he _ hq).lits t (by simp [Pat.lits])) hsp h1
        refine hn ch hch ?_
        simp [strOverlapping, ht, Check.kind, this]
      · rw [ht] at h1
        simp only [Check.holds, decide_eq_true_eq] at h1
        obtain ⟨rest, hqt⟩ := k2 t r ht
        subst hqt
        have hts : t <+: s :=
          spelled_prefix ((hb.tidy e he _ hq).prefs t (by simp [Pat.prefs])) hsp h1
        have htp : ch.1.prefixText = some t := by rw [ht]; rfl
        cases hanc : ancestor s sp.choices with
        | none => exact ancestor_some.ancestor_none hanc ch hch t htp hts
        | some a =>
          obtain ⟨g1, ⟨ch', hch', g2⟩, -⟩ := ancestor_some hanc
          refine hn ch' hch' ?_
          simp only [strOverlapping, hanc, Option.any_some, Bool.or_eq_true]
          exact .inr (prefixIs_iff.2 ⟨a, g2, by
            simp only [Bool.and_eq_true, isPrefixOf_eq]; exact ⟨List.prefix_refl _, g1⟩⟩)
    · simp only [Pat.kind, Option.some.injEq] at hk
      subst hk
      simp only [freshCheck, Option.some.injEq] at hc
      subst hc
      have hps : s ∈ (Pat.strPrefix (B := B) s name rest).prefs := by simp [Pat.prefs]
      have hsp : Lit.spelled sk s := (hb.here _ ha.mem).prefs s hps
      revert h1 h2
      generalize hxe : env v = x
      intro h1 h2
      cases x <;> simp only [Check.holds, Bool.false_eq_true, decide_eq_true_eq] at h2
      rename_i w
      rcases Check.string_cases hct with ⟨t, ht⟩ | ⟨t, r, ht⟩
      · rw [ht] at h1
        simp only [Check.holds, decide_eq_true_eq] at h1
        have hqt := k1 t ht
        subst hqt
        have hst : s <+: t := by
          refine spelled_prefix hsp ((hb.tidy e he _ hq).lits t (by simp [Pat.lits])) ?_
          rw [h1]; exact h2
        exact ⟨(hl e he).lt v _ _ t s hq ha.mem (.inl (by simp [Pat.lits])) hps hst,
          by simp [Pat.run, h1]⟩
      · rw [ht] at h1
        simp only [Check.holds, decide_eq_true_eq] at h1
        obtain ⟨rest', hqt⟩ := k2 t r ht
        subst hqt
        have hspt := (hb.tidy e he _ hq).prefs t (by simp [Pat.prefs])
        have htp : ch.1.prefixText = some t := by rw [ht]; rfl
        have hno : ¬ t <+: s := by
          simp only [checkOverlaps, prefixOverlaps] at hn
          cases hanc : ancestor s sp.choices with
          | none => exact ancestor_some.ancestor_none hanc ch hch t htp
          | some a => rw [hanc] at hn; simp at hn
        have hst : s <+: t := by
          rcases Nat.le_total (Lit.decode t).length (Lit.decode s).length with hle | hle
          · exact absurd (spelled_prefix hspt hsp (List.prefix_of_prefix_length_le h1 h2 hle)) hno
          · exact spelled_prefix hsp hspt (List.prefix_of_prefix_length_le h2 h1 hle)
        refine ⟨(hl e he).lt v _ _ t s hq ha.mem (.inr ⟨by simp [Pat.prefs], ?_⟩) hps hst,
          by simp [Pat.run, h1]⟩
        rintro rfl
        exact hno (List.prefix_refl _)
  obtain ⟨⟨⟨hwd, hg⟩, hlt⟩, hrun⟩ := hkey
  have hone := Branch.width_one (hb.stuck e he) hwd hq
  have hrune : (e.run env).isSome = true := by
    rw [Branch.run_eq, seq2_isSome, hone, runChecks_cons]
    simp [seq2_isSome, runChecks, hrun]
  obtain ⟨o, ho, hle⟩ := pick_le (guards := guards) (env := env.set (ch.1.binds (env v))) hs he'
    (by rw [htag.guard]; exact hg) (by rw [hsame.isSome]; exact hrune)
  rw [htag.clause] at hle
  exact ⟨o, ho, by omega⟩

theorem SpAgree.addKind {p : Pat B} {cs : List (PCheck B)} {k : Kind} {sk : Char → Nat}
    {r : Splitter B × Nat} (ha : Adding ds n0 env v b p cs) (hk : p.kind = some k)
    (hw : SpWf ds n0 n env v sp) (hd : SpDer Later v seen sp)
    (h : SpAgree guards env v seen sp) (hr : Readable env b) (hb : Before ds sk seen b)
    (hl : ∀ e ∈ seen, Later e b)
    (hadd : addKind n sp v p k (b.popped cs) (branchMode ds v.ty) = some r) :
    SpAgree guards env v (seen ++ [b]) r.1 := by
  obtain ⟨chs, hj, hadd⟩ := addKind_cases hadd
  have hun : unsliced p = true := (hr.slices _ ha.mem).stuck ha.pstuck
  have hnewr : ∀ {c : Check B} {m : Nat} {new : List (PCheck B)}, CheckOk ds n0 m v.ty c →
      Related p c → newChecks v p c = some new → c.holds (env v) = true →
      Readable (env.set (c.binds (env v))) ((b.popped cs).add new) := by
    intro c m new hc hrel hnew hh
    refine hr.derived ha.ok ha.pop (fun w hw' => env_set_old hc env _ hw') ?_
    refine newChecks_slices hun hrel ?_ hnew
    rw [env_set_old hc env _ ha.var]
    exact hh
  have hread : ∀ ch ∈ chs, ch.1.holds (env v) = true →
      ∀ b ∈ ch.2, Readable (env.set (ch.1.binds (env v))) b := by
    intro ch hch hh b' hb'
    obtain ⟨ch0, h0, hjt⟩ := forall₂_mem_right hj ch hch
    cases hjt with
    | keep => exact h.read _ h0 hh b' hb'
    | join hov hnew =>
      simp only [matched_binds]
      rw [matched_holds] at hh
      simp only [List.mem_append, List.mem_singleton] at hb'
      rcases hb' with hb' | rfl
      · exact h.read _ h0 hh b' hb'
      · exact hnewr (hw.checks ch0 h0) (overlapping_related hk hov) hnew hh
  have hsort : ∀ ch ∈ chs, ch.2.Pairwise fun a b => a.clause ≤ b.clause := by
    intro ch hch
    obtain ⟨ch0, h0, hjt⟩ := forall₂_mem_right hj ch hch
    cases hjt with
    | keep => exact h.sorted _ h0
    | join hov hnew =>
      simp only [List.pairwise_append, List.mem_singleton, forall_eq]
      refine ⟨h.sorted ch0 h0, by simp, ?_⟩
      intro e' he'
      obtain ⟨e, he, hde⟩ := hd.choice ch0 h0 e' he'
      rw [hde.tag.clause]
      exact (hl e he).le
  have hkinds : chs.map (fun ch => ch.1.kind) = sp.choices.map (fun ch => ch.1.kind) := by
    clear hread hsort hnewr hadd h hw hd
    generalize sp.choices = l at hj
    revert hj
    generalize (checkOverlaps l k).overlapping = ov
    intro hj
    induction hj with
    | nil => rfl
    | cons hjt _ ih => simp [hjt.check.2.2.2.1, ih]
  have hlen : chs.length = sp.choices.length := hj.length_eq.symm
  have hmade : v.ty = .string → ∀ ch ∈ chs, MadeBy env v (seen ++ [b]) ch := by
    intro ht ch hch
    obtain ⟨ch0, h0, hjt⟩ := forall₂_mem_right hj ch hch
    obtain ⟨g1, g2, g3⟩ := JoinedTo.lists hjt
    exact (h.made ht ch0 h0).grow g1 (hjt.check.1 _) (hjt.check.2.1 _) g2 g3
  have hagree : v.ty = .string → chs.Pairwise fun a b' => a.1.holds (env v) = true →
      b'.1.holds (env v) = true → Agrees guards env v (seen ++ [b]) sp.fallback a b' := by
    intro ht
    refine forall₂_pairwise' ?_ hj (h.agree ht)
    intro c c' d d' hc hd' hcd h1 h2
    rw [hc.check.1] at h1
    rw [hd'.check.1] at h2
    have := (hcd h1 h2).grow (more := []) (b := b) (fun e he => (hl e he).le) (JoinedTo.lists hc).1
      (hc.check.2.1 _) (JoinedTo.lists hd').1 (by simp)
    simpa using this
  rcases hadd with ⟨-, rfl⟩ | ⟨hn, c, new, hc, hnew, rfl⟩
  · exact ⟨hread, h.fread, hsort, fun h1 h2 => by rw [hkinds]; exact h.kinds h1 h2,
      fun ht => by simp only [hlen]; exact h.bits ht, hmade, hagree⟩
  · obtain ⟨hcok, hnle, hrel⟩ := freshCheck_ok hw.le ha.pat hk hc
    obtain ⟨hck, -⟩ := freshCheck_kind ha.pat hk hc
    refine ⟨?_, h.fread, ?_, ?_, ?_, ?_, ?_⟩
    · intro ch hch hh b' hb'
      simp only [List.mem_append, List.mem_singleton] at hch
      rcases hch with hch | rfl
      · exact hread ch hch hh b' hb'
      · simp only [List.mem_append, List.mem_singleton] at hb'
        rcases hb' with hb' | rfl
        · exact (h.fread b' hb').agree (hw.fallback b' hb') fun w hw' => env_set_old hcok env _ hw'
        · exact hnewr hcok hrel hnew hh
    · intro ch hch
      simp only [List.mem_append, List.mem_singleton] at hch
      rcases hch with hch | rfl
      · exact hsort ch hch
      · simp only [List.pairwise_append, List.mem_singleton, forall_eq]
        refine ⟨hd.fpairs.imp fun h => h.le, by simp, ?_⟩
        intro e' he'
        obtain ⟨e, he, hde⟩ := hd.fallback e' he'
        rw [(hde .nil).tag.clause]
        exact (hl e he).le
    · intro h1 h2
      simp only [List.map_append, hkinds, List.map_cons, List.map_nil]
      rw [List.nodup_append]
      refine ⟨h.kinds h1 h2, by simp, ?_⟩
      intro x hx y hy hxy
      simp only [List.mem_singleton] at hy
      subst hy
      subst hxy
      obtain ⟨ch, hch, he⟩ := List.mem_map.1 hx
      rw [hck] at he
      have hov : (checkOverlaps sp.choices k).needsNew =
          !(sp.choices.any fun ch => ch.1.kind == some k) := by
        have hpt := ha.pat
        cases p <;> simp only [Pat.kind, Option.some.injEq, reduceCtorEq] at hk <;> subst hk <;>
          first
          | rfl
          | (exfalso; revert hpt h1; generalize v.ty = t; cases t <;> simp [Pat.hasTy])
      rw [hov] at hn
      simp only [Bool.not_eq_true', List.any_eq_false, beq_iff_eq] at hn
      exact hn ch hch he
    · intro ht
      exfalso
      have hpt := ha.pat
      rw [ht] at hpt
      cases p <;> simp only [Pat.kind, reduceCtorEq] at hk <;> simp [Pat.hasTy] at hpt
    · intro ht ch hch
      simp only [List.mem_append, List.mem_singleton] at hch
      rcases hch with hch | rfl
      · exact hmade ht ch hch
      · intro hh
        obtain ⟨g1, g2⟩ := newChecks_same_kind hk hc ha.pstuck
        exact ⟨b, by simp, p, ha.mem, g1, g2, _, by simp, tag_add b cs new,
          ha.joined_run hcok hrel hnew hh⟩
    · intro ht
      simp only [List.pairwise_append, List.mem_singleton, forall_eq]
      refine ⟨hagree ht, by simp, ?_⟩
      intro ch hch hh1 hh2
      obtain ⟨ch0, h0, hjt⟩ := forall₂_mem_right hj ch hch
      rw [hjt.check.1] at hh1
      obtain ⟨o, ho, hlt⟩ := overlap_settles (guards := guards) ha hk ht hw hb hl h0
        (h.made ht ch0 h0) (h.sorted ch0 h0) hn hc hh1 hh2
      refine ⟨b.clause, sp.fallback, [], [(b.popped cs).add new], ⟨o, ?_, hlt⟩, by simp, by simp,
        rfl, b, by simp, Nat.le_refl _⟩
      obtain ⟨⟨x, hx⟩, -⟩ := JoinedTo.lists hjt
      rw [hx, hjt.check.2.1, pick_append, ho]
      rfl

theorem SpAgree.addBits {p : Pat B} {cs : List (PCheck B)} {cell : Option Nat}
    {ts : List (BTest B)} {sp' : Splitter B} (ha : Adding ds n0 env v b p cs)
    (hp : p = .bits cell ts) (hd : SpDer Later v seen sp) (h : SpAgree guards env v seen sp)
    (hr : Readable env b) (hl : ∀ e ∈ seen, e.clause ≤ b.clause)
    (hadd : addBits sp v p ts (b.popped cs) = some sp') : SpAgree guards env v (seen ++ [b]) sp' := by
  have hty := ha.bits_ty hp
  simp only [Verif.Case.addBits, Option.map_eq_some_iff] at hadd
  obtain ⟨r, hpv, rfl⟩ := hadd
  have hback : ∀ q, unsliced q = true → Readable env ((b.popped cs).add [(v, q)]) := fun q hq =>
    hr.derived ha.ok ha.pop (fun _ _ => rfl) (by
      intro d hd
      simp only [List.mem_singleton] at hd
      subst hd
      exact .inl hq)
  have hold : testHolds r.1 (env v) = true → ∀ b' ∈ r.2, Readable env b' := by
    intro hh b' hb'
    rcases pivotTest_cases hpv with ⟨-, h2, -⟩ | h2
    · rw [h2] at hb'; simp at hb'
    · have := h.read (.bits r.1, r.2) (by rw [h2]; simp) (by rw [Check.bits_holds]; exact hh) b' hb'
      rwa [Check.bits_binds, env_set_nil] at this
  have hsort : r.2.Pairwise fun a b => a.clause ≤ b.clause := by
    rcases pivotTest_cases hpv with ⟨-, h2, -⟩ | h2
    · rw [h2]; simp
    · exact h.sorted (.bits r.1, r.2) (by rw [h2]; simp)
  have hfrom : ∀ e' ∈ r.2, e'.clause ≤ b.clause := by
    intro e' he'
    rcases pivotTest_cases hpv with ⟨-, h2, -⟩ | h2
    · rw [h2] at he'; simp at he'
    · obtain ⟨e, he, hde⟩ := hd.choice (.bits r.1, r.2) (by rw [h2]; simp) e' he'
      rw [hde.tag.clause]
      exact hl e he
  refine ⟨?_, ?_, ?_, fun _ h2 => absurd hty h2, fun _ => by simp, ?_, ?_⟩
  · intro ch hch hh b' hb'
    simp only [List.mem_singleton] at hch
    subst hch
    simp only [Check.bits_holds] at hh
    simp only [Check.bits_binds, env_set_nil]
    simp only at hb'
    split at hb'
    · exact hold hh b' hb'
    · simp only [List.mem_append, List.mem_singleton] at hb'
      rcases hb' with hb' | rfl
      · exact hold hh b' hb'
      · exact hback _ rfl
  · intro b' hb'
    simp only at hb'
    split at hb'
    · exact h.fread b' hb'
    · simp only [List.mem_append, List.mem_singleton] at hb'
      rcases hb' with hb' | rfl
      · exact h.fread b' hb'
      · exact hback _ (by rw [hp]; rfl)
  · intro ch hch
    simp only [List.mem_singleton] at hch
    subst hch
    simp only
    split
    · exact hsort
    · simp only [List.pairwise_append, List.mem_singleton, forall_eq]
      exact ⟨hsort, by simp, hfrom⟩
  · intro ht
    rw [hty] at ht
    simp at ht
  · intro ht
    rw [hty] at ht
    simp at ht

end

end Verif.JsCase
