import Verif.Case.Sound

/-!
# The path of a value through a switch

Lemmas: evaluating a compiled switch is evaluating the decision compiled for one of the lists of
branches it was split into.
-/

namespace Verif.Case

variable {B : BitSys}

/-- The list of branches, and the variables, a value leads to. -/
inductive Path (env : Env B) (x : Val B.Bits) (sp : Splitter B) (l : List (Branch B))
    (env' : Env B) : Prop
  | choice (pre suf : List (Check B × List (Branch B))) (c : Check B)
    (split : sp.choices = pre ++ (c, l) :: suf) (holds : c.holds x = true)
    (first : ∀ e ∈ pre, e.1.ignored = false → e.1.holds x = false)
    (env_eq : env' = env.set (c.binds x))
  | fallback (fb : l = sp.fallback) (env_eq : env' = env)
    (none : ∀ e ∈ sp.choices, e.1.ignored = false → e.1.holds x = false)

theorem compileChoices_path {rec : St → List (Branch B) → Option (Decision B × St)}
    (hg : Grows rec) (env : Env B) (x : Val B.Bits) :
    ∀ {chs : List (Check B × List (Branch B))} {st : St} {r : Choices B × St},
    compileChoices rec st chs = some r →
    ((∀ guards, r.1.eval guards env x = none) ∧ ∀ e ∈ chs, e.1.holds x = false) ∨
    ∃ pre c l suf dL s1 s2, chs = pre ++ (c, l) :: suf ∧ c.holds x = true ∧
      (∀ e ∈ pre, e.1.holds x = false) ∧ rec s1 l = some (dL, s2) ∧
      (∀ guards, r.1.eval guards env x = some (dL.eval guards (env.set (c.binds x)))) ∧
      StLe st s1 ∧ StLe s2 r.2
  | [], st, r, h => by
    simp only [compileChoices, Option.some.injEq] at h
    subst h
    exact .inl ⟨fun _ => rfl, by simp⟩
  | ch :: chs, st, r, h => by
    simp only [compileChoices, Option.bind_eq_some_iff, Option.some.injEq] at h
    obtain ⟨a, ha, s, hs, rfl⟩ := h
    by_cases hh : ch.1.holds x = true
    · right
      refine ⟨[], ch.1, ch.2, chs, a.1, st, a.2, rfl, hh, by simp, ha, ?_, StLe.refl _, ?_⟩
      · intro guards
        simp [Choices.eval, hh]
      · have := compileChoices_le hg hs
        exact this
    · have hh : ch.1.holds x = false := by simpa using hh
      rcases compileChoices_path hg env x hs with ⟨h1, h2⟩ | ⟨pre, c, l, suf, dL, s1, s2, h⟩
      · left
        refine ⟨fun guards => ?_, ?_⟩
        · simp [Choices.eval, hh, h1 guards]
        · intro e he
          simp only [List.mem_cons] at he
          rcases he with rfl | he
          · exact hh
          · exact h2 e he
      · obtain ⟨h1, h2, h3, h4, h5, h6, h7⟩ := h
        right
        refine ⟨ch :: pre, c, l, suf, dL, s1, s2, by simp [h1], h2, ?_, h4, ?_,
          (hg _ _ _ ha).trans h6, h7⟩
        · intro e he
          simp only [List.mem_cons] at he
          rcases he with rfl | he
          · exact hh
          · exact h3 e he
        · intro guards
          simp [Choices.eval, hh, h5 guards]

theorem compileSwitch_path {rec : St → List (Branch B) → Option (Decision B × St)}
    (hg : Grows rec) (env : Env B) {v : Var} {chs : List (Check B × List (Branch B))}
    {fb : List (Branch B)} {fc : Fallback B} {st : St} {r : Decision B × St}
    (h : compileSwitch rec st v chs fb fc = some r) :
    ∃ l env' dL s1 s2, rec s1 l = some (dL, s2) ∧
      (∀ guards, r.1.eval guards env = dL.eval guards env') ∧ StLe st s1 ∧ StLe s2 r.2 ∧
      ((∃ pre c suf, chs = pre ++ (c, l) :: suf ∧ c.holds (env v) = true ∧
          (∀ e ∈ pre, e.1.holds (env v) = false) ∧ env' = env.set (c.binds (env v))) ∨
        (l = fb ∧ env' = env.set (fc.binds (env v)) ∧ ∀ e ∈ chs, e.1.holds (env v) = false)) := by
  simp only [compileSwitch, Option.bind_eq_some_iff, Option.some.injEq] at h
  obtain ⟨a, ha, s, hs, rfl⟩ := h
  rcases compileChoices_path hg env (env v) ha with ⟨h1, h2⟩ | ⟨pre, c, l, suf, dL, s1, s2, h⟩
  · refine ⟨fb, env.set (fc.binds (env v)), s.1, a.2, s.2, hs, ?_, compileChoices_le hg ha,
      StLe.refl _, .inr ⟨rfl, rfl, h2⟩⟩
    intro guards
    simp [Decision.eval, h1 guards]
  · obtain ⟨h1, h2, h3, h4, h5, h6, h7⟩ := h
    refine ⟨l, env.set (c.binds (env v)), dL, s1, s2, h4, ?_, h6, ?_,
      .inl ⟨pre, c, suf, h1, h2, h3, rfl⟩⟩
    · intro guards
      simp [Decision.eval, h5 guards]
    · have := hg _ _ _ hs
      exact h7.trans this

theorem dropLast_getLast {α : Type} {l : List α} {a : α} (h : l.getLast? = some a) :
    l = l.dropLast ++ [a] := by
  have hne : l ≠ [] := by intro h0; simp [h0] at h
  have := List.dropLast_append_getLast hne
  rw [List.getLast?_eq_some_getLast hne] at h
  simp only [Option.some.injEq] at h
  rw [← h]
  exact this.symm

theorem filter_split {α : Type} (p : α → Bool) : ∀ {l pre suf : List α} {a : α},
    l.filter p = pre ++ a :: suf → ∃ pre' suf', l = pre' ++ a :: suf' ∧ pre'.filter p = pre
  | [], pre, suf, a, h => by simp at h
  | x :: l, pre, suf, a, h => by
    rw [List.filter_cons] at h
    split at h
    · rename_i hx
      cases pre with
      | nil =>
        simp only [List.nil_append, List.cons.injEq] at h
        exact ⟨[], l, by simp [h.1], rfl⟩
      | cons y pre =>
        simp only [List.cons_append, List.cons.injEq] at h
        obtain ⟨pre', suf', h1, h2⟩ := filter_split p h.2
        refine ⟨x :: pre', suf', by simp [h1], ?_⟩
        rw [List.filter_cons, if_pos hx, h2, h.1]
    · rename_i hx
      obtain ⟨pre', suf', h1, h2⟩ := filter_split p h
      exact ⟨x :: pre', suf', by simp [h1], by rw [List.filter_cons, if_neg hx, h2]⟩

theorem exhaustiveSwitch_path {rec : St → List (Branch B) → Option (Decision B × St)}
    (hg : Grows rec) (env : Env B) {v : Var} {sp : Splitter B} {st : St} {r : Decision B × St}
    (hc : Cover (env v) sp.choices) (h : exhaustiveSwitch rec st v sp = some r) :
    ∃ l env' dL s1 s2, rec s1 l = some (dL, s2) ∧
      (∀ guards, r.1.eval guards env = dL.eval guards env') ∧ StLe st s1 ∧ StLe s2 r.2 ∧
      Path env (env v) sp l env' := by
  unfold exhaustiveSwitch at h
  split at h
  · obtain ⟨l, env', dL, s1, s2, h1, h2, h3, h4, h5⟩ := compileSwitch_path hg env h
    refine ⟨l, env', dL, s1, s2, h1, h2, h3, h4, ?_⟩
    rcases h5 with ⟨pre, c, suf, h5, h6, h7, h8⟩ | ⟨h5, h6, h7⟩
    · obtain ⟨pre', suf', h9, h10⟩ := filter_split _ h5
      refine .choice pre' suf' c h9 h6 ?_ h8
      intro e he hi
      refine h7 e ?_
      rw [← h10, List.mem_filter]
      exact ⟨he, by simp [hi]⟩
    · refine .fallback h5 (by simpa [Fallback.binds, env_set_nil] using h6) ?_
      intro e he hi
      exact h7 e (by simp [he, hi])
  · split at h
    · simp at h
    · rename_i last hlast
      have hsplit := dropLast_getLast hlast
      obtain ⟨l, env', dL, s1, s2, h1, h2, h3, h4, h5⟩ := compileSwitch_path hg env h
      refine ⟨l, env', dL, s1, s2, h1, h2, h3, h4, ?_⟩
      rcases h5 with ⟨pre, c, suf, h5, h6, h7, h8⟩ | ⟨h5, h6, h7⟩
      · refine .choice pre (suf ++ [last]) c ?_ h6 (fun e he _ => h7 e he) h8
        rw [hsplit, h5]
        simp
      · refine .choice sp.choices.dropLast [] last.1 ?_ ?_ (fun e he _ => h7 e he) h6
        · rw [h5]; exact hsplit
        · obtain ⟨e, he, hh⟩ := hc
          rw [hsplit, List.mem_append, List.mem_singleton] at he
          rcases he with he | rfl
          · rw [h7 e he] at hh; simp at hh
          · exact hh

theorem Check.infinite_active {ds : Decls} {n m : Nat} {t : Ty} {c : Check B}
    (h : CheckOk ds n m t c) (hi : (branchMode ds t).isInfinite = true) : c.ignored = false := by
  have := h.ty
  cases t <;> simp [branchMode, Mode.isInfinite] at hi <;> cases c <;>
    simp [Check.hasTy] at this <;> rfl

theorem splitBranches_none {mode : Mode} {v : Var} : ∀ {bs : List (Branch B)} {st : St}
    {sp : Splitter B} {r : St × Splitter B}, splitBranches mode v st sp bs = some r →
    sp.choices = [] → (∀ b ∈ bs, popCheck v b.checks = none) → r.2.choices = []
  | [], st, sp, r, h, h0, _ => by
    simp only [splitBranches, Option.some.injEq] at h
    subst h
    exact h0
  | b :: bs, st, sp, r, h, h0, hb => by
    simp only [splitBranches, hb b (by simp)] at h
    exact splitBranches_none h (by simp [addFallback, h0]) fun b' h' => hb b' (by simp [h'])

theorem knownChecks_nil {ds : Decls} {n : Nat} {t : Ty} {r : List (Check B) × Nat}
    (h : knownChecks n (branchMode ds t) = some r)
    (hf : (branchMode ds t).isInfinite = false) (hr : r.1 = []) {p : Pat B} (hp : p.hasTy ds t)
    (hst : p.stuck) : False := by
  cases t with
  | int | float | string | bitArray | fn | var i => simp [branchMode, Mode.isInfinite] at hf
  | list t =>
    simp only [knownChecks, branchMode, Option.some.injEq] at h
    subst h; simp at hr
  | tuple ts =>
    simp only [knownChecks, branchMode, Option.some.injEq] at h
    subst h; simp at hr
  | named m args inf =>
    cases inf with
    | none =>
      simp only [knownChecks, branchMode, Option.some.injEq] at h
      subst h
      have hc : constructors ds m args = [] := by
        cases hc : constructors ds m args with
        | nil => rfl
        | cons c cs => simp [hc, variantChecks] at hr
      cases p <;> simp [Pat.stuck] at hst <;> simp [Pat.hasTy, hc] at hp
    | some j =>
      simp only [knownChecks, branchMode, Option.map_eq_some_iff] at h
      obtain ⟨fs, hfs, rfl⟩ := h
      simp at hr

/-- A switch is compiled by splitting, and evaluated by following a path. -/
theorem splitAndCompile_path {ds : Decls} {rec : St → List (Branch B) → Option (Decision B × St)}
    (hsnd : B.Sound) (hg : Grows rec) (env : Env B) {st : St} {v : Var} {bs : List (Branch B)}
    {r : Decision B × St} (h : splitAndCompile ds rec st v bs = some r)
    (hv : (env v).hasTy ds v.ty)
    (hbs : ∀ b ∈ bs, BranchOk ds st.next env b ∧ b.stuck) :
    ∃ kc stm sp, knownChecks st.next (branchMode ds v.ty) = some kc ∧
      splitBranches (branchMode ds v.ty) v { st with next := kc.2 }
        (Splitter.fromChecks kc.1) bs = some (stm, sp) ∧
      SpWf ds st.next stm.next env v sp ∧ SpSound env v bs sp ∧
      ((r.1 = .fail ∧ r.2.missing = true ∧ ∀ b ∈ bs, popCheck v b.checks = none) ∨
        ∃ l env' dL s1 s2, rec s1 l = some (dL, s2) ∧
          (∀ guards, r.1.eval guards env = dL.eval guards env') ∧ StLe stm s1 ∧ StLe s2 r.2 ∧
          Path env (env v) sp l env') := by
  simp only [splitAndCompile, Option.bind_eq_some_iff] at h
  obtain ⟨kc, hkc, ⟨stm, sp⟩, hsp, h⟩ := h
  obtain ⟨hn, hkok⟩ := knownChecks_ok hkc
  have hw0 : SpWf ds st.next kc.2 env v (Splitter.fromChecks kc.1) := by
    refine ⟨hn, ?_, ?_, by simp [Splitter.fromChecks]⟩
    · intro ch hch
      simp only [Splitter.fromChecks, List.mem_map] at hch
      obtain ⟨c, hc, rfl⟩ := hch
      exact hkok c hc
    · intro ch hch _ b hb
      simp only [Splitter.fromChecks, List.mem_map] at hch
      obtain ⟨c, hc, rfl⟩ := hch
      simp at hb
  have hd0 : SpSound env v [] (Splitter.fromChecks kc.1) := by
    refine ⟨?_, by simp [Splitter.fromChecks]⟩
    intro ch hch _ b hb
    simp only [Splitter.fromChecks, List.mem_map] at hch
    obtain ⟨c, hc, rfl⟩ := hch
    simp at hb
  obtain ⟨h1, h2, h3⟩ := splitBranches_inv hsnd hsp hbs hw0 hd0
  refine ⟨kc, stm, sp, hkc, hsp, h1, by simpa using h2, ?_⟩
  split at h
  · rename_i hi
    right
    obtain ⟨l, env', dL, s1, s2, g1, g2, g3, g4, g5⟩ := compileSwitch_path hg env h
    refine ⟨l, env', dL, s1, s2, g1, g2, g3, g4, ?_⟩
    rcases g5 with ⟨pre, c, suf, g5, g6, g7, g8⟩ | ⟨g5, g6, g7⟩
    · exact .choice pre suf c g5 g6 (fun e he _ => g7 e he) g8
    · exact .fallback g5 (by simpa [Fallback.binds, env_set_nil] using g6) fun e he _ => g7 e he
  · rename_i hi
    have hi : (branchMode ds v.ty).isInfinite = false := by simpa using hi
    have hpop : kc.1 = [] → ∀ b ∈ bs, popCheck v b.checks = none := by
      intro hnil b hb
      cases hp : popCheck v b.checks with
      | none => rfl
      | some q =>
        exfalso
        obtain ⟨hok, hst⟩ := hbs b hb
        have hm := (popCheck_mem hp).1
        exact knownChecks_nil hkc hi hnil (hok.pat _ hm) (hst _ hm)
    split at h
    · rename_i he
      simp only [Option.some.injEq] at h
      subst h
      refine .inl ⟨rfl, rfl, hpop ?_⟩
      by_contra hne
      obtain ⟨e, hm, -⟩ := h3 hi (knownChecks_cover hkc hi hne hv)
      have he : sp.choices = [] := by simpa using he
      rw [he] at hm
      simp at hm
    · rename_i hne
      right
      refine exhaustiveSwitch_path hg env (h3 hi ?_) h
      refine knownChecks_cover hkc hi ?_ hv
      intro hnil
      refine hne ?_
      simp only
      have := splitBranches_none hsp (by simp [Splitter.fromChecks, hnil]) (hpop hnil)
      simpa using this

end Verif.Case
