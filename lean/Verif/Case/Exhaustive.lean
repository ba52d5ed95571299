import Verif.Case.Path

/-!
# What the compiler builds

Lemmas: a decision tree only runs clauses that match, and never fails if nothing is missing.
-/

namespace Verif.Case

variable {B : BitSys}

theorem minVar_mem (ds : Decls) (bs : List (Branch B)) : ∀ (cs : List (PCheck B)) (best : Var),
    minVar ds bs best cs = best ∨ ∃ p, (minVar ds bs best cs, p) ∈ cs
  | [], best => .inl rfl
  | (v, p) :: cs, best => by
    simp only [minVar]
    rcases minVar_mem ds bs cs (if keyLt ds bs v best then v else best) with h | ⟨q, h⟩
    · rw [h]
      split
      · exact .inr ⟨p, by simp⟩
      · exact .inl rfl
    · exact .inr ⟨q, by simp [h]⟩

theorem findPivot_mem {ds : Decls} {first : Branch B} {bs : List (Branch B)} {v : Var}
    (h : findPivot ds first bs = some v) : ∃ p, (v, p) ∈ first.checks := by
  unfold findPivot at h
  split at h
  · simp at h
  · rename_i w p cs hc
    simp only [Option.some.injEq] at h
    subst h
    rw [hc]
    rcases minVar_mem ds bs cs w with h | ⟨q, h⟩
    · exact ⟨p, by simp [h]⟩
    · exact ⟨q, by simp [h]⟩

theorem findPivot_none {ds : Decls} {first : Branch B} {bs : List (Branch B)}
    (h : findPivot ds first bs = none) : first.checks = [] := by
  unfold findPivot at h
  split at h
  · assumption
  · simp at h

theorem BitSys.Sound.unaliasLaw (h : B.Sound) : B.UnaliasLaw := h.unalias

/-- Where an alternative is recorded. -/
def St.Known (st : St) (x : Nat × Nat) : Prop :=
  x ∈ st.reachable ∨ x ∈ st.impossibleVariants ∨ x ∈ st.impossibleSegments

theorem StLe.known {s s' : St} (h : StLe s s') {x : Nat × Nat} (hx : s.Known x) : s'.Known x := by
  rcases hx with hx | hx | hx
  · exact h.reachable x hx
  · exact .inr (.inl (h.variants x hx))
  · exact .inr (.inr (h.segments x hx))

/-- What is promised of the decision compiled from branches. -/
structure Promise (bs : List (Branch B)) (env : Env B) (r : Decision B × St) : Prop where
  total : r.2.missing = false → ∃ b ∈ bs, b.guard = none ∧ (b.run env).isSome = true
  runs : r.2.missing = false → ∀ guards, (r.1.eval guards env).isSome = true
  sound : ∀ guards c f, r.1.eval guards env = some (c, f) →
    ∃ b ∈ bs, b.body.clause = c ∧ (b.run env).isSome = true ∧ r.2.Known (b.clause, b.alt) ∧
      (b.guard = none ∨ guards b.clause f = true)

theorem Promise.transfer {bs bs' : List (Branch B)} {env env' : Env B} {r r' : Decision B × St}
    (h : Promise bs' env' r') (hev : ∀ guards, r.1.eval guards env = r'.1.eval guards env')
    (hle : StLe r'.2 r.2)
    (hb : ∀ b' ∈ bs', ∃ b ∈ bs, Tag b' b ∧ ((b'.run env').isSome = true → (b.run env).isSome = true)) :
    Promise bs env r := by
  have hm : r.2.missing = false → r'.2.missing = false := by
    intro h0
    cases hc : r'.2.missing with
    | false => rfl
    | true => rw [hle.missing hc] at h0; simp at h0
  refine ⟨?_, ?_, ?_⟩
  · intro h0
    obtain ⟨b', hb', hg, hr⟩ := h.total (hm h0)
    obtain ⟨b, hb, ht, hr'⟩ := hb b' hb'
    exact ⟨b, hb, ht.guard ▸ hg, hr' hr⟩
  · intro h0 guards
    rw [hev]
    exact h.runs (hm h0) guards
  · intro guards c f he
    rw [hev] at he
    obtain ⟨b', hb', hc, hr, hk, hgd⟩ := h.sound guards c f he
    obtain ⟨b, hb, ht, hr'⟩ := hb b' hb'
    refine ⟨b, hb, ht.body ▸ hc, hr' hr, ?_, ?_⟩
    · rw [← ht.clause, ← ht.alt]
      exact hle.known hk
    · rw [← ht.clause, ← ht.guard]
      exact hgd

/-- The branches on the path of a value. -/
theorem Path.sound {ds : Decls} {n0 n : Nat} {env env' : Env B} {v : Var} {sp : Splitter B}
    {bs l : List (Branch B)} (hw : SpWf ds n0 n env v sp) (hd : SpSound env v bs sp)
    (hp : Path env (env v) sp l env') :
    (∀ b ∈ l, BranchOk ds n env' b) ∧
    ∀ b' ∈ l, ∃ b ∈ bs, Tag b' b ∧ ((b'.run env').isSome = true → (b.run env).isSome = true) := by
  cases hp with
  | choice pre suf c hs hh _ he =>
    subst he
    have hm : (c, l) ∈ sp.choices := by rw [hs]; simp
    exact ⟨hw.choice (c, l) hm hh, hd.choice (c, l) hm hh⟩
  | fallback hl he _ =>
    subst he; subst hl
    exact ⟨fun b hb => (hw.fallback b hb).mono hw.le, hd.fallback⟩

theorem splitAndCompile_promise {ds : Decls}
    {rec : St → List (Branch B) → Option (Decision B × St)} (hsnd : B.Sound) (hg : Grows rec)
    (hrec : ∀ st bs r env, rec st bs = some r → (∀ b ∈ bs, BranchOk ds st.next env b) →
      Promise bs env r)
    {env : Env B} {st : St} {v : Var} {bs : List (Branch B)} {r : Decision B × St}
    (h : splitAndCompile ds rec st v bs = some r) (hv : (env v).hasTy ds v.ty)
    (hbs : ∀ b ∈ bs, BranchOk ds st.next env b ∧ b.stuck) : Promise bs env r := by
  obtain ⟨kc, stm, sp, -, -, hw, hd, hpath⟩ := splitAndCompile_path hsnd hg env h hv hbs
  rcases hpath with ⟨h1, h2, -⟩ | ⟨l, env', dL, s1, s2, g1, g2, g3, g4, g5⟩
  · refine ⟨fun h0 => ?_, fun h0 => ?_, fun guards c f he => ?_⟩
    · rw [h2] at h0; simp at h0
    · rw [h2] at h0; simp at h0
    · rw [h1] at he; simp [Decision.eval] at he
  · obtain ⟨k1, k2⟩ := g5.sound hw hd
    have := hrec s1 l (dL, s2) env' g1 fun b hb => (k1 b hb).mono g3.next
    exact this.transfer g2 g4 k2

theorem compile_promise {ds : Decls} (hs : B.Sound) : ∀ (fuel : Nat) (st : St)
    (bs : List (Branch B)) (r : Decision B × St) (env : Env B), compile ds fuel st bs = some r →
    (∀ b ∈ bs, BranchOk ds st.next env b) → Promise bs env r
  | 0, st, bs, r, env, h, _ => by simp [compile] at h
  | fuel + 1, st, bs, r, env, h, hbs => by
    have ih := compile_promise (ds := ds) hs fuel
    simp only [compile] at h
    have hmem : ∀ b' ∈ (moveAll st.taken bs).1, BranchOk ds st.next env b' ∧ b'.stuck ∧
        ∃ b ∈ bs, Tag b' b ∧ ((b'.run env).isSome = true → (b.run env).isSome = true) := by
      intro b' hb'
      obtain ⟨b, hb, t, rfl⟩ := moveAll_mem bs _ b' hb'
      refine ⟨moveBranch_ok t (hbs b hb), moveBranch_stuck t b, b, hb, ⟨rfl, rfl, rfl, rfl⟩, ?_⟩
      rw [moveBranch_isSome hs.unaliasLaw]
      exact id
    split at h
    · simp only [Option.some.injEq] at h
      subst h
      exact ⟨fun h0 => by simp at h0, fun h0 => by simp at h0,
        fun guards c f he => by simp [Decision.eval] at he⟩
    · rename_i first rest taken heq
      rw [heq] at hmem
      simp only at hmem
      suffices hp : Promise (first :: rest) env r by
        exact hp.transfer (r := r) (fun _ => rfl) (StLe.refl _) fun b' hb' => (hmem b' hb').2.2
      have hnext : (St.reached { st with taken := taken } (first.clause, first.alt)).next =
          st.next := by
        unfold St.reached; split <;> rfl
      split at h
      · rename_i v hv
        obtain ⟨p, hp⟩ := findPivot_mem hv
        refine splitAndCompile_promise hs (compile_le ds fuel) ih h
          ((hmem first (by simp)).1.val _ hp) ?_
        rw [hnext]
        exact fun b hb => ⟨(hmem b hb).1, (hmem b hb).2.1⟩
      · rename_i hv
        have hnil := findPivot_none hv
        have hrun : (first.run env).isSome = true := by simp [Branch.run, hnil, runChecks]
        have hkn := St.mem_reached { st with taken := taken } (first.clause, first.alt)
        split at h
        · rename_i hgd
          simp only [Option.some.injEq] at h
          subst h
          refine ⟨fun _ => ⟨first, by simp, hgd, hrun⟩, fun _ guards => rfl, ?_⟩
          intro guards c f he
          simp only [Decision.eval, Option.some.injEq, Prod.mk.injEq] at he
          exact ⟨first, by simp, he.1, hrun, .inl hkn, .inl hgd⟩
        · rename_i g hgd
          simp only [Option.bind_eq_some_iff, Option.some.injEq] at h
          obtain ⟨a, ha, rfl⟩ := h
          have hp := ih _ rest a env ha (by
            rw [hnext]; exact fun b hb => (hmem b (by simp [hb])).1)
          have hle := compile_le ds fuel _ _ _ ha
          refine ⟨?_, ?_, ?_⟩
          · intro h0
            obtain ⟨b, hb, r⟩ := hp.total h0
            exact ⟨b, by simp [hb], r⟩
          · intro h0 guards
            simp only [Decision.eval]
            split
            · rfl
            · exact hp.runs h0 guards
          · intro guards c f he
            simp only [Decision.eval] at he
            split at he
            · rename_i hgt
              simp only [Option.some.injEq, Prod.mk.injEq] at he
              refine ⟨first, by simp, he.1, hrun, hle.known (.inl hkn), .inr ?_⟩
              rw [← he.2]; exact hgt
            · obtain ⟨b, hb, r⟩ := hp.sound guards c f he
              exact ⟨b, by simp [hb], r⟩

end Verif.Case
