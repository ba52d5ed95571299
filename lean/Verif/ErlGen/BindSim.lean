import Verif.ErlGen.ExprSim3

/-!
# The variables of patterns
-/

namespace Verif.ErlGen

open Verif.ErlText (Text Term astAll chain)
open Verif.Strings.Spec (Piece text UpperCamel)

/-! ### Lookups -/

theorem lookup_some_append {β : Type} {a : List (Text × β)} {x : Text} {v : β} (h : a.lookup x = some v)
    (e : List (Text × β)) : (a ++ e).lookup x = some v := by
  induction a with
  | nil => simp at h
  | cons p a ih =>
    obtain ⟨y, w⟩ := p
    rw [List.cons_append, List.lookup_cons]
    rw [List.lookup_cons] at h
    cases hb : x == y with
    | true => rw [hb] at h; exact h
    | false => rw [hb] at h; exact ih h

theorem lookup_none_append {β : Type} {a : List (Text × β)} {x : Text} (h : x ∉ a.map Prod.fst)
    (e : List (Text × β)) : (a ++ e).lookup x = e.lookup x := by
  induction a with
  | nil => rfl
  | cons p a ih =>
    obtain ⟨y, w⟩ := p
    simp only [List.map_cons, List.mem_cons, not_or] at h
    rw [List.cons_append, List.lookup_cons]
    have hb : (x == y) = false := by simpa using h.1
    rw [hb]
    exact ih h.2

theorem lookup_of_key {β : Type} {a : List (Text × β)} {x : Text} (h : x ∈ a.map Prod.fst) : ∃ v, a.lookup x = some v := by
  induction a with
  | nil => simp at h
  | cons p a ih =>
    obtain ⟨y, w⟩ := p
    rw [List.lookup_cons]
    by_cases he : x = y
    · subst he
      exact ⟨w, by simp⟩
    · have hb : (x == y) = false := by simpa using he
      simp only [List.map_cons, List.mem_cons] at h
      rw [hb]
      exact ih (h.resolve_left he)

theorem key_of_lookup {β : Type} {a : List (Text × β)} {x : Text} {v : β} (h : a.lookup x = some v) :
    x ∈ a.map Prod.fst := List.mem_map.2 ⟨_, mem_of_lookup h, rfl⟩

/-- More variables of Gleam, with variables of Erlang. -/
theorem Sit.vars {Γ : Scope} {t : State} {env : Gleam.Env} {env' : Erlang.Env} (h : Sit Γ t env env') {vs : Scope}
    {b : Gleam.Env} {d : Erlang.Env} (hk : ∀ x, x ∈ b.map Prod.fst ↔ x ∈ vs.map Prod.fst)
    (hn : ∀ n ∈ Erlang.keys d, n ∉ Erlang.keys env') (ht : ∀ n ∈ Erlang.keys d, t.Taken n)
    (hv : ∀ x l w, vs.lookup x = some l → b.lookup x = some w →
      ∃ n w', t.names l = some n ∧ d.lookup n = some w' ∧ VRel w w') :
    Sit (vs ++ Γ) t (b ++ env) (d ++ env') := by
  constructor
  · intro x w hx
    by_cases hb : x ∈ b.map Prod.fst
    · obtain ⟨w1, h1⟩ := lookup_of_key hb
      obtain ⟨l, h2⟩ := lookup_of_key ((hk x).1 hb)
      rw [lookup_some_append h1] at hx
      cases hx
      obtain ⟨n, w', h3, h4, h5⟩ := hv x l w h2 h1
      exact ⟨l, n, w', lookup_some_append h2 _, h3, lookup_some_append h4 _, h5⟩
    · rw [lookup_none_append hb] at hx
      obtain ⟨l, n, w', h1, h2, h3, h4⟩ := h.env x w hx
      refine ⟨l, n, w', ?_, h2, ?_, h4⟩
      · rw [lookup_none_append fun hc => hb ((hk x).2 hc)]
        exact h1
      · rw [lookup_append_of_not_mem fun hc => hn n hc (mem_keys_of_lookup h3)]
        exact h3
  · intro n hm
    rw [keys_append, List.mem_append] at hm
    rcases hm with hm | hm
    · exact ht n hm
    · exact h.bounded n hm

/-! ### The variables that a match binds -/

mutual

theorem run_keys : ∀ (p : Pattern) {v : Gleam.Value} {b : Gleam.Env}, Gleam.Pattern.run p v = .yes b →
    b.map Prod.fst = p.vars.map Prod.fst
  | .discard, v, b, h => by
    simp only [Gleam.Pattern.run, Match.yes.injEq] at h
    subst h; rfl
  | .int n, v, b, h => by
    cases v <;> simp only [Gleam.Pattern.run] at h <;> try contradiction
    split at h
    · cases h; rfl
    · cases h
  | .string ps, v, b, h => by
    cases v <;> simp only [Gleam.Pattern.run] at h <;> try contradiction
    split at h
    · split at h
      · cases h; rfl
      · cases h
    · cases h
  | .var x l, v, b, h => by
    simp only [Gleam.Pattern.run, Match.yes.injEq] at h
    subst h; rfl
  | .assign p x l, v, b, h => by
    simp only [Gleam.Pattern.run] at h
    cases hp : Gleam.Pattern.run p v with
    | yes b' =>
      rw [hp] at h
      cases h
      simp [Pattern.vars, run_keys p hp]
    | no => rw [hp] at h; cases h
    | bad => rw [hp] at h; cases h
  | .tuple ps, v, b, h => by
    cases v <;> simp only [Gleam.Pattern.run] at h <;> try contradiction
    simp only [Pattern.vars]
    exact runAll_keys ps h
  | .nil, v, b, h => by
    cases v <;> simp only [Gleam.Pattern.run] at h <;> try contradiction
    cases h; rfl
  | .cons p q, v, b, h => by
    cases v <;> try (simp only [Gleam.Pattern.run] at h; contradiction)
    rw [run_cons] at h
    rename_i v w
    cases hp : Gleam.Pattern.run p v with
    | yes b' =>
      cases hq : Gleam.Pattern.run q w with
      | yes c' =>
        rw [hp, hq] at h
        cases h
        simp [Pattern.vars, run_keys p hp, run_keys q hq]
      | no => rw [hp, hq] at h; cases h
      | bad => rw [hp, hq] at h; cases h
    | no => rw [hp] at h; cases h
    | bad => rw [hp] at h; cases h
  | .ctor tag ps, v, b, h => by
    cases v <;> simp only [Gleam.Pattern.run] at h <;> try contradiction
    split at h
    · simp only [Pattern.vars]
      exact runAll_keys ps h
    · cases h
  | .prefix ps left right, v, b, h => by
    cases v <;> simp only [Gleam.Pattern.run] at h <;> try contradiction
    split at h
    · split at h
      · cases h
        cases left <;> cases right <;> simp [Gleam.bindOption, Pattern.vars]
      · cases h
    · cases h

theorem runAll_keys : ∀ (ps : List Pattern) {vs : List Gleam.Value} {b : Gleam.Env}, Gleam.Pattern.runAll ps vs = .yes b →
    b.map Prod.fst = (varsAll ps).map Prod.fst
  | [], vs, b, h => by
    cases vs <;> simp only [Gleam.Pattern.runAll] at h <;> try contradiction
    cases h; rfl
  | p :: ps, vs, b, h => by
    cases vs with
    | nil => simp only [Gleam.Pattern.runAll] at h; contradiction
    | cons v vs =>
      rw [runAll_cons] at h
      cases hp : Gleam.Pattern.run p v with
      | yes b' =>
        cases hq : Gleam.Pattern.runAll ps vs with
        | yes c' =>
          rw [hp, hq] at h
          cases h
          simp [varsAll, run_keys p hp, runAll_keys ps hq]
        | no => rw [hp, hq] at h; cases h
        | bad => rw [hp, hq] at h; cases h
      | no => rw [hp] at h; cases h
      | bad => rw [hp] at h; cases h

end

mutual

/-- The literals that have names. -/
theorem aliases_literal : ∀ {p : Pattern}, p.Parts → ∀ a ∈ p.aliases, Literal a.2.2
  | .discard, _ => by simp [Pattern.aliases]
  | .int _, _ => by simp [Pattern.aliases]
  | .string _, _ => by simp [Pattern.aliases]
  | .var _ _, _ => by simp [Pattern.aliases]
  | .assign p _ _, h => by
    simp only [Pattern.Parts] at h
    simp only [Pattern.aliases]
    exact aliases_literal h.2
  | .tuple ps, h => by
    simp only [Pattern.Parts] at h
    simp only [Pattern.aliases]
    exact aliasesAll_literal h
  | .nil, _ => by simp [Pattern.aliases]
  | .cons p q, h => by
    simp only [Pattern.Parts] at h
    simp only [Pattern.aliases, List.mem_append]
    rintro a (ha | ha)
    · exact aliases_literal h.1 a ha
    · exact aliases_literal h.2 a ha
  | .ctor _ ps, h => by
    simp only [Pattern.Parts] at h
    simp only [Pattern.aliases]
    exact aliasesAll_literal h.2
  | .prefix ps left _, h => by
    simp only [Pattern.Parts] at h
    cases left <;> simp [Pattern.aliases, h]

theorem aliasesAll_literal : ∀ {ps : List Pattern}, partsAll ps → ∀ a ∈ aliasesAll ps, Literal a.2.2
  | [], _ => by simp [aliasesAll]
  | p :: ps, h => by
    simp only [partsAll] at h
    simp only [aliasesAll, List.mem_append]
    rintro a (ha | ha)
    · exact aliases_literal h.1 a ha
    · exact aliasesAll_literal h.2 a ha

end

section

variable {W : Type} (ap' : Erlang.Value → List Erlang.Value → Erlang.Run W Erlang.Value)

/-- The names that are given to literals after the pattern. -/
theorem tAssignments_eval (L : Later) (s : State) (env' : Erlang.Env) (hb : Bounded s env')
    (hv : Vars (L.map fun e => (e.1, e.2.1)))
    (hl : ∀ e ∈ L, ∃ ps u, e.2.2 = text ps ∧ Gleam.literal ps = some u) :
    ∃ as, (∀ x l ps u, (x, l, text ps) ∈ L → Gleam.literal ps = some u → (nameOf x (s.count x), Erlang.Value.str u) ∈ as) ∧
      (Erlang.keys as).Nodup ∧ Between s (tAssignments s L).2 (Erlang.keys as) ∧
      ∀ ys, ys ≠ [] → Erlang.seq ap' env' (astAll (tAssignments s L).1 ++ ys) =
        (Erlang.seq ap' (as ++ env') ys).bind fun q => M.pure (q.1, q.2 ++ as) := by
  induction L generalizing s env' with
  | nil =>
    refine ⟨[], by simp, by simp [Erlang.keys], by simp [Erlang.keys, Between], ?_⟩
    intro ys _
    simp only [tAssignments, astAll, List.nil_append, List.append_nil]
    exact (M.bind_pure _).symm
  | cons e L ih =>
    obtain ⟨x, l, content⟩ := e
    obtain ⟨ps, u, rfl, hu⟩ := hl (x, l, content) (by simp)
    simp only [List.map_cons] at hv
    have hx : VariableName x := hv.2 x (by simp)
    have hvL : Vars (L.map fun e => (e.1, e.2.1)) := Vars.right (vs := [(x, l)]) hv
    have hxL : x ∉ (L.map fun e => (e.1, e.2.1)).map Prod.fst := by
      have := hv.1
      simp only [List.map_cons, List.nodup_cons] at this
      exact this.1
    have hbn := newVar_between s hx l
    have hst := newVar_step s x l
    have hname := newVar_name s hx l
    have hX : s.newVar x l = ((s.newVar x l).1, (s.newVar x l).2) := rfl
    have hn1 := hbn _ (List.mem_singleton.2 rfl)
    have hb1 : Bounded (s.newVar x l).2 (((s.newVar x l).1, Erlang.Value.str u) :: env') := by
      intro n hn
      simp only [Erlang.keys, List.map_cons, List.mem_cons] at hn
      rcases hn with rfl | hn
      · exact hn1.2
      · exact hst.mono (hb n hn)
    obtain ⟨as, h1, h2, h3, h4⟩ := ih (s.newVar x l).2 _ hb1 hvL fun e he => hl e (List.mem_cons_of_mem _ he)
    have hstep := defineAll_step (s.newVar x l).2 (L.map fun e => (e.1, e.2.1))
    rw [← tAssignments_state] at hstep
    refine ⟨as ++ [((s.newVar x l).1, .str u)], ?_, ?_, ?_, ?_⟩
    · intro y m qs w hy hw
      rcases List.mem_cons.1 hy with hy | hy
      · simp only [Prod.mk.injEq] at hy
        obtain ⟨rfl, rfl, ht⟩ := hy
        have : u = w := by
          have e1 := string_literal hu
          have e2 := string_literal hw
          rw [ht] at e2
          rw [e1] at e2
          exact Option.some.inj e2
        subst this
        rw [← hname]
        simp
      · refine List.mem_append_left _ ?_
        have hym : y ∈ (L.map fun e => (e.1, e.2.1)).map Prod.fst :=
          List.mem_map.2 ⟨(y, m), List.mem_map.2 ⟨_, hy, rfl⟩, rfl⟩
        have hcount : (s.newVar x l).2.count y = s.count y :=
          count_defineAll s (vs := [(x, l)]) (hvL.2 y hym) (by
            simp only [List.map_cons, List.map_nil, List.mem_singleton]
            rintro rfl
            exact hxL hym)
        have := h1 y m qs w hy hw
        rw [hcount] at this
        exact this
    · rw [keys_append]
      rw [List.nodup_append]
      refine ⟨h2, by simp [Erlang.keys], ?_⟩
      intro n hn m hm he
      simp only [Erlang.keys, List.map_cons, List.map_nil, List.mem_singleton] at hm
      rw [he, hm] at hn
      exact (h3 _ hn).1 hn1.2
    · rw [keys_append]
      simp only [tAssignments]
      exact (hbn).append' h3 (fun m hm => hst.mono hm) fun m hm => hstep.mono hm
    · intro ys hy
      simp only [tAssignments, astAll, List.cons_append]
      rw [seq_cons ap' env' _ (by simp [hy])]
      have he : Erlang.expr ap' env' (Term.ast false (.bind (.var (s.newVar x l).1) (.string (text ps)))) =
          M.pure (.str u, [((s.newVar x l).1, .str u)]) := by
        simp only [Term.ast, chain]
        have hsig := expr_string ap' env' hu
        simp only [Term.ast] at hsig
        rw [Erlang.expr, hsig, M.pure_bind]
        simp only [Erlang.pattern, bindVar_new hx, List.nil_append]
        rw [← hname, fresh_between (t := (s.newVar x l).2) hb (by simpa [Erlang.keys] using hbn)]
        simp
      rw [he, M.pure_bind]
      simp only [List.cons_append, List.nil_append]
      rw [h4 ys hy, M.bind_assoc]
      simp only [M.pure_bind, List.append_assoc, List.cons_append, List.nil_append]

end

end Verif.ErlGen
