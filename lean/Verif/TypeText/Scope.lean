import Verif.TypeText.Hydrate

/-!
# What the names of a module stand for
-/
namespace Verif.TypeText
open Lexer Lexer.Spec

/-! ### Arguments -/

theorem sameAsParameter_iff {p : Nat} : (t : Ty) → (sameAsParameter t p = true ↔ t.strip = .var p)
  | .var i => by simp [sameAsParameter, Ty.strip]
  | .link t => by rw [sameAsParameter, Ty.strip]; exact sameAsParameter_iff t
  | .named _ _ _ => by simp [sameAsParameter, Ty.strip]
  | .fn _ _ => by simp [sameAsParameter, Ty.strip]
  | .tuple _ => by simp [sameAsParameter, Ty.strip]

theorem compareArguments_iff : (ts : List Ty) → (ps : List Nat) →
    (compareArguments ts ps = true ↔ stripAll ts = ps.map .var)
  | [], [] => by simp [compareArguments, stripAll]
  | [], _ :: _ => by simp [compareArguments, stripAll]
  | _ :: _, [] => by simp [compareArguments, stripAll]
  | t :: ts, p :: ps => by
    rw [compareArguments, stripAll, List.map_cons, List.cons.injEq, Bool.and_eq_true, sameAsParameter_iff,
      compareArguments_iff ts ps]

/-! ### Well-formed types -/

mutual
theorem all_substitute {P : Name → Name → Nat → Prop} {f : List (Nat × Ty)} (hf : ∀ i t, f.lookup i = some t → t.All P) :
    (t : Ty) → t.All P → (substitute f t).All P
  | .named m n ts, h => by
    rw [Ty.All] at h
    rw [substitute, Ty.All, substituteAll_eq, List.length_map, ← substituteAll_eq]
    exact ⟨h.1, all_substituteAll hf ts h.2⟩
  | .fn ts r, h => by
    rw [Ty.All] at h
    rw [substitute, Ty.All]
    exact ⟨all_substituteAll hf ts h.1, all_substitute hf r h.2⟩
  | .tuple ts, h => by
    rw [Ty.All] at h
    rw [substitute, Ty.All]
    exact all_substituteAll hf ts h
  | .var i, _ => by
    rw [substitute]
    split
    · rename_i t ht
      rw [Ty.All]
      exact hf i t ht
    · rw [Ty.All]; trivial
  | .link t, h => by
    rw [Ty.All] at h
    rw [substitute]
    exact all_substitute hf t h

theorem all_substituteAll {P : Name → Name → Nat → Prop} {f : List (Nat × Ty)} (hf : ∀ i t, f.lookup i = some t → t.All P) :
    (ts : List Ty) → AllIn P ts → AllIn P (substituteAll f ts)
  | [], _ => by rw [substituteAll, AllIn]; trivial
  | t :: ts, h => by
    rw [AllIn] at h
    rw [substituteAll, AllIn]
    exact ⟨all_substitute hf t h.1, all_substituteAll hf ts h.2⟩
end

section
variable {env : Env} {world : World} {P : Name → Name → Nat → Prop}

mutual
theorem typeFromAst_all (hc : ∀ m n c, env.typeConstructor world m n = some c → c.type.All P) : (a : TypeAst) → ∀ h t h',
    typeFromAst env world h a = some (t, h') → t.All P
  | .constructor m n as par, h, t, h', he => by
    rw [typeFromAst] at he
    simp only [Option.bind_eq_bind, Option.bind_eq_some_iff] at he
    obtain ⟨⟨us, h1⟩, e1, n', e2, c, e3, e4⟩ := he
    split at e4
    · cases e4
    · split at e4
      · cases e4
      · cases e4
        refine all_substitute (fun i u hu => ?_) _ (hc _ _ _ e3)
        have h2 := (List.of_mem_zip (lookup_mem hu)).2
        exact allIn_iff.1 (typesFromAst_all hc as _ _ _ e1) u h2
  | .tuple as, h, t, h', he => by
    rw [typeFromAst] at he
    simp only [Option.bind_eq_bind, Option.bind_eq_some_iff] at he
    obtain ⟨⟨us, h1⟩, e1, e2⟩ := he
    cases e2
    rw [Ty.All]
    exact typesFromAst_all hc as _ _ _ e1
  | .fn as r, h, t, h', he => by
    rw [typeFromAst] at he
    simp only [Option.bind_eq_bind, Option.bind_eq_some_iff] at he
    obtain ⟨⟨us, h1⟩, e1, ⟨u, h2⟩, e2, e3⟩ := he
    cases e3
    rw [Ty.All]
    exact ⟨typesFromAst_all hc as _ _ _ e1, typeFromAst_all hc r _ _ _ e2⟩
  | .var n, h, t, h', he => by
    rw [typeFromAst] at he
    split at he
    · cases he; rw [Ty.All]; trivial
    · split at he
      · cases he; rw [Ty.All]; trivial
      · cases he
  | .hole n, h, t, h', he => by
    rw [typeFromAst] at he
    split at he
    · cases he; rw [Ty.All]; trivial
    · cases he

theorem typesFromAst_all (hc : ∀ m n c, env.typeConstructor world m n = some c → c.type.All P) : (as : List TypeAst) →
    ∀ h ts h', typesFromAst env world h as = some (ts, h') → AllIn P ts
  | [], h, ts, h', he => by
    rw [typesFromAst] at he
    cases he
    rw [AllIn]; trivial
  | a :: as, h, ts, h', he => by
    rw [typesFromAst] at he
    simp only [Option.bind_eq_bind, Option.bind_eq_some_iff] at he
    obtain ⟨⟨u, h1⟩, e1, ⟨us, h2⟩, e2, e3⟩ := he
    cases e3
    rw [AllIn]
    exact ⟨typeFromAst_all hc a _ _ _ e1, typesFromAst_all hc as _ _ _ e2⟩
end

end

/-! ### The scope of a module -/

/-- What holds of every constructor. -/
structure ConOk (facts : Facts) (n : Name) (c : TypeConstructor) : Prop where
  nodup : c.parameters.Nodup
  wellFormed : c.type.WellFormed facts
  name : Reads (.upName n) n

/-- What holds of the modules that can be imported. -/
structure WorldInv (facts : Facts) (world : World) : Prop where
  types : ∀ m i n c, world m = some i → i.types n = some c → ConOk facts n c ∧ c.module = m
  aliases : ∀ m i n c, world m = some i → i.aliases n = some c → i.types n = some c
  prelude : world preludeName = some prelude
  arity : ∀ t ∈ preludeTypes, facts.arity preludeName t.1 = t.2

/-- What holds of the names of a module that is being analysed. -/
structure EnvInv (facts : Facts) (world : World) (current : Name) (order : List (Name × Name)) (env : Env) : Prop where
  here : env.current = current
  cons : ∀ n c, env.moduleTypes n = some c → ConOk facts n c
  localOk : ∀ e ∈ env.names.localTypes, ∃ c, env.moduleTypes e.2 = some c ∧ Means c e.1.1 e.1.2
  localAll : ∀ n c m t, env.moduleTypes n = some c → Means c m t → ∃ n', ((m, t), n') ∈ env.names.localTypes ∧
    (n' = n ∨ ∃ c', env.moduleTypes n' = some c' ∧ c'.module ≠ preludeName)
  imported : ∀ m a, env.names.importedModules m = some a → env.importedModules a = some m ∧ Reads (.name a) a
  importedAll : ∀ a m, env.importedModules a = some m → ∃ b, env.names.importedModules m = some b
  reexport : ∀ m t m' a, env.names.reexportAliases (m, t) = some (m', a) → Reexports facts world m' a m t ∨
    ∃ c, env.moduleTypes a = some c ∧ Means c m t ∧ c.module ≠ preludeName
  reexportAll : ∀ m' a m t, Reexports facts world m' a m t → (m', a) ∈ order → ∃ x, env.names.reexportAliases (m, t) = some x
  aliases : ∀ n c, env.moduleTypeAliases n = some c → env.moduleTypes n = some c ∧ c.module = current

/-- A name for a type that is added to the scope, and what is known of the names in scope then. -/
def Env.add (env : Env) (n : Name) (c : TypeConstructor) : Env :=
  { env with moduleTypes := put env.moduleTypes n c, names := env.names.typeInScope n c.type c.parameters }

theorem typeInScope_fields (ns : Names) (n : Name) (t : Ty) (ps : List Nat) :
    (ns.typeInScope n t ps).importedModules = ns.importedModules ∧
      (ns.typeInScope n t ps).typeVariables = ns.typeVariables ∧
      (ns.typeInScope n t ps).reexportAliases = ns.reexportAliases := by
  unfold Names.typeInScope
  split
  · split <;> simp [Names.namedTypeInScope]
  · simp

/-- The names of types once a name has been added. -/
theorem typeInScope_mem {ns : Names} {n : Name} {c : TypeConstructor} {e : (Name × Name) × Name} :
    e ∈ (ns.typeInScope n c.type c.parameters).localTypes ↔
      (Means c e.1.1 e.1.2 ∧ e.2 = n) ∨ (e ∈ ns.localTypes ∧ e.2 ≠ n ∧ ¬Means c e.1.1 e.1.2) := by
  unfold Names.typeInScope Means
  split
  · rename_i m t args ht
    split
    · rename_i hc
      rw [compareArguments_iff] at hc
      simp only [Names.namedTypeInScope, bimapInsert, bimapRemoveRight, List.mem_cons, List.mem_filter,
        decide_eq_true_eq, ht]
      constructor
      · rintro (rfl | ⟨⟨h1, h2⟩, h3, h4⟩)
        · exact .inl ⟨⟨args, rfl, hc⟩, rfl⟩
        · refine .inr ⟨h1, h2, ?_⟩
          rintro ⟨args', h5, _⟩
          cases h5
          exact h3 rfl
      · rintro (⟨⟨args', h5, _⟩, h6⟩ | ⟨h1, h2, h3⟩)
        · cases h5
          left
          rw [← h6]
        · refine .inr ⟨⟨h1, h2⟩, ?_, h2⟩
          intro h4
          rw [h4] at h3
          exact h3 ⟨args, rfl, hc⟩
    · rename_i hc
      rw [compareArguments_iff] at hc
      simp only [bimapRemoveRight, List.mem_filter, decide_eq_true_eq, ht]
      constructor
      · rintro ⟨h1, h2⟩
        refine .inr ⟨h1, h2, ?_⟩
        rintro ⟨args', h5, h6⟩
        cases h5
        exact hc h6
      · rintro (⟨⟨args', h5, h6⟩, _⟩ | ⟨h1, h2, _⟩)
        · cases h5
          exact absurd h6 hc
        · exact ⟨h1, h2⟩
  · rename_i hne
    simp only [bimapRemoveRight, List.mem_filter, decide_eq_true_eq]
    constructor
    · rintro ⟨h1, h2⟩
      refine .inr ⟨h1, h2, ?_⟩
      rintro ⟨args', h5, h6⟩
      exact hne _ _ _ h5
    · rintro (⟨⟨args', h5, h6⟩, _⟩ | ⟨h1, h2, _⟩)
      · exact absurd h5 (hne _ _ _)
      · exact ⟨h1, h2⟩

theorem means_unique {c : TypeConstructor} {m t m' t' : Name} (h : Means c m t) (h' : Means c m' t') : m = m' ∧ t = t' := by
  obtain ⟨a, h1, _⟩ := h
  obtain ⟨b, h2, _⟩ := h'
  rw [h1] at h2
  cases h2
  exact ⟨rfl, rfl⟩

section
variable {facts : Facts} {world : World} {current : Name} {order : List (Name × Name)} {env : Env}

theorem nameIsFree_iff {n : Name} : env.nameIsFree n = true ↔ ∀ c, env.moduleTypes n = some c → c.module = preludeName := by
  unfold Env.nameIsFree
  cases h : env.moduleTypes n with
  | none => simp
  | some c => simp

theorem add_inv {n : Name} {c : TypeConstructor} (inv : EnvInv facts world current order env) (hcur : current ≠ preludeName)
    (hf : env.nameIsFree n = true) (ok : ConOk facts n c) (hm : c.module ≠ preludeName) :
    EnvInv facts world current order (env.add n c) := by
  rw [nameIsFree_iff] at hf
  obtain ⟨f1, f2, f3⟩ := typeInScope_fields env.names n c.type c.parameters
  have other : ∀ {k : Name} {d : TypeConstructor}, k ≠ n → env.moduleTypes k = some d → (env.add n c).moduleTypes k = some d := by
    intro k d hk hd
    simp only [Env.add, put, if_neg hk, hd]
  refine ⟨inv.here, ?_, ?_, ?_, ?_, ?_, ?_, ?_, ?_⟩
  · intro k d hd
    simp only [Env.add, put] at hd
    split at hd
    · rename_i hk
      cases hd
      rw [hk]
      exact ok
    · exact inv.cons k d hd
  · intro e he
    rcases typeInScope_mem.1 he with ⟨h1, h2⟩ | ⟨h1, h2, _⟩
    · exact ⟨c, by simp [Env.add, put, h2], h1⟩
    · obtain ⟨d, h3, h4⟩ := inv.localOk e h1
      exact ⟨d, other h2 h3, h4⟩
  · intro k d m t hd hmean
    by_cases h0 : Means c m t
    · exact ⟨n, typeInScope_mem.2 (.inl ⟨h0, rfl⟩), .inr ⟨c, by simp [Env.add, put], hm⟩⟩
    · have hk : k ≠ n := by
        rintro rfl
        simp only [Env.add, put, if_true, Option.some.injEq] at hd
        subst hd
        exact h0 hmean
      simp only [Env.add, put, if_neg hk] at hd
      obtain ⟨n', h1, h2⟩ := inv.localAll k d m t hd hmean
      have hn' : n' ≠ n := by
        rintro rfl
        rcases h2 with rfl | ⟨c', h3, h4⟩
        · exact hk rfl
        · exact h4 (hf c' h3)
      refine ⟨n', typeInScope_mem.2 (.inr ⟨h1, hn', h0⟩), ?_⟩
      rcases h2 with h2 | ⟨c', h3, h4⟩
      · exact .inl h2
      · exact .inr ⟨c', other hn' h3, h4⟩
  · intro m a h
    simp only [Env.add, f1] at h
    exact inv.imported m a h
  · intro a m h
    simp only [Env.add, f1]
    exact inv.importedAll a m h
  · intro m t m' a h
    simp only [Env.add, f3] at h
    rcases inv.reexport m t m' a h with h | ⟨d, h1, h2, h3⟩
    · exact .inl h
    · refine .inr ⟨d, other ?_ h1, h2, h3⟩
      rintro rfl
      exact h3 (hf d h1)
  · intro m' a m t h ho
    simp only [Env.add, f3]
    exact inv.reexportAll m' a m t h ho
  · intro k d hd
    obtain ⟨h1, h2⟩ := inv.aliases k d hd
    have hk : k ≠ n := by
      rintro rfl
      exact hcur (h2 ▸ hf d h1)
    exact ⟨other hk h1, h2⟩

/-- Names of variables and numbers do not matter. -/
theorem inv_variables {vs : List (Nat × Name)} {next : Nat} (inv : EnvInv facts world current order env) :
    EnvInv facts world current order { env with names := { env.names with typeVariables := vs }, next } :=
  ⟨inv.here, inv.cons, inv.localOk, inv.localAll, inv.imported, inv.importedAll, inv.reexport, inv.reexportAll, inv.aliases⟩

/-! ### The first scope -/

theorem prelude_names : ∀ t ∈ preludeTypes, Reads (.upName t.1) t.1 := by
  intro t ht
  simp only [preludeTypes, List.mem_cons, List.not_mem_nil, or_false] at ht
  rcases ht with rfl | rfl | rfl | rfl | rfl | rfl | rfl | rfl | rfl <;>
    exact ⟨rfl, ⟨_, _, rfl, by decide⟩, by unfold NameChar; decide⟩

theorem prelude_types {n : Name} {c : TypeConstructor} (h : prelude.types n = some c) :
    ∃ k, (n, k) ∈ preludeTypes ∧ c = preludeConstructor n k := by
  simp only [prelude, Option.map_eq_some_iff] at h
  obtain ⟨k, h1, h2⟩ := h
  exact ⟨k, lookup_mem h1, h2.symm⟩

theorem allIn_vars {P : Name → Name → Nat → Prop} (l : List Nat) : AllIn P (l.map .var) := by
  rw [allIn_iff]
  intro t ht
  obtain ⟨i, _, rfl⟩ := List.mem_map.1 ht
  rw [Ty.All]
  trivial

theorem stripAll_vars (l : List Nat) : stripAll (l.map .var) = l.map .var := by
  rw [stripAll_eq, List.map_map]
  refine List.map_congr_left fun i _ => ?_
  simp [Ty.strip]

theorem prelude_means (n : Name) (k : Nat) : Means (preludeConstructor n k) preludeName n :=
  ⟨_, rfl, stripAll_vars _⟩

theorem prelude_conOk (ha : ∀ t ∈ preludeTypes, facts.arity preludeName t.1 = t.2) {n : Name} {c : TypeConstructor}
    (h : prelude.types n = some c) : ConOk facts n c := by
  obtain ⟨k, h1, rfl⟩ := prelude_types h
  refine ⟨List.nodup_range, ?_, prelude_names _ h1⟩
  unfold Ty.WellFormed preludeConstructor
  rw [Ty.All]
  refine ⟨?_, allIn_vars _⟩
  rw [ha _ h1]
  simp

/-- One alias that may be a public name for an internal type. -/
def reexportStep (facts : Facts) (world : World) (n : Names) (o : Name × Name) : Names :=
  match world o.1 with
  | some i =>
    if i.isInternal then n
    else
      match i.aliases o.2 with
      | some c => if c.publicity = .public_ then n.maybeRegisterReexport facts (facts.package o.1) o.2 c else n
      | none => n
  | none => n

theorem maybeRegister_eq (n : Names) (package : Name) (a : Name) (c : TypeConstructor) :
    (∃ m t, Means c m t ∧ facts.package m = package ∧ facts.internal m t = true ∧
      n.maybeRegisterReexport facts package a c = { n with reexportAliases := put n.reexportAliases (m, t) (c.module, a) }) ∨
    ((∀ m t, Means c m t → facts.package m = package → facts.internal m t = true → False) ∧
      n.maybeRegisterReexport facts package a c = n) := by
  unfold Names.maybeRegisterReexport
  split
  · rename_i m t args ht
    split
    · rename_i h
      exact .inl ⟨m, t, ⟨args, ht, (compareArguments_iff _ _).1 h.2.2⟩, h.1, h.2.1, rfl⟩
    · rename_i h
      refine .inr ⟨?_, rfl⟩
      rintro m' t' ⟨args', h1, h2⟩ h3 h4
      rw [ht] at h1
      cases h1
      exact h ⟨h3, h4, (compareArguments_iff _ _).2 h2⟩
  · rename_i hne
    refine .inr ⟨?_, rfl⟩
    rintro m' t' ⟨args', h1, h2⟩ _ _
    exact hne _ _ _ h1

/-- What holds of the names while the aliases are gone through. -/
structure NamesInv (facts : Facts) (world : World) (seen : List (Name × Name)) (n0 n : Names) : Prop where
  locals : n.localTypes = n0.localTypes
  modules : n.importedModules = n0.importedModules
  reexport : ∀ m t m' a, n.reexportAliases (m, t) = some (m', a) → Reexports facts world m' a m t
  reexportAll : ∀ m' a m t, Reexports facts world m' a m t → (m', a) ∈ seen → ∃ x, n.reexportAliases (m, t) = some x

theorem put_some {α β : Type} [DecidableEq α] {f : α → Option β} {a b : α} {v x : β} (h : f b = some x) :
    ∃ y, put f a v b = some y := by
  unfold put
  split
  · exact ⟨v, rfl⟩
  · exact ⟨x, h⟩

theorem reexportStep_inv (hw : WorldInv facts world) {seen : List (Name × Name)} {n0 n : Names} {o : Name × Name}
    (inv : NamesInv facts world seen n0 n) : NamesInv facts world (o :: seen) n0 (reexportStep facts world n o) := by
  have skip : (∀ m t, ¬Reexports facts world o.1 o.2 m t) → NamesInv facts world (o :: seen) n0 n := by
    intro h
    refine ⟨inv.locals, inv.modules, inv.reexport, ?_⟩
    intro m' a m t hr hm
    rcases List.mem_cons.1 hm with rfl | hm
    · exact absurd hr (h m t)
    · exact inv.reexportAll m' a m t hr hm
  unfold reexportStep
  split
  · rename_i i hi
    split
    · rename_i hint
      refine skip ?_
      rintro m t ⟨i', c, h1, h2, _⟩
      rw [hi] at h1
      cases h1
      rw [hint] at h2
      cases h2
    · rename_i hint
      split
      · rename_i c hc
        split
        · rename_i hpub
          rcases maybeRegister_eq (facts := facts) n (facts.package o.1) o.2 c with ⟨m0, t0, h1, h2, h3, h4⟩ | ⟨h1, h2⟩
          · rw [h4]
            have hmod : c.module = o.1 := (hw.types _ _ _ _ hi (hw.aliases _ _ _ _ hi hc)).2
            refine ⟨inv.locals, inv.modules, ?_, ?_⟩
            · intro m t m' a hr
              simp only [put] at hr
              split at hr
              · rename_i he
                cases he
                cases hr
                rw [hmod]
                exact ⟨i, c, hi, by simpa using hint, hc, hpub, h1, h2, h3⟩
              · exact inv.reexport m t m' a hr
            · intro m' a m t hr hm
              rcases List.mem_cons.1 hm with rfl | hm
              · obtain ⟨i', c', g1, _, g3, _, g5, _⟩ := hr
                rw [hi] at g1
                cases g1
                rw [hc] at g3
                cases g3
                obtain ⟨rfl, rfl⟩ := means_unique h1 g5
                exact ⟨_, by simp [put]; rfl⟩
              · obtain ⟨x, hx⟩ := inv.reexportAll m' a m t hr hm
                exact put_some hx
          · rw [h2]
            refine skip ?_
            rintro m t ⟨i', c', g1, _, g3, _, g5, g6, g7⟩
            rw [hi] at g1
            cases g1
            rw [hc] at g3
            cases g3
            exact h1 m t g5 g6 g7
        · rename_i hpub
          refine skip ?_
          rintro m t ⟨i', c', g1, _, g3, g4, _⟩
          rw [hi] at g1
          cases g1
          rw [hc] at g3
          cases g3
          exact hpub g4
      · rename_i hc
        refine skip ?_
        rintro m t ⟨i', c', g1, _, g3, g4, _⟩
        rw [hi] at g1
        cases g1
        rw [hc] at g3
        cases g3
  · rename_i hi
    refine skip ?_
    rintro m t ⟨i', c', g1, _⟩
    rw [hi] at g1
    cases g1

theorem reexports_inv (hw : WorldInv facts world) {n0 : Names} : (l : List (Name × Name)) → ∀ seen n,
    NamesInv facts world seen n0 n → (∀ o ∈ order, o ∈ seen ∨ o ∈ l) →
    NamesInv facts world order n0 (l.foldl (reexportStep facts world) n)
  | [], seen, n, inv, h => ⟨inv.locals, inv.modules, inv.reexport, fun m' a m t hr hm =>
      inv.reexportAll m' a m t hr (by simpa using h _ hm)⟩
  | o :: l, seen, n, inv, h => by
    refine reexports_inv hw l (o :: seen) _ (reexportStep_inv hw inv) fun x hx => ?_
    rcases h x hx with h1 | h1
    · exact .inl (by simp [h1])
    · rcases List.mem_cons.1 h1 with rfl | h1
      · exact .inl (by simp)
      · exact .inr h1

/-- The names of the prelude. -/
def preludeNames : Names := preludeTypes.foldl (fun n t => n.namedTypeInScope preludeName t.1 t.1) Names.new

theorem preludeNames_locals : preludeNames.localTypes = preludeTypes.reverse.map fun t => ((preludeName, t.1), t.1) := by
  decide +kernel

theorem new_inv (hw : WorldInv facts world) (next : Nat) : EnvInv facts world current order (Env.new facts world current order next) := by
  have h := reexports_inv (order := order) hw (n0 := preludeNames) order [] preludeNames
    ⟨rfl, rfl, (fun _ _ _ _ h => by cases h), (fun _ _ _ _ _ h => by cases h)⟩ fun o ho => .inr ho
  have hb : buildNames facts world order = order.foldl (reexportStep facts world) preludeNames := rfl
  rw [← hb] at h
  have hmod : (buildNames facts world order).importedModules = fun _ => none := h.modules
  refine ⟨rfl, fun n c hc => prelude_conOk hw.arity hc, ?_, ?_, ?_, ?_, ?_, h.reexportAll, ?_⟩
  · intro e he
    simp only [Env.new, h.locals, preludeNames_locals, List.mem_map, List.mem_reverse] at he
    obtain ⟨t, ht, rfl⟩ := he
    refine ⟨preludeConstructor t.1 t.2, ?_, prelude_means _ _⟩
    simp only [Env.new, prelude]
    simp only [preludeTypes, List.mem_cons, List.not_mem_nil, or_false] at ht
    rcases ht with rfl | rfl | rfl | rfl | rfl | rfl | rfl | rfl | rfl <;> rfl
  · intro n c m t hc hm
    obtain ⟨k, h1, rfl⟩ := prelude_types hc
    obtain ⟨rfl, rfl⟩ := means_unique hm (prelude_means n k)
    refine ⟨t, ?_, .inl rfl⟩
    simp only [Env.new, h.locals, preludeNames_locals, List.mem_map, List.mem_reverse]
    exact ⟨_, h1, rfl⟩
  · intro m a ha
    simp only [Env.new, hmod] at ha
    cases ha
  · intro a m ha
    simp only [Env.new] at ha
    cases ha
  · intro m t m' a hr
    exact .inl (h.reexport m t m' a hr)
  · intro n c hc
    simp only [Env.new] at hc
    cases hc

/-! ### Declarations -/

theorem typeVariables_fold (l : List (Name × Nat)) (ns : Names) :
    ∃ vs, l.foldl (fun n v => n.typeVariableInScope v.2 v.1) ns = { ns with typeVariables := vs } := by
  induction l generalizing ns with
  | nil => exact ⟨_, rfl⟩
  | cons v l ih =>
    obtain ⟨vs, h⟩ := ih (ns.typeVariableInScope v.2 v.1)
    exact ⟨vs, by rw [List.foldl_cons, h]; rfl⟩

theorem makeTypeVars_spec {ps : List Name} {vars : List (Name × Nat)} {env' : Env} (h : env.makeTypeVars ps = some (vars, env')) :
    ps.Nodup ∧ vars.map (·.2) = List.range' env.next ps.length ∧
      ∃ vs, env' = { env with names := { env.names with typeVariables := vs }, next := env.next + ps.length } := by
  unfold Env.makeTypeVars at h
  split at h
  · rename_i hn
    cases h
    obtain ⟨vs, hv⟩ := typeVariables_fold (ps.zip (List.range' env.next ps.length)) env.names
    refine ⟨hn, ?_, vs, by rw [hv]⟩
    exact List.map_snd_zip (by simp)
  · cases h

theorem insert_spec {n : Name} {c : TypeConstructor} {env' : Env} (h : env.insertTypeConstructor n c = some env') :
    env.nameIsFree n = true ∧ env' = { env with moduleTypes := put env.moduleTypes n c } := by
  unfold Env.insertTypeConstructor at h
  split at h
  · rename_i hf
    cases h
    exact ⟨hf, rfl⟩
  · cases h

theorem importModule_inv {m : Name} {used : Option Name} {env' : Env} (inv : EnvInv facts world current order env)
    (hu : ∀ a, used = some a → Reads (.name a) a) (h : env.importModule world m used = some env') :
    EnvInv facts world current order env' := by
  unfold Env.importModule at h
  split at h
  · cases h
  · split at h
    · cases h; exact inv
    · rename_i a
      split at h
      · cases h
      · rename_i hfree
        cases h
        refine ⟨inv.here, inv.cons, inv.localOk, inv.localAll, ?_, ?_, inv.reexport, inv.reexportAll, inv.aliases⟩
        · intro m' a' h
          simp only [Names.importedModule, put] at h ⊢
          split at h
          · rename_i hm
            cases h
            simp only [if_true]
            exact ⟨by rw [hm], hu _ rfl⟩
          · obtain ⟨h1, h2⟩ := inv.imported m' a' h
            refine ⟨?_, h2⟩
            rw [if_neg]
            · exact h1
            · rintro rfl
              rw [hfree] at h1
              cases h1
        · intro a' m' h
          simp only [Names.importedModule, put] at h
          split at h
          · cases h
            exact ⟨a, by simp [Names.importedModule, put]⟩
          · obtain ⟨b, hb⟩ := inv.importedAll a' m' h
            exact put_some hb

theorem importType_inv {m n a : Name} {env' : Env} (inv : EnvInv facts world current order env) (hw : WorldInv facts world)
    (hcur : current ≠ preludeName) (hr : Reads (.upName a) a) (hm : m ≠ preludeName)
    (h : env.importType world m n a = some env') : EnvInv facts world current order env' := by
  unfold Env.importType at h
  simp only [Option.bind_eq_bind, Option.bind_eq_some_iff] at h
  obtain ⟨i, h1, c, h2, h3⟩ := h
  obtain ⟨h4, rfl⟩ := insert_spec h3
  unfold Interface.importableType at h2
  rw [Option.filter_eq_some_iff] at h2
  obtain ⟨h5, h6⟩ := hw.types m i n c h1 h2.1
  exact add_inv inv hcur h4 ⟨h5.nodup, h5.wellFormed, hr⟩ (by rw [h6]; exact hm)

theorem customType_inv {n : Name} {ps : List Name} {p : Publicity} {env' : Env} (inv : EnvInv facts world current order env)
    (hcur : current ≠ preludeName) (hr : Reads (.upName n) n) (ha : ps.length = facts.arity current n)
    (h : env.customType n ps p = some env') : EnvInv facts world current order env' := by
  unfold Env.customType at h
  split at h
  · simp only [Option.bind_eq_bind, Option.bind_eq_some_iff] at h
    obtain ⟨⟨vars, env1⟩, h1, env2, h2, h3⟩ := h
    obtain ⟨g1, g2, vs, g3⟩ := makeTypeVars_spec h1
    obtain ⟨h4, rfl⟩ := insert_spec h2
    have inv1 : EnvInv facts world current order env1 := by rw [g3]; exact inv_variables inv
    have here : env1.current = current := inv1.here
    have hargs : (vars.map fun v => Ty.var v.2) = (vars.map (·.2)).map .var := by rw [List.map_map]; rfl
    have ok : ConOk facts n ⟨env1.current, vars.map (·.2), .named env1.current n (vars.map fun v => .var v.2), p⟩ := by
      refine ⟨?_, ?_, hr⟩
      · rw [g2]; exact List.nodup_range'
      · unfold Ty.WellFormed
        rw [Ty.All, here, ← ha]
        refine ⟨?_, by rw [hargs]; exact allIn_vars _⟩
        rw [hargs, g2]
        simp
    have h5 := add_inv inv1 hcur h4 ok (by rw [here]; exact hcur)
    cases h3
    have h6 : env1.names.namedTypeInScope env1.current n n =
        env1.names.typeInScope n (.named env1.current n (vars.map fun v => .var v.2)) (vars.map (·.2)) := by
      unfold Names.typeInScope
      simp only
      rw [if_pos ((compareArguments_iff _ _).2 (by rw [hargs]; exact stripAll_vars _))]
    rw [h6]
    exact h5
  · cases h

theorem typeConstructor_wf (inv : EnvInv facts world current order env) (hw : WorldInv facts world) {m : Option Name} {n : Name}
    {c : TypeConstructor} (h : env.typeConstructor world m n = some c) : c.type.WellFormed facts := by
  unfold Env.typeConstructor at h
  split at h
  · exact (inv.cons _ _ h).wellFormed
  · simp only [Option.bind_eq_bind, Option.bind_eq_some_iff] at h
    obtain ⟨m', _, i, h2, h3⟩ := h
    unfold Interface.importableType at h3
    rw [Option.filter_eq_some_iff] at h3
    exact (hw.types _ _ _ _ h2 h3.1).1.wellFormed

theorem register_inv {n : Name} {c : TypeConstructor} {p : Name} (inv : EnvInv facts world current order env)
    (hcur : current ≠ preludeName) (hc : env.moduleTypes n = some c) (hm : c.module = current) :
    EnvInv facts world current order { env with
      names := env.names.maybeRegisterReexport facts p n c, moduleTypeAliases := put env.moduleTypeAliases n c } := by
  have hal : ∀ k d, put env.moduleTypeAliases n c k = some d → env.moduleTypes k = some d ∧ d.module = current := by
    intro k d hd
    simp only [put] at hd
    split at hd
    · rename_i hk
      cases hd
      rw [hk]
      exact ⟨hc, hm⟩
    · exact inv.aliases k d hd
  rcases maybeRegister_eq (facts := facts) env.names p n c with ⟨m0, t0, h1, h2, h3, h4⟩ | ⟨h1, h2⟩
  · rw [h4]
    refine ⟨inv.here, inv.cons, inv.localOk, inv.localAll, inv.imported, inv.importedAll, ?_, ?_, hal⟩
    · intro m t m' a hr
      simp only [put] at hr
      split at hr
      · rename_i he
        cases he
        cases hr
        exact .inr ⟨c, hc, h1, by rw [hm]; exact hcur⟩
      · exact inv.reexport m t m' a hr
    · intro m' a m t hr ho
      obtain ⟨x, hx⟩ := inv.reexportAll m' a m t hr ho
      exact put_some hx
  · rw [h2]
    exact ⟨inv.here, inv.cons, inv.localOk, inv.localAll, inv.imported, inv.importedAll, inv.reexport, inv.reexportAll, hal⟩

theorem typeAlias_inv {n : Name} {ps : List Name} {ast : TypeAst} {p : Publicity} {env' : Env}
    (inv : EnvInv facts world current order env) (hw : WorldInv facts world) (hcur : current ≠ preludeName)
    (hr : Reads (.upName n) n) (h : env.typeAlias facts world n ps ast p = some env') :
    EnvInv facts world current order env' := by
  unfold Env.typeAlias at h
  split at h
  · simp only [Option.bind_eq_bind, Option.bind_eq_some_iff] at h
    obtain ⟨⟨vars, env1⟩, h1, ⟨t, hy⟩, h2, env2, h3, h4⟩ := h
    obtain ⟨g1, g2, vs, g3⟩ := makeTypeVars_spec h1
    have inv1 : EnvInv facts world current order env1 := by rw [g3]; exact inv_variables inv
    have here : env1.current = current := inv1.here
    obtain ⟨h5, rfl⟩ := insert_spec h3
    have ok : ConOk facts n ⟨env1.current, vars.map (·.2), t, p⟩ :=
      ⟨by simp only; rw [g2]; exact List.nodup_range',
        typeFromAst_all (fun m n c hc => typeConstructor_wf inv1 hw hc) _ _ _ _ h2, hr⟩
    have hm : (⟨env1.current, vars.map (·.2), t, p⟩ : TypeConstructor).module ≠ preludeName := by
      simp only
      rw [here]
      exact hcur
    have h6 := add_inv inv1 hcur (n := n) h5 ok hm
    have h7 := inv_variables (vs := (env1.add n ⟨env1.current, vars.map (·.2), t, p⟩).names.typeVariables) (next := hy.next) h6
    cases h4
    exact register_inv h7 hcur (by simp [Env.add, put]) here
  · cases h

theorem declare_inv {d : Decl} {env' : Env} (inv : EnvInv facts world current order env) (hw : WorldInv facts world)
    (hcur : current ≠ preludeName) (hd : DeclOk facts current d) (h : env.declare facts world d = some env') :
    EnvInv facts world current order env' := by
  cases d with
  | importModule m used => exact importModule_inv inv hd h
  | importType m n a => exact importType_inv inv hw hcur hd.1 hd.2 h
  | customType n ps p => exact customType_inv inv hcur hd.1 hd.2 h
  | typeAlias n ps ast p => exact typeAlias_inv inv hw hcur hd h

theorem decls_inv (hw : WorldInv facts world) (hcur : current ≠ preludeName) : (ds : List Decl) → ∀ env env' : Env,
    EnvInv facts world current order env → (∀ d ∈ ds, DeclOk facts current d) →
    ds.foldlM (Env.declare facts world) env = some env' → EnvInv facts world current order env'
  | [], env, env', inv, _, h => by cases h; exact inv
  | d :: ds, env, env', inv, hd, h => by
    rw [List.foldlM_cons, Option.bind_eq_bind, Option.bind_eq_some_iff] at h
    obtain ⟨e, h1, h2⟩ := h
    exact decls_inv hw hcur ds e env' (declare_inv inv hw hcur (hd d (by simp)) h1) (fun x hx => hd x (by simp [hx])) h2

theorem analyse_inv {next : Nat} {decls : List Decl} (hw : WorldInv facts world) (hc : world current = none)
    (hd : ∀ d ∈ decls, DeclOk facts current d) (h : analyse facts world current order next decls = some env) :
    EnvInv facts world current order env := by
  refine decls_inv hw ?_ decls _ env (new_inv hw next) hd h
  rintro rfl
  rw [hw.prelude] at hc
  cases hc

end

theorem analysed_inv {facts : Facts} {world : World} (h : Analysed facts world) : WorldInv facts world := by
  induction h with
  | prelude h =>
    refine ⟨?_, ?_, if_pos rfl, h⟩
    · intro m i n c hi hc
      split at hi
      · rename_i hm
        cases hi
        refine ⟨prelude_conOk h hc, ?_⟩
        obtain ⟨k, _, rfl⟩ := prelude_types hc
        exact hm.symm
      · cases hi
    · intro m i n c hi hc
      split at hi
      · cases hi; cases hc
      · cases hi
  | @module world current order next decls env isInternal _ hc hd ha ih =>
    have inv := analyse_inv ih hc hd ha
    have hcur : current ≠ preludeName := by
      rintro rfl
      rw [ih.prelude] at hc
      cases hc
    refine ⟨?_, ?_, ?_, ih.arity⟩
    · intro m i n c hi hcon
      simp only [put] at hi
      split at hi
      · rename_i hm
        cases hi
        simp only [Env.interface, Option.filter_eq_some_iff, decide_eq_true_eq] at hcon
        exact ⟨inv.cons n c hcon.1, by rw [hcon.2, inv.here, hm]⟩
      · exact ih.types m i n c hi hcon
    · intro m i n c hi hcon
      simp only [put] at hi
      split at hi
      · cases hi
        obtain ⟨h1, h2⟩ := inv.aliases n c hcon
        simp only [Env.interface, Option.filter_eq_some_iff, decide_eq_true_eq]
        exact ⟨h1, by rw [h2, inv.here]⟩
      · exact ih.aliases m i n c hi hcon
    · simp only [put]
      rw [if_neg (fun h => hcur h.symm)]
      exact ih.prelude

end Verif.TypeText
