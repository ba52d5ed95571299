import Verif.JsCase.Beq
import Verif.JsCase.Inv

/-! # The code of a decision tree does what the tree says -/

set_option linter.unusedSectionVars false

namespace Verif.JsCase

open Verif.Case

variable {B : BitSys}

/-! ### Choices -/

section
variable {guards : Guards B}

theorem choices_eval_none {cs : Choices B} {env : Env B} {x : Val B.Bits}
    (h : ∀ c ∈ checksOf cs, c.holds x = false) : cs.eval guards env x = none := by
  match cs with
  | .nil => rw [Choices.eval]
  | .cons c d cs =>
    rw [Choices.eval, h c (by simp [checksOf])]
    simp only [Bool.false_eq_true, if_false]
    exact choices_eval_none fun k hk => h k (by simp [checksOf, hk])

theorem choices_none {cs : Choices B} {env : Env B} {x : Val B.Bits}
    (h : cs.eval guards env x = none) : ∀ c ∈ checksOf cs, c.holds x = false := by
  match cs with
  | .nil => simp [checksOf]
  | .cons c d cs =>
    rw [Choices.eval] at h
    split at h
    · cases h
    · rename_i hc
      intro k hk
      rcases List.mem_cons.1 hk with rfl | hk
      · simpa using hc
      · exact choices_none h k hk

theorem choices_some {cs : Choices B} {env : Env B} {x : Val B.Bits} {r}
    (h : cs.eval guards env x = some r) : ∃ p ∈ choiceList cs, p.1.holds x = true ∧
      p.2.eval guards (env.set (p.1.binds x)) = r := by
  match cs with
  | .nil => rw [Choices.eval] at h; cases h
  | .cons c d cs =>
    rw [Choices.eval] at h
    split at h
    · rename_i hc
      exact ⟨(c, d), by simp [choiceList], hc, Option.some.inj h⟩
    · obtain ⟨p, hp, hh⟩ := choices_some h
      exact ⟨p, by simp [choiceList, hp], hh⟩

end

/-! ### Scopes -/

mutual
theorem scoped_inter : ∀ (d : Decision B) {l m n : List Var}, (∀ v, v ∈ l → v ∈ m → v ∈ n) →
    Scoped l d → Scoped m d → Scoped n d
  | .run b, l, m, n, h, h1, h2 => by
    simp only [Scoped] at *
    exact fun p hp v hv => h v (h1 p hp v hv) (h2 p hp v hv)
  | .guard g b d, l, m, n, h, h1, h2 => by
    simp only [Scoped] at h1 h2 ⊢
    exact ⟨fun p hp v hv => h v (h1.1 p hp v hv) (h2.1 p hp v hv),
      scoped_inter d h h1.2 h2.2⟩
  | .switch v cs d f, l, m, n, h, h1, h2 => by
    simp only [Scoped] at h1 h2 ⊢
    refine ⟨h v h1.1 h2.1, scopedChoices_inter cs h h1.2.1 h2.2.1,
      scoped_inter d ?_ h1.2.2 h2.2.2⟩
    intro w hw hw'
    rcases List.mem_append.1 hw with hw | hw
    · exact List.mem_append_left _ hw
    · rcases List.mem_append.1 hw' with hw' | hw'
      · exact List.mem_append_left _ hw'
      · exact List.mem_append_right _ (h w hw hw')
  | .fail, _, _, _, _, _, _ => by simp only [Scoped]
theorem scopedChoices_inter : ∀ (cs : Choices B) {l m n : List Var},
    (∀ v, v ∈ l → v ∈ m → v ∈ n) → ScopedChoices l cs → ScopedChoices m cs → ScopedChoices n cs
  | .nil, _, _, _, _, _, _ => by simp only [ScopedChoices]
  | .cons c d cs, l, m, n, h, h1, h2 => by
    simp only [ScopedChoices] at h1 h2 ⊢
    refine ⟨scoped_inter d ?_ h1.1 h2.1, scopedChoices_inter cs h h1.2 h2.2⟩
    intro w hw hw'
    rcases List.mem_append.1 hw with hw | hw
    · exact List.mem_append_left _ hw
    · rcases List.mem_append.1 hw' with hw' | hw'
      · exact List.mem_append_left _ hw'
      · exact List.mem_append_right _ (h w hw hw')
end

/-! ### Variables that matter -/

theorem fits_agree {c : Check B} {x : Val B.Bits} (hf : Fits x c) (env env' : Env B) {w : Var}
    (hw : w ∈ checkVars c) : env'.set (c.binds x) w = env.set (c.binds x) w := by
  have hz : ∀ (ws : List Var) (xs : List (Val B.Bits)), xs.length = ws.length → w ∈ ws →
      env'.set (ws.zip xs) w = env.set (ws.zip xs) w := by
    intro ws
    induction ws with
    | nil => simp
    | cons u ws ih =>
      intro xs hl hm
      cases xs with
      | nil => simp at hl
      | cons y xs =>
        simp only [Env.set, List.zip_cons_cons, List.lookup_cons] at ih ⊢
        by_cases hu : w = u
        · simp [hu]
        · have : (w == u) = false := beq_eq_false_iff_ne.2 hu
          simp only [this]
          exact ih xs (by simpa using hl) ((List.mem_cons.1 hm).resolve_left hu)
  cases c with
  | strPrefix p rest =>
    obtain ⟨t, rfl, -⟩ := hf
    simp only [checkVars, List.mem_singleton] at hw
    subst hw
    simp [Check.binds, Env.set]
  | tuple ws =>
    obtain ⟨xs, rfl, hl⟩ := hf
    exact hz ws xs hl hw
  | variant b k ws =>
    obtain ⟨j, xs, rfl, hl⟩ := hf
    exact hz ws xs hl hw
  | cons first rest =>
    obtain ⟨h, t, rfl⟩ := hf
    simp only [checkVars, List.mem_cons, List.not_mem_nil, or_false] at hw
    simp only [Check.binds, Env.set, List.lookup_cons]
    by_cases h1 : w = first
    · simp [h1]
    · have hr := hw.resolve_left h1
      subst hr
      have : (w == first) = false := beq_eq_false_iff_ne.2 h1
      simp [this]
  | _ => cases hw

theorem set_agree {c : Check B} {x : Val B.Bits} (hf : Fits x c) {env env' : Env B} {sc : List Var}
    (he : ∀ w ∈ sc, env' w = env w) {w : Var} (hw : w ∈ checkVars c ++ sc) :
    env'.set (c.binds x) w = env.set (c.binds x) w := by
  by_cases hc : w ∈ checkVars c
  · exact fits_agree hf env env' hc
  · rw [env_set_old' env' hc, env_set_old' env hc]
    exact he w ((List.mem_append.1 hw).resolve_left hc)

theorem body_agree {b : Body B} {env env' : Env B} {sc : List Var}
    (he : ∀ w ∈ sc, env' w = env w)
    (hs : ∀ p ∈ b.bindings, ∀ v, boundVar p.2 = some v → v ∈ sc) :
    b.lookup env' = b.lookup env := by
  have : b.values env' = b.values env := by
    refine List.map_congr_left fun p hp => ?_
    have h := hs p hp
    obtain ⟨x, q⟩ := p
    cases q with
    | const c => rfl
    | var v => simp [Bound.value, he v (h v rfl)]
    | bitSlice v r => simp [Bound.value, he v (h v rfl)]
    | strSlice v p => simp [Bound.value, he v (h v rfl)]
  funext x
  rw [Body.lookup, Body.lookup, this]

mutual
/-- The outcome of a decision only depends on the variables in scope. -/
theorem eval_agree {ctx : Ctx} {guards : Guards B} : ∀ (d : Decision B) {env env' : Env B}
    {sc : List Var} {inner : Bool}, (∀ w ∈ sc, env' w = env w) → Scoped sc d →
    Proper ctx guards inner env d → d.eval guards env' = d.eval guards env
  | .fail, _, _, _, _, _, _, _ => by rw [Decision.eval, Decision.eval]
  | .run b, env, env', sc, inner, he, hs, hp => by
    simp only [Scoped] at hs
    rw [Decision.eval, Decision.eval, body_agree he hs]
  | .guard g b d, env, env', sc, inner, he, hs, hp => by
    simp only [Scoped] at hs
    simp only [Proper] at hp
    rw [Decision.eval, Decision.eval, body_agree he hs.1, eval_agree d he hs.2 hp.2.2]
  | .switch v .nil d f, env, env', sc, inner, he, hs, hp => by
    simp only [Scoped] at hs
    simp only [Proper] at hp
    rw [Decision.eval, Decision.eval, Choices.eval, Choices.eval, he v hs.1]
    refine eval_agree d (fun w hw => ?_) hs.2.2 hp.2
    cases f with
    | check c => exact set_agree hp.1 he hw
    | infinite => exact he w hw
    | catchAll l => exact he w hw
  | .switch v (.cons c e cs) d f, env, env', sc, inner, he, hs, hp => by
    simp only [Scoped] at hs
    simp only [Proper] at hp
    obtain ⟨-, -, hpc, hpf⟩ := hp
    rw [Decision.eval, Decision.eval, he v hs.1, evalChoices_agree (.cons c e cs) he hs.2.1 hpc]
    cases hce : (Choices.cons c e cs).eval guards env (env v) with
    | some r => rfl
    | none =>
      obtain ⟨hff, -, hpd⟩ := hpf (choices_none hce)
      refine eval_agree d (fun w hw => ?_) hs.2.2 hpd
      cases f with
      | check c => exact set_agree hff he hw
      | infinite => exact he w hw
      | catchAll l => exact he w hw
theorem evalChoices_agree {ctx : Ctx} {guards : Guards B} : ∀ (cs : Choices B) {env env' : Env B}
    {x : Val B.Bits} {sc : List Var}, (∀ w ∈ sc, env' w = env w) → ScopedChoices sc cs →
    ProperChoices ctx guards env x cs → cs.eval guards env' x = cs.eval guards env x
  | .nil, _, _, _, _, _, _, _ => by rw [Choices.eval, Choices.eval]
  | .cons c d cs, env, env', x, sc, he, hs, hp => by
    simp only [ScopedChoices] at hs
    simp only [ProperChoices] at hp
    rw [Choices.eval, Choices.eval, evalChoices_agree cs he hs.2 hp.2]
    cases hc : c.holds x with
    | false => rfl
    | true =>
      obtain ⟨hf, hpd⟩ := hp.1 hc
      simp only [if_true]
      rw [eval_agree d (fun w hw => set_agree hf he hw) hs.1 hpd]
end

theorem scoped_mono {d : Decision B} {l m : List Var} (h : ∀ v ∈ l, v ∈ m) (hd : Scoped l d) :
    Scoped m d := scoped_inter d (fun v hv _ => h v hv) hd hd

/-! ### Bindings -/

theorem lookup_reverse {α β : Type} [DecidableEq α] {l : List (α × β)} (h : (l.map Prod.fst).Nodup)
    (x : α) : l.reverse.lookup x = l.lookup x := by
  induction l with
  | nil => rfl
  | cons p l ih =>
    obtain ⟨k, y⟩ := p
    simp only [List.map_cons, List.nodup_cons] at h
    rw [List.reverse_cons, List.lookup_append, ih h.2, List.lookup_cons]
    by_cases hk : x = k
    · subst hk
      have : l.lookup x = none := by
        rw [List.lookup_eq_none_iff]
        intro p hp
        have : x ≠ p.1 := fun e => h.1 (e ▸ List.mem_map_of_mem hp)
        simpa using this
      simp [this]
    · have : (x == k) = false := beq_eq_false_iff_ne.2 hk
      simp [this, List.lookup_cons]

theorem mem_lookup {α β : Type} [DecidableEq α] {l : List (α × β)} (h : (l.map Prod.fst).Nodup)
    {x : α} {y : β} : l.lookup x = some y ↔ (x, y) ∈ l := by
  induction l with
  | nil => simp
  | cons p l ih =>
    obtain ⟨k, z⟩ := p
    simp only [List.map_cons, List.nodup_cons] at h
    rw [List.lookup_cons]
    by_cases hk : x = k
    · subst hk
      simp only [beq_self_eq_true, Option.some.injEq, List.mem_cons, Prod.mk.injEq, true_and]
      exact ⟨fun e => Or.inl e.symm, fun e => e.elim Eq.symm
        fun hm => absurd (List.mem_map_of_mem hm) h.1⟩
    · have : (x == k) = false := beq_eq_false_iff_ne.2 hk
      simp only [this, ih h.2, List.mem_cons, Prod.mk.injEq, hk, false_and, false_or]

theorem lookup_perm {α β : Type} [DecidableEq α] {l m : List (α × β)} (hp : l.Perm m)
    (h : (l.map Prod.fst).Nodup) (x : α) : l.lookup x = m.lookup x := by
  have h' : (m.map Prod.fst).Nodup := (hp.map Prod.fst).nodup_iff.1 h
  apply Option.ext
  intro y
  rw [mem_lookup h, mem_lookup h', hp.mem_iff]

theorem lastOf_perm {l m : Bindings B} (hp : l.Perm m) (h : (m.map Prod.fst).Nodup) :
    lastOf l = fun x => m.lookup x := by
  funext x
  have h' : (l.map Prod.fst).Nodup := (hp.map Prod.fst).nodup_iff.2 h
  rw [lastOf, lookup_reverse h', lookup_perm hp h']

theorem body_lookup {env : Env B} {b : Body B} (h : (b.bindings.map Prod.fst).Nodup) :
    ((b.values env).map Prod.fst).Nodup := by
  have : (b.values env).map Prod.fst = b.bindings.map Prod.fst := by
    simp [Body.values, List.map_map, Function.comp_def]
  rw [this]; exact h

/-! ### Chains of choices -/

variable {guards : Guards B}

/-- Runs the choices: what the first one does whose conditions are true, `some none` if there is
none. -/
def runChain (guards : Guards B) (ρ : JEnv B) : List (List (Cond B) × Code B) →
    Option (Option (Outcome B))
  | [] => some none
  | (cs, yes) :: l =>
    match evalConds guards ρ (lastOf []) cs with
    | some true => some (some (yes.exec guards ρ []))
    | some false => runChain guards ρ l
    | none => none

theorem exec_ifChain (ρ : JEnv B) (no : Code B) : ∀ l : List (List (Cond B) × Code B),
    (ifChain l no).exec guards ρ [] =
      match runChain guards ρ l with
      | some (some o) => o
      | some none => no.exec guards ρ []
      | none => .stuck
  | [] => rfl
  | (cs, yes) :: l => by
    rw [ifChain, Code.exec, runChain]
    cases evalConds guards ρ (lastOf []) cs with
    | none => rfl
    | some r => cases r with
      | true => rfl
      | false => exact exec_ifChain ρ no l

/-! ### Decisions without code -/

section
variable [DecidableEq B.Bits] [DecidableEq B.Test] [DecidableEq B.Read] {ctx : Ctx}

theorem runCode_isEmpty (bs : List (Name × JExpr B)) (k : Nat) :
    (ctx.runCode bs k).isEmpty = true ↔ ctx.letAssert = true ∧ bs = [] := by
  unfold Ctx.runCode
  split
  · rename_i h
    cases bs <;> simp [Code.isEmpty, h]
  · rename_i h
    split <;> simp [Code.isEmpty, h]

theorem declare_isEmpty {l : List (JName × JExpr B)} {b : CaseBody B}
    (h : (declare l b).isEmpty = true) : b.isEmpty = true := by
  match l with
  | [] => exact h
  | p :: l => simp [declare, CaseBody.isEmpty, Code.isEmpty] at h

theorem assemble_isEmpty {l : List (List (Cond B) × Code B)} (hl : l ≠ []) (no : CaseBody B)
    (fb : Decision B) : (assemble l no fb).isEmpty = false := by
  match l with
  | [] => exact absurd rfl hl
  | [(cs, yes)] =>
    simp only [assemble]
    split <;> rfl
  | (cs, yes) :: q :: l => rfl

theorem genChoices_ne_nil (v : Var) (first : Option JName) (fb : Decision B) (s : S B)
    (c : Check B) (e : Decision B) (cs : Choices B) :
    (genChoices ctx v first fb s (.cons c e cs)).1 ≠ [] := by
  rw [genChoices]; simp

theorem gen_isEmpty : ∀ (d : Decision B) (s : S B),
    (gen ctx s d).1.isEmpty = true ↔ ctx.letAssert = true ∧ Quiet d
  | .fail, s => by
    rw [gen]
    cases ctx.letAssert <;> simp [CaseBody.isEmpty, Code.isEmpty, Quiet]
  | .run b, s => by
    rw [gen, Quiet]
    simp only [CaseBody.isEmpty, runCode_isEmpty, S.bindings, List.map_eq_nil_iff]
  | .guard g b d, s => by
    rw [gen]
    simp only [Quiet, and_false, iff_false]
    split
    · split <;> simp [CaseBody.isEmpty]
    · simp [CaseBody.isEmpty, Code.isEmpty]
  | .switch v .nil d f, s => by
    rw [gen, Quiet]
    exact gen_isEmpty d _
  | .switch v (.cons c e cs) d f, s => by
    rw [gen]
    simp only [Quiet, and_false, iff_false]
    intro h
    have := declare_isEmpty h
    rw [assemble_isEmpty (by apply genChoices_ne_nil)] at this
    cases this

theorem code_of_isEmpty {b : CaseBody B} (h : b.isEmpty = true) : b.code = .empty := by
  cases b with
  | ifOnly cs b => simp [CaseBody.isEmpty] at h
  | ifElse cs y n d => simp [CaseBody.isEmpty] at h
  | statements c => cases c <;> simp [CaseBody.isEmpty, Code.isEmpty, CaseBody.code] at h ⊢
  | chain c => cases c <;> simp [CaseBody.isEmpty, Code.isEmpty, CaseBody.code] at h ⊢

theorem else_code (b : CaseBody B) : (if b.isEmpty then .empty else b.code) = b.code := by
  split
  · rename_i h; rw [code_of_isEmpty h]
  · rfl

/-! ### What code has to do -/

/-- Another decision is left to be made, and has the same outcome. -/
def Miss (ctx : Ctx) (guards : Guards B) (env : Env B) (sc ids : List Var)
    (r : Option (Nat × (Name → Option (Val B.Bits)))) (fb : Decision B) : Prop :=
  ∃ env1 extra, (∀ v ∈ sc, env1 v = env v) ∧ (∀ v ∈ extra, v ∈ ids) ∧ Scoped (extra ++ sc) fb ∧
    Proper ctx guards false env1 fb ∧ fb.eval guards env1 = r

theorem Miss.mono {env env' : Env B} {sc ex ids ids' : List Var} {r} {fb : Decision B}
    (h : Miss ctx guards env' (ex ++ sc) ids' r fb) (he : ∀ v ∈ sc, env' v = env v)
    (hx : ∀ v ∈ ex, v ∈ ids) (hi : ∀ v ∈ ids', v ∈ ids) : Miss ctx guards env sc ids r fb := by
  obtain ⟨env1, extra, h1, h2, h3, h4, h5⟩ := h
  refine ⟨env1, extra ++ ex, fun v hv => ?_, fun v hv => ?_, ?_, h4, h5⟩
  · rw [h1 v (List.mem_append_right _ hv), he v hv]
  · rcases List.mem_append.1 hv with hv | hv
    · exact hi v (h2 v hv)
    · exact hx v hv
  · rw [List.append_assoc]; exact h3

/-- The code does what a decision with the outcome `r` has to do. -/
def Works (ctx : Ctx) (guards : Guards B) (vs : List (Val B.Bits)) (inner : Bool) (env : Env B)
    (ρ : JEnv B) (sc ids : List Var) (r : Option (Nat × (Name → Option (Val B.Bits)))) :
    CaseBody B → Prop
  | .statements c => c.exec guards ρ [] = expected ctx vs r
  | .chain c => c.exec guards ρ [] = expected ctx vs r
  | .ifOnly cs body =>
    (evalConds guards ρ (lastOf []) cs = some true ∧ body.exec guards ρ [] = expected ctx vs r) ∨
    (evalConds guards ρ (lastOf []) cs = some false ∧ inner = false ∧
      expected ctx vs r = .assigned (lastOf []))
  | .ifElse cs yes no fb =>
    ¬ (ctx.letAssert = true ∧ Quiet fb) ∧
    ((evalConds guards ρ (lastOf []) cs = some true ∧ yes.exec guards ρ [] = expected ctx vs r) ∨
    (evalConds guards ρ (lastOf []) cs = some false ∧ no.exec guards ρ [] = expected ctx vs r ∧
      Miss ctx guards env sc ids r fb))

section
variable {vs : List (Val B.Bits)} {inner : Bool} {env : Env B} {ρ : JEnv B} {sc ids : List Var}
  {r : Option (Nat × (Name → Option (Val B.Bits)))} {b : CaseBody B}

theorem Works.exec (h : Works ctx guards vs inner env ρ sc ids r b) :
    b.code.exec guards ρ [] = expected ctx vs r := by
  cases b with
  | statements c => exact h
  | chain c => exact h
  | ifOnly cs body =>
    rw [CaseBody.code, Code.exec]
    rcases h with h | h
    · rw [h.1]; exact h.2
    · rw [h.1]; exact h.2.2.symm
  | ifElse cs yes no fb =>
    rw [CaseBody.code]
    split
    · rename_i hy
      have hy : yes = .empty := by cases yes <;> simp_all [Code.isEmpty]
      subst hy
      rw [Code.exec]
      rcases h.2 with h | h
      · rw [h.1]; exact h.2
      · rw [h.1]; exact h.2.1
    · rw [Code.exec]
      rcases h.2 with h | h
      · rw [h.1]; exact h.2
      · rw [h.1]; exact h.2.1

theorem Works.mono {env' : Env B} {ex ids' : List Var}
    (h : Works ctx guards vs inner env' ρ (ex ++ sc) ids' r b) (he : ∀ v ∈ sc, env' v = env v)
    (hx : ∀ v ∈ ex, v ∈ ids) (hi : ∀ v ∈ ids', v ∈ ids) :
    Works ctx guards vs inner env ρ sc ids r b := by
  cases b with
  | statements c => exact h
  | chain c => exact h
  | ifOnly cs body => exact h
  | ifElse cs yes no fb =>
    refine ⟨h.1, ?_⟩
    rcases h.2 with h | h
    · exact Or.inl h
    · exact Or.inr ⟨h.1, h.2.1, h.2.2.mono he hx hi⟩

/-- The choices put together with the fallback. -/
theorem assemble_works {s2 : S B} {fb : Decision B} {l : List (List (Cond B) × Code B)}
    (hl : l ≠ [])
    (h : runChain guards ρ l = some (some (expected ctx vs r)) ∨
      (runChain guards ρ l = some none ∧
        (gen ctx s2 fb).1.code.exec guards ρ [] = expected ctx vs r ∧
        Miss ctx guards env sc ids r fb ∧
        (ctx.letAssert = true → inner = true → ¬ Quiet fb))) :
    Works ctx guards vs inner env ρ sc ids r (assemble l (gen ctx s2 fb).1 fb) := by
  have hchain : (ifChain l (if (gen ctx s2 fb).1.isEmpty then .empty
      else (gen ctx s2 fb).1.code)).exec guards ρ [] = expected ctx vs r := by
    rw [else_code, exec_ifChain]
    rcases h with h | h
    · rw [h]
    · rw [h.1]; exact h.2.1
  match l with
  | [] => exact absurd rfl hl
  | p :: q :: l => exact hchain
  | [(cs, yes)] =>
    have h1 : (evalConds guards ρ (lastOf []) cs = some true ∧
          yes.exec guards ρ [] = expected ctx vs r) ∨
        (evalConds guards ρ (lastOf []) cs = some false ∧
          (gen ctx s2 fb).1.code.exec guards ρ [] = expected ctx vs r ∧
          Miss ctx guards env sc ids r fb ∧ (ctx.letAssert = true → inner = true → ¬ Quiet fb)) := by
      simp only [runChain] at h
      cases hc : evalConds guards ρ (lastOf []) cs with
      | none => rw [hc] at h; simp at h
      | some t =>
        rw [hc] at h
        cases t with
        | true => simp only [Option.some.injEq, reduceCtorEq, false_and, or_false] at h
                  exact Or.inl ⟨rfl, h⟩
        | false => simp only [Option.some.injEq, reduceCtorEq, false_or, true_and] at h
                   exact Or.inr ⟨rfl, h⟩
    rw [assemble]
    cases he : (gen ctx s2 fb).1.isEmpty with
    | true =>
      rw [if_pos rfl]
      have hq := (gen_isEmpty fb s2).1 he
      rcases h1 with h1 | h1
      · exact Or.inl h1
      · refine Or.inr ⟨h1.1, ?_, ?_⟩
        · cases hi : inner with
          | false => rfl
          | true => exact absurd hq.2 (h1.2.2.2 hq.1 hi)
        · rw [← h1.2.1, code_of_isEmpty he]; rfl
    | false =>
      rw [if_neg (by simp)]
      have hq : ¬ (ctx.letAssert = true ∧ Quiet fb) := fun hq => by
        rw [(gen_isEmpty fb s2).2 hq] at he; cases he
      refine ⟨hq, ?_⟩
      rcases h1 with h1 | h1
      · exact Or.inl h1
      · exact Or.inr ⟨h1.1, h1.2.1, h1.2.2.1⟩

end

end

end Verif.JsCase
