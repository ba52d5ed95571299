import Verif.Case.Check
import Verif.JsCase.State

/-! # The values of the variables while code is generated -/

namespace Verif.JsCase

open Verif.Case

variable {B : BitSys}

theorem checkVars_eq (c : Check B) : checkVars c = c.vars := by cases c <;> rfl

theorem boundVar_eq (b : Bound B) : boundVar b = b.var? := by cases b <;> rfl

/-- The expressions for the variables in scope have the right values. -/
structure St (s : S B) (env : Env B) (ρ : JEnv B) (sc : List Var) (vs : List (Val B.Bits)) :
    Prop where
  val : ∀ v ∈ sc, (s.getValue v).eval ρ = some (env v)
  fresh : ∀ n, s.next ≤ n → ρ.lookup (.made n) = none
  names : ∀ id, s.names.lookup id ≠ none → id ∈ sc.map Var.id
  subj : ∀ i, ρ.lookup (.subject i) = vs[i]?

theorem getValue_keeps {s s' : S B} {ids} (h : Keeps s s' ids) (hn : s'.names = s.names) {v : Var}
    (hv : v.id ∉ ids) : s'.getValue v = s.getValue v := by
  simp only [S.getValue, hn, h.values v.id hv]

/-- What is left unchanged. -/
theorem St.keep {s s' : S B} {env env' : Env B} {ρ : JEnv B} {sc : List Var}
    {vs : List (Val B.Bits)} {ids : List Nat} (h : St s env ρ sc vs) (hk : Keeps s s' ids)
    (hn : s'.names = s.names) (hd : ∀ v ∈ sc, v.id ∉ ids) (he : ∀ v ∈ sc, env' v = env v) :
    St s' env' ρ sc vs where
  val := fun v hv => by rw [getValue_keeps hk hn (hd v hv), he v hv]; exact h.val v hv
  fresh := fun n hn => h.fresh n (Nat.le_trans hk.next hn)
  names := fun id hi => h.names id (hn ▸ hi)
  subj := h.subj

theorem mem_id_nodup {l : List Var} (h : (l.map Var.id).Nodup) {v w : Var} (hv : v ∈ l) (hw : w ∈ l)
    (e : v.id = w.id) : v = w := by
  induction l with
  | nil => cases hv
  | cons a l ih =>
    simp only [List.map_cons, List.nodup_cons] at h
    rcases List.mem_cons.1 hv with hv | hv <;> rcases List.mem_cons.1 hw with hw | hw
    · rw [hv, hw]
    · exact absurd (hv ▸ e ▸ List.mem_map_of_mem hw) h.1
    · exact absurd (hw ▸ e ▸ List.mem_map_of_mem hv) h.1
    · exact ih h.2 hv hw

theorem nodup_of_ids {l : List Var} (h : (l.map Var.id).Nodup) : l.Nodup := List.Nodup.of_map _ h

theorem setFields_lookup (e : JExpr B) : ∀ (ws : List Var) (s : S B) (i j : Nat) (w : Var),
    (ws.map Var.id).Nodup → ws[j]? = some w →
    (s.setFields e i ws).values.lookup w.id = some (.index e (i + j))
  | [], _, _, _, _, _, h => by simp at h
  | w0 :: ws, s, i, 0, w, hn, h => by
    simp only [List.getElem?_cons_zero, Option.some.injEq] at h
    subst h
    simp only [List.map_cons, List.nodup_cons] at hn
    rw [S.setFields, setFields_values e ws _ _ _ hn.1]
    simp [S.setValue]
  | w0 :: ws, s, i, j + 1, w, hn, h => by
    simp only [List.map_cons, List.nodup_cons] at hn
    simp only [List.getElem?_cons_succ] at h
    rw [S.setFields, setFields_lookup e ws _ (i + 1) j w hn.2 h]
    congr 2; omega

theorem eval_index_tuple {ρ : JEnv B} {e : JExpr B} {xs} (h : e.eval ρ = some (.tuple xs)) (i) :
    (JExpr.index e i).eval ρ = xs[i]? := by
  simp [JExpr.eval, h]

theorem eval_index_variant {ρ : JEnv B} {e : JExpr B} {j xs} (h : e.eval ρ = some (.variant j xs))
    (i) : (JExpr.index e i).eval ρ = xs[i]? := by
  simp [JExpr.eval, h]

/-- The variables of a check get the parts of the value. -/
theorem record_new {s : S B} {env : Env B} {ρ : JEnv B} {v : Var} {c : Check B} {x : Val B.Bits}
    (hx : (s.getValue v).eval ρ = some x) (hf : Fits x c) (hn : ((checkVars c).map Var.id).Nodup)
    {w : Var} (hw : w ∈ checkVars c) :
    ∃ e, (s.record v c).values.lookup w.id = some e ∧
      e.eval ρ = some (env.set (c.binds x) w) := by
  cases c with
  | strPrefix p rest =>
    obtain ⟨t, rfl, hp⟩ := hf
    simp only [checkVars, List.mem_singleton] at hw
    subst hw
    refine ⟨_, by simp [S.record, S.setValue]; rfl, ?_⟩
    simp [JExpr.eval, hx, sliceUnits_prefix hp, Env.set, Check.binds]
  | tuple ws =>
    obtain ⟨xs, rfl, hl⟩ := hf
    obtain ⟨i, hi⟩ := List.getElem?_of_mem hw
    simp only [checkVars] at hi hn
    obtain ⟨y, hy⟩ : ∃ y, xs[i]? = some y := by
      have : i < ws.length := (List.getElem?_eq_some_iff.1 hi).1
      exact ⟨_, List.getElem?_eq_getElem (by omega)⟩
    refine ⟨_, setFields_lookup _ ws s 0 i w hn hi, ?_⟩
    rw [eval_index_tuple hx, Nat.zero_add, hy]
    simp [Env.set, Check.binds, lookup_zip (nodup_of_ids hn) hi hy]
  | variant b k ws =>
    obtain ⟨j, xs, rfl, hl⟩ := hf
    obtain ⟨i, hi⟩ := List.getElem?_of_mem hw
    simp only [checkVars] at hi hn
    obtain ⟨y, hy⟩ : ∃ y, xs[i]? = some y := by
      have : i < ws.length := (List.getElem?_eq_some_iff.1 hi).1
      exact ⟨_, List.getElem?_eq_getElem (by omega)⟩
    refine ⟨_, setFields_lookup _ ws s 0 i w hn hi, ?_⟩
    rw [eval_index_variant hx, Nat.zero_add, hy]
    simp [Env.set, Check.binds, lookup_zip (nodup_of_ids hn) hi hy]
  | cons first rest =>
    obtain ⟨h, t, rfl⟩ := hf
    simp only [checkVars, List.map_cons, List.map_nil, List.nodup_cons, List.mem_singleton] at hn
    simp only [checkVars, List.mem_cons, List.not_mem_nil, or_false] at hw
    have hne : (first == rest) = false := beq_eq_false_iff_ne.2 fun e => hn.1 (e ▸ rfl)
    have hne' : (rest == first) = false := beq_eq_false_iff_ne.2 fun e => hn.1 (e ▸ rfl)
    rcases hw with rfl | rfl
    · refine ⟨_, by rw [S.record, setValue_lookup _ _ _ _ hn.1]; simp [S.setValue]; rfl, ?_⟩
      simp [JExpr.eval, hx, Env.set, Check.binds]
    · refine ⟨_, by rw [S.record]; simp [S.setValue]; rfl, ?_⟩
      simp [JExpr.eval, hx, Env.set, Check.binds, List.lookup_cons, hne']
  | _ => cases hw

theorem env_set_old' {c : Check B} {x : Val B.Bits} (env : Env B) {v : Var}
    (hv : v ∉ checkVars c) : env.set (c.binds x) v = env v := by
  apply Env.set_of_not_mem
  rintro p hp rfl
  exact hv (checkVars_eq c ▸ binds_vars c x p hp)

theorem not_mem_of_ids {l m : List Var} (h : ((l ++ m).map Var.id).Nodup) {v : Var} (hv : v ∈ m) :
    v.id ∉ l.map Var.id := by
  rw [List.map_append, List.nodup_append] at h
  exact fun hl => h.2.2 v.id hl v.id (List.mem_map_of_mem hv) rfl

theorem not_mem_of_ids' {l m : List Var} (h : ((l ++ m).map Var.id).Nodup) {v : Var} (hv : v ∈ m) :
    v ∉ l := fun hl => not_mem_of_ids h hv (List.mem_map_of_mem hl)

/-- After a check. -/
theorem St.record {s : S B} {env : Env B} {ρ : JEnv B} {sc : List Var} {vs : List (Val B.Bits)}
    (h : St s env ρ sc vs) {v : Var} (hv : v ∈ sc) {c : Check B} (hf : Fits (env v) c)
    (hn : ((checkVars c ++ sc).map Var.id).Nodup) :
    St (s.record v c) (env.set (c.binds (env v))) ρ (checkVars c ++ sc) vs where
  val := fun w hw => by
    by_cases hc : w ∈ checkVars c
    · obtain ⟨e, he, he'⟩ := record_new (env := env) (h.val v hv) hf
        (by rw [List.map_append] at hn; exact (List.nodup_append.1 hn).1) hc
      have hnone : s.names.lookup w.id = none := by
        cases hl : s.names.lookup w.id with
        | none => rfl
        | some n =>
          obtain ⟨u, hu, hui⟩ := List.mem_map.1 (h.names w.id (by simp [hl]))
          exact absurd (hui ▸ List.mem_map_of_mem hc) (not_mem_of_ids hn hu)
      simp [S.getValue, record_names, hnone, he, he']
    · have hw' : w ∈ sc := (List.mem_append.1 hw).resolve_left hc
      rw [getValue_keeps (record_keeps s v c) (record_names s v c) (not_mem_of_ids hn hw'),
        env_set_old' env hc]
      exact h.val w hw'
  fresh := fun n hn => h.fresh n (record_next s v c ▸ hn)
  names := fun id hi => by
    rw [record_names] at hi
    rw [List.map_append]
    exact List.mem_append_right _ (h.names id hi)
  subj := h.subj

theorem St.recordFallback {s : S B} {env : Env B} {ρ : JEnv B} {sc : List Var}
    {vs : List (Val B.Bits)} (h : St s env ρ sc vs) {v : Var} (hv : v ∈ sc) {f : Fallback B}
    (hf : FallbackFits (env v) f) (hn : ((fallbackVars f ++ sc).map Var.id).Nodup) :
    St (s.recordFallback v f) (env.set (f.binds (env v))) ρ (fallbackVars f ++ sc) vs := by
  cases f with
  | check c => exact h.record hv hf hn
  | infinite => exact h
  | catchAll l => exact h

/-! ### Conditions -/

section
variable {ctx : Ctx} {guards : Guards B} {ρ : JEnv B} {vars : Name → Option (Val B.Bits)}

theorem check_eval (hb : BoolsNamed ctx) {s : S B} {v : Var} {x : Val B.Bits}
    (hx : (s.getValue v).eval ρ = some x) {c : Check B} (hs : Speaks ctx v.ty x c) :
    (s.check ctx v c).eval guards ρ vars = some (c.holds x) := by
  cases c with
  | int i =>
    simp only [S.check, Cond.eval, hx, Option.map_some]
    cases x <;> simp [Check.holds, eq_comm]
  | float i =>
    simp only [S.check, Cond.eval, hx, Option.map_some]
    cases x <;> simp [Check.holds, eq_comm]
  | str p =>
    simp only [S.check, Cond.eval, hx, Option.map_some]
    cases x <;> simp only [Check.holds]
    rename_i t
    simp only [Option.some.injEq, decide_eq_decide]
    exact ⟨fun h => (stringUnits_inj h).symm, fun h => h ▸ rfl⟩
  | strPrefix p rest =>
    obtain ⟨t, rfl⟩ := hs
    simp [S.check, Cond.eval, hx, Check.holds, stringUnits_prefix]
  | bits t =>
    obtain ⟨b, rfl⟩ := hs
    simp [S.check, Cond.eval, hx, Check.holds]
  | tuple ws => exact absurd hs id
  | variant e i ws =>
    simp only [S.check]
    by_cases hbool : ctx.isBool v.ty = true
    · rw [if_pos hbool]
      obtain ⟨hi, hx'⟩ := hs hbool
      by_cases hnt : ctx.namedTrue v i = true
      · rw [if_pos hnt]
        have := (hb v i hbool).1 hnt
        subst this
        rcases hx' with rfl | rfl <;> simp [Cond.eval, hx, Check.holds]
      · rw [if_neg hnt]
        have : i = 1 := hi.resolve_left fun h0 => hnt ((hb v i hbool).2 h0)
        subst this
        rcases hx' with rfl | rfl <;> simp [Cond.eval, hx, Check.holds]
    · rw [if_neg hbool]
      simp only [Cond.eval, hx, Option.map_some]
      cases x <;> simp [Check.holds, eq_comm]
  | nil =>
    simp only [S.check, Cond.eval, hx, Option.map_some]
    cases x <;> simp [Check.holds]
  | cons a b =>
    simp only [S.check, Cond.eval, hx, Option.map_some]
    cases x <;> simp [Check.holds]

/-- The code of the first character of a string. -/
def firstCode (B : BitSys) (s : List Char) : Val B.Bits :=
  match (stringUnits s).head? with
  | some n => .int n
  | none => .opaque 0

theorem charCode_some {c : Check B} {n : Nat} (h : charCode c = some n) :
    ∃ p rest ch, c = .strPrefix p rest ∧ p.decode = [ch] ∧ codeUnits ch = [ch.toNat] ∧
      n = ch.toNat := by
  cases c with
  | strPrefix p rest =>
    simp only [charCode] at h
    split at h
    · rename_i h1
      obtain ⟨ch, hch, hu⟩ := utf16Len_one h1
      rw [hch] at h
      exact ⟨p, rest, ch, rfl, hch, hu, by simpa using h.symm⟩
    · cases h
  | _ => simp [charCode] at h

theorem cond_eval (hb : BoolsNamed ctx) {s : S B} {v : Var} {x : Val B.Bits}
    (hx : (s.getValue v).eval ρ = some x) {c : Check B} (hs : Speaks ctx v.ty x c)
    {first : Option JName}
    (hf : ∀ f, first = some f → ∃ t, x = .str t ∧ ρ.lookup f = some (firstCode B t)) :
    (s.cond ctx v first c).eval guards ρ vars = some (c.holds x) := by
  unfold S.cond
  cases hc : charCode c with
  | none => exact check_eval hb hx hs
  | some n =>
    obtain ⟨p, rest, ch, rfl, hp, hu, rfl⟩ := charCode_some hc
    obtain ⟨t, rfl⟩ := hs
    have key : ∀ e : JExpr B, e.eval ρ = some (firstCode B t) →
        (Cond.code e ch.toNat).eval guards ρ vars =
          some ((Check.strPrefix (B := B) p rest).holds (.str t)) := by
      intro e he
      simp only [Cond.eval, he, Option.map_some, Check.holds, hp]
      have := head_unit hu t
      unfold firstCode
      cases hh : (stringUnits t).head? with
      | none => rw [hh] at this; simpa using this
      | some m =>
        rw [hh] at this
        simp only [Option.some.injEq] at this
        simp only [Option.some.injEq, decide_eq_decide, Int.ofNat_inj]
        exact this
    cases first with
    | none =>
      refine key _ ?_
      simp only [JExpr.eval, hx, firstCode]
      rfl
    | some f =>
      obtain ⟨t', ht, hl⟩ := hf f rfl
      cases ht
      exact key _ hl

end

/-! ### Bodies -/

theorem bound_eval {s : S B} {env : Env B} {ρ : JEnv B} {sc : List Var} {vs : List (Val B.Bits)}
    (h : St s env ρ sc vs) {b : Bound B} (hv : ∀ v, boundVar b = some v → v ∈ sc)
    (hf : BoundFits env b) : (s.bound b).eval ρ = some (b.value env) := by
  cases b with
  | var v => exact h.val v (hv v rfl)
  | const c => rfl
  | bitSlice v r =>
    obtain ⟨b, hb⟩ := hf
    simp [S.bound, JExpr.eval, h.val v (hv v rfl), hb, Bound.value, readBits]
  | strSlice v p =>
    obtain ⟨t, ht, hp⟩ := hf
    simp [S.bound, JExpr.eval, h.val v (hv v rfl), ht, Bound.value, dropPrefix,
      sliceUnits_prefix hp]

theorem bindings_eval {s : S B} {env : Env B} {ρ : JEnv B} {sc : List Var} {vs : List (Val B.Bits)}
    (h : St s env ρ sc vs) : ∀ {bs : List (Name × Bound B)},
    (∀ p ∈ bs, ∀ v, boundVar p.2 = some v → v ∈ sc) → (∀ p ∈ bs, BoundFits env p.2) →
    evalBindings ρ (s.bindings bs) = some (bs.map fun p => (p.1, p.2.value env))
  | [], _, _ => rfl
  | p :: bs, hv, hf => by
    have h1 := bound_eval h (hv p List.mem_cons_self) (hf p List.mem_cons_self)
    have h2 := bindings_eval h (bs := bs) (fun q hq => hv q (List.mem_cons_of_mem _ hq))
      (fun q hq => hf q (List.mem_cons_of_mem _ hq))
    simp only [S.bindings] at h2 ⊢
    simp [evalBindings, h1, h2]

end Verif.JsCase
