import Verif.JsCase.Agree

/-! # The code of a decision tree does what the tree says: the induction -/

set_option linter.unusedSectionVars false

namespace Verif.JsCase

open Verif.Case

variable {B : BitSys} {guards : Guards B}

/-! ### Declarations -/

section
variable {s : S B} {env : Env B} {ρ : JEnv B} {sc : List Var} {vs : List (Val B.Bits)} {v : Var}

/-- One more variable. -/
theorem St.next (h : St s env ρ sc vs) (y : Val B.Bits) :
    St { s with next := s.next + 1 } env ((.made s.next, y) :: ρ) sc vs where
  val := fun w hw => eval_mono (JEnv.le_cons y (h.fresh _ (Nat.le_refl _))) _ (h.val w hw)
  fresh := fun n hn => by
    have : (JName.made n == JName.made s.next) = false :=
      beq_eq_false_iff_ne.2 fun e => by cases e; simp at hn; omega
    rw [List.lookup_cons, this]
    exact h.fresh n (by simp at hn; omega)
  names := h.names
  subj := fun i => by
    have : (JName.subject i == JName.made s.next) = false := beq_eq_false_iff_ne.2 fun e => by cases e
    rw [List.lookup_cons, this]
    exact h.subj i

theorem bindValue_works (h : St s env ρ sc vs) (hv : v ∈ sc) (hn : (sc.map Var.id).Nodup)
    (t : Bool) :
    ∃ ρ', St (s.bindValue v t).1 env ρ' sc vs ∧
      (∀ rest : Code B, (((s.bindValue v t).2).foldr (fun p c => Code.lets p.1 p.2 c) rest).exec
        guards ρ [] = rest.exec guards ρ' []) ∧ ((s.bindValue v t).2 = [] → ρ' = ρ) := by
  unfold S.bindValue
  split
  · refine ⟨(.made s.next, env v) :: ρ, ?_, ?_, ?_⟩
    · have h' := h.next (env v)
      refine ⟨fun w hw => ?_, h'.fresh, ?_, h'.subj⟩
      · by_cases hw' : w.id = v.id
        · have := mem_id_nodup hn hw hv hw'
          subst this
          simp [S.getValue, JExpr.eval]
        · have hb : (w.id == v.id) = false := beq_eq_false_iff_ne.2 hw'
          have := h'.val w hw
          simpa [S.getValue, List.lookup_cons, hb] using this
      · intro id hid
        by_cases e : id = v.id
        · subst e; exact List.mem_map_of_mem hv
        · have hb : (id == v.id) = false := beq_eq_false_iff_ne.2 e
          exact h.names id (by simpa [List.lookup_cons, hb] using hid)
    · intro rest
      simp [Code.exec, h.val v hv]
    · intro e; cases e
  · exact ⟨ρ, h, fun _ => rfl, fun _ => rfl⟩

theorem bindChar_works (h : St s env ρ sc vs) (hv : v ∈ sc) (t : Bool)
    (ht : t = true → ∃ x, env v = .str x) :
    ∃ ρ', St (s.bindChar v t).1 env ρ' sc vs ∧
      (∀ f, (s.bindChar v t).2.1 = some f →
        ∃ x, env v = .str x ∧ ρ'.lookup f = some (firstCode B x)) ∧
      (∀ rest : Code B, (((s.bindChar v t).2.2).foldr (fun p c => Code.lets p.1 p.2 c) rest).exec
        guards ρ [] = rest.exec guards ρ' []) ∧ ((s.bindChar v t).2.2 = [] → ρ' = ρ) := by
  unfold S.bindChar
  split
  · rename_i h1
    obtain ⟨x, hx⟩ := ht h1
    refine ⟨(.made s.next, firstCode B x) :: ρ, h.next _, ?_, ?_, ?_⟩
    · intro f hf
      cases hf
      exact ⟨x, hx, by simp⟩
    · intro rest
      have : (JExpr.charCode (s.getValue v)).eval ρ = some (firstCode B x) := by
        simp only [JExpr.eval, h.val v hv, hx, firstCode]; rfl
      simp [Code.exec, this]
    · intro e; cases e
  · exact ⟨ρ, h, fun f hf => (by cases hf), fun _ => rfl, fun _ => rfl⟩

end

theorem declare_works [DecidableEq B.Bits] [DecidableEq B.Test] [DecidableEq B.Read] {ctx : Ctx} {vs : List (Val B.Bits)} {inner : Bool} {env : Env B}
    {ρ ρ' : JEnv B} {sc ids : List Var} {r} {b : CaseBody B} {l : List (JName × JExpr B)}
    (h : Works ctx guards vs inner env ρ' sc ids r b)
    (hl : ∀ rest : Code B, (l.foldr (fun p c => Code.lets p.1 p.2 c) rest).exec guards ρ [] =
      rest.exec guards ρ' []) (hρ : l = [] → ρ' = ρ) :
    Works ctx guards vs inner env ρ sc ids r (declare l b) := by
  match l with
  | [] => rw [declare, ← hρ rfl]; exact h
  | p :: l => exact (hl b.code).trans h.exec

theorem multipleChars_str {cs : Choices B} : ∀ {seen}, multipleChars seen cs = true →
    ∃ p rest, Check.strPrefix p rest ∈ checksOf cs := by
  match cs with
  | .nil => simp [multipleChars]
  | .cons c d cs =>
    intro seen h
    cases c with
    | strPrefix p rest => exact ⟨p, rest, by simp [checksOf]⟩
    | _ =>
      simp only [multipleChars] at h
      obtain ⟨p, rest, hm⟩ := multipleChars_str h
      exact ⟨p, rest, by simp [checksOf, hm]⟩

/-! ### Bodies -/

section
variable [DecidableEq B.Bits] [DecidableEq B.Test] [DecidableEq B.Read] {ctx : Ctx}
  {s : S B} {env : Env B} {ρ : JEnv B} {sc : List Var} {vs : List (Val B.Bits)}

theorem runCode_exec (h : ∀ i, ρ.lookup (.subject i) = vs[i]?) {bs : List (Name × JExpr B)}
    {l : Bindings B} (hl : evalBindings ρ bs = some l) (μ : Bindings B) (k : Nat) :
    (ctx.runCode bs k).exec guards ρ μ = expected ctx vs (some (k, lastOf (μ ++ l))) := by
  unfold Ctx.runCode expected
  split
  · rename_i hla
    split
    · rename_i hb
      rw [List.isEmpty_iff] at hb
      subst hb
      cases hl
      simp [Code.exec]
    · simp [Code.exec, hl]
  · cases hr : ctx.returned k with
    | none => simp [Code.exec, hl, hr]
    | some i =>
      simp only [Code.exec, h i, hr]

/-- The variables of a guard and the others. -/
theorem guard_perm (q : Name → Bool) (l : List (Name × Bound B)) (env : Env B) :
    (((l.filter fun p => q p.1).map fun p => (p.1, p.2.value env)) ++
      ((l.filter fun p => !q p.1).map fun p => (p.1, p.2.value env))).Perm
      (l.map fun p => (p.1, p.2.value env)) := by
  rw [← List.map_append]
  exact (List.filter_append_perm _ l).map _

theorem guard_lookup {q : Name → Bool} {l : List (Name × Bound B)} {env : Env B}
    (hn : (l.map Prod.fst).Nodup) {x : Name} (hx : q x = true) :
    lastOf ((l.filter fun p => q p.1).map fun p => (p.1, p.2.value env)) x =
      (l.map fun p => (p.1, p.2.value env)).lookup x := by
  have hn' : ((l.filter fun p => q p.1).map Prod.fst).Nodup :=
    hn.sublist (List.filter_sublist.map _)
  rw [lastOf, lookup_reverse (by simpa [List.map_map, Function.comp_def] using hn')]
  clear hn hn'
  induction l with
  | nil => rfl
  | cons p l ih =>
    by_cases hp : q p.1 = true
    · rw [List.filter_cons_of_pos (by exact hp)]
      simp only [List.map_cons, List.lookup_cons, ih]
    · rw [List.filter_cons_of_neg (by exact hp)]
      have : (x == p.1) = false := beq_eq_false_iff_ne.2 fun e => hp (e ▸ hx)
      simp only [List.map_cons, List.lookup_cons, this, ih]

/-! ### The induction -/

theorem evalConds_cons {c : Cond B} {cs : List (Cond B)} {vars : Name → Option (Val B.Bits)}
    {t : Bool} (h : c.eval guards ρ vars = some t) :
    evalConds guards ρ vars (c :: cs) = if t then evalConds guards ρ vars cs else some false := by
  rw [evalConds, h]
  cases t <;> rfl

theorem merge_head (fb : Decision B) (c : Cond B) (b : CaseBody B) :
    ∃ cs, (merge fb c b).1 = c :: cs := by
  cases b with
  | ifElse cs yes no d =>
    simp only [merge]
    split <;> simp
  | _ => simp [merge]

/-- What is known of the choices: no check holds and no condition is true, or one check holds and
its code is run or everything is left to the fallback. -/
def ChoicesWork (ctx : Ctx) (guards : Guards B) (vs : List (Val B.Bits)) (env : Env B)
    (ρ : JEnv B) (sc ids : List Var) (fb : Decision B)
    (l : List (List (Cond B) × Code B)) :
    Option (Option (Nat × (Name → Option (Val B.Bits)))) → Prop
  | none => runChain guards ρ l = some none
  | some r => runChain guards ρ l = some (some (expected ctx vs r)) ∨
      (runChain guards ρ l = some none ∧ ¬ (ctx.letAssert = true ∧ Quiet fb) ∧
        Miss ctx guards env sc ids r fb)

theorem ids_sub {l m n : List Var} (h : ((l ++ m).map Var.id).Nodup)
    (hs : n.Sublist l) : ((n ++ m).map Var.id).Nodup :=
  h.sublist ((hs.append_right m).map _)

/-- The guard of a clause. -/
theorem guard_works (hg : GuardsLocal ctx guards) {g : Nat} {b : Body B} {d : Decision B}
    {inner : Bool} {ids : List Var} (hst : St s env ρ sc vs)
    (hsc : Scoped sc (.guard g b d)) (hla : ctx.letAssert = false) (hf : BodyFits env b)
    (hp : Proper ctx guards false env d) {no : CaseBody B × S B} (hno : no.1 = (gen ctx s d).1)
    (hw : no.1.code.exec guards ρ [] = expected ctx vs (d.eval guards env)) :
    Works ctx guards vs inner env ρ sc ids ((Decision.guard g b d).eval guards env)
      (if (s.bindings (b.bindings.filter fun p => (ctx.refs g).contains p.1)).isEmpty then
        if no.1.isEmpty then .ifOnly [.guard g]
          (ctx.runCode (s.bindings (b.bindings.filter fun p => !(ctx.refs g).contains p.1)) b.clause)
        else .ifElse [.guard g]
          (ctx.runCode (s.bindings (b.bindings.filter fun p => !(ctx.refs g).contains p.1)) b.clause)
          no.1.code d
      else .statements (.guarded
        (s.bindings (b.bindings.filter fun p => (ctx.refs g).contains p.1)) g
        (ctx.runCode (s.bindings (b.bindings.filter fun p => !(ctx.refs g).contains p.1)) b.clause)
        (if no.1.isEmpty then .empty else no.1.code))) := by
  simp only [Scoped] at hsc
  have h1 := bindings_eval hst (bs := b.bindings.filter fun p => (ctx.refs g).contains p.1)
    (fun p hp => hsc.1 p (List.mem_of_mem_filter hp)) (fun p hp => hf.2 p (List.mem_of_mem_filter hp))
  have h2 := bindings_eval hst (bs := b.bindings.filter fun p => !(ctx.refs g).contains p.1)
    (fun p hp => hsc.1 p (List.mem_of_mem_filter hp)) (fun p hp => hf.2 p (List.mem_of_mem_filter hp))
  have hperm := guard_perm (ctx.refs g).contains b.bindings env
  have hlook := fun x (hx : x ∈ ctx.refs g) =>
    guard_lookup (q := (ctx.refs g).contains) (env := env) hf.1 (x := x) (by simpa using hx)
  generalize hl1 : (b.bindings.filter fun p => (ctx.refs g).contains p.1).map
    (fun p => (p.1, p.2.value env)) = l1 at h1 hperm hlook
  generalize hl2 : (b.bindings.filter fun p => !(ctx.refs g).contains p.1).map
    (fun p => (p.1, p.2.value env)) = l2 at h2 hperm
  have hguard : guards g (lastOf l1) = guards g (b.lookup env) := hg g _ _ hlook
  have hlast : lastOf (l1 ++ l2) = b.lookup env := lastOf_perm hperm (body_lookup hf.1)
  have hne : no.1.isEmpty = false := by
    cases he : no.1.isEmpty with
    | false => rfl
    | true => rw [hno] at he; exact absurd ((gen_isEmpty d s).1 he).1 (by simp [hla])
  rw [hne, Decision.eval]
  simp only [Bool.false_eq_true, if_false]
  by_cases he : (s.bindings (b.bindings.filter fun p => (ctx.refs g).contains p.1)).isEmpty = true
  · rw [if_pos he]
    have hl : l1 = [] := by
      rw [← hl1]
      simp only [S.bindings, List.isEmpty_iff, List.map_eq_nil_iff] at he
      rw [he]; rfl
    subst hl
    refine ⟨by simp [hla], ?_⟩
    have hc : evalConds guards ρ (lastOf []) [.guard g] = some (guards g (b.lookup env)) := by
      rw [evalConds_cons (t := guards g (lastOf [])) rfl, hguard]
      cases guards g (b.lookup env) <;> rfl
    rw [hc]
    cases hv : guards g (b.lookup env) with
    | true =>
      refine Or.inl ⟨rfl, ?_⟩
      rw [runCode_exec hst.subj h2, hlast]
      rfl
    | false =>
      refine Or.inr ⟨rfl, by simpa using hw, env, [], fun _ _ => rfl, by simp, hsc.2, hp, ?_⟩
      simp
  · rw [if_neg he]
    show Code.exec guards ρ [] _ = _
    rw [Code.exec, h1]
    simp only [hguard]
    split
    · rw [runCode_exec hst.subj h2, hlast]
    · exact hw

mutual
theorem gen_works (hg : GuardsLocal ctx guards) (hb : BoolsNamed ctx) :
    ∀ (d : Decision B) (s : S B) (env : Env B) (ρ : JEnv B) (sc : List Var) (inner : Bool),
    St s env ρ sc vs → Scoped sc d → ((varsOf d ++ sc).map Var.id).Nodup →
    Proper ctx guards inner env d →
    Works ctx guards vs inner env ρ sc (varsOf d) (d.eval guards env) (gen ctx s d).1
  | .fail, s, env, ρ, sc, inner, hst, hsc, hn, hp => by
    rw [gen, Decision.eval]
    show Code.exec guards ρ [] _ = _
    rw [expected]
    cases ctx.letAssert <;> rfl
  | .run b, s, env, ρ, sc, inner, hst, hsc, hn, hp => by
    rw [gen, Decision.eval]
    simp only [Scoped] at hsc
    simp only [Proper] at hp
    show Code.exec guards ρ [] _ = _
    rw [runCode_exec hst.subj (bindings_eval hst hsc hp.2)]
    have : lastOf ([] ++ b.bindings.map fun p => (p.1, p.2.value env)) = b.lookup env :=
      lastOf_perm (List.Perm.refl _) (body_lookup hp.1)
    rw [this]
  | .guard g b d, s, env, ρ, sc, inner, hst, hsc, hn, hp => by
    rw [gen]
    simp only [Proper] at hp
    refine guard_works hg hst hsc hp.1 hp.2.1 hp.2.2 (no := gen ctx s d) rfl ?_
    simp only [Scoped] at hsc
    exact (gen_works hg hb d s env ρ sc false hst hsc.2 hn hp.2.2).exec
  | .switch v .nil d f, s, env, ρ, sc, inner, hst, hsc, hn, hp => by
    rw [gen, Decision.eval, Choices.eval]
    simp only [Scoped] at hsc
    simp only [Proper] at hp
    simp only [varsOf, varsOfChoices, List.nil_append] at hn ⊢
    have hn1 : ((fallbackVars f ++ sc).map Var.id).Nodup :=
      ids_sub hn (List.sublist_append_left _ _)
    have hn2 : ((varsOf d ++ (fallbackVars f ++ sc)).map Var.id).Nodup := by
      rw [← List.append_assoc]
      exact (((List.perm_append_comm (l₁ := varsOf d)).append_right sc).map _).nodup_iff.2 hn
    have h := gen_works hg hb d _ _ ρ (fallbackVars f ++ sc) inner
      (hst.recordFallback hsc.1 hp.1 hn1) hsc.2.2 hn2 hp.2
    refine h.mono (fun w hw => ?_) (by simp +contextual) (by simp +contextual)
    cases f with
    | check c => exact env_set_old' env (not_mem_of_ids' hn1 hw)
    | _ => rfl
  | .switch v (.cons c e cs) d f, s, env, ρ, sc, inner, hst, hsc, hn, hp => by
    rw [gen, Decision.eval]
    simp only [Scoped] at hsc
    simp only [Proper] at hp
    simp only [varsOf] at hn ⊢
    obtain ⟨hsp, hpw, hpc, hpf⟩ := hp
    have hnsc : (sc.map Var.id).Nodup := by
      rw [List.map_append] at hn; exact (List.nodup_append.1 hn).2.1
    obtain ⟨ρ1, hst1, hx1, hr1⟩ := bindValue_works (guards := guards) hst hsc.1 hnsc
      (usedTwice ctx v (.cons c e cs) d f)
    generalize s.bindValue v (usedTwice ctx v (.cons c e cs) d f) = b at hst1 hx1 hr1 ⊢
    obtain ⟨ρ2, hst2, hfirst, hx2, hr2⟩ := bindChar_works (guards := guards) hst1 hsc.1
      (multipleChars false (.cons c e cs)) (fun ht => by
        obtain ⟨p, rest, hm⟩ := multipleChars_str ht
        exact hsp _ hm)
    generalize b.1.bindChar v (multipleChars false (.cons c e cs)) = k at hst2 hfirst hx2 hr2 ⊢
    have hnc : ((varsOfChoices (.cons c e cs) ++ sc).map Var.id).Nodup :=
      ids_sub hn (List.sublist_append_left _ _)
    have hnf : ((fallbackVars f ++ sc).map Var.id).Nodup :=
      ids_sub hn ((List.sublist_append_left _ _).trans (List.sublist_append_right _ _))
    have hnd : ((varsOf d ++ sc).map Var.id).Nodup :=
      ids_sub hn ((List.sublist_append_right _ _).trans (List.sublist_append_right _ _))
    have hndf : ((varsOf d ++ (fallbackVars f ++ sc)).map Var.id).Nodup := by
      rw [← List.append_assoc]
      exact (((List.perm_append_comm (l₁ := varsOf d)).append_right sc).map _).nodup_iff.2
        (ids_sub hn (List.sublist_append_right _ _))
    have hsf : ∀ ex, (∀ w ∈ ex, w ∈ varsOfChoices (.cons c e cs)) → Scoped (ex ++ sc) d →
        Scoped sc d := by
      intro ex hex hs1
      refine scoped_inter d ?_ hs1 hsc.2.2
      intro w hw hw'
      rcases List.mem_append.1 hw with hw | hw
      · rcases List.mem_append.1 hw' with hw' | hw'
        · exfalso
          rw [List.map_append, List.nodup_append] at hn
          have := (List.nodup_append.1 (List.map_append ▸ hn.1)).2.2 w.id
            (List.mem_map_of_mem (hex w hw)) w.id
            (by rw [List.map_append]; exact List.mem_append_left _ (List.mem_map_of_mem hw'))
          exact this rfl
        · exact hw'
      · exact hw
    have hcw := genChoices_works hg hb (.cons c e cs) v k.2.1 d k.1 env ρ2 sc hst2 hsc.1 hfirst
      hsc.2.1 hnc hsp hpw hsf hpc
    have hkeep := genChoices_keeps ctx v k.2.1 d (.cons c e cs) k.1
    have hlne := genChoices_ne_nil (ctx := ctx) v k.2.1 d k.1 c e cs
    generalize genChoices ctx v k.2.1 d k.1 (.cons c e cs) = l at hcw hkeep hlne ⊢
    have hst3 : ∀ env', (∀ w ∈ sc, env' w = env w) → St l.2 env' ρ2 sc vs := fun env' he =>
      hst2.keep hkeep.1 hkeep.2 (fun w hw => not_mem_of_ids hnc hw) he
    refine declare_works (ρ' := ρ2) ?_ ?_ ?_
    · refine assemble_works hlne ?_
      cases hce : (Choices.cons c e cs).eval guards env (env v) with
      | none =>
        rw [hce] at hcw
        simp only [ChoicesWork] at hcw
        obtain ⟨hff, hq, hpd⟩ := hpf (choices_none hce)
        have hst4 := (hst3 env fun _ _ => rfl).recordFallback hsc.1 hff hnf
        have h := gen_works hg hb d _ _ ρ2 _ false hst4 hsc.2.2 hndf hpd
        refine Or.inr ⟨hcw, h.exec, ⟨_, fallbackVars f, fun w hw => ?_, by simp +contextual,
          hsc.2.2, hpd, rfl⟩, hq⟩
        cases f with
        | check c => exact env_set_old' env (not_mem_of_ids' hnf hw)
        | _ => rfl
      | some r =>
        rw [hce] at hcw
        simp only [ChoicesWork] at hcw
        rcases hcw with hcw | ⟨hcw, hq, hm⟩
        · exact Or.inl hcw
        · have hm' : Miss ctx guards env sc
              (varsOfChoices (.cons c e cs) ++ (fallbackVars f ++ varsOf d)) r d :=
            hm.mono (ex := []) (fun _ _ => rfl) (by simp) (by simp +contextual)
          obtain ⟨env1, extra, he1, hex, hs1, hp1, hr⟩ := hm
          have hscd : Scoped sc d := hsf extra hex hs1
          have hst5 : St (l.2.recordFallback v f) env1 ρ2 sc vs :=
            (hst3 env1 he1).keep (recordFallback_keeps _ v f) (recordFallback_names _ v f)
              (fun w hw => not_mem_of_ids hnf hw) (fun _ _ => rfl)
          have h := gen_works hg hb d _ _ ρ2 _ false hst5 hscd hnd hp1
          refine Or.inr ⟨hcw, ?_, hm', fun h1 _ h2 => hq ⟨h1, h2⟩⟩
          rw [h.exec, hr]
    · intro rest
      rw [List.foldr_append, hx1, hx2]
    · intro hnil
      rw [List.append_eq_nil_iff] at hnil
      rw [hr2 hnil.2, hr1 hnil.1]
theorem genChoices_works (hg : GuardsLocal ctx guards) (hb : BoolsNamed ctx) :
    ∀ (cs : Choices B) (v : Var) (first : Option JName) (fb : Decision B) (s : S B) (env : Env B)
      (ρ : JEnv B) (sc : List Var), St s env ρ sc vs → v ∈ sc →
    (∀ f, first = some f → ∃ t, env v = .str t ∧ ρ.lookup f = some (firstCode B t)) →
    ScopedChoices sc cs → ((varsOfChoices cs ++ sc).map Var.id).Nodup →
    (∀ k ∈ checksOf cs, Speaks ctx v.ty (env v) k) →
    Unanimous guards env (env v) fb cs →
    (∀ ex, (∀ w ∈ ex, w ∈ varsOfChoices cs) → Scoped (ex ++ sc) fb → Scoped sc fb) →
    ProperChoices ctx guards env (env v) cs →
    ChoicesWork ctx guards vs env ρ sc (varsOfChoices cs) fb (genChoices ctx v first fb s cs).1
      (cs.eval guards env (env v))
  | .nil, v, first, fb, s, env, ρ, sc, hst, hv, hf, hsc, hn, hsp, hpw, hsf, hpc => by
    rw [genChoices, Choices.eval]
    rfl
  | .cons c d cs, v, first, fb, s, env, ρ, sc, hst, hv, hf, hsc, hn, hsp, hpw, hsf, hpc => by
    rw [genChoices, Choices.eval]
    simp only [ScopedChoices] at hsc
    simp only [varsOfChoices] at hn ⊢
    simp only [ProperChoices] at hpc
    simp only [checksOf, List.mem_cons, forall_eq_or_imp] at hsp
    simp only [Unanimous, choiceList, List.pairwise_cons] at hpw
    have hnc : ((checkVars c ++ sc).map Var.id).Nodup :=
      ids_sub hn ((List.sublist_append_left _ _).trans (List.sublist_append_left _ _))
    have hncs : ((varsOfChoices cs ++ sc).map Var.id).Nodup :=
      ids_sub hn (List.sublist_append_right _ _)
    have hnd : ((varsOf d ++ (checkVars c ++ sc)).map Var.id).Nodup := by
      rw [← List.append_assoc]
      exact (((List.perm_append_comm (l₁ := varsOf d)).append_right sc).map _).nodup_iff.2
        (ids_sub hn (List.sublist_append_left _ _))
    have hndsc : ((varsOf d ++ sc).map Var.id).Nodup :=
      ids_sub hn ((List.sublist_append_right _ _).trans (List.sublist_append_left _ _))
    have hst1 : St (s.record v c) env ρ sc vs :=
      hst.keep (record_keeps s v c) (record_names s v c) (fun w hw => not_mem_of_ids hnc hw)
        (fun _ _ => rfl)
    have hst2 : St ((s.record v c).leave (gen ctx (s.record v c) d).2) env ρ sc vs :=
      hst1.keep (gen_keeps ctx d (s.record v c)).leave rfl (fun w hw => not_mem_of_ids hndsc hw)
        (fun _ _ => rfl)
    have ih := genChoices_works hg hb cs v first fb _ env ρ sc hst2 hv hf hsc.2 hncs hsp.2 hpw.2
      (fun ex hex => hsf ex fun w hw => by simp [varsOfChoices, hex w hw]) hpc.2
    generalize genChoices ctx v first fb ((s.record v c).leave (gen ctx (s.record v c) d).2) cs = l
      at ih ⊢
    have hcond : ((s.record v c).cond ctx v first c).eval guards ρ (lastOf []) =
        some (c.holds (env v)) := cond_eval hb (hst1.val v hv) hsp.1 hf
    cases hc : c.holds (env v) with
    | false =>
      rw [hc] at hcond
      simp only [Bool.false_eq_true, if_false]
      obtain ⟨cs', hcs'⟩ := merge_head fb ((s.record v c).cond ctx v first c)
        (gen ctx (s.record v c) d).1
      have hrun : ∀ m, runChain guards ρ
          (merge fb ((s.record v c).cond ctx v first c) (gen ctx (s.record v c) d).1 :: m) =
          runChain guards ρ m := by
        intro m
        rw [runChain, hcs', evalConds_cons hcond]
        rfl
      cases hce : cs.eval guards env (env v) with
      | none => rw [hce] at ih; exact (hrun l.1).trans ih
      | some r =>
        rw [hce] at ih
        rcases ih with ih | ⟨ih, hq, hm⟩
        · exact Or.inl ((hrun l.1).trans ih)
        · exact Or.inr ⟨(hrun l.1).trans ih, hq,
            hm.mono (ex := []) (fun _ _ => rfl) (by simp) (by simp +contextual)⟩
    | true =>
      rw [hc] at hcond
      simp only [if_true]
      obtain ⟨hfit, hpd⟩ := hpc.1 hc
      have hw := gen_works hg hb d _ _ ρ _ true (hst.record hv hfit hnc) hsc.1 hnd hpd
      generalize (gen ctx (s.record v c) d).1 = b at hw ⊢
      generalize hdr : d.eval guards (env.set (c.binds (env v))) = r at hw ⊢
      cases b with
      | statements code =>
        refine Or.inl ?_
        rw [merge, runChain, evalConds_cons hcond]
        simp only [if_true, evalConds]
        exact congrArg (fun o => some (some o)) hw.exec
      | chain code =>
        refine Or.inl ?_
        rw [merge, runChain, evalConds_cons hcond]
        simp only [if_true, evalConds]
        exact congrArg (fun o => some (some o)) hw.exec
      | ifOnly cs' body =>
        refine Or.inl ?_
        rw [merge, runChain, evalConds_cons hcond]
        rcases hw with hw | hw
        · simp only [if_true, hw.1, hw.2]
        · cases hw.2.1
      | ifElse cs' yes no fb' =>
        simp only [merge]
        cases hbeq : decisionBeq fb' fb with
        | false =>
          refine Or.inl ?_
          simp only [Bool.false_eq_true, if_false]
          rw [runChain, evalConds_cons hcond]
          simp only [if_true, evalConds]
          rw [hw.exec]
        | true =>
          have := decisionBeq_eq _ _ hbeq
          subst this
          simp only [if_true]
          obtain ⟨hq, hw⟩ := hw
          rcases hw with hw | hw
          · refine Or.inl ?_
            rw [runChain, evalConds_cons hcond]
            simp only [if_true, hw.1, hw.2]
          · have hm : Miss ctx guards env sc (checkVars c ++ varsOf d ++ varsOfChoices cs) r fb' :=
              hw.2.2.mono (fun w hw' => env_set_old' env (not_mem_of_ids' hnc hw'))
                (by simp +contextual) (by simp +contextual)
            have hfb : fb'.eval guards env = r := by
              obtain ⟨env1, ex, he1, hex, hs1, hp1, hr⟩ := hm
              rw [← hr]
              exact eval_agree fb' (fun w hw => (he1 w hw).symm)
                (hsf ex (fun w hw => by simpa [varsOfChoices] using hex w hw) hs1) hp1
            have hrun : runChain guards ρ ((((s.record v c).cond ctx v first c :: cs'), yes) :: l.1) =
                runChain guards ρ l.1 := by
              rw [runChain, evalConds_cons hcond]
              simp only [if_true, hw.1]
            rw [ChoicesWork, hrun]
            cases hce : cs.eval guards env (env v) with
            | none => rw [hce] at ih; exact Or.inr ⟨ih, hq, hm⟩
            | some r' =>
              rw [hce] at ih
              obtain ⟨p, hp, hph, hpe⟩ := choices_some hce
              have : r' = r := by
                rw [← hpe, ← hfb]
                exact hpw.1 p hp hc hph (hdr.trans hfb.symm)
              subst this
              rcases ih with ih | ih
              · exact Or.inl ih
              · exact Or.inr ⟨ih.1, hq, hm⟩
end

end

end Verif.JsCase
