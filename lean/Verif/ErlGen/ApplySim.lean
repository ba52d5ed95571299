import Verif.ErlGen.Sim
import Verif.ErlGen.ModuleTree

/-!
# Calls of functions

The functions of a module, and the calls of closures and constructors, up to the same number of nested calls.
-/

namespace Verif.ErlGen

open Verif.ErlText (Text Term astAll Form)
open Verif.ErlText.Read (AstForm)
open Verif.Strings.Spec (Piece text UpperCamel)

/-! ### Parameters -/

theorem paramVars_none (ps : List (Option (Text × Loc))) : paramVars (none :: ps) = paramVars ps := rfl

theorem paramVars_some (x : Text) (l : Loc) (ps : List (Option (Text × Loc))) :
    paramVars (some (x, l) :: ps) = (x, l) :: paramVars ps := rfl

theorem params_keys {ps : List (Option (Text × Loc))} {vs : List Gleam.Value} {b : Gleam.Env}
    (h : Gleam.bindParameters ps vs = some b) : b.map Prod.fst = (paramVars ps).map Prod.fst := by
  induction ps generalizing vs b with
  | nil =>
    cases vs with
    | nil => simp only [Gleam.bindParameters, Option.some.injEq] at h; subst h; rfl
    | cons _ _ => simp [Gleam.bindParameters] at h
  | cons p ps ih =>
    cases vs with
    | nil => simp [Gleam.bindParameters] at h
    | cons v vs =>
      simp only [Gleam.bindParameters, Option.map_eq_some_iff] at h
      obtain ⟨b1, h1, rfl⟩ := h
      have := ih h1
      cases p with
      | none => simpa [Gleam.bindOption, paramVars_none] using this
      | some p =>
        obtain ⟨x, l⟩ := p
        simp [Gleam.bindOption, paramVars_some, this]

/-- The parameters in Erlang have the values of the parameters in Gleam. -/
theorem params_sim {ps : List (Option (Text × Loc))} (hw : ParamsWf ps) (s : State) {vs : List Gleam.Value}
    {vs' : List Erlang.Value} (hv : VsRel vs vs') {b : Gleam.Env} (h : Gleam.bindParameters ps vs = some b) :
    ∃ b', Erlang.bindParameters (argumentNames s ps).1 vs' = some b' ∧
      Erlang.keys b' = (paramVars ps).map (fun v => nameOf v.1 (s.count v.1)) ∧
      ∀ x v, b.lookup x = some v → ∃ v', b'.lookup (nameOf x (s.count x)) = some v' ∧ VRel v v' := by
  induction ps generalizing s vs vs' b with
  | nil =>
    cases hv with
    | nil =>
      simp only [Gleam.bindParameters, Option.some.injEq] at h
      subst h
      exact ⟨[], rfl, rfl, by simp⟩
    | cons _ _ => simp [Gleam.bindParameters] at h
  | cons p ps ih =>
    cases hv with
    | nil => simp [Gleam.bindParameters] at h
    | @cons v v' vs vs' h1 h2 =>
      simp only [Gleam.bindParameters, Option.map_eq_some_iff] at h
      obtain ⟨b1, hb1, rfl⟩ := h
      cases p with
      | none =>
        obtain ⟨b', h3, h4, h5⟩ := ih hw s h2 hb1
        refine ⟨b', ?_, by simpa [paramVars_none] using h4, ?_⟩
        · simp only [argumentNames, Erlang.bindParameters, h3, Option.bind_some]
          rfl
        · simpa [Gleam.bindOption] using h5
      | some p =>
        obtain ⟨x, l⟩ := p
        unfold ParamsWf at hw
        rw [paramVars_some] at hw
        simp only [List.map_cons, List.nodup_cons, List.mem_cons, forall_eq_or_imp] at hw
        obtain ⟨⟨hx1, hx2⟩, hx3, hx4⟩ := hw
        obtain ⟨b', h3, h4, h5⟩ := ih ⟨hx2, hx4⟩ (s.newVar x l).2 h2 hb1
        have hcount : ∀ y ∈ (paramVars ps).map Prod.fst, (s.newVar x l).2.count y = s.count y := by
          intro y hy
          have hne : y ≠ x := by
            rintro rfl
            exact hx1 hy
          have hr : y ≠ reserved := (hx4 y hy).2
          simp only [State.count, if_neg hr, (newVar_step s x l).taken]
          simp [Ne.symm hne]
        have hname := newVar_name s hx3 l
        have hkeys : Erlang.keys b' = (paramVars ps).map (fun v => nameOf v.1 (s.count v.1)) := by
          rw [h4]
          apply List.map_congr_left
          intro v hv
          rw [hcount v.1 (List.mem_map.2 ⟨v, hv, rfl⟩)]
        have hnew : nameOf x (s.count x) ∉ Erlang.keys b' := by
          rw [hkeys]
          intro hc
          obtain ⟨y, hy, he⟩ := List.mem_map.1 hc
          have hyn := hx4 y.1 (List.mem_map.2 ⟨y, hy, rfl⟩)
          have := nameOf_inj hyn.1 hx3.1 he
          exact hx1 (this.1 ▸ List.mem_map.2 ⟨y, hy, rfl⟩)
        refine ⟨(nameOf x (s.count x), v') :: b', ?_, ?_, ?_⟩
        · simp only [argumentNames, Erlang.bindParameters, h3, Option.bind_some, hname, if_neg (nameOf_underscore hx3.1 _), if_neg hnew]
        · rw [paramVars_some]
          show _ :: Erlang.keys b' = _
          rw [hkeys]
          rfl
        · intro y w hy
          simp only [Gleam.bindOption, List.cons_append, List.nil_append, List.lookup_cons] at hy ⊢
          by_cases hyx : y = x
          · subst hyx
            simp only [beq_self_eq_true] at hy ⊢
            cases hy
            exact ⟨v', rfl, h1⟩
          · have hyx' : (y == x) = false := by simpa using hyx
            rw [hyx'] at hy
            dsimp only at hy
            have hym : y ∈ (paramVars ps).map Prod.fst := by
              rw [← params_keys hb1]
              exact key_of_lookup hy
            obtain ⟨w', h6, h7⟩ := h5 y w hy
            rw [hcount y hym] at h6
            refine ⟨w', ?_, h7⟩
            have : (nameOf y (s.count y) == nameOf x (s.count x)) = false := by
              simp only [beq_eq_false_iff_ne, ne_eq]
              intro he
              exact hyx (nameOf_inj (hx4 y hym).1 hx3.1 he).1
            rw [this]
            exact h6

/-- The situation after the parameters. -/
theorem params_sit {ps : List (Option (Text × Loc))} {Γ : Scope} {s : State} {env : Gleam.Env} {env' : Erlang.Env} {ms : List Loc}
    (hw : ParamsWf ps) (hp : Places Γ ((paramVars ps).map Prod.snd ++ ms)) (hs : Sit Γ s env env') {vs : List Gleam.Value}
    {vs' : List Erlang.Value} (hv : VsRel vs vs') {b : Gleam.Env} (h : Gleam.bindParameters ps vs = some b) :
    ∃ b', Erlang.bindParameters (argumentNames s ps).1 vs' = some b' ∧
      Sit (paramVars ps ++ Γ) (argumentNames s ps).2 (b ++ env) (b' ++ env') := by
  obtain ⟨b', h1, h2, h3⟩ := params_sim hw s hv h
  refine ⟨b', h1, ?_⟩
  rw [argumentNames_state]
  have hst := defineAll_step s (paramVars ps)
  have hbt := defineAll_between s (paramVars ps) hw.2
  rw [← h2] at hbt
  have hs1 : Sit Γ (defineAll s (paramVars ps)) env env' := hs.step' hst hp.left.2
  refine hs1.vars ?_ (fun n hn hc => (hbt n hn).1 (hs.bounded n hc)) (fun n hn => (hbt n hn).2) ?_
  · intro x
    rw [params_keys h]
  · intro x l w hx hb
    obtain ⟨w', h4, h5⟩ := h3 x w hb
    exact ⟨_, w', defineAll_names s _ hw.2 hw.1 (List.nodup_append.1 hp.1).1 x l (mem_of_lookup hx), h4, h5⟩

/-! ### Modules -/

theorem text_chars (x : Text) : text (x.map Piece.char) = x := by
  unfold text
  induction x with
  | nil => rfl
  | cons c x ih => simp only [List.map_cons, List.flatMap_cons, ih]; rfl

/-- Texts that can be put between double quotes as they are. -/
theorem literal_chars {x : Text} (h : ∀ c ∈ x, c ≠ '\\' ∧ c ≠ '"') : ∃ ps, Literal ps ∧ x = text ps := by
  refine ⟨x.map Piece.char, ?_, (text_chars x).symm⟩
  intro p hp
  obtain ⟨c, hc, rfl⟩ := List.mem_map.1 hp
  simp [Piece.value?, (h c hc).1, (h c hc).2]

theorem function_chars {x : Text} (h : FunctionName x) : ∀ c ∈ x, c ≠ '\\' ∧ c ≠ '"' ∧ c ≠ '\'' ∧ c ≠ 'I' := by
  obtain ⟨c, cs, rfl, h1, h2⟩ := h
  have hl : ∀ d, Verif.Strings.Spec.Lower d → d ≠ '\\' ∧ d ≠ '"' ∧ d ≠ '\'' ∧ d ≠ 'I' := by
    intro d hd
    refine ⟨?_, ?_, ?_, ?_⟩ <;> rintro rfl <;> revert hd <;> unfold Verif.Strings.Spec.Lower <;> decide
  intro d hd
  rcases List.mem_cons.1 hd with rfl | hd
  · exact hl d h1
  · rcases h2 d hd with h3 | h3 | h3
    · exact hl d h3
    · refine ⟨?_, ?_, ?_, ?_⟩ <;> rintro rfl <;> revert h3 <;> unfold Verif.Strings.Spec.Digit <;> decide
    · subst h3; decide

/-- The name of a module, as it is used in texts of Erlang. -/
def ModuleName (x : Text) : Prop := ∀ c ∈ x, c ≠ '\\' ∧ c ≠ '"' ∧ c ≠ '\''

/-- The modules that the theorems are about. -/
structure Module.Wf (m : Module) : Prop where
  name : ModuleName m.name
  path : ∃ ps, Literal ps ∧ m.path = text ps
  functions : ∀ d ∈ m.definitions, d.function.Wf m.purity
  different : (m.definitions.map fun d => d.function.name).Nodup

theorem context_ok {m : Module} (h : m.Wf) {f : Fun} (hf : FunctionName f.name) : ContextOk (m.context f) where
  file := h.path
  moduleName := literal_chars fun c hc => ⟨(h.name c hc).1, (h.name c hc).2.1⟩
  function := literal_chars fun c hc => ⟨(function_chars hf c hc).1, (function_chars hf c hc).2.1⟩

theorem escapeName_inj {f g : Text} (hf : FunctionName f) (hg : FunctionName g) (h : escapeName f = escapeName g) : f = g := by
  have hno : ∀ x, FunctionName x → x ≠ "moduleInfo".toList := by
    rintro x hx rfl
    exact (function_chars hx 'I' (by decide)).2.2.2 rfl
  unfold escapeName at h
  by_cases h1 : f = "module_info".toList
  · by_cases h2 : g = "module_info".toList
    · rw [h1, h2]
    · rw [if_pos h1, if_neg h2] at h
      exact absurd h.symm (hno g hg)
  · by_cases h2 : g = "module_info".toList
    · rw [if_neg h1, if_pos h2] at h
      exact absurd h (hno f hf)
    · rwa [if_neg h1, if_neg h2] at h

theorem argumentNames_length (s : State) (ps : List (Option (Text × Loc))) : (argumentNames s ps).1.length = ps.length := by
  induction ps generalizing s with
  | nil => rfl
  | cons p ps ih =>
    cases p with
    | none => simp [argumentNames, ih]
    | some v => obtain ⟨x, l⟩ := v; simp [argumentNames, ih]

/-- The functions of a module. -/
def Module.funs (m : Module) : List Fun := m.definitions.map Definition.function

/-- The function that a name stands for. -/
theorem definition_found {m : Module} (h : m.Wf) {f : Fun} (hf : f ∈ m.funs) :
    Erlang.definition (ErlText.moduleAst (ErlText.erlangModuleName m.name) (tModule m)) (escapeName f.name) f.parameters.length =
      some ((argumentNames State.new f.parameters).1,
        astAll (tStmts (m.context f) (argumentNames State.new f.parameters).2 f.body).1) := by
  have hgen : ∀ ds : List Definition, (∀ d ∈ ds, FunctionName d.function.name) → (ds.map fun d => d.function.name).Nodup →
      f ∈ ds.map Definition.function →
      Erlang.definition ((ds.flatMap (tDefinition m)).flatMap Form.ast) (escapeName f.name) f.parameters.length =
      some ((argumentNames State.new f.parameters).1,
        astAll (tStmts (m.context f) (argumentNames State.new f.parameters).2 f.body).1) := by
    intro ds
    induction ds with
    | nil => intro _ _ hm; simp at hm
    | cons d ds ih =>
      intro hn hd hm
      simp only [List.map_cons, List.nodup_cons] at hd
      by_cases he : d.function = f
      · subst he
        simp [tDefinition, tFunction, Form.ast, Erlang.definition, argumentNames_length]
      · have hm' : f ∈ ds.map Definition.function := by
          rcases List.mem_cons.1 hm with h1 | h1
          · exact absurd h1.symm he
          · exact h1
        have hname : escapeName d.function.name ≠ escapeName f.name := by
          intro hc
          obtain ⟨e, he1, he2⟩ := List.mem_map.1 hm'
          have := escapeName_inj (hn d (by simp)) (he2 ▸ hn e (by simp [he1])) hc
          apply hd.1
          rw [this, ← he2]
          exact List.mem_map.2 ⟨e, he1, rfl⟩
        have := ih (fun e he => hn e (List.mem_cons_of_mem _ he)) hd.2 hm'
        simp only [tDefinition, tFunction, Form.ast, Erlang.definition, List.flatMap_cons, List.cons_append, List.nil_append,
          List.findSome?_cons, hname, false_and, if_false] at this ⊢
        exact this
  have h1 := hgen m.definitions (fun d hd => (h.functions d hd).1) h.different hf
  unfold ErlText.moduleAst tModule Erlang.definition at *
  cases hex : exports m.definitions with
  | nil => simpa [Form.ast, hex] using h1
  | cons e es => simpa [Form.ast, hex] using h1

/-! ### Calls -/

theorem bind_all {names : List Text} (hn : names.Nodup) (hu : ['_'] ∉ names) {vs : List Erlang.Value} (hl : names.length = vs.length) :
    Erlang.bindParameters names vs = some (names.zip vs) := by
  induction names generalizing vs with
  | nil =>
    cases vs with
    | nil => rfl
    | cons _ _ => simp at hl
  | cons n names ih =>
    cases vs with
    | nil => simp at hl
    | cons v vs =>
      simp only [List.nodup_cons] at hn
      simp only [List.mem_cons, not_or] at hu
      simp only [List.length_cons, Nat.add_right_cancel_iff] at hl
      have hk : n ∉ Erlang.keys (names.zip vs) := by
        intro hc
        obtain ⟨p, hp, rfl⟩ := List.mem_map.1 hc
        exact hn.1 (List.of_mem_zip hp).1
      simp only [Erlang.bindParameters, ih hn.2 hu.2 hl, Option.bind_some, if_neg (Ne.symm hu.1), if_neg hk, List.zip_cons_cons]

theorem zip_lookup {names : List Text} (hn : names.Nodup) {vs : List Erlang.Value} (hl : names.length = vs.length) :
    ∀ p ∈ names.zip vs, (names.zip vs).lookup p.1 = some p.2 := by
  intro p hp
  apply lookup_of_mem _ hp
  unfold Erlang.keys
  rwa [List.map_fst_zip (Nat.le_of_eq hl)]

section

variable {W W' : Type} {RW : W → W' → Prop}

theorem vars_eval (ap' : Erlang.Value → List Erlang.Value → Erlang.Run W' Erlang.Value) {env' : Erlang.Env} {names : List Text}
    {vs : List Erlang.Value} (hl : names.length = vs.length) (h : ∀ p ∈ names.zip vs, env'.lookup p.1 = some p.2) :
    Erlang.exprs ap' env' (names.map .var) = M.pure (vs, []) := by
  induction names generalizing vs with
  | nil =>
    cases vs with
    | nil => rfl
    | cons _ _ => simp at hl
  | cons n names ih =>
    cases vs with
    | nil => simp at hl
    | cons v vs =>
      simp only [List.length_cons, Nat.add_right_cancel_iff] at hl
      have h1 := h (n, v) (by simp)
      simp only [List.map_cons, Erlang.exprs, Erlang.expr, h1, M.pure_bind,
        ih hl (fun p hp => h p (by simp [hp])), joined_nil]
      rfl

/-- Functions of other modules do the same in both languages, if the functions that they are given do the same. -/
def Outside (RW : W → W' → Prop)
    (outside : (Gleam.Value → List Gleam.Value → Gleam.Run W Gleam.Value) → Text → Text → List Gleam.Value → Gleam.Run W Gleam.Value)
    (outside' : (Erlang.Value → List Erlang.Value → Erlang.Run W' Erlang.Value) → Text → Text → List Erlang.Value →
      Erlang.Run W' Erlang.Value) : Prop :=
  ∀ ap ap', (∀ v v' vs vs', VRel v v' → VsRel vs vs' → MRel RW VRel (ap v vs) (ap' v' vs')) →
    ∀ m f vs vs', VsRel vs vs' →
      MRel RW VRel (outside ap m f vs) (outside' ap' (ErlText.erlangModuleName m) (escapeName f) vs')

theorem VsRel.same_length {vs : List Gleam.Value} {vs' : List Erlang.Value} (h : VsRel vs vs') : vs.length = vs'.length := by
  induction vs generalizing vs' with
  | nil => cases h; rfl
  | cons v vs ih => cases h with | cons _ h => simp [ih h]

theorem params_length {ps : List (Option (Text × Loc))} {vs : List Gleam.Value} {b : Gleam.Env}
    (h : Gleam.bindParameters ps vs = some b) : ps.length = vs.length := by
  induction ps generalizing vs b with
  | nil =>
    cases vs with
    | nil => rfl
    | cons _ _ => simp [Gleam.bindParameters] at h
  | cons p ps ih =>
    cases vs with
    | nil => simp [Gleam.bindParameters] at h
    | cons v vs =>
      simp only [Gleam.bindParameters, Option.map_eq_some_iff] at h
      obtain ⟨b1, h1, -⟩ := h
      simp [ih h1]

theorem MRel.timeout {α β : Type} {R : α → β → Prop} : MRel RW R (M.timeout : Gleam.Run W α) (M.timeout : Erlang.Run W' β) :=
  fun _ _ h => h

/-- Calls of the functions of a module and of the functions it makes. -/
theorem calls_sim {m : Module} (hm : m.Wf) {outside outside'} (ho : Outside RW outside outside') (n : Nat) :
    Calls RW (Gleam.apply m.funs outside n)
      (Erlang.apply (ErlText.moduleAst (ErlText.erlangModuleName m.name) (tModule m)) outside' n) := by
  induction n with
  | zero =>
    refine ⟨fun v v' vs vs' _ _ => ?_, fun m f n vs vs' _ => ?_⟩ <;>
    · rw [Gleam.apply, Erlang.apply]
      exact MRel.timeout
  | succ n ih =>
    have hname : ∀ k f i j vs vs', VsRel vs vs' →
        MRel RW VRel (Gleam.apply m.funs outside (n + 1) (.fn k f i) vs)
          (Erlang.apply (ErlText.moduleAst (ErlText.erlangModuleName m.name) (tModule m)) outside' (n + 1)
            (.ref (k.map ErlText.erlangModuleName) (escapeName f) j) vs') := by
      intro k f i j vs vs' hvs
      cases k with
      | some k =>
        simp only [Option.map_some, Gleam.apply, Erlang.apply]
        exact ho _ _ ih.value k f vs vs' hvs
      | none =>
        simp only [Option.map_none, Gleam.apply, Erlang.apply]
        cases hfind : m.funs.find? fun g => decide (g.name = f) with
        | none => exact MRel.stuck
        | some g =>
          dsimp only
          have hg := List.mem_of_find?_eq_some hfind
          have hgn : g.name = f := by simpa using List.find?_some hfind
          subst hgn
          cases hb : Gleam.bindParameters g.parameters vs with
          | none => exact MRel.stuck
          | some b =>
            obtain ⟨d, hd, rfl⟩ := List.mem_map.1 hg
            have hw := hm.functions d hd
            have hlen : vs'.length = d.function.parameters.length := by
              rw [← hvs.same_length, params_length hb]
            rw [hlen, definition_found hm hg]
            dsimp only
            have hs0 : Sit [] State.new [] [] := ⟨fun x v hx => by simp at hx, fun x hx => by simp [Erlang.keys] at hx⟩
            have hp : Places [] ((paramVars d.function.parameters).map Prod.snd ++ stmtsLocs d.function.body) :=
              ⟨hw.2.2.2.2, by simp⟩
            obtain ⟨b', h1, h2⟩ := params_sit hw.2.1 hp hs0 hvs hb
            simp only [List.append_nil] at h2
            rw [h1]
            dsimp only
            rw [← M.bind_pure (Gleam.stmts _ b _)]
            have hp2 : Places (paramVars d.function.parameters) (stmtsLocs d.function.body) := by
              have := hp.under
              simpa using this
            apply (stmtsSim ih (context_ok hm hw.1) d.function.body _ _ b b' hw.2.2.2.1 hp2 h2).bind
            rintro v ⟨v', a⟩ ⟨h3, -⟩
            exact MRel.pure h3
    refine ⟨?_, fun k f i vs vs' hvs => hname k f i _ vs vs' hvs⟩
    intro v v' vs vs' hv hvs
    cases hv with
    | int => rw [Gleam.apply] <;> first | exact MRel.stuck | (intros; simp_all)
    | str => rw [Gleam.apply] <;> first | exact MRel.stuck | (intros; simp_all)
    | tuple => rw [Gleam.apply] <;> first | exact MRel.stuck | (intros; simp_all)
    | nil => rw [Gleam.apply] <;> first | exact MRel.stuck | (intros; simp_all)
    | cons => rw [Gleam.apply] <;> first | exact MRel.stuck | (intros; simp_all)
    | enum => rw [Gleam.apply] <;> first | exact MRel.stuck | (intros; simp_all)
    | record => rw [Gleam.apply] <;> first | exact MRel.stuck | (intros; simp_all)
    | fn k f i => exact hname k f i i vs vs' hvs
    | @ctor tag k names env' h1 h2 h3 h4 =>
      rw [Gleam.apply, Erlang.apply]
      by_cases hk : vs.length = k + 1
      case neg => rw [if_neg hk]; exact MRel.stuck
      rw [if_pos hk]
      have hlen : names.length = vs'.length := by rw [h4, ← hvs.same_length, hk]
      rw [bind_all h2 h3 hlen]
      dsimp only
      have hvars := vars_eval (Erlang.apply (ErlText.moduleAst (ErlText.erlangModuleName m.name) (tModule m)) outside' n)
        (env' := names.zip vs' ++ env') hlen fun p hp => lookup_append_of_lookup (zip_lookup h2 hlen p hp)
      simp only [seq_one, Erlang.expr, Erlang.exprs, M.pure_bind, hvars, joined_nil]
      apply MRel.pure
      cases hvs with
      | nil => simp at hk
      | cons h5 h6 => exact VRel.record h1 h5 h6
    | @closure params body env env' c Γ s value h1 h2 h3 h4 h5 h6 =>
      rw [Gleam.apply, Erlang.apply]
      cases hb : Gleam.bindParameters params vs with
      | none => exact MRel.stuck
      | some b =>
        dsimp only
        have hs : Sit Γ s env env' := by
          refine ⟨?_, h4⟩
          intro x v hx
          obtain ⟨l, k, h7, h8, h9⟩ := h5 x v hx
          exact ⟨l, k, value x, h7, h8, h9, h6 x v hx⟩
        simp only [Expr.Wf] at h2
        simp only [Expr.locs] at h3
        obtain ⟨b', h7, h8⟩ := params_sit h2.1 h3 hs hvs hb
        rw [h7]
        dsimp only
        rw [← M.bind_pure (Gleam.stmts _ _ _)]
        apply (stmtsSim ih h1 body _ _ _ _ h2.2.2 h3.under h8).bind
        rintro v ⟨v', a⟩ ⟨h9, -⟩
        exact MRel.pure h9

end

end Verif.ErlGen
