import Verif.JsGen.SameSim

/-!
# Guards
-/

namespace Verif.JsGen

open Verif.ErlGen (Pattern Const Expr Stmt Clause Guard varsAll M Out Match Op)
open Verif.ErlGen.Gleam (Panic)

/-! ### The variables that a guard refers to -/

/-- The variables whose names meet a condition. -/
def keepKeys {β : Type} (p : Text → Bool) (b : List (Text × β)) : List (Text × β) := b.filter fun v => p v.1

theorem lookup_keepKeys {β : Type} (p : Text → Bool) (b : List (Text × β)) (x : Text) :
    (keepKeys p b).lookup x = if p x then b.lookup x else none := by
  unfold keepKeys
  induction b with
  | nil => simp
  | cons v b ih =>
    obtain ⟨y, v⟩ := v
    by_cases hy : p y = true
    · rw [List.filter_cons_of_pos (by simpa using hy), List.lookup_cons, List.lookup_cons, ih]
      by_cases hxy : x = y
      · subst hxy
        simp [hy]
      · have : (x == y) = false := by simp [hxy]
        simp [this]
    · rw [List.filter_cons_of_neg (by simpa using hy), ih, List.lookup_cons]
      by_cases hxy : x = y
      · subst hxy
        simp [hy]
      · have : (x == y) = false := by simp [hxy]
        simp [this]

theorem keys_keepKeys {β : Type} {p : Text → Bool} {b : List (Text × β)} {vs : List (Text × Nat)}
    (h : ∀ x, x ∈ b.map Prod.fst ↔ x ∈ texts vs) (x : Text) :
    x ∈ (keepKeys p b).map Prod.fst ↔ x ∈ texts (vs.filter fun v => p v.1) := by
  have h1 := h x
  simp only [keepKeys, texts, List.mem_map, List.mem_filter] at h1 ⊢
  constructor
  · rintro ⟨v, ⟨hv, hp⟩, rfl⟩
    obtain ⟨w, hw, e⟩ := h1.1 ⟨v, hv, rfl⟩
    exact ⟨w, ⟨hw, by rw [e]; exact hp⟩, e⟩
  · rintro ⟨v, ⟨hv, hp⟩, rfl⟩
    obtain ⟨w, hw, e⟩ := h1.2 ⟨v, hv, rfl⟩
    exact ⟨w, ⟨hw, by rw [e]; exact hp⟩, e⟩

theorem mem_texts_filter {p : Text → Bool} {vs : List (Text × Nat)} {x : Text} :
    x ∈ texts (vs.filter fun v => p v.1) ↔ x ∈ texts vs ∧ p x = true := by
  simp only [texts, List.mem_map, List.mem_filter]
  constructor
  · rintro ⟨v, ⟨hv, hp⟩, rfl⟩
    exact ⟨⟨v, hv, rfl⟩, hp⟩
  · rintro ⟨⟨v, hv, rfl⟩, hp⟩
    exact ⟨v, ⟨hv, hp⟩, rfl⟩

theorem okVars_filter {vs : List (Text × Nat)} (h : okVars vs = true) (p : Text × Nat → Bool) : okVars (vs.filter p) = true := by
  simp only [okVars, distinct, Bool.and_eq_true, decide_eq_true_eq, List.all_eq_true] at h ⊢
  have hs : (texts (vs.filter p)).Sublist (texts vs) := List.Sublist.map _ List.filter_sublist
  exact ⟨h.1.sublist hs, fun x hx => h.2 x (hs.subset hx)⟩

section

variable {single : Text → Bool} {g : List (Text × Nat)} {W W' : Type} {RW : W → W' → Prop}
variable {ap : GValue → List GValue → GRun W GValue} {ap' : Value → List Value → Run W' Value}
variable {c : Context} {last : Bool} {pos : Pos} {σ : Scope} {Γ : List Text} {env : GEnv} {env' : Env} {S : Store}

theorem BRel.keepKeys {b b' : _} (h : BRel single g S b b') (p : Text → Bool) :
    BRel single g S (Verif.JsGen.keepKeys p b) (Verif.JsGen.keepKeys p b') := by
  unfold Verif.JsGen.keepKeys
  induction h with
  | nil => exact .nil
  | cons hv _ ih =>
    rename_i x v v' _ _ _
    by_cases hp : p x = true
    · rw [List.filter_cons_of_pos (by simpa using hp), List.filter_cons_of_pos (by simpa using hp)]
      exact .cons hv ih
    · rw [List.filter_cons_of_neg (by simpa using hp), List.filter_cons_of_neg (by simpa using hp)]
      exact ih

theorem initialiseAll_congr {env1 : Env} {b b' : List (Text × Value)} {vs : List (Text × Name)}
    (h : ∀ v ∈ vs, b.lookup v.1 = b'.lookup v.1) : (initialiseAll env1 b vs : Run W' Unit) = initialiseAll env1 b' vs := by
  induction vs with
  | nil => rfl
  | cons v vs ih =>
    obtain ⟨x, n⟩ := v
    have h1 := h (x, n) (by simp)
    simp only at h1
    simp only [initialiseAll, h1]
    rw [ih fun v hv => h v (by simp [hv])]

/-- Only the variables in scope matter. -/
theorem EnvRel.congr (h : EnvRel single g S c σ Γ env env') {Γ2 : List Text} {env2 : GEnv} (hΓ : ∀ x, x ∈ Γ2 ↔ x ∈ Γ)
    (he : ∀ x ∈ Γ, env2.lookup x = env.lookup x) : EnvRel single g S c σ Γ2 env2 env' where
  vars x hx := by
    have hx1 := (hΓ x).1 hx
    obtain ⟨v, k, l, v', h1, h2⟩ := h.vars x hx1
    exact ⟨v, k, l, v', by rw [he x hx1, h1], h2⟩
  globals f hf hn := h.globals f hf fun hm => hn ((hΓ f).2 hm)
  clean := ⟨fun hm => h.clean.1 ((hΓ _).1 hm), fun hm => h.clean.2 ((hΓ _).1 hm)⟩
  self f ps hfp := ⟨fun hm => (h.self f ps hfp).1 ((hΓ f).1 hm), (h.self f ps hfp).2⟩

/-! ### The value of a guard -/

theorem guard_eval {env1 : Env} {σ1 : Scope} : ∀ (gd : Guard) {v : GValue},
    (∀ x ∈ guardTexts gd, ∃ v, env.lookup x = some v ∧ Holds single g S env1 (σ1.name x) v) →
    ErlGen.Gleam.guard env gd = some v →
    ∃ v', (∀ w : W', eval (texts g) ap' env1 (genGuard σ1 gd) (S, w) = (.val v', S, w)) ∧ VRel single g S v v'
  | .var x l, v, hr, h => by
    simp only [ErlGen.Gleam.guard] at h
    obtain ⟨u, h1, l, v', h2, h3, h4⟩ := hr x (by simp [guardTexts])
    rw [h] at h1
    cases h1
    exact ⟨v', fun w => by simp only [genGuard]; rw [eval, read_eq h2 h3], h4⟩
  | .const k, v, hr, h => by
    simp only [ErlGen.Gleam.guard] at h
    obtain ⟨v', h1, h2⟩ := constant_rel (single := single) (g := g) (S := S) k h
    exact ⟨v', fun w => by simp only [genGuard]; rw [eval, h1]; rfl, h2⟩
  | .block gd, v, hr, h => by
    simp only [ErlGen.Gleam.guard] at h
    exact guard_eval gd hr h
  | .not gd, v, hr, h => by
    simp only [ErlGen.Gleam.guard, Option.map_eq_some_iff, Option.bind_eq_some_iff] at h
    obtain ⟨b, ⟨u, h1, h2⟩, rfl⟩ := h
    obtain ⟨u', h3, h4⟩ := guard_eval gd hr h1
    obtain ⟨rfl, rfl⟩ := h4.isTrue h2
    refine ⟨.bool !b, fun w => ?_, .bool _⟩
    simp only [genGuard]
    rw [eval]
    simp only [M.bind]
    rw [h3]
    rfl
  | .index gd i, v, hr, h => by
    simp only [ErlGen.Gleam.guard] at h
    cases h1 : ErlGen.Gleam.guard env gd with
    | none => simp [h1] at h
    | some u =>
      rw [h1] at h
      obtain ⟨u', h3, h4⟩ := guard_eval gd hr h1
      cases h4 <;> simp only [reduceCtorEq] at h
      rename_i h4
      obtain ⟨v', h5, h6⟩ := h4.get i v h
      refine ⟨v', fun w => ?_, h6⟩
      simp only [genGuard]
      rw [eval]
      simp only [M.bind]
      rw [h3]
      simp only [h5]
      rfl
  | .field gd i, v, hr, h => by
    simp only [ErlGen.Gleam.guard] at h
    cases h1 : ErlGen.Gleam.guard env gd with
    | none => simp [h1] at h
    | some u =>
      rw [h1] at h
      obtain ⟨u', h3, h4⟩ := guard_eval gd hr h1
      cases h4 <;> simp only [reduceCtorEq] at h
      rename_i h4
      obtain ⟨v', h5, h6⟩ := h4.get i v h
      cases h4 with
      | nil => simp at h
      | cons _ _ =>
        refine ⟨v', fun w => ?_, h6⟩
        simp only [genGuard]
        rw [eval]
        simp only [M.bind]
        rw [h3]
        simp only [construct, h5]
        rfl
  | .bin op l r, v, hr, h => by
    have hl := fun {v} => guard_eval (v := v) l fun x hx => hr x (by simp [guardTexts, hx])
    have hrr := fun {v} => guard_eval (v := v) r fun x hx => hr x (by simp [guardTexts, hx])
    by_cases ha : op = .and
    · subst ha
      simp only [ErlGen.Gleam.guard, Option.bind_eq_some_iff] at h
      obtain ⟨b, ⟨u, h1, h2⟩, h3⟩ := h
      obtain ⟨u', h4, h5⟩ := hl h1
      obtain ⟨rfl, rfl⟩ := h5.isTrue h2
      cases b with
      | false =>
        simp only [Bool.false_eq_true, if_false, Option.some.injEq] at h3
        subst h3
        refine ⟨.bool false, fun w => ?_, .bool _⟩
        simp only [genGuard, jsOp]
        rw [eval]
        simp only [M.bind]
        rw [h4]
        rfl
      | true =>
        simp only [if_true, Option.map_eq_some_iff, Option.bind_eq_some_iff] at h3
        obtain ⟨b, ⟨u, h6, h7⟩, rfl⟩ := h3
        obtain ⟨u', h8, h9⟩ := hrr h6
        obtain ⟨rfl, rfl⟩ := h9.isTrue h7
        refine ⟨.bool b, fun w => ?_, .bool _⟩
        simp only [genGuard, jsOp]
        rw [eval]
        simp only [M.bind]
        rw [h4]
        exact h8 w
    · by_cases ho : op = .or
      · subst ho
        simp only [ErlGen.Gleam.guard, Option.bind_eq_some_iff] at h
        obtain ⟨b, ⟨u, h1, h2⟩, h3⟩ := h
        obtain ⟨u', h4, h5⟩ := hl h1
        obtain ⟨rfl, rfl⟩ := h5.isTrue h2
        cases b with
        | true =>
          simp only [if_true, Option.some.injEq] at h3
          subst h3
          refine ⟨.bool true, fun w => ?_, .bool _⟩
          simp only [genGuard, jsOp]
          rw [eval]
          simp only [M.bind]
          rw [h4]
          rfl
        | false =>
          simp only [Bool.false_eq_true, if_false, Option.map_eq_some_iff, Option.bind_eq_some_iff] at h3
          obtain ⟨b, ⟨u, h6, h7⟩, rfl⟩ := h3
          obtain ⟨u', h8, h9⟩ := hrr h6
          obtain ⟨rfl, rfl⟩ := h9.isTrue h7
          refine ⟨.bool b, fun w => ?_, .bool _⟩
          simp only [genGuard, jsOp]
          rw [eval]
          simp only [M.bind]
          rw [h4]
          exact h8 w
      · have he : ErlGen.Gleam.guard env (.bin op l r) =
            match ErlGen.Gleam.guard env l, ErlGen.Gleam.guard env r with
            | some a, some b => ErlGen.Gleam.binary op a b
            | _, _ => none := by
          cases op <;> first | (exact absurd rfl ha) | (exact absurd rfl ho) | rfl
        rw [he] at h
        cases h1 : ErlGen.Gleam.guard env l with
        | none => simp [h1] at h
        | some a =>
          cases h2 : ErlGen.Gleam.guard env r with
          | none => simp [h1, h2] at h
          | some b =>
            simp only [h1, h2] at h
            obtain ⟨a', h3, h4⟩ := hl h1
            obtain ⟨b', h5, h6⟩ := hrr h2
            obtain ⟨r', h7, h8⟩ := binary_rel h4 h6 h
            refine ⟨r', fun w => ?_, h8⟩
            simp only [genGuard]
            have hev : eval (texts g) ap' env1 (.bin (jsOp op) (genGuard σ1 l) (genGuard σ1 r)) =
                (eval (texts g) ap' env1 (genGuard σ1 l)).bind fun v => (eval (texts g) ap' env1 (genGuard σ1 r)).bind fun w =>
                  M.ofOption ((jsOp op).run v w) := by
              cases op <;> first | (exact absurd rfl ha) | (exact absurd rfl ho) | (simp only [jsOp]; rw [eval] <;> (intro h; cases h))
            rw [hev]
            simp only [M.bind]
            rw [h3]
            simp only
            rw [h5]
            simp only [h7]
            rfl

/-! ### Variables that are declared before a guard -/

/-- `if` of a clause with a guard: the variables that the guard refers to, and the guard. -/
def guardTest (globals : List Text) (ap' : Value → List Value → Run W' Value) (env' : Env) (before : List (Text × Name)) (e : Exp)
    (b : List (Text × Value)) : Run W' (Option Env) :=
  (declare .uninit (before.map (·.2)) env').bind fun env =>
    (initialiseAll env b before).bind fun _ => (eval globals ap' env e).bind fun v => passes env v

theorem test_vars (hr : EnvRel single g S c σ Γ env env') {vars : List (Text × Nat)} (hok : okVars vars = true)
    {b : List (Text × GValue)} {b' : List (Text × Value)} (hb : BRel single g S b b') (hkeys : ∀ x, x ∈ b.map Prod.fst ↔ x ∈ texts vars) :
    ∃ S' env1, (∀ (k : Env → Run W' (Option Env)) (w : W'), ((declare .uninit ((σ.binds vars).1.map (·.2)) env').bind fun env =>
        (initialiseAll env b' (σ.binds vars).1).bind fun _ => k env) (S, w) = k env1 (S', w)) ∧
      Frame NoCells S S' ∧ EnvRel single g S' c (σ.binds vars).2 (texts vars ++ Γ) (b ++ env) env1 ∧
      ∀ n, Old σ n → env1.lookup n = env'.lookup n := by
  have hgr := Grow.binds σ vars
  have hn := hgr.nodup
  have hD : ∀ d ∈ (σ.binds vars).1.map (·.2), ¬Old σ d := fun d hd => (hgr.new d hd).1
  have hd := ready_declare hn env' S
  have hr1 := hr.declare hD S.length
  have hfr : Frame NoCells S (S ++ ((σ.binds vars).1.map (·.2)).map fun _ => Cell.uninit) := Frame.append NoCells S _
  have hr1 := hr1.keep hfr.keep
  obtain ⟨S2, h1, h2, h3⟩ := write_binds (W' := W') (write := fun n v => initialise (bindNames ((σ.binds vars).1.map (·.2)) S.length env') n (.val v))
    (cell := .uninit) (fun v h => by cases h) (fun n l v S w hl _ => initialise_eq hl _ S w) (σ := σ) (vs := vars) hd.alike (hb.keep hfr.keep) hkeys
  refine ⟨S2, bindNames ((σ.binds vars).1.map (·.2)) S.length env', fun k w => ?_, ?_, (hr1.keep h2.keep).binds hok hkeys h3, fun n ho => ?_⟩
  · simp only [M.bind]
    rw [declare_eq]
    simp only
    rw [initialiseAll_eq, h1]
  · refine hfr.trans (h2.mono (L' := fun l => S.length ≤ l) fun l _ hl => cells_declare hn hl) fun l hl hge => ?_
    exact absurd hge (Nat.not_le.2 hl)
  · exact lookup_bindNames_of_not_mem fun hm => hD _ hm ho

theorem Holds.move {n : Name} {v : GValue} {S' : Store} {env1 : Env} (h : Holds single g S env' n v) (hk : Keep S S')
    (hlk : env1.lookup n = env'.lookup n) : Holds single g S' env1 n v := by
  obtain ⟨l, v', h1, h2, h3⟩ := h
  exact ⟨l, v', hlk.trans h1, hk l v' h2, h3.keep hk⟩

/-- What is known after a guard. -/
structure Passed (single : Text → Bool) (g : List (Text × Nat)) (c : Context) (σ : Scope) (Γ : List Text) (env : GEnv) (env' : Env)
    (gd : Guard) (vars : List (Text × Nat)) (S S' : Store) (b : List (Text × GValue)) (b' : List (Text × Value)) (env1 : Env) : Prop where
  frame : Frame NoCells S S'
  rel : BRel single g S' b b'
  keys : ∀ x, x ∈ b.map Prod.fst ↔ x ∈ texts vars
  vars : EnvRel single g S' c (σ.binds (guardVars gd vars)).2 (texts (guardVars gd vars) ++ Γ)
    (keepKeys (fun x => decide (x ∈ guardTexts gd)) b ++ env) env1
  old : ∀ n, Old σ n → env1.lookup n = env'.lookup n

/-- One alternative. -/
theorem test_spec {gd : Guard} {vars : List (Text × Nat)} (hgd : okGuard (texts vars ++ Γ) (some gd) = true) (hok : okVars vars = true)
    (hr : EnvRel single g S c σ Γ env env') {b : List (Text × GValue)} {b' : List (Text × Value)} (hb : BRel single g S b b')
    (hkeys : ∀ x, x ∈ b.map Prod.fst ↔ x ∈ texts vars) {t : Bool} (ht : ErlGen.Gleam.holds (b ++ env) (some gd) = some t) :
    ∃ S' env1, (∀ w : W', guardTest (texts g) ap' env' (σ.binds (guardVars gd vars)).1 (genGuard (σ.binds (guardVars gd vars)).2 gd) b' (S, w) =
        (.val (if t then some env1 else none), S', w)) ∧ Passed single g c σ Γ env env' gd vars S S' b b' env1 := by
  have hb1 := hb.keepKeys fun x => decide (x ∈ guardTexts gd)
  have hk1 := keys_keepKeys (p := fun x => decide (x ∈ guardTexts gd)) hkeys
  obtain ⟨S', env1, h1, h2, h3, h4⟩ := test_vars (W' := W') hr (vars := guardVars gd vars) (okVars_filter hok _) hb1 hk1
  have hlook : ∀ x ∈ guardTexts gd, (b ++ env).lookup x = (keepKeys (fun x => decide (x ∈ guardTexts gd)) b ++ env).lookup x := by
    intro x hx
    by_cases hm : x ∈ b.map Prod.fst
    · obtain ⟨v, hv⟩ := ErlGen.lookup_of_key hm
      have hv' : (keepKeys (fun x => decide (x ∈ guardTexts gd)) b).lookup x = some v := by
        rw [lookup_keepKeys]
        simp [hx, hv]
      rw [ErlGen.lookup_some_append hv, ErlGen.lookup_some_append hv']
    · have hm' : x ∉ (keepKeys (fun x => decide (x ∈ guardTexts gd)) b).map Prod.fst := fun h =>
        hm ((hkeys x).2 (mem_texts_filter (p := fun x => decide (x ∈ guardTexts gd)).1 ((hk1 x).1 h)).1)
      rw [ErlGen.lookup_none_append hm, ErlGen.lookup_none_append hm']
  simp only [ErlGen.Gleam.holds, Option.bind_eq_some_iff] at ht
  obtain ⟨v, h5, h6⟩ := ht
  obtain ⟨v', h7, h8⟩ := guard_eval (ap' := ap') (W' := W') (env1 := env1) (σ1 := (σ.binds (guardVars gd vars)).2) (S := S') (single := single) (g := g)
    gd (fun x hx => by
      simp only [okGuard, List.all_eq_true, decide_eq_true_eq] at hgd
      have hx1 : x ∈ texts (guardVars gd vars) ++ Γ := by
        rcases List.mem_append.1 (hgd x hx) with h | h
        · exact List.mem_append_left _ (mem_texts_filter (p := fun x => decide (x ∈ guardTexts gd)).2 ⟨h, by simpa using hx⟩)
        · exact List.mem_append_right _ h
      obtain ⟨u, k, l, u', e1, e2, e3, e4, e5⟩ := h3.vars x hx1
      refine ⟨u, by rw [hlook x hx, e1], l, u', ?_, e4, e5⟩
      simp only [Scope.name, e2, Option.getD_some]
      exact e3) h5
  obtain ⟨rfl, rfl⟩ := h8.isTrue h6
  refine ⟨S', env1, fun w => ?_, ⟨h2, hb.keep h2.keep, hkeys, h3, h4⟩⟩
  unfold guardTest
  rw [show (fun env => (initialiseAll env b' (σ.binds (guardVars gd vars)).1).bind fun _ =>
      (eval (texts g) ap' env (genGuard (σ.binds (guardVars gd vars)).2 gd)).bind fun v => (passes env v : Run W' (Option Env))) =
    fun env => (initialiseAll env (keepKeys (fun x => decide (x ∈ guardTexts gd)) b') (σ.binds (guardVars gd vars)).1).bind fun _ =>
      (eval (texts g) ap' env (genGuard (σ.binds (guardVars gd vars)).2 gd)).bind fun v => passes env v from ?_, h1]
  · simp only [M.bind]
    rw [h7]
    cases t <;> rfl
  · funext env2
    rw [initialiseAll_congr]
    intro p hp
    have hm := List.mem_map_of_mem (f := (·.1)) hp
    rw [σ.binds_texts] at hm
    have hm := (mem_texts_filter (p := fun x => decide (x ∈ guardTexts gd)).1 hm).2
    simp only [decide_eq_true_eq] at hm
    rw [lookup_keepKeys]
    simp [hm]

/-- All alternatives. -/
theorem tryEach_spec {gd : Guard} {vars : List (Text × Nat)} (hgd : okGuard (texts vars ++ Γ) (some gd) = true) (hok : okVars vars = true)
    {vs : List GValue} {vs' : List Value} : ∀ (alts : List (List Pattern)) {S : Store},
    (∀ qs ∈ alts, ∀ x, x ∈ texts (varsAll qs) ↔ x ∈ texts vars) → EnvRel single g S c σ Γ env env' → VsRel single g S vs vs' →
    match ErlGen.Gleam.choose env (some gd) alts vs with
    | .bad => True
    | .no => ∃ S', (∀ w : W', tryEach (guardTest (texts g) ap' env' (σ.binds (guardVars gd vars)).1
        (genGuard (σ.binds (guardVars gd vars)).2 gd)) alts vs' (S, w) = (.val none, S', w)) ∧ Frame NoCells S S'
    | .yes b => ∃ S' b' env1, (∀ w : W', tryEach (guardTest (texts g) ap' env' (σ.binds (guardVars gd vars)).1
        (genGuard (σ.binds (guardVars gd vars)).2 gd)) alts vs' (S, w) = (.val (some (b', env1)), S', w)) ∧
        Passed single g c σ Γ env env' gd vars S S' b b' env1 ∧ ∃ qs ∈ alts, ErlGen.Gleam.Pattern.runAll qs vs = .yes b
  | [], S, _, _, _ => ⟨S, fun _ => rfl, .refl _ _⟩
  | ps :: alts, S, halts, hr, hv => by
    have ih := fun {S : Store} => tryEach_spec hgd hok (vs := vs) (vs' := vs') alts (S := S) fun qs hq => halts qs (by simp [hq])
    simp only [ErlGen.Gleam.choose, tryEach, hv.length]
    by_cases hl : ps.length = vs'.length
    · rw [if_pos hl]
      simp only [if_pos hl]
      have hch := checkAll_rel ps hv
      cases hrun : ErlGen.Gleam.Pattern.runAll ps vs with
      | bad => trivial
      | no =>
        rw [hrun] at hch
        have hch : checkAll ps vs' = .no := hch
        simp only [hch]
        have := ih hr hv
        cases hc : ErlGen.Gleam.choose env (some gd) alts vs with
        | bad => trivial
        | no =>
          rw [hc] at this
          exact this
        | yes b =>
          rw [hc] at this
          obtain ⟨S', b', env1, h1, h2, qs, h3, h4⟩ := this
          exact ⟨S', b', env1, h1, h2, qs, by simp [h3], h4⟩
      | yes b =>
        rw [hrun] at hch
        obtain ⟨b', hch, hb⟩ := hch
        simp only [hch]
        have hkeys : ∀ x, x ∈ b.map Prod.fst ↔ x ∈ texts vars := by
          intro x
          have : b.map Prod.fst = texts (varsAll ps) := ErlGen.runAll_keys ps hrun
          rw [this]
          exact halts ps (by simp) x
        cases ht : ErlGen.Gleam.holds (b ++ env) (some gd) with
        | none => trivial
        | some t =>
          obtain ⟨S1, env1, h1, h2⟩ := test_spec (W' := W') (ap' := ap') hgd hok hr hb hkeys ht
          cases t with
          | true =>
            refine ⟨S1, b', env1, fun w => ?_, h2, ps, by simp, hrun⟩
            simp only [M.bind]
            rw [h1]
            rfl
          | false =>
            have := ih (hr.keep h2.frame.keep) (hv.keep h2.frame.keep)
            simp only
            cases hc : ErlGen.Gleam.choose env (some gd) alts vs with
            | bad => trivial
            | no =>
              rw [hc] at this
              obtain ⟨S', h3, h4⟩ := this
              refine ⟨S', fun w => ?_, h2.frame.trans h4 fun _ _ h => h⟩
              simp only [M.bind]
              rw [h1]
              exact h3 w
            | yes b2 =>
              rw [hc] at this
              obtain ⟨S', b2', env2, h3, h4, qs, h5, h6⟩ := this
              refine ⟨S', b2', env2, fun w => ?_, ⟨h2.frame.trans h4.frame fun _ _ h => h, h4.rel, h4.keys, h4.vars, h4.old⟩, qs, by simp [h5], h6⟩
              simp only [M.bind]
              rw [h1]
              exact h3 w
    · rw [if_neg hl]
      trivial

/-! ### Leaving a scope -/

theorem Target.move {S' : Store} {env1 : Env} {σ1 : Scope} (ht : Target S env' σ pos) (hf : Frame NoCells S S')
    (hlk : ∀ n, Old σ n → env1.lookup n = env'.lookup n) (hσ : ∀ x, σ.fresh x ≤ σ1.fresh x) : Target S' env1 σ1 pos := by
  cases pos with
  | assign b =>
    obtain ⟨h1, l, h2, h3⟩ := ht
    exact ⟨h1.mono hσ, l, (hlk b h1).trans h2, by rw [hf.same l (lt_of_cell h3) id, h3]⟩
  | _ => trivial

theorem LoopReady.move {S' : Store} {env1 : Env} (h : LoopReady S env' c) (hf : Frame NoCells S S')
    (hlk : ∀ n, Old σ n → env1.lookup n = env'.lookup n) : LoopReady S' env1 c := by
  intro f ps hfp
  obtain ⟨h1, h2, h3⟩ := h f ps hfp
  refine ⟨h1, fun x hx => ?_, fun x hx y hy l => ?_⟩
  · obtain ⟨l, v, h4, h5⟩ := h2 x hx
    exact ⟨l, v, (hlk (.loop x) trivial).trans h4, by rw [hf.same l (lt_of_cell h5) id, h5]⟩
  · rw [hlk (.loop x) trivial, hlk (.loop y) trivial]
    exact h3 x hx y hy l

/-- Statements with more variables, which have other names. -/
theorem leave_tsim {S' : Store} {env1 : Env} {m : GRun W GValue} {m' k : Run W' Completion} {looped : Bool} (ht : Target S env' σ pos)
    (hlk : ∀ n, Old σ n → env1.lookup n = env'.lookup n) (hf : Frame NoCells S S') (hm : ∀ w', m' (S, w') = k (S', w'))
    (h : TSim RW (Calls single g ap c last env1 looped) (Writes c last pos env1 []) S' (Give single g pos env1) m k) :
    TSim RW (Calls single g ap c last env' looped) (Writes c last pos env' []) S (Give single g pos env') m m' := by
  have hpos : ∀ b, pos = .assign b → Old σ b := by
    rintro b rfl
    exact ht.1
  refine TSim.step (L' := Writes c last pos env1 []) (S' := S') (k := k) hm (hf.mono fun _ _ h => h.elim) (fun l hl hw => ?_) ?_
  · rcases hw with hw | ⟨b, h1, h2⟩ | ⟨h1, h2, x, h3⟩
    · exact absurd hw not_cells_nil
    · exact .inr (.inl ⟨b, h1, by rw [← hlk b (hpos b h1), h2]⟩)
    · exact .inr (.inr ⟨h1, h2, x, by rw [← hlk (.loop x) trivial, h3]⟩)
  · refine h.mono (fun _ _ h => h) (fun S2 v c' _ hg => ?_) fun w1 S1 o hC => ?_
    · cases pos with
      | tail => exact hg
      | stmt => exact hg
      | assign b =>
        obtain ⟨h1, l, v', h2, h3⟩ := hg
        exact ⟨h1, l, v', by rw [← hlk b (hpos b rfl), h2], h3⟩
    · obtain ⟨h1, h2, f, ps, n, vs, vs', h3, h4, h5, h6⟩ := hC
      exact ⟨h1, h2, f, ps, n, vs, vs', h3, h4, h5, h6.rename fun x => hlk (.loop x) trivial⟩

end

end Verif.JsGen
