import Verif.JsGen.LetSim

/-!
# Statements and the variables of patterns
-/

namespace Verif.JsGen

open Verif.ErlGen (Pattern Const Expr Stmt Clause varsAll M Out Match Op)
open Verif.ErlGen.Gleam (Panic)
open Spec (SameError)

/-! ### Writing the variables of a pattern -/

section

variable {W : Type}

/-- Writing to cells that are all alike. -/
def writeAll (write : Name → Value → Run W Unit) (b : List (Text × Value)) : List (Text × Name) → Run W Unit
  | [] => M.pure ()
  | (x, n) :: vs =>
    match b.lookup x with
    | some v => (write n v).bind fun _ => writeAll write b vs
    | none => M.stuck

theorem initialiseAll_eq (env : Env) (b : List (Text × Value)) (vs : List (Text × Name)) :
    (initialiseAll env b vs : Run W Unit) = writeAll (fun n v => initialise env n (.val v)) b vs := by
  induction vs with
  | nil => rfl
  | cons p vs ih =>
    obtain ⟨x, n⟩ := p
    simp only [initialiseAll, writeAll, ih]
    cases b.lookup x <;> rfl

theorem assignAll_eq (env : Env) (b : List (Text × Value)) (vs : List (Text × Name)) :
    (assignAll env b vs : Run W Unit) = writeAll (assign env) b vs := by
  induction vs with
  | nil => rfl
  | cons p vs ih =>
    obtain ⟨x, n⟩ := p
    simp only [assignAll, writeAll, ih]
    cases b.lookup x <;> rfl

/-- Names with cells of their own that are all alike. -/
structure Alike (c : Cell) (S : Store) (env : Env) (D : List Name) : Prop where
  cells : ∀ d ∈ D, ∃ l, env.lookup d = some l ∧ S[l]? = some c
  inj : ∀ d ∈ D, ∀ d' ∈ D, ∀ l, env.lookup d = some l → env.lookup d' = some l → d = d'

theorem Ready.alike {S : Store} {env : Env} {D : List Name} (h : Ready S env D) : Alike .uninit S env D := ⟨h.cells, h.inj⟩

/-- After a cell was written. -/
theorem Alike.set {c : Cell} {S : Store} {env : Env} {n : Name} {D : List Name} (h : Alike c S env (n :: D)) (hn : n ∉ D) {l : Loc}
    (hl : env.lookup n = some l) (c' : Cell) : Alike c (S.set l c') env D where
  cells d hd := by
    obtain ⟨l', h1, h2⟩ := h.cells d (by simp [hd])
    refine ⟨l', h1, ?_⟩
    rw [List.getElem?_set_ne, h2]
    rintro rfl
    have := h.inj d (by simp [hd]) n (by simp) l h1 hl
    exact hn (this ▸ hd)
  inj d hd d' hd' := h.inj d (by simp [hd]) d' (by simp [hd'])

theorem Alike.not_cells {c : Cell} {S : Store} {env : Env} {n : Name} {D : List Name} (h : Alike c S env (n :: D)) (hn : n ∉ D) {l : Loc}
    (hl : env.lookup n = some l) : ¬Cells env D l := by
  rintro ⟨d, hd, h1⟩
  have := h.inj d (by simp [hd]) n (by simp) l h1 hl
  exact hn (this ▸ hd)

theorem writeAll_spec {write : Name → Value → Run W Unit} {c : Cell} {env : Env} {b : List (Text × Value)} (hc : ∀ v, c ≠ .val v)
    (hw : ∀ n l v S w, env.lookup n = some l → S[l]? = some c → write n v (S, w) = (.val (), S.set l (.val v), w))
    (vs : List (Text × Name)) (S : Store) (h : Alike c S env (vs.map (·.2))) (hn : (vs.map (·.2)).Nodup)
    (hb : ∀ p ∈ vs, ∃ v, b.lookup p.1 = some v) :
    ∃ S', (∀ w, writeAll write b vs (S, w) = (.val (), S', w)) ∧ Frame (Cells env (vs.map (·.2))) S S' ∧
      ∀ p ∈ vs, ∃ l v, env.lookup p.2 = some l ∧ S'[l]? = some (.val v) ∧ b.lookup p.1 = some v := by
  induction vs generalizing S with
  | nil => exact ⟨S, fun _ => rfl, .refl _ _, fun _ h => by simp at h⟩
  | cons p vs ih =>
    obtain ⟨x, n⟩ := p
    simp only [List.map_cons, List.nodup_cons] at h hn
    obtain ⟨l, h1, h2⟩ := h.cells n (by simp)
    obtain ⟨v, hv⟩ := hb (x, n) (by simp)
    simp only at hv
    obtain ⟨S', h3, h4, h5⟩ := ih (S.set l (.val v)) (h.set hn.1 h1 _) hn.2 fun p hp => hb p (by simp [hp])
    have hfr : Frame (Cells env (((x, n) :: vs).map (·.2))) S (S.set l (.val v)) :=
      Frame.set ⟨n, by simp, h1⟩ (fun u hu => by rw [h2] at hu; exact hc u (by simpa using hu))
    have hset : (S.set l (.val v))[l]? = some (.val v) := by rw [List.getElem?_set_self (lt_of_cell h2)]
    refine ⟨S', fun w => ?_, hfr.trans h4 fun l' _ hl' => hl'.mono (by simp +contextual), fun p hp => ?_⟩
    · simp only [writeAll, hv, M.bind]
      rw [hw n l v S w h1 h2]
      exact h3 w
    · rcases List.mem_cons.1 hp with rfl | hp
      · exact ⟨l, v, h1, h4.keep l v hset, hv⟩
      · exact h5 p hp

theorem letUninit_spec {globals : List Text} {ap' : Value → List Value → Run W Value} {env : Env} (vs : List (Text × Name)) (S : Store)
    (h : Ready S env (vs.map (·.2))) (hn : (vs.map (·.2)).Nodup) :
    ∃ S', (∀ w, exec globals ap' env (vs.map fun v => .letUninit v.2) (S, w) = (.val .normal, S', w)) ∧
      Frame (Cells env (vs.map (·.2))) S S' ∧ Alike .declared S' env (vs.map (·.2)) := by
  have key : ∀ (vs : List (Text × Name)) (S : Store), Alike .uninit S env (vs.map (·.2)) → (vs.map (·.2)).Nodup →
    ∃ S', (∀ w, exec globals ap' env (vs.map fun v => .letUninit v.2) (S, w) = (.val .normal, S', w)) ∧
      Frame (Cells env (vs.map (·.2))) S S' ∧ Alike .declared S' env (vs.map (·.2)) := by
    intro vs
    induction vs with
    | nil => exact fun S _ _ => ⟨S, fun _ => by simp only [List.map_nil]; rw [exec_nil]; rfl, .refl _ _, ⟨fun _ h => by simp at h, fun _ h => by simp at h⟩⟩
    | cons p vs ih =>
      intro S h hn
      obtain ⟨x, n⟩ := p
      simp only [List.map_cons, List.nodup_cons] at h hn
      obtain ⟨l, h1, h2⟩ := h.cells n (by simp)
      obtain ⟨S', h3, h4, h5⟩ := ih (S.set l .declared) (h.set hn.1 h1 _) hn.2
      have hfr : Frame (Cells env (((x, n) :: vs).map (·.2))) S (S.set l .declared) :=
        Frame.set ⟨n, by simp, h1⟩ (fun u hu => by rw [h2] at hu; cases hu)
      have hset : (S.set l .declared)[l]? = some .declared := by rw [List.getElem?_set_self (lt_of_cell h2)]
      have hnot := h.not_cells hn.1 h1
      refine ⟨S', fun w => ?_, hfr.trans h4 fun l' _ hl' => hl'.mono (by simp +contextual), ⟨fun d hd => ?_, h.inj⟩⟩
      · simp only [List.map_cons]
        rw [exec_cons, step]
        simp only [M.bind]
        rw [initialise_eq h1]
        exact h3 w
      · rcases List.mem_cons.1 hd with rfl | hd
        · exact ⟨l, h1, by rw [h4.same l (lt_of_cell hset) hnot, hset]⟩
        · exact h5.cells d hd
  exact key vs S h.alike hn

end

section

variable {single : Text → Bool} {g : List (Text × Nat)} {W W' : Type} {RW : W → W' → Prop}
variable {ap : GValue → List GValue → GRun W GValue} {ap' : Value → List Value → Run W' Value}
variable {c : Context} {last : Bool} {pos : Pos} {σ : Scope} {Γ : List Text} {env : GEnv} {env' : Env} {S : Store}

/-- The variables of a pattern are in scope. -/
theorem EnvRel.binds (hr : EnvRel single g S c σ Γ env env') {vs : List (Text × Nat)} (hok : okVars vs = true)
    {b : List (Text × GValue)} (hkeys : ∀ x, x ∈ b.map Prod.fst ↔ x ∈ texts vs)
    (hb : ∀ p ∈ (σ.binds vs).1, ∃ v, b.lookup p.1 = some v ∧ Holds single g S env' p.2 v) :
    EnvRel single g S c (σ.binds vs).2 (texts vs ++ Γ) (b ++ env) env' := by
  simp only [okVars, distinct, Bool.and_eq_true, decide_eq_true_eq, List.all_eq_true, Bool.not_eq_true'] at hok
  obtain ⟨hn, hs⟩ := hok
  have hnew : ∀ x ∈ texts vs, ∃ v k, b.lookup x = some v ∧ (σ.binds vs).2.counter x = some k ∧ σ.fresh x = k ∧
      Holds single g S env' (.var x k) v := by
    intro x hx
    rw [← σ.binds_texts vs, List.mem_map] at hx
    obtain ⟨⟨y, n⟩, hp, rfl⟩ := hx
    obtain ⟨v, h1, h2⟩ := hb _ hp
    obtain ⟨k, rfl, h3, h4⟩ := σ.binds_spec vs hn hp
    exact ⟨v, k, h1, h3, h4, h2⟩
  refine ⟨fun x hx => ?_, fun f hf hnot => ?_, ?_, fun f ps hfp => ?_⟩
  · by_cases hx' : x ∈ texts vs
    · obtain ⟨v, k, h1, h2, h3, l, v', h4, h5, h6⟩ := hnew x hx'
      exact ⟨v, k, l, v', ErlGen.lookup_some_append h1 env, h2, h4, h5, h6⟩
    · have hx1 : x ∈ Γ := by
        rcases List.mem_append.1 hx with h | h
        · exact absurd h hx'
        · exact h
      obtain ⟨v, k, l, v', h1, h2, h3⟩ := hr.vars x hx1
      exact ⟨v, k, l, v', by rw [ErlGen.lookup_none_append (fun h => hx' ((hkeys x).1 h)), h1],
        by rw [σ.counter_binds_of_not_mem vs hx', h2], h3⟩
  · simp only [List.mem_append, not_or] at hnot
    obtain ⟨h1, h2⟩ := hr.globals f hf hnot.2
    exact ⟨by rw [σ.counter_binds_of_not_mem vs hnot.1, h1], h2⟩
  · simp only [List.mem_append, not_or]
    refine ⟨⟨fun h => ?_, hr.clean.1⟩, ⟨fun h => ?_, hr.clean.2⟩⟩
    · have := hs _ h
      revert this
      decide
    · have := hs _ h
      revert this
      decide
  · obtain ⟨h1, h2⟩ := hr.self f ps hfp
    refine ⟨fun hm => ?_, h2⟩
    by_cases hf : f ∈ texts vs
    · obtain ⟨v, k, _, h3, h4, _⟩ := hnew f hf
      rw [h3]
      intro h5
      have h5 : k = 0 := by simpa using h5
      have hmem : f ∈ texts g := by
        unfold texts
        exact List.mem_map_of_mem (f := (·.1)) h2
      by_cases hfΓ : f ∈ Γ
      · obtain ⟨_, k', _, _, _, e, _⟩ := hr.vars f hfΓ
        simp only [Scope.fresh, e, succ] at h4
        omega
      · have := (hr.globals f hmem hfΓ).1
        simp only [Scope.fresh, this, succ] at h4
        omega
    · rw [σ.counter_binds_of_not_mem vs hf]
      refine h1 ?_
      rcases List.mem_append.1 hm with h | h
      · exact absurd h hf
      · exact h

/-- The variables of a pattern that matched are written. -/
theorem write_binds {write : Name → Value → Run W' Unit} {cell : Cell} (hcell : ∀ v, cell ≠ .val v)
    (hw : ∀ n l v S (w : W'), env'.lookup n = some l → S[l]? = some cell → write n v (S, w) = (.val (), S.set l (.val v), w))
    {vs : List (Text × Nat)} (h : Alike cell S env' ((σ.binds vs).1.map (·.2)))
    {b : List (Text × GValue)} {b' : List (Text × Value)} (hb : BRel single g S b b') (hkeys : ∀ x, x ∈ b.map Prod.fst ↔ x ∈ texts vs) :
    ∃ S', (∀ w, writeAll write b' (σ.binds vs).1 (S, w) = (.val (), S', w)) ∧ Frame (Cells env' ((σ.binds vs).1.map (·.2))) S S' ∧
      ∀ p ∈ (σ.binds vs).1, ∃ v, b.lookup p.1 = some v ∧ Holds single g S' env' p.2 v := by
  have hlook : ∀ p ∈ (σ.binds vs).1, ∃ v, b.lookup p.1 = some v := by
    intro p hp
    refine ErlGen.lookup_of_key ((hkeys p.1).2 ?_)
    rw [← σ.binds_texts vs]
    exact List.mem_map_of_mem hp
  obtain ⟨S', h1, h2, h3⟩ := writeAll_spec (b := b') hcell hw (σ.binds vs).1 S h (Grow.binds σ vs).nodup fun p hp => by
    obtain ⟨v, hv⟩ := hlook p hp
    obtain ⟨v', hv', _⟩ := hb.lookup hv
    exact ⟨v', hv'⟩
  refine ⟨S', h1, h2, fun p hp => ?_⟩
  obtain ⟨v, hv⟩ := hlook p hp
  obtain ⟨v', hv', hr⟩ := hb.lookup hv
  obtain ⟨l, u, h4, h5, h6⟩ := h3 p hp
  rw [hv'] at h6
  cases h6
  exact ⟨v, hv, l, v', h4, h5, hr.keep h2.keep⟩

/-! ### Statements that have others after them -/

/-- The variables after a `let`. -/
def letM (ap : GValue → List GValue → GRun W GValue) (env : GEnv) (p : Pattern) (e : Expr) : GRun W (GValue × List (Text × GValue)) :=
  (ErlGen.Gleam.expr ap env e).bind fun v =>
    match ErlGen.Gleam.Pattern.run p v with
    | .yes b => M.pure (v, b)
    | _ => M.stuck

def messageM {α : Type} (ap : GValue → List GValue → GRun W GValue) (env : GEnv) (info : ErlGen.AssertInfo) (v : GValue) : Option Expr → GRun W α
  | none => M.error ⟨.letAssert, (ErlGen.Gleam.ErrorKind.message .letAssert).toList, info.line, some (v, info)⟩
  | some m => (ErlGen.Gleam.expr ap env m).bind fun w => ErlGen.Gleam.panicWith .letAssert info.line (some (v, info)) w

def assertM (ap : GValue → List GValue → GRun W GValue) (env : GEnv) (p : Pattern) (e : Expr) (info : ErlGen.AssertInfo)
    (message : Option Expr) : GRun W (GValue × List (Text × GValue)) :=
  (ErlGen.Gleam.expr ap env e).bind fun v =>
    match ErlGen.Gleam.Pattern.run p v with
    | .yes b => M.pure (v, b)
    | .no => messageM ap env info v message
    | .bad => M.stuck

theorem stmts_let_one {p : Pattern} {e : Expr} :
    ErlGen.Gleam.stmts ap env [.let_ p e] = (letM ap env p e).bind fun r => M.pure r.1 := by
  simp only [ErlGen.Gleam.stmts, letM]
  rw [bind_assoc]
  congr 1
  funext v
  cases ErlGen.Gleam.Pattern.run p v <;> rfl

theorem stmts_let {p : Pattern} {e : Expr} {s : Stmt} {ss : List Stmt} :
    ErlGen.Gleam.stmts ap env (.let_ p e :: s :: ss) = (letM ap env p e).bind fun r => ErlGen.Gleam.stmts ap (r.2 ++ env) (s :: ss) := by
  simp only [ErlGen.Gleam.stmts, letM]
  rw [bind_assoc]
  congr 1
  funext v
  cases ErlGen.Gleam.Pattern.run p v <;> rfl

theorem panicWith_bind {α β : Type} (kind : ErlGen.ErrorKind) (line : Nat) (a : Option (GValue × ErlGen.AssertInfo)) (v : GValue)
    (f : α → GRun W β) : (ErlGen.Gleam.panicWith kind line a v : GRun W α).bind f = ErlGen.Gleam.panicWith kind line a v := by
  cases v <;> rfl

theorem messageM_bind {α β : Type} {info : ErlGen.AssertInfo} {v : GValue} {message : Option Expr} (f : α → GRun W β) :
    (messageM ap env info v message : GRun W α).bind f = messageM ap env info v message := by
  cases message with
  | none => rfl
  | some m =>
    simp only [messageM]
    rw [bind_assoc]
    congr 1
    funext w
    exact panicWith_bind ..

theorem bind_congr {α β : Type} {m : GRun W α} {f f' : α → GRun W β} (h : ∀ a, f a = f' a) : m.bind f = m.bind f' := by
  rw [funext h]

theorem stmts_assert_one {p : Pattern} {e : Expr} {info : ErlGen.AssertInfo} {message : Option Expr} :
    ErlGen.Gleam.stmts ap env [.letAssert p e info message] = (assertM ap env p e info message).bind fun r => M.pure r.1 := by
  unfold assertM
  rw [ErlGen.Gleam.stmts.eq_def, bind_assoc]
  refine bind_congr fun v => ?_
  cases ErlGen.Gleam.Pattern.run p v with
  | no =>
    simp only [messageM_bind]
    cases message <;> rfl
  | _ => rfl

theorem stmts_assert {p : Pattern} {e : Expr} {info : ErlGen.AssertInfo} {message : Option Expr} {s : Stmt} {ss : List Stmt} :
    ErlGen.Gleam.stmts ap env (.letAssert p e info message :: s :: ss) =
      (assertM ap env p e info message).bind fun r => ErlGen.Gleam.stmts ap (r.2 ++ env) (s :: ss) := by
  unfold assertM
  rw [ErlGen.Gleam.stmts.eq_def, bind_assoc]
  refine bind_congr fun v => ?_
  cases ErlGen.Gleam.Pattern.run p v with
  | no =>
    simp only [messageM_bind]
    cases message <;> rfl
  | _ => rfl

/-- The subject of a `let`. -/
theorem letSubject_sim {e : Expr} (hg : ∀ f ∈ texts g, synthetic f = false) (he : ExpSim single g RW ap ap' e) (hc : c.single = single)
    (hok : okE single g Γ e = true) (hk : keeps single e = true) (hr : EnvRel single g S c σ Γ env env')
    (hd : Ready S env' (declared ((letSubject ⟨σ, []⟩ e fun st => gen c (.exp .loose) st e).2.2.level ++
      (letSubject ⟨σ, []⟩ e fun st => gen c (.exp .loose) st e).1))) :
    Sim RW (Cells env' (declared ((letSubject ⟨σ, []⟩ e fun st => gen c (.exp .loose) st e).2.2.level ++
        (letSubject ⟨σ, []⟩ e fun st => gen c (.exp .loose) st e).1))) S
      (fun S1 v c' => c' = .normal ∧ Holds single g S1 env' (letSubject ⟨σ, []⟩ e fun st => gen c (.exp .loose) st e).2.1 v ∧
        EnvRel single g S1 c (letSubject ⟨σ, []⟩ e fun st => gen c (.exp .loose) st e).2.2.scope (Verif.JsGen.users Γ) env env')
      (ErlGen.Gleam.expr ap env e)
      (exec (texts g) ap' env' ((letSubject ⟨σ, []⟩ e fun st => gen c (.exp .loose) st e).2.2.level ++
        (letSubject ⟨σ, []⟩ e fun st => gen c (.exp .loose) st e).1)) := by
  have hst := stat_letSubject (stat_all single g e) hok c σ hc
  have hn := hst.1.nodup
  have hsame := hst.2 hk
  rcases isVar_or e with ⟨x, l, rfl⟩ | h
  · rw [letSubject_var] at hd hn hsame ⊢
    simp only [List.append_nil]
    rw [exec_nil]
    simp only [okE, decide_eq_true_eq] at hok
    obtain ⟨v, k, l, v', h1, h2, h3, h4, h5⟩ := hr.vars x hok
    simp only [ErlGen.Gleam.expr, h1]
    refine Sim.pure ⟨rfl, ⟨l, v', ?_, h4, h5⟩, hr.users hsame hg⟩
    simp only [Scope.name, h2, Option.getD_some, h3]
  · rw [letSubject_other h] at hd hn hsame ⊢
    simp only [declared_append, declared] at hd hn ⊢
    have h1 := let_sim hn hd fun hd => he .loose c (σ.next subjectText) Γ env env' S hc hok (fun _ => hk) (hr.next_subject hg) hd
    refine h1.mono (fun _ _ h => h) fun S1 v c' hfr h2 => ⟨h2.1, h2.2, (hr.keep hfr.keep).users hsame hg⟩

/-! ### Matching -/

theorem readAll_spec {names : List Name} {vs : List GValue} (h : List.Forall₂ (Holds single g S env') names vs) :
    ∃ vs', VsRel single g S vs vs' ∧ ∀ w : W', readAll (texts g) env' names (S, w) = (.val vs', S, w) := by
  induction h with
  | nil => exact ⟨[], .nil, fun _ => rfl⟩
  | cons h1 _ ih =>
    obtain ⟨l, v', h2, h3, h4⟩ := h1
    obtain ⟨vs', h5, h6⟩ := ih
    refine ⟨v' :: vs', .cons h4 h5, fun w => ?_⟩
    simp only [readAll, M.bind]
    rw [read_eq h2 h3]
    simp only
    rw [h6]
    rfl

theorem destructure_spec {names : List Name} {ps : List Pattern} {vs : List GValue} {vars : List (Text × Nat)} {b : List (Text × GValue)}
    (hvs : List.Forall₂ (Holds single g S env') names vs)
    (hcheck : ∀ vs', VsRel single g S vs vs' → ∃ b', checkAll ps vs' = .yes b' ∧ BRel single g S b b')
    (hkeys : ∀ x, x ∈ b.map Prod.fst ↔ x ∈ texts vars) (hd : Ready S env' ((σ.binds vars).1.map (·.2)))
    (hr : EnvRel single g S c σ Γ env env') (hok : okVars vars = true) :
    ∃ S', (∀ w, step (texts g) ap' env' (.destructure names ps (σ.binds vars).1) (S, w) = (.val .normal, S', w)) ∧
      Frame (Cells env' ((σ.binds vars).1.map (·.2))) S S' ∧
      EnvRel single g S' c (σ.binds vars).2 (texts vars ++ Γ) (b ++ env) env' := by
  obtain ⟨vs', h1, h2⟩ := readAll_spec (W' := W') hvs
  obtain ⟨b', h3, h4⟩ := hcheck vs' h1
  obtain ⟨S', h5, h6, h7⟩ := write_binds (W' := W') (write := fun n v => initialise env' n (.val v)) (cell := .uninit) (fun v h => by cases h)
    (fun n l v S w hl _ => initialise_eq hl _ S w) (σ := σ) (vs := vars) hd.alike h4 hkeys
  refine ⟨S', fun w => ?_, h6, (hr.keep h6.keep).binds hok hkeys h7⟩
  rw [step]
  simp only [M.bind]
  rw [h2]
  simp only [h3]
  rw [initialiseAll_eq]
  simp only [M.bind]
  rw [h5]
  rfl

/-! ### `let` -/

variable (single g RW ap') in
/-- A statement that gives values to variables. -/
structure LetPart (c : Context) (Γ : List Text) (env : GEnv) (env' : Env) (S : Store) (vars : List (Text × Nat))
    (m : GRun W (GValue × List (Text × GValue))) (r : Bool → Pos → Res) (A : List Stm) (n : Name) (σ' : Scope) : Prop where
  stms : ∀ last pos, (r last pos).state.level ++ (r last pos).stms = A ++ pos.giveName n
  scope : ∀ last pos, (r last pos).state.scope = σ'
  sim : Ready S env' (declared A) → Sim RW (Cells env' (declared A)) S (fun S1 vb c' => c' = .normal ∧ Holds single g S1 env' n vb.1 ∧
    EnvRel single g S1 c σ' (texts vars ++ Verif.JsGen.users Γ) (vb.2 ++ env) env') m (exec (texts g) ap' env' A)

theorem let_var {x : Text} {l : Nat} {e : Expr} (hg : ∀ f ∈ texts g, synthetic f = false) (he : ExpSim single g RW ap ap' e)
    (hc : c.single = single) (hok : okE single g Γ e = true) (hk : keeps single e = true) (hx : okVars [(x, l)] = true)
    (hr : EnvRel single g S c σ Γ env env') :
    ∃ A n σ', LetPart single g RW ap' c Γ env env' S [(x, l)] (letM ap env (.var x l) e)
      (fun last pos => genStmt c last pos ⟨σ, []⟩ (.let_ (.var x l) e)) A n σ' := by
  have hsr := (stat_all single g e Γ hok c σ hc).1
  have hn := (grow_loose_next hsr x).nodup
  refine ⟨(gen c (.exp .loose) ⟨σ, []⟩ e).state.level ++ [.letInit (.var x ((gen c (.exp .loose) ⟨σ, []⟩ e).state.scope.fresh x))
    (gen c (.exp .loose) ⟨σ, []⟩ e).exp], .var x ((gen c (.exp .loose) ⟨σ, []⟩ e).state.scope.fresh x),
    (gen c (.exp .loose) ⟨σ, []⟩ e).state.scope.next x, fun last pos => ?_, fun last pos => ?_, fun hd => ?_⟩
  · rw [genStmt_let_var]
    simp
  · rw [genStmt_let_var]
  · rw [declared_append] at hd ⊢
    have h1 := let_sim hn hd fun hd => he .loose c σ Γ env env' S hc hok (fun _ => hk) hr hd
    have h2 := (h1.mono (R' := fun S1 v c' => Frame (Cells env' (declared (gen c (.exp .loose) ⟨σ, []⟩ e).state.level ++
      [.var x ((gen c (.exp .loose) ⟨σ, []⟩ e).state.scope.fresh x)])) S S1 ∧ c' = .normal ∧
      Holds single g S1 env' (.var x ((gen c (.exp .loose) ⟨σ, []⟩ e).state.scope.fresh x)) v) (fun _ _ h => h)
      fun S1 v c' hfr h => ⟨hfr, h⟩).bind (f := fun v => M.pure (v, [(x, v)])) (f' := M.pure)
      (Q := fun S1 vb c' => c' = .normal ∧ Holds single g S1 env' (.var x ((gen c (.exp .loose) ⟨σ, []⟩ e).state.scope.fresh x)) vb.1 ∧
        EnvRel single g S1 c ((gen c (.exp .loose) ⟨σ, []⟩ e).state.scope.next x) (texts [(x, l)] ++ Verif.JsGen.users Γ) (vb.2 ++ env) env')
      fun S1 v c' _ h => by
        obtain ⟨hfr, rfl, hh⟩ := h
        refine Sim.pure ⟨rfl, hh, ?_⟩
        obtain ⟨l', v', h3, h4, h5⟩ := hh
        simp only [okVars, texts, List.map_cons, List.map_nil, List.all_cons, List.all_nil, Bool.and_true, Bool.and_eq_true,
          Bool.not_eq_true'] at hx
        refine ((hr.keep hfr.keep).users (hsr.same hk) hg).bind ⟨?_, ?_⟩ h3 h4 h5
        · rintro rfl
          have := hx.2
          revert this
          decide
        · rintro rfl
          have := hx.2
          revert this
          decide
    rw [bind_pure] at h2
    exact h2

theorem run_keys_iff {p : Pattern} {v : GValue} {b : List (Text × GValue)} (h : ErlGen.Gleam.Pattern.run p v = .yes b) (x : Text) :
    x ∈ b.map Prod.fst ↔ x ∈ texts p.vars := by
  rw [ErlGen.run_keys p h]
  rfl

theorem let_other {p : Pattern} {e : Expr} (hp : ∀ x l, p ≠ .var x l) (hg : ∀ f ∈ texts g, synthetic f = false)
    (he : ExpSim single g RW ap ap' e) (hc : c.single = single) (hok : okE single g Γ e = true) (hk : keeps single e = true)
    (hx : okVars p.vars = true) (hr : EnvRel single g S c σ Γ env env') :
    ∃ A n σ', LetPart single g RW ap' c Γ env env' S p.vars (letM ap env p e)
      (fun last pos => genStmt c last pos ⟨σ, []⟩ (.let_ p e)) A n σ' := by
  have hst := (stat_letSubject (stat_all single g e) hok c σ hc).1
  have hsub := letSubject_sim (RW := RW) (ap := ap) (ap' := ap') hg he hc hok hk hr
  have hgen := fun last pos => genStmt_let (c := c) (last := last) (pos := pos) (st := ⟨σ, []⟩) (e := e) hp
  revert hst hsub hgen
  generalize hL : (letSubject ⟨σ, []⟩ e fun st => gen c (.exp .loose) st e) = L
  obtain ⟨A1, n, ⟨σ1, P⟩⟩ := L
  simp only
  intro hst hsub hgen
  have hn := (hst.trans (Grow.binds σ1 p.vars)).nodup
  refine ⟨P ++ A1 ++ [.destructure [n] [p] (σ1.binds p.vars).1], n, (σ1.binds p.vars).2, fun last pos => ?_, fun last pos => ?_, fun hd => ?_⟩
  · rw [hgen]
    simp
  · rw [hgen]
  · have hdecl : declared (P ++ A1 ++ [.destructure [n] [p] (σ1.binds p.vars).1]) = declared (P ++ A1) ++ (σ1.binds p.vars).1.map (·.2) := by
      rw [declared_append]
      simp [declared]
    rw [hdecl] at hd ⊢
    rw [exec_append, letM]
    refine Sim.bindL (hsub (hd.sub (by simp +contextual))) (fun l hl => hl.mono (by simp +contextual)) fun S1 v c' hfr h => ?_
    obtain ⟨rfl, hh, hr1⟩ := h
    simp only [Completion.elim]
    have hd1 : Ready S1 env' ((σ1.binds p.vars).1.map (·.2)) := hd.after hn hfr fun _ _ h => h
    cases hrun : ErlGen.Gleam.Pattern.run p v with
    | bad => exact Sim.stuck
    | no => exact Sim.stuck
    | yes b =>
      obtain ⟨S2, h1, h2, h3⟩ := destructure_spec (ap' := ap') (names := [n]) (ps := [p]) (vs := [v]) (vars := p.vars) (b := b)
        (.cons hh .nil) (fun vs' hvs => by
          cases hvs with
          | cons h4 h5 =>
            cases h5
            have h6 := check_rel p h4
            rw [hrun] at h6
            obtain ⟨b', h7, h8⟩ := h6
            exact ⟨b', by simp [checkAll, h7], h8⟩) (run_keys_iff hrun) hd1 hr1 hx
      rw [exec_one]
      exact Sim.step (k := M.pure .normal) h1 (h2.mono fun l _ hl => hl.mono (by simp +contextual)) (fun _ _ h => h)
        (Sim.pure ⟨rfl, hh.keep h2.keep, h3⟩)

/-! ### `let assert` -/

/-- In the message, the variables of the pattern are not in scope. -/
theorem EnvRel.message (hr : EnvRel single g S c σ Γ env env') {vars : List (Text × Nat)} (hg : ∀ x ∈ texts vars, x ∉ texts g) :
    EnvRel single g S c (σ.binds vars).2 (Γ.filter fun x => !decide (x ∈ texts vars)) env env' := by
  have hmem : ∀ x, (x ∈ Γ.filter fun x => !decide (x ∈ texts vars)) ↔ x ∈ Γ ∧ x ∉ texts vars := by
    intro x
    simp
  refine ⟨fun x hx => ?_, fun f hf hnot => ?_, ?_, fun f ps hfp => ?_⟩
  · obtain ⟨h1, h2⟩ := (hmem x).1 hx
    obtain ⟨v, k, l, v', h3, h4, h5⟩ := hr.vars x h1
    exact ⟨v, k, l, v', h3, by rw [σ.counter_binds_of_not_mem vars h2, h4], h5⟩
  · have h1 : f ∉ texts vars := fun h => hg f h hf
    have h2 : f ∉ Γ := fun h => hnot ((hmem f).2 ⟨h, h1⟩)
    obtain ⟨h3, h4⟩ := hr.globals f hf h2
    exact ⟨by rw [σ.counter_binds_of_not_mem vars h1, h3], h4⟩
  · exact ⟨fun h => hr.clean.1 ((hmem _).1 h).1, fun h => hr.clean.2 ((hmem _).1 h).1⟩
  · obtain ⟨h1, h2⟩ := hr.self f ps hfp
    refine ⟨fun hm => ?_, h2⟩
    obtain ⟨h3, h4⟩ := (hmem f).1 hm
    rw [σ.counter_binds_of_not_mem vars h4]
    exact h1 h3

theorem message_sim {α β : Type} {R : Store → α → β → Prop} {p : Pattern} {info : ErlGen.AssertInfo} {message : Option Expr} {v : GValue}
    {v' : Value} (hm : ∀ e, message = some e → ExpSim single g RW ap ap' e) (hc : c.single = single)
    (hok : okMessage single g Γ p message = true) (hr : EnvRel single g S c σ Γ env env') (hv : VRel single g S v v') :
    Sim RW NoCells S R (messageM ap env info v message)
      ((eval (texts g) ap' env' (genMessage c (σ.binds p.vars).2 message)).bind fun m => throwWith .letAssert info.line (some (v', info)) m) := by
  have hasserted : ∀ u i, some (v, info) = some (u, i) → ∃ u', some (v', info) = some (u', i) ∧
      (Spec.IsData u → Spec.encode u = some u') := by
    intro u i h
    cases h
    exact ⟨v', rfl, fun hd => hv.encode hd⟩
  cases message with
  | none =>
    simp only [messageM, genMessage, eval, pure_bind, default_eq]
    exact fun w w' hw => ⟨_, S, w', rfl, ⟨_, rfl, fun h => (Option.some_ne_none _ h).elim, hasserted⟩, hw⟩
  | some e =>
    simp only [okMessage, Bool.and_eq_true, List.all_eq_true, Bool.not_eq_true', decide_eq_false_iff_not] at hok
    simp only [messageM, genMessage]
    refine ((hm e rfl).strict hc hok.2 (hr.message hok.1)).bind fun S' u u' hfr hu => ?_
    refine throw_sim hu (fun h => by cases h) fun u i h => ?_
    exact hasserted u i h

theorem assert_var {x : Text} {l : Nat} {e : Expr} {info : ErlGen.AssertInfo} {message : Option Expr} :
    assertM ap env (.var x l) e info message = letM ap env (.var x l) e := by
  unfold assertM letM
  refine bind_congr fun v => ?_
  rfl

theorem assert_other {p : Pattern} {e : Expr} {info : ErlGen.AssertInfo} {message : Option Expr} (hp : ∀ x l, p ≠ .var x l)
    (hg : ∀ f ∈ texts g, synthetic f = false)
    (he : ExpSim single g RW ap ap' e) (hm : ∀ e, message = some e → ExpSim single g RW ap ap' e) (hc : c.single = single)
    (hok : okE single g Γ e = true) (hk : keeps single e = true) (hx : okVars p.vars = true)
    (hokm : okMessage single g (Verif.JsGen.users Γ) p message = true) (hr : EnvRel single g S c σ Γ env env') :
    ∃ A n σ', LetPart single g RW ap' c Γ env env' S p.vars (assertM ap env p e info message)
      (fun last pos => genStmt c last pos ⟨σ, []⟩ (.letAssert p e info message)) A n σ' := by
  have hst := (stat_letSubject (stat_all single g e) hok c σ hc).1
  have hsub := letSubject_sim (RW := RW) (ap := ap) (ap' := ap') hg he hc hok hk hr
  have hgen := fun last pos => genStmt_assert (c := c) (last := last) (pos := pos) (st := ⟨σ, []⟩) (e := e) (info := info)
    (message := message) hp
  revert hst hsub hgen
  generalize hL : (letSubject ⟨σ, []⟩ e fun st => gen c (.exp .loose) st e) = L
  obtain ⟨A1, n, ⟨σ1, P⟩⟩ := L
  simp only
  intro hst hsub hgen
  have hn := (hst.trans (Grow.binds σ1 p.vars)).nodup
  refine ⟨P ++ A1 ++ ((σ1.binds p.vars).1.map (fun v => .letUninit v.2) ++
    [.assertMatch n p (σ1.binds p.vars).1 info (genMessage c (σ1.binds p.vars).2 message)]), n, (σ1.binds p.vars).2,
    fun last pos => ?_, fun last pos => ?_, fun hd => ?_⟩
  · rw [hgen]
    simp
  · rw [hgen]
  · have hdecl : declared (P ++ A1 ++ ((σ1.binds p.vars).1.map (fun v => .letUninit v.2) ++
      [.assertMatch n p (σ1.binds p.vars).1 info (genMessage c (σ1.binds p.vars).2 message)])) =
        declared (P ++ A1) ++ (σ1.binds p.vars).1.map (·.2) := by
      rw [declared_append, declared_append (as := (σ1.binds p.vars).1.map _), declared_uninit]
      simp [declared]
    rw [hdecl] at hd ⊢
    rw [exec_append, assertM]
    refine Sim.bindL (hsub (hd.sub (by simp +contextual))) (fun l hl => hl.mono (by simp +contextual)) fun S1 v c' hfr h => ?_
    obtain ⟨rfl, hh, hr1⟩ := h
    simp only [Completion.elim]
    have hd1 : Ready S1 env' ((σ1.binds p.vars).1.map (·.2)) := hd.after hn hfr fun _ _ h => h
    obtain ⟨S2, h1, h2, h3⟩ := letUninit_spec (globals := texts g) (ap' := ap') (σ1.binds p.vars).1 S1 hd1 (Grow.binds σ1 p.vars).nodup
    have hh2 := hh.keep h2.keep
    obtain ⟨l, v', h4, h5, h6⟩ := hh2
    refine Sim.step (S' := S2) (L' := Cells env' (declared (P ++ A1) ++ (σ1.binds p.vars).1.map (·.2)))
      (k := exec (texts g) ap' env' [.assertMatch n p (σ1.binds p.vars).1 info (genMessage c (σ1.binds p.vars).2 message)])
      (fun w' => ?_) (h2.mono fun l _ hl => hl.mono (by simp +contextual)) (fun _ _ h => h) ?_
    · rw [exec_append]
      simp only [M.bind]
      rw [h1]
      rfl
    rw [exec_one]
    have hcheck := check_rel p h6
    cases hrun : ErlGen.Gleam.Pattern.run p v with
    | bad => exact Sim.stuck
    | no =>
      rw [hrun] at hcheck
      have hcheck : check p v' = .no := hcheck
      refine Sim.step (S' := S2) (L' := NoCells) (k := (eval (texts g) ap' env' (genMessage c (σ1.binds p.vars).2 message)).bind fun m =>
        throwWith .letAssert info.line (some (v', info)) m) (fun w' => ?_) (.refl _ _) (fun _ _ h => h.elim) ?_
      · rw [step]
        simp only [M.bind]
        rw [read_eq h4 h5]
        simp only [hcheck]
        rfl
      · exact message_sim hm hc hokm (hr1.keep h2.keep) h6
    | yes b =>
      rw [hrun] at hcheck
      obtain ⟨b', h7, h8⟩ := hcheck
      obtain ⟨S3, h9, h10, h11⟩ := write_binds (W' := W') (write := assign env') (cell := .declared) (fun v h => by cases h)
        (fun n l v S w hl hS => assign_eq hl hS v w) (σ := σ1) (vs := p.vars) h3 h8 (run_keys_iff hrun)
      have hfr3 : Frame (Cells env' (declared (P ++ A1) ++ (σ1.binds p.vars).1.map (·.2))) S2 S3 :=
        h10.mono fun l _ hl => hl.mono (by simp +contextual)
      refine Sim.step (S' := S3) (k := M.pure .normal) (fun w' => ?_) hfr3 (fun _ _ h => h) (Sim.pure ⟨rfl, ?_, ?_⟩)
      · rw [step]
        simp only [M.bind]
        rw [read_eq h4 h5]
        simp only [h7]
        rw [assignAll_eq]
        simp only [M.bind]
        rw [h9]
      · exact hh.keep (h2.keep.trans h10.keep)
      · exact (hr1.keep (h2.keep.trans h10.keep)).binds hx (run_keys_iff hrun) h11

/-! ### Statements -/

theorem part_one {s : Stmt} {vars : List (Text × Nat)} {m : GRun W (GValue × List (Text × GValue))} {A : List Stm} {n : Name} {σ' : Scope}
    (h : LetPart single g RW ap' c Γ env env' S vars m (fun last pos => genStmt c last pos ⟨σ, []⟩ s) A n σ')
    (hc : c.single = single) {Γ' : List Text} {ss : List Stmt} (hok : okStmts single g Γ' (s :: ss) = true)
    (hm : ErlGen.Gleam.stmts ap env [s] = m.bind fun r => M.pure r.1) :
    ResSim single g RW ap ap' c last pos σ env' S (ErlGen.Gleam.stmts ap env [s]) (genStmts c last pos σ [s]).stms
      (genStmts c last pos σ [s]).looped := by
  have hgr := stat_allStmts single g [s] s (by simp) Γ' ss hok c last pos σ hc
  have h1 := h.stms last pos
  have h2 := h.scope last pos
  rw [h1, h2] at hgr
  rw [genStmts_one, hm]
  simp only
  rw [h1]
  exact seq_res (σ' := σ') h.sim hgr.nodup hgr.fresh fun S1 r hfr hR => giveName_res hR.1

theorem part_cons {s t : Stmt} {ss : List Stmt} {vars : List (Text × Nat)} {m : GRun W (GValue × List (Text × GValue))} {A : List Stm}
    {n : Name} {σ' : Scope}
    (h : LetPart single g RW ap' c Γ env env' S vars m (fun last pos => genStmt c last pos ⟨σ, []⟩ s) A n σ')
    (hc : c.single = single) {Γ' : List Text} (hok : okStmts single g Γ' (s :: t :: ss) = true)
    (hoks : okStmts single g (texts vars ++ Verif.JsGen.users Γ) (t :: ss) = true) (hss : StmtsSim single g RW ap ap' (t :: ss))
    (hm : ErlGen.Gleam.stmts ap env (s :: t :: ss) = m.bind fun r => ErlGen.Gleam.stmts ap (r.2 ++ env) (t :: ss)) :
    ResSim single g RW ap ap' c last pos σ env' S (ErlGen.Gleam.stmts ap env (s :: t :: ss)) (genStmts c last pos σ (s :: t :: ss)).stms
      (genStmts c last pos σ (s :: t :: ss)).looped := by
  have hgr := stat_allStmts single g [s] s (by simp) Γ' (t :: ss) hok c false .stmt σ hc
  have h1 := h.stms false .stmt
  have h2 := h.scope false .stmt
  simp only [Pos.giveName, List.append_nil] at h1 h2
  rw [h1, h2] at hgr
  have hgr2 := (stat_stmts (stat_allStmts single g (t :: ss)) _ hoks c last pos σ' hc).grow
  have hn := (hgr.trans hgr2).nodup
  rw [genStmts_cons, hm]
  simp only
  rw [h1, h2]
  rw [← declared_append] at hn
  exact seq_res (σ' := σ') h.sim hn hgr.fresh fun S1 r hfr hR =>
    hss c last pos σ' _ _ env' S1 hc hoks hR.2

variable (single g RW ap ap') in
/-- What is known of the parts of a statement. -/
def StmtParts : Stmt → Prop
  | .expr e => StmSim single g RW ap ap' e
  | .let_ _ e => ExpSim single g RW ap ap' e
  | .letAssert _ e _ message => ExpSim single g RW ap ap' e ∧ ∀ m, message = some m → ExpSim single g RW ap ap' m

theorem expr_cons {e : Expr} {t : Stmt} {ss : List Stmt} (hg : ∀ f ∈ texts g, synthetic f = false) (he : StmSim single g RW ap ap' e)
    (hc : c.single = single) (hok : okStmts single g Γ (.expr e :: t :: ss) = true) (hr : EnvRel single g S c σ Γ env env')
    (hss : StmtsSim single g RW ap ap' (t :: ss)) :
    ResSim single g RW ap ap' c last pos σ env' S (ErlGen.Gleam.stmts ap env (.expr e :: t :: ss))
      (genStmts c last pos σ (.expr e :: t :: ss)).stms (genStmts c last pos σ (.expr e :: t :: ss)).looped := by
  have hgr := stat_allStmts single g [.expr e] (.expr e) (by simp) Γ (t :: ss) hok c false .stmt σ hc
  simp only [okStmts, Bool.and_eq_true, List.isEmpty_cons, Bool.false_or, Bool.not_eq_true'] at hok
  obtain ⟨⟨hok1, hok2⟩, hok3⟩ := hok
  have hok3' : okStmts single g (Verif.JsGen.users Γ) (t :: ss) = true := hok3
  have hst := ((stat_all single g e Γ hok1 c σ hc).2 false .stmt).same hok2
  rw [genStmts_cons]
  simp only [genStmt] at hgr ⊢
  have hgr2 := (stat_stmts (stat_allStmts single g (t :: ss)) _ hok3' c last pos (gen c (.stm false .stmt) ⟨σ, []⟩ e).state.scope hc).grow
  have hn := (hgr.trans hgr2).nodup
  rw [← declared_append] at hn
  rw [show ErlGen.Gleam.stmts ap env (.expr e :: t :: ss) = (ErlGen.Gleam.expr ap env e).bind fun _ => ErlGen.Gleam.stmts ap env (t :: ss) by
    rw [ErlGen.Gleam.stmts]]
  refine seq_res (σ' := (gen c (.stm false .stmt) ⟨σ, []⟩ e).state.scope) (R := fun S1 _ => Keep S S1) (fun hd => ?_) hn hgr.fresh
    fun S1 r hfr hk => hss c last pos _ _ env env' S1 hc hok3' ((hr.keep hk).users hst hg)
  have h1 := he c false .stmt σ Γ env env' S hc hok1 hr hd trivial (fun h => by cases h)
  refine (Sim.ofTSim h1 fun _ _ _ => not_calls).mono (fun l _ hl => ?_) fun S1 v c' hfr hgive => ⟨hgive, hfr.keep⟩
  rcases hl with hl | ⟨b, h2, _⟩ | ⟨h2, _⟩
  · exact hl
  · cases h2
  · cases h2

theorem stmts_nil : StmtsSim single g RW ap ap' [] := by
  intro c last pos σ Γ env env' S hc hok hr _ _ _
  rw [ErlGen.Gleam.stmts]
  exact TSim.stuck

theorem stmts_one {s : Stmt} (hg : ∀ f ∈ texts g, synthetic f = false) (hs : StmtParts single g RW ap ap' s) :
    StmtsSim single g RW ap ap' [s] := by
  intro c last pos σ Γ env env' S hc hok hr
  cases s with
  | expr e =>
    rw [genStmts_one, show ErlGen.Gleam.stmts ap env [.expr e] = ErlGen.Gleam.expr ap env e by rw [ErlGen.Gleam.stmts]]
    simp only [genStmt]
    simp only [okStmts, Bool.and_eq_true] at hok
    exact hs c last pos σ Γ env env' S hc hok.1.1 hr
  | let_ p e =>
    have hok' := hok
    simp only [okStmts, Bool.and_eq_true] at hok'
    obtain ⟨⟨⟨hok1, hok2⟩, hok3⟩, _⟩ := hok'
    rcases isVarP_or p with ⟨x, l, rfl⟩ | hp
    · obtain ⟨A, n, σ', h⟩ := let_var hg hs hc hok1 hok2 hok3 hr
      exact part_one h hc hok stmts_let_one
    · obtain ⟨A, n, σ', h⟩ := let_other hp hg hs hc hok1 hok2 hok3 hr
      exact part_one h hc hok stmts_let_one
  | letAssert p e info message =>
    have hok' := hok
    simp only [okStmts, Bool.and_eq_true] at hok'
    obtain ⟨⟨⟨⟨hok1, hok2⟩, hok3⟩, hok4⟩, _⟩ := hok'
    rcases isVarP_or p with ⟨x, l, rfl⟩ | hp
    · obtain ⟨A, n, σ', h⟩ := let_var hg hs.1 hc hok1 hok2 hok3 hr
      refine part_one (s := .letAssert (.var x l) e info message) (m := letM ap env (.var x l) e) (A := A) (n := n) (σ' := σ') (Γ := Γ) (vars := [(x, l)]) ?_ hc hok ?_
      · simpa only [genStmt_assert_var] using h
      · rw [stmts_assert_one, assert_var]
    · obtain ⟨A, n, σ', h⟩ := assert_other hp hg hs.1 hs.2 hc hok1 hok2 hok3 hok4 hr
      exact part_one h hc hok stmts_assert_one

theorem stmts_cons {s t : Stmt} {ss : List Stmt} (hg : ∀ f ∈ texts g, synthetic f = false) (hs : StmtParts single g RW ap ap' s)
    (hss : StmtsSim single g RW ap ap' (t :: ss)) : StmtsSim single g RW ap ap' (s :: t :: ss) := by
  intro c last pos σ Γ env env' S hc hok hr
  cases s with
  | expr e => exact expr_cons hg hs hc hok hr hss
  | let_ p e =>
    have hok' := hok
    simp only [okStmts, Bool.and_eq_true] at hok'
    obtain ⟨⟨⟨hok1, hok2⟩, hok3⟩, hok5⟩ := hok'
    rcases isVarP_or p with ⟨x, l, rfl⟩ | hp
    · obtain ⟨A, n, σ', h⟩ := let_var hg hs hc hok1 hok2 hok3 hr
      exact part_cons h hc hok hok5 hss stmts_let
    · obtain ⟨A, n, σ', h⟩ := let_other hp hg hs hc hok1 hok2 hok3 hr
      exact part_cons h hc hok hok5 hss stmts_let
  | letAssert p e info message =>
    have hok' := hok
    simp only [okStmts, Bool.and_eq_true] at hok'
    obtain ⟨⟨⟨⟨hok1, hok2⟩, hok3⟩, hok4⟩, hok5⟩ := hok'
    rcases isVarP_or p with ⟨x, l, rfl⟩ | hp
    · obtain ⟨A, n, σ', h⟩ := let_var hg hs.1 hc hok1 hok2 hok3 hr
      refine part_cons (s := .letAssert (.var x l) e info message) (m := letM ap env (.var x l) e) (A := A) (n := n) (σ' := σ') (Γ := Γ) (vars := [(x, l)]) ?_ hc hok hok5 hss ?_
      · simpa only [genStmt_assert_var] using h
      · rw [stmts_assert, assert_var]
    · obtain ⟨A, n, σ', h⟩ := assert_other hp hg hs.1 hs.2 hc hok1 hok2 hok3 hok4 hr
      exact part_cons h hc hok hok5 hss stmts_assert

end

end Verif.JsGen
