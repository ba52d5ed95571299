import Verif.JsGen.ExprSim
import Verif.ErlGen.BindSim

/-!
# Statements one after the other
-/

namespace Verif.JsGen

open Verif.ErlGen (Pattern Const Expr Stmt Clause varsAll M Out Match Op)
open Verif.ErlGen.Gleam (Panic)
open Spec (SameError)

/-- A name of JavaScript for a value of Gleam. -/
def Holds (single : Text → Bool) (g : List (Text × Nat)) (S : Store) (env : Env) (n : Name) (v : GValue) : Prop :=
  ∃ l v', env.lookup n = some l ∧ S[l]? = some (.val v') ∧ VRel single g S v v'

section

variable {single : Text → Bool} {g : List (Text × Nat)} {W W' : Type} {RW : W → W' → Prop}
variable {ap : GValue → List GValue → GRun W GValue} {ap' : Value → List Value → Run W' Value}
variable {c : Context} {last : Bool} {pos : Pos} {σ : Scope} {Γ : List Text} {env : GEnv} {env' : Env} {S : Store}

theorem Holds.keep {n : Name} {v : GValue} {S' : Store} (h : Holds single g S env' n v) (hk : Keep S S') :
    Holds single g S' env' n v := by
  obtain ⟨l, v', h1, h2, h3⟩ := h
  exact ⟨l, v', h1, hk l v' h2, h3.keep hk⟩

/-- Statements and what follows them. -/
theorem seq_res {α : Type} {A K : List Stm} {m : GRun W α} {f : α → GRun W GValue} {R : Store → α → Prop} {looped : Bool} {σ' : Scope}
    (hA : Ready S env' (declared A) → Sim RW (Cells env' (declared A)) S (fun S1 a c => c = .normal ∧ R S1 a) m (exec (texts g) ap' env' A))
    (hn : (declared (A ++ K)).Nodup) (hσ : ∀ x, σ.fresh x ≤ σ'.fresh x)
    (hK : ∀ S1 a, Frame (Cells env' (declared A)) S S1 → R S1 a → ResSim single g RW ap ap' c last pos σ' env' S1 (f a) K looped) :
    ResSim single g RW ap ap' c last pos σ env' S (m.bind f) (A ++ K) looped := by
  intro hd ht hl
  rw [declared_append] at hd hn ⊢
  have hdA : Ready S env' (declared A) := hd.sub (by simp +contextual)
  rw [exec_append]
  refine TSim.bindL (hA hdA) (fun l hl => (hl.mono (by simp +contextual)).writes) fun S1 a c' hfr hr => ?_
  obtain ⟨rfl, hr⟩ := hr
  simp only [Completion.elim]
  refine (hK S1 a hfr hr (hd.after hn hfr fun _ _ h => h) (ht.after hfr hdA.not_declared hσ)
    fun h1 h2 => (hl h1 h2).after hfr hdA.not_param).mono (fun l _ hl => hl.mono (by simp +contextual)) (fun _ _ _ _ h => h) fun _ _ _ h => h

/-- `let n = x;` -/
theorem let_sim {P : List Stm} {x : Exp} {n : Name} {m : GRun W GValue} (hn : (declared P ++ [n]).Nodup)
    (hd : Ready S env' (declared P ++ [n]))
    (h : Ready S env' (declared P) → Sim RW (Cells env' (declared P)) S (VOk single g) m (valueOf (texts g) ap' env' P x)) :
    Sim RW (Cells env' (declared P ++ [n])) S (fun S1 v c => c = .normal ∧ Holds single g S1 env' n v) m
      (exec (texts g) ap' env' (P ++ [.letInit n x])) := by
  have hdP : Ready S env' (declared P) := hd.sub (by simp +contextual)
  rw [exec_use (texts g) ap' (e := x) (k := fun v => (initialise env' n (.val v)).bind fun _ => M.pure .normal) (by rw [exec_one, step]),
    ← bind_pure m]
  refine Sim.valueL (h hdP) (fun l hl => hl.mono (by simp +contextual)) fun S' v v' hfr hv => ?_
  have hdn : Ready S' env' [n] := hd.after hn hfr fun _ _ h => h
  obtain ⟨l, hl, hS⟩ := hdn.cells n (by simp)
  have hfr' : Frame (Cells env' (declared P ++ [n])) S' (S'.set l (.val v')) :=
    Frame.set ⟨n, by simp, hl⟩ (fun w hw => by rw [hS] at hw; cases hw)
  have hset : (S'.set l (.val v'))[l]? = some (.val v') := by rw [List.getElem?_set_self (lt_of_cell hS)]
  refine Sim.step (S' := S'.set l (.val v')) (k := M.pure .normal) (fun w' => ?_) hfr' (fun _ _ h => h)
    (Sim.pure ⟨rfl, l, v', hl, hset, hv.keep hfr'.keep⟩)
  simp only [M.bind]
  rw [initialise_eq hl]

theorem read_sim {n : Name} {v : GValue} {L : Loc → Prop} (h : Holds single g S env' n v) :
    Sim RW L S (VRel single g) (M.pure v) (eval (texts g) ap' env' (.var n)) := by
  obtain ⟨l, v', h1, h2, h3⟩ := h
  intro w w' hw
  refine ⟨v', S, w', ?_, .refl _ _, h3, hw⟩
  rw [eval, read_eq h1 h2]

theorem giveVar_res {n : Name} {v : GValue} {looped : Bool} (h : Holds single g S env' n v) :
    ResSim single g RW ap ap' c last pos σ env' S (M.pure v) (pos.give (.var n)) looped := by
  have := give_res (P := []) (x := .var n) (m := (M.pure v : GRun W GValue)) (S := S) (RW := RW) (ap := ap) (ap' := ap') (c := c) (last := last)
    (pos := pos) (σ := σ) (env' := env') (single := single) (g := g) (looped := looped) fun _ => by
      rw [valueOf_nil]
      exact (read_sim h).toInl
  exact this

theorem giveName_res {n : Name} {v : GValue} {looped : Bool} (h : Holds single g S env' n v) :
    ResSim single g RW ap ap' c last pos σ env' S (M.pure v) (pos.giveName n) looped := by
  cases pos with
  | tail => exact giveVar_res (pos := .tail) h
  | stmt =>
    intro _ _ _
    simp only [Pos.giveName]
    rw [exec_nil]
    exact (Sim.pure rfl).toTSim
  | assign b => exact giveVar_res (pos := .assign b) h

/-- A new variable of the compiler. -/
theorem EnvRel.temporary (hr : EnvRel single g S c σ Γ env env') (hg : ∀ f ∈ texts g, synthetic f = false) {σ' : Scope} (hs : Same σ σ')
    {x : Text} (hx : temporary x = true) {v : GValue} (hh : Holds single g S env' (.var x (σ'.fresh x)) v) :
    EnvRel single g S c (σ'.next x) (x :: Verif.JsGen.users Γ) ((x, v) :: env) env' := by
  obtain ⟨l, v', h1, h2, h3⟩ := hh
  simp only [Verif.JsGen.temporary, Bool.and_eq_true, Bool.not_eq_true', decide_eq_false_iff_not] at hx
  exact (hr.users hs hg).bind ⟨hx.1.2, hx.2⟩ h1 h2 h3

theorem synthetic_of_temporary {x : Text} (h : temporary x = true) : synthetic x = true := by
  simp only [temporary, Bool.and_eq_true] at h
  exact h.1.1

/-! ### Record updates, pipelines and panics -/

theorem stm_update {x : Text} {l : Nat} {record : Expr} {tag : Text} {es : List Expr} (hg : ∀ f ∈ texts g, synthetic f = false)
    (hrec : ExpSim single g RW ap ap' record) (hes : ArgsSim single g RW ap ap' es) :
    StmSim single g RW ap ap' (.update (some (x, l)) record tag es) := by
  intro c last pos σ Γ env env' S hc hok hr
  have hst := (stat_all single g _ Γ hok c σ hc).2 last pos
  have hst := hst.grow.nodup
  simp only [okE, Bool.and_eq_true] at hok
  obtain ⟨⟨⟨hok1, hok2⟩, hok3⟩, hok4⟩ := hok
  have hsr := (stat_all single g record Γ hok1 c σ hc).1
  simp only [gen, place] at hst ⊢
  simp only [ErlGen.Gleam.expr]
  rw [List.append_cons] at hst ⊢
  refine seq_res (σ' := (gen c (.exp .loose) ⟨σ, []⟩ record).state.scope.next x)
    (R := fun S1 v => Holds single g S1 env' (.var x ((gen c (.exp .loose) ⟨σ, []⟩ record).state.scope.fresh x)) v)
    (fun hd => ?_) hst ((grow_loose_next hsr x).fresh) fun S1 v hfr hh => ?_
  · rw [declared_append] at hd ⊢
    rw [declared_append, declared_append] at hst
    exact let_sim (List.nodup_append.1 hst).1 hd fun hd => hrec .loose c σ Γ env env' S hc hok1 (fun _ => hok2) hr hd
  · have hr' := (hr.keep hfr.keep).temporary hg (hsr.same hok2) hok3 hh
    have := give_res (P := []) (x := .construct tag (genArgs c ((gen c (.exp .loose) ⟨σ, []⟩ record).state.scope.next x) es))
      (m := (ErlGen.Gleam.args ap ((x, v) :: env) es).bind fun vs => M.pure (.record tag vs)) (S := S1) (RW := RW) (ap := ap) (ap' := ap')
      (c := c) (last := last) (pos := pos) (σ := (gen c (.exp .loose) ⟨σ, []⟩ record).state.scope.next x) (env' := env') (single := single)
      (g := g) (looped := false) fun _ => by
        rw [valueOf_nil]
        exact (construct_sim hes hc hok4 hr').toInl.mono (fun _ _ h => h.elim) fun _ _ _ _ h => h
    exact this

theorem both_update_some {x : Text} {l : Nat} {record : Expr} {tag : Text} {es : List Expr} (hg : ∀ f ∈ texts g, synthetic f = false)
    (hrec : ExpSim single g RW ap ap' record) (hes : ArgsSim single g RW ap ap' es) :
    Both single g RW ap ap' (.update (some (x, l)) record tag es) := by
  have h := stm_update (x := x) (l := l) (tag := tag) hg hrec hes
  refine ⟨exp_place hg (fun c m σ => ?_) (fun hk => ?_) h, h⟩
  · cases m with
    | exp o => cases o <;> simp only [gen, place]
    | stm last pos => simp only [gen, place]
  · simpa [keeps, lifts] using hk

theorem stm_pipe {x : Text} {l : Nat} {value rest : Expr} (hg : ∀ f ∈ texts g, synthetic f = false)
    (hv : ExpSim single g RW ap ap' value) (hrest : StmSim single g RW ap ap' rest) :
    StmSim single g RW ap ap' (.pipe x l value rest) := by
  intro c last pos σ Γ env env' S hc hok hr
  have hst := (stat_all single g _ Γ hok c σ hc).2 last pos
  have hst := hst.grow.nodup
  simp only [okE, Bool.and_eq_true] at hok
  obtain ⟨⟨⟨hok1, hok2⟩, hok3⟩, hok4⟩ := hok
  have hsr := (stat_all single g value Γ hok1 c σ hc).1
  simp only [gen, place, List.nil_append] at hst ⊢
  simp only [ErlGen.Gleam.expr]
  rw [List.append_cons] at hst ⊢
  refine seq_res (σ' := (gen c (.exp .loose) ⟨σ, []⟩ value).state.scope.next x)
    (R := fun S1 v => Holds single g S1 env' (.var x ((gen c (.exp .loose) ⟨σ, []⟩ value).state.scope.fresh x)) v)
    (fun hd => ?_) hst ((grow_loose_next hsr x).fresh) fun S1 v hfr hh => ?_
  · rw [declared_append] at hd ⊢
    rw [declared_append, declared_append] at hst
    exact let_sim (List.nodup_append.1 hst).1 hd fun hd => hv .loose c σ Γ env env' S hc hok1 (fun _ => hok2) hr hd
  · exact hrest c last pos _ _ _ env' S1 hc hok4 ((hr.keep hfr.keep).temporary hg (hsr.same hok2) hok3 hh)

theorem both_pipe {x : Text} {l : Nat} {value rest : Expr} (hg : ∀ f ∈ texts g, synthetic f = false)
    (hv : ExpSim single g RW ap ap' value) (hrest : StmSim single g RW ap ap' rest) :
    Both single g RW ap ap' (.pipe x l value rest) := by
  have h := stm_pipe (x := x) (l := l) hg hv hrest
  refine ⟨exp_place hg (fun c m σ => ?_) (fun hk => ?_) h, h⟩
  · cases m with
    | exp o => cases o <;> simp only [gen, place]
    | stm last pos => simp only [gen, place]
  · simp [lifts]

theorem throw_sim {α β : Type} {R : Store → α → β → Prop} {L : Loc → Prop} {kind : ErlGen.ErrorKind} {line : Nat} {v : GValue} {v' : Value}
    {asserted : Option (GValue × ErlGen.AssertInfo)} {asserted' : Option (Value × ErlGen.AssertInfo)} (hv : VRel single g S v v')
    (h0 : asserted = none → asserted' = none)
    (h1 : ∀ u info, asserted = some (u, info) → ∃ u', asserted' = some (u', info) ∧ (Spec.IsData u → Spec.encode u = some u')) :
    Sim RW L S R (ErlGen.Gleam.panicWith kind line asserted v) (throwWith kind line asserted' v') := by
  cases hv with
  | str s => exact fun w w' hw => ⟨_, S, w', rfl, ⟨asserted', rfl, h0, h1⟩, hw⟩
  | _ => exact Sim.stuck

theorem default_eq (kind : ErlGen.ErrorKind) : (ErlGen.Gleam.ErrorKind.message kind).toList = defaultMessage kind := by
  cases kind <;> rfl

theorem both_fail_none {kind : ErlGen.ErrorKind} {line : Nat} (hg : ∀ f ∈ texts g, synthetic f = false) :
    Both single g RW ap ap' (.fail kind line none) := by
  have h : StmSim single g RW ap ap' (.fail kind line none) := by
    intro c last pos σ Γ env env' S hc hok hr hd ht hl
    simp only [gen, place, List.nil_append] at hd ⊢
    rw [exec_one, step, eval, pure_bind]
    simp only [ErlGen.Gleam.expr, default_eq]
    exact fun w w' hw => .inl ⟨_, S, w', rfl, ⟨none, rfl, fun _ => rfl, fun v info h => by cases h⟩, hw⟩
  refine ⟨exp_place hg (fun c m σ => ?_) (fun hk => ?_) h, h⟩
  · cases m with
    | exp o => cases o <;> simp only [gen, place]
    | stm last pos => simp only [gen, place]
  · simp [lifts]

theorem both_fail_some {kind : ErlGen.ErrorKind} {line : Nat} {e : Expr} (hg : ∀ f ∈ texts g, synthetic f = false)
    (he : ExpSim single g RW ap ap' e) : Both single g RW ap ap' (.fail kind line (some e)) := by
  have h : StmSim single g RW ap ap' (.fail kind line (some e)) := by
    intro c last pos σ Γ env env' S hc hok hr hd ht hl
    simp only [okE, Bool.and_eq_true] at hok
    simp only [gen, place] at hd ⊢
    rw [exec_use (texts g) ap' (e := (gen c (.exp .loose) ⟨σ, []⟩ e).exp) (k := throwWith kind line none) (by rw [exec_one, step])]
    simp only [ErlGen.Gleam.expr]
    rw [declared_append] at hd ⊢
    refine TSim.valueL (he .loose c σ Γ env env' S hc hok.1 (fun _ => hok.2) hr (hd.sub (by simp +contextual)))
      (fun l hl => (hl.mono (by simp +contextual)).writes) fun S' v v' _ hv => ?_
    exact (throw_sim hv (fun _ => rfl) fun u info h => by cases h).toTSim
  refine ⟨exp_place hg (fun c m σ => ?_) (fun hk => ?_) h, h⟩
  · cases m with
    | exp o => cases o <;> simp only [gen, place]
    | stm last pos => simp only [gen, place]
  · simpa [keeps, lifts] using hk

end

end Verif.JsGen
