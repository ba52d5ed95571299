import Verif.ErlText.Meaning
import Verif.ErlGen.Gleam
import Verif.ErlGen.Erlang
import Verif.ErlGen.Steps

/-!
# Values of Gleam and values of Erlang

The relations that the simulation is about.
-/

namespace Verif.ErlGen

open Verif.ErlText (Text Term astAll)
open Verif.Strings.Spec (Piece text UpperCamel)

/-- All variables have names that are taken. -/
def Bounded (s : State) (env : Erlang.Env) : Prop := ∀ n ∈ Erlang.keys env, s.Taken n

/-- The places of definitions are different from each other and from those that can be used. -/
def Places (Γ : Scope) (ls : List Loc) : Prop := ls.Nodup ∧ ∀ l ∈ ls, l ∉ Γ.map Prod.snd

/-- The texts in the errors are literals. -/
structure ContextOk (c : Context) : Prop where
  file : ∃ ps, Literal ps ∧ c.file = text ps
  moduleName : ∃ ps, Literal ps ∧ c.moduleName = text ps
  function : ∃ ps, Literal ps ∧ c.function = text ps

mutual

/-- The value of Erlang for a value of Gleam. -/
inductive VRel : Gleam.Value → Erlang.Value → Prop
  | int (n : Int) : VRel (.int n) (.int n)
  | str (s : List Char) : VRel (.str s) (.str s)
  | tuple {vs vs'} : VsRel vs vs' → VRel (.tuple vs) (.tuple vs')
  | nil : VRel .nil .nil
  | cons {v v' w w'} : VRel v v' → VRel w w' → VRel (.cons v w) (.cons v' w')
  | enum {tag} : UpperCamel tag → VRel (.record tag []) (.atom (snake tag))
  | record {tag v v' vs vs'} : UpperCamel tag → VRel v v' → VsRel vs vs' →
    VRel (.record tag (v :: vs)) (.tuple (.atom (snake tag) :: v' :: vs'))
  | ctor {tag n names env} : UpperCamel tag → names.Nodup → ['_'] ∉ names → names.length = n + 1 →
    VRel (.ctor tag (n + 1)) (.closure names [.tuple (.atom (snake tag) :: names.map .var)] env)
  | fn (m : Option Text) (f : Text) (n : Nat) : VRel (.fn m f n) (.ref (m.map ErlText.erlangModuleName) (escapeName f) n)
  | closure {params body env env'} (c : Context) (Γ : Scope) (s : State) (value : Text → Erlang.Value) :
    ContextOk c → Expr.Wf c.purity Γ (.fn params body) → Places Γ (Expr.fn params body).locs → Bounded s env' →
    (∀ x v, env.lookup x = some v →
      ∃ l n, Γ.lookup x = some l ∧ s.names l = some n ∧ env'.lookup n = some (value x)) →
    (∀ x v, env.lookup x = some v → VRel v (value x)) →
    VRel (.closure params body env)
      (.closure (argumentNames s params).1 (astAll (tStmts c (argumentNames s params).2 body).1) env')

inductive VsRel : List Gleam.Value → List Erlang.Value → Prop
  | nil : VsRel [] []
  | cons {v v' vs vs'} : VRel v v' → VsRel vs vs' → VsRel (v :: vs) (v' :: vs')

end

/-- The environments: each variable of Gleam has a variable of Erlang. -/
def EnvRel (Γ : Scope) (s : State) (env : Gleam.Env) (env' : Erlang.Env) : Prop :=
  ∀ x v, env.lookup x = some v →
    ∃ l n v', Γ.lookup x = some l ∧ s.names l = some n ∧ env'.lookup n = some v' ∧ VRel v v'

/-- The fields of the error of a `let assert`. -/
def AssertRel (fields : List (Text × Erlang.Value)) : Option (Gleam.Value × AssertInfo) → Prop
  | none => True
  | some (v, i) =>
    (∃ v', VRel v v' ∧ fields.lookup "value".toList = some v') ∧
    fields.lookup "start".toList = some (.int i.start) ∧ fields.lookup "end".toList = some (.int i.stop) ∧
    fields.lookup "pattern_start".toList = some (.int i.patternStart) ∧
    fields.lookup "pattern_end".toList = some (.int i.patternStop)

/-- The errors: a map with the kind, the message, the line and what is known of a `let assert`. -/
def ErrRel (p : Gleam.Panic) (e : Erlang.Value) : Prop :=
  ∃ fields, e = .map fields ∧ fields.lookup "gleam_error".toList = some (.atom p.kind.atom) ∧
    fields.lookup "message".toList = some (.str p.message) ∧ fields.lookup "line".toList = some (.int p.line) ∧
    AssertRel fields p.asserted

/-- The outcomes, with a relation for the values and one for the worlds. A program that is stuck may do anything. -/
def OutRel {W W' α β : Type} (RW : W → W' → Prop) (R : α → β → Prop) :
    Out Gleam.Panic α × W → Out Erlang.Value β × W' → Prop
  | (.stuck, _), _ => True
  | (.val a, w), (.val b, w') => R a b ∧ RW w w'
  | (.error p, w), (.error e, w') => ErrRel p e ∧ RW w w'
  | (.timeout, w), (.timeout, w') => RW w w'
  | _, _ => False

/-- Computations that start in related worlds have related outcomes. -/
def MRel {W W' α β : Type} (RW : W → W' → Prop) (R : α → β → Prop) (m : Gleam.Run W α) (m' : Erlang.Run W' β) : Prop :=
  ∀ w w', RW w w' → OutRel RW R (m w) (m' w')

/-- The result of an expression: a value, and new variables between two states. -/
def RRel (s t : State) (v : Gleam.Value) (r : Erlang.Result) : Prop := VRel v r.1 ∧ Between s t (Erlang.keys r.2)

def RsRel (s t : State) (vs : List Gleam.Value) (r : List Erlang.Value × Erlang.Env) : Prop :=
  VsRel vs r.1 ∧ Between s t (Erlang.keys r.2)

section

variable {W W' : Type} {RW : W → W' → Prop} {α β γ δ : Type} {R : α → β → Prop} {S : γ → δ → Prop}

theorem MRel.stuck {m' : Erlang.Run W' β} : MRel RW R (M.stuck : Gleam.Run W α) m' := fun _ _ _ => trivial

theorem MRel.pure {a : α} {b : β} (h : R a b) : MRel RW R (M.pure a : Gleam.Run W α) (M.pure b) :=
  fun _ _ hw => ⟨h, hw⟩

theorem MRel.bind {m : Gleam.Run W α} {m' : Erlang.Run W' β} {f : α → Gleam.Run W γ} {f' : β → Erlang.Run W' δ}
    (h : MRel RW R m m') (hf : ∀ a b, R a b → MRel RW S (f a) (f' b)) : MRel RW S (m.bind f) (m'.bind f') := by
  intro w w' hw
  have h1 := h w w' hw
  unfold M.bind
  revert h1
  cases m w with
  | mk o w1 =>
    cases m' w' with
    | mk o' w1' =>
      cases o <;> cases o' <;> intro h1 <;> first | exact h1.elim | trivial | skip
      · exact hf _ _ h1.1 _ _ h1.2
      all_goals exact h1

/-- A weaker relation of the values. -/
theorem MRel.mono {m : Gleam.Run W α} {m' : Erlang.Run W' β} {S : α → β → Prop} (h : MRel RW R m m')
    (hs : ∀ a b, R a b → S a b) : MRel RW S m m' := by
  intro w w' hw
  have h1 := h w w' hw
  revert h1
  cases m w with
  | mk o w1 =>
    cases m' w' with
    | mk o' w1' =>
      cases o <;> cases o' <;> intro h1 <;> first | exact h1.elim | trivial | skip
      · exact ⟨hs _ _ h1.1, h1.2⟩
      all_goals exact h1

theorem MRel.ofOption {o : Option α} {m' : Erlang.Run W' β} (h : ∀ a, o = some a → MRel RW R (M.pure a) m') :
    MRel RW R (M.ofOption o) m' := by
  cases o with
  | none => exact MRel.stuck
  | some a => exact h a rfl

end

section

variable {W ε α β γ : Type}

theorem M.pure_bind (a : α) (f : α → M W ε β) : (M.pure a).bind f = f a := rfl

theorem M.bind_pure (m : M W ε α) : m.bind M.pure = m := by
  funext w
  unfold M.bind
  cases m w with
  | mk o w1 => cases o <;> rfl

theorem M.bind_assoc (m : M W ε α) (f : α → M W ε β) (g : β → M W ε γ) :
    (m.bind f).bind g = m.bind fun a => (f a).bind g := by
  funext w
  unfold M.bind
  cases m w with
  | mk o w1 => cases o <;> rfl

theorem M.stuck_bind (f : α → M W ε β) : (M.stuck : M W ε α).bind f = M.stuck := rfl

theorem M.error_bind (e : ε) (f : α → M W ε β) : (M.error e : M W ε α).bind f = M.error e := rfl

end

/-! ### Environments -/

theorem mem_keys_of_lookup {e : Erlang.Env} {n : Text} {v : Erlang.Value} (h : e.lookup n = some v) :
    n ∈ Erlang.keys e := by
  induction e with
  | nil => simp at h
  | cons a e ih =>
    obtain ⟨m, w⟩ := a
    rw [List.lookup_cons] at h
    unfold Erlang.keys
    by_cases he : n = m
    · simp [he]
    · have hb : (n == m) = false := by simpa using he
      rw [hb] at h
      simp only [List.map_cons, List.mem_cons]
      exact Or.inr (ih h)

theorem lookup_append_of_not_mem {a e : Erlang.Env} {n : Text} (h : n ∉ Erlang.keys a) :
    (a ++ e).lookup n = e.lookup n := by
  induction a with
  | nil => rfl
  | cons b a ih =>
    obtain ⟨m, w⟩ := b
    simp only [Erlang.keys, List.map_cons, List.mem_cons, not_or] at h
    rw [List.cons_append, List.lookup_cons]
    have hb : (n == m) = false := by simpa using h.1
    rw [hb]
    exact ih h.2

theorem lookup_append_of_lookup {a e : Erlang.Env} {n : Text} {v : Erlang.Value} (h : a.lookup n = some v) :
    (a ++ e).lookup n = some v := by
  induction a with
  | nil => simp at h
  | cons b a ih =>
    obtain ⟨m, w⟩ := b
    rw [List.lookup_cons] at h
    rw [List.cons_append, List.lookup_cons]
    by_cases he : n = m
    · have hb : (n == m) = true := by simpa using he
      rw [hb] at h ⊢
      exact h
    · have hb : (n == m) = false := by simpa using he
      rw [hb] at h ⊢
      exact ih h

theorem lookup_of_mem {a : Erlang.Env} (hn : (Erlang.keys a).Nodup) {n : Text} {v : Erlang.Value} (h : (n, v) ∈ a) :
    a.lookup n = some v := by
  induction a with
  | nil => simp at h
  | cons b a ih =>
    obtain ⟨m, w⟩ := b
    simp only [Erlang.keys, List.map_cons, List.nodup_cons] at hn
    rw [List.lookup_cons]
    rcases List.mem_cons.1 h with h | h
    · cases h
      simp
    · have hne : n ≠ m := by
        rintro rfl
        exact hn.1 (List.mem_map.2 ⟨(n, v), (by assumption), rfl⟩)
      have hb : (n == m) = false := by simpa using hne
      rw [hb]
      exact ih hn.2 h

theorem mem_of_lookup {β : Type} {a : List (Text × β)} {x : Text} {v : β} (h : a.lookup x = some v) : (x, v) ∈ a := by
  induction a with
  | nil => simp at h
  | cons b a ih =>
    obtain ⟨m, w⟩ := b
    rw [List.lookup_cons] at h
    by_cases he : x = m
    · subst he
      simp at h
      simp [h]
    · have hb : (x == m) = false := by simpa using he
      rw [hb] at h
      exact List.mem_cons_of_mem _ (ih h)

theorem keys_append (a b : Erlang.Env) : Erlang.keys (a ++ b) = Erlang.keys a ++ Erlang.keys b := by simp [Erlang.keys]

theorem join_disjoint {a b : Erlang.Env} (h : ∀ n ∈ Erlang.keys a, n ∉ Erlang.keys b) :
    Erlang.join a b = some (a ++ b) := by
  unfold Erlang.join
  rw [if_pos]
  simpa [List.all_eq_true] using h

theorem join_between {s t u : State} {a b : Erlang.Env} (ha : Between s t (Erlang.keys a))
    (hb : Between t u (Erlang.keys b)) : Erlang.join a b = some (a ++ b) := join_disjoint (ha.disjoint hb)

theorem fresh_between {s t : State} {env b : Erlang.Env} (he : Bounded s env) (hb : Between s t (Erlang.keys b)) :
    Erlang.fresh env (.yes b) = .yes b := by
  unfold Erlang.fresh
  dsimp only
  rw [if_pos]
  simp only [List.all_eq_true, decide_eq_true_eq]
  intro n hn hc
  exact (hb n hn).1 (he n hc)

theorem Bounded.mono {s t : State} {env : Erlang.Env} (h : Bounded s env) (hm : ∀ n, s.Taken n → t.Taken n) :
    Bounded t env := fun n hn => hm n (h n hn)

theorem Bounded.append {s t : State} {a env : Erlang.Env} (h : Bounded s env) (ha : Between s t (Erlang.keys a))
    (hm : ∀ n, s.Taken n → t.Taken n) : Bounded t (a ++ env) := by
  intro n hn
  rw [keys_append, List.mem_append] at hn
  rcases hn with hn | hn
  · exact (ha n hn).2
  · exact hm n (h n hn)

theorem lookup_mem_snd {Γ : Scope} {x : Text} {l : Loc} (h : Γ.lookup x = some l) : l ∈ Γ.map Prod.snd :=
  List.mem_map.2 ⟨(x, l), mem_of_lookup h, rfl⟩

/-- More variables, and other places. -/
theorem EnvRel.extend {Γ : Scope} {s t : State} {env : Gleam.Env} {env' a : Erlang.Env} (h : EnvRel Γ s env env')
    (hb : Bounded s env') (hn : ∀ l ∈ Γ.map Prod.snd, t.names l = s.names l) (ha : ∀ n ∈ Erlang.keys a, ¬s.Taken n) :
    EnvRel Γ t env (a ++ env') := by
  intro x v hx
  obtain ⟨l, n, v', h1, h2, h3, h4⟩ := h x v hx
  refine ⟨l, n, v', h1, ?_, ?_, h4⟩
  · rw [hn l (lookup_mem_snd h1), h2]
  · rw [lookup_append_of_not_mem, h3]
    intro hc
    exact ha n hc (hb n (mem_keys_of_lookup h3))

/-- Everything that is known when an expression is evaluated. -/
structure Sit (Γ : Scope) (s : State) (env : Gleam.Env) (env' : Erlang.Env) : Prop where
  env : EnvRel Γ s env env'
  bounded : Bounded s env'

theorem Sit.step {Γ : Scope} {s t : State} {env : Gleam.Env} {env' a : Erlang.Env} {bs : List Text} {ls : List Loc}
    (h : Sit Γ s env env') (hs : Step s t bs ls) (hl : ∀ l ∈ ls, l ∉ Γ.map Prod.snd) (ha : Between s t (Erlang.keys a)) :
    Sit Γ t env (a ++ env') :=
  ⟨h.env.extend h.bounded (fun l hm => hs.names l fun hc => hl l hc hm) (fun n hn => (ha n hn).1),
    h.bounded.append ha fun _ hn => hs.mono hn⟩

theorem Sit.step' {Γ : Scope} {s t : State} {env : Gleam.Env} {env' : Erlang.Env} {bs : List Text} {ls : List Loc}
    (h : Sit Γ s env env') (hs : Step s t bs ls) (hl : ∀ l ∈ ls, l ∉ Γ.map Prod.snd) : Sit Γ t env env' := by
  have := h.step (a := []) hs hl (by intro n hn; simp [Erlang.keys] at hn)
  simpa using this

/-- One more variable of Gleam. -/
theorem Sit.bind {Γ : Scope} {s : State} {env : Gleam.Env} {env' : Erlang.Env} (h : Sit Γ s env env') {x : Text} {l : Loc}
    {n : Text} {v : Gleam.Value} {v' : Erlang.Value} (hn : s.names l = some n) (hl : env'.lookup n = some v')
    (hv : VRel v v') : Sit ((x, l) :: Γ) s ((x, v) :: env) env' := by
  refine ⟨?_, h.bounded⟩
  intro y w hy
  rw [List.lookup_cons] at hy
  by_cases he : y = x
  · subst he
    simp only [beq_self_eq_true, Option.some.injEq] at hy
    subst hy
    exact ⟨l, n, v', by simp, hn, hl, hv⟩
  · have hb : (y == x) = false := by simpa using he
    rw [hb] at hy
    obtain ⟨l', n', v'', h1, h2, h3, h4⟩ := h.env y w hy
    exact ⟨l', n', v'', by rw [List.lookup_cons, hb]; exact h1, h2, h3, h4⟩

theorem Places.left {Γ : Scope} {ls ms : List Loc} (h : Places Γ (ls ++ ms)) : Places Γ ls :=
  ⟨(List.nodup_append.1 h.1).1, fun l hl => h.2 l (List.mem_append_left _ hl)⟩

theorem Places.right {Γ : Scope} {ls ms : List Loc} (h : Places Γ (ls ++ ms)) : Places Γ ms :=
  ⟨(List.nodup_append.1 h.1).2.1, fun l hl => h.2 l (List.mem_append_right _ hl)⟩

/-- The places after those of some variables. -/
theorem Places.under {Γ : Scope} {vs : List (Text × Loc)} {ms : List Loc} (h : Places Γ (vs.map Prod.snd ++ ms)) :
    Places (vs ++ Γ) ms := by
  refine ⟨(List.nodup_append.1 h.1).2.1, ?_⟩
  intro l hl hc
  rw [List.map_append, List.mem_append] at hc
  rcases hc with hc | hc
  · exact (List.nodup_append.1 h.1).2.2 l hc l hl rfl
  · exact h.2 l (List.mem_append_right _ hl) hc

theorem Places.sub {Γ : Scope} {ls ms : List Loc} (h : Places Γ ls) (hs : ms.Sublist ls) : Places Γ ms :=
  ⟨h.1.sublist hs, fun l hl => h.2 l (hs.subset hl)⟩

theorem Places.perm {Γ : Scope} {ls ms : List Loc} (h : Places Γ ls) (hs : ls.Perm ms) : Places Γ ms :=
  ⟨hs.nodup_iff.1 h.1, fun l hl => h.2 l (hs.mem_iff.2 hl)⟩

end Verif.ErlGen
