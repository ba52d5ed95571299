import Verif.JsGen.Static
import Verif.JsGen.Spec

/-!
# Values of Gleam and values of JavaScript

The relations that the simulation is about.
-/

namespace Verif.JsGen

open Verif.ErlGen (Pattern Const Expr Stmt Clause varsAll M Out Match)
open Verif.ErlGen.Gleam (Panic)
open Spec (SameError)

abbrev GValue := ErlGen.Gleam.Value
abbrev GEnv := ErlGen.Gleam.Env
abbrev GRun (W α : Type) := ErlGen.Gleam.Run W α

/-! ### Stores -/

/-- Cells with values keep them. -/
def Keep (S S' : Store) : Prop := ∀ (l : Loc) (v : Value), S[l]? = some (Cell.val v) → S'[l]? = some (Cell.val v)

theorem Keep.refl (S : Store) : Keep S S := fun _ _ h => h

theorem Keep.trans {S S' S'' : Store} (h : Keep S S') (h' : Keep S' S'') : Keep S S'' := fun l v hl => h' l v (h l v hl)

/-- What changes are only new cells and some cells that have no values yet. -/
structure Frame (L : Loc → Prop) (S S' : Store) : Prop where
  length : S.length ≤ S'.length
  same : ∀ l, l < S.length → ¬L l → S'[l]? = S[l]?
  keep : Keep S S'

def NoCells : Loc → Prop := fun _ => False

theorem Frame.refl (L : Loc → Prop) (S : Store) : Frame L S S := ⟨Nat.le_refl _, fun _ _ _ => rfl, .refl S⟩

theorem Frame.trans {L L' : Loc → Prop} {S S' S'' : Store} (h : Frame L S S') (h' : Frame L' S' S'')
    (hl : ∀ l, l < S.length → L' l → L l) : Frame L S S'' where
  length := Nat.le_trans h.length h'.length
  same l h1 h2 := (h'.same l (Nat.lt_of_lt_of_le h1 h.length) fun h3 => h2 (hl l h1 h3)).trans (h.same l h1 h2)
  keep := h.keep.trans h'.keep

theorem Frame.mono {L L' : Loc → Prop} {S S' : Store} (h : Frame L S S') (hl : ∀ l, l < S.length → L l → L' l) : Frame L' S S' :=
  ⟨h.length, fun l h1 h2 => h.same l h1 fun h3 => h2 (hl l h1 h3), h.keep⟩

theorem lt_of_cell {S : Store} {l : Loc} {c : Cell} (h : S[l]? = some c) : l < S.length := by
  rw [List.getElem?_eq_some_iff] at h
  exact h.1

theorem Frame.append (L : Loc → Prop) (S T : Store) : Frame L S (S ++ T) where
  length := by simp
  same l h _ := by rw [List.getElem?_append_left h]
  keep l v h := by rw [List.getElem?_append_left (lt_of_cell h)]; exact h

/-! ### Values -/

section

variable (single : Text → Bool) (g : List (Text × Nat))

mutual

/-- The value of JavaScript for a value of Gleam, in a store. -/
inductive VRel (S : Store) : GValue → Value → Prop
  | int (n : Int) : VRel S (.int n) (.int n)
  | str (s : List Char) : VRel S (.str s) (.str s)
  | tuple {vs vs'} : VsRel S vs vs' → VRel S (.tuple vs) (.array vs')
  | nil : VRel S .nil .empty
  | cons {v v' w w'} : VRel S v v' → VRel S w w' → VRel S (.cons v w) (.nonEmpty v' w')
  | record {tag vs vs'} : VsRel S vs vs' → VRel S (.record tag vs) (construct tag vs')
  | ctor {tag n} {names : List Name} {env : Env} : names.Nodup → names.length = n + 1 →
    VRel S (.ctor tag (n + 1)) (.closure (names.map some) [.ret (.construct tag (names.map .var))] env)
  | fn (f : Text) (n : Nat) : VRel S (.fn none f n) (.fn f)
  | ext (m f : Text) (n : Nat) : VRel S (.fn (some m) f n) (.ext m f)
  | closure {ps body env env'} (c : Context) (σ : Scope) (Γ : List Text) (value : Text → GValue) (number : Text → Nat)
      (loc : Text → Loc) (value' : Text → Value) :
    c.single = single → c.self = none → okParameters ps = true → okStmts single g (parameterTexts ps ++ Γ) body = true →
    (∀ x ∈ Γ, env.lookup x = some (value x)) → (∀ x ∈ Γ, σ.counter x = some (number x)) →
    (∀ x ∈ Γ, env'.lookup (.var x (number x)) = some (loc x)) → (∀ x ∈ Γ, S[loc x]? = some (.val (value' x))) →
    (∀ x ∈ Γ, VRel S (value x) (value' x)) →
    (∀ f ∈ texts g, f ∉ Γ → σ.counter f = some 0 ∧ env'.lookup (.var f 0) = none) →
    (subjectText ∉ Γ ∧ blockText ∉ Γ) →
    VRel S (.closure ps body env) (.closure (parameterNames ps) (genStmts c true .tail (σ.parameters ps) body).stms env')

inductive VsRel (S : Store) : List GValue → List Value → Prop
  | nil : VsRel S [] []
  | cons {v v' vs vs'} : VRel S v v' → VsRel S vs vs' → VsRel S (v :: vs) (v' :: vs')

end

/-- Variables in scope have cells with related values; functions of the module can be reached. -/
structure EnvRel (S : Store) (c : Context) (σ : Scope) (Γ : List Text) (env : GEnv) (env' : Env) : Prop where
  vars : ∀ x ∈ Γ, ∃ v k l v', env.lookup x = some v ∧ σ.counter x = some k ∧ env'.lookup (.var x k) = some l ∧
    S[l]? = some (.val v') ∧ VRel single g S v v'
  globals : ∀ f ∈ texts g, f ∉ Γ → σ.counter f = some 0 ∧ env'.lookup (.var f 0) = none
  clean : subjectText ∉ Γ ∧ blockText ∉ Γ
  self : ∀ f ps, c.self = some (f, ps) → (f ∈ Γ → σ.counter f ≠ some 0) ∧ (f, ps.length) ∈ g

end

section

variable {single : Text → Bool} {g : List (Text × Nat)}

mutual

theorem VRel.keep {S S' : Store} (hk : Keep S S') : ∀ {v v'}, VRel single g S v v' → VRel single g S' v v'
  | _, _, .int n => .int n
  | _, _, .str s => .str s
  | _, _, .tuple h => .tuple (VsRel.keep hk h)
  | _, _, .nil => .nil
  | _, _, .cons h h' => .cons (VRel.keep hk h) (VRel.keep hk h')
  | _, _, .record h => .record (VsRel.keep hk h)
  | _, _, .ctor h h' => .ctor h h'
  | _, _, .fn f n => .fn f n
  | _, _, .ext m f n => .ext m f n
  | _, _, .closure c σ Γ value number loc value' h1 h2 h3 h4 h5 h6 h7 h8 h9 h10 h11 =>
    .closure c σ Γ value number loc value' h1 h2 h3 h4 h5 h6 h7 (fun x hx => hk _ _ (h8 x hx)) (fun x hx => VRel.keep hk (h9 x hx))
      h10 h11

theorem VsRel.keep {S S' : Store} (hk : Keep S S') : ∀ {vs vs'}, VsRel single g S vs vs' → VsRel single g S' vs vs'
  | _, _, .nil => .nil
  | _, _, .cons h h' => .cons (VRel.keep hk h) (VsRel.keep hk h')

end

theorem EnvRel.keep {S S' : Store} {c : Context} {σ : Scope} {Γ : List Text} {env : GEnv} {env' : Env}
    (h : EnvRel single g S c σ Γ env env') (hk : Keep S S') : EnvRel single g S' c σ Γ env env' where
  vars x hx := by
    obtain ⟨v, k, l, v', h1, h2, h3, h4, h5⟩ := h.vars x hx
    exact ⟨v, k, l, v', h1, h2, h3, hk _ _ h4, h5.keep hk⟩
  globals := h.globals
  clean := h.clean
  self := h.self

theorem EnvRel.closure {S : Store} {c : Context} {σ : Scope} {Γ : List Text} {env : GEnv} {env' : Env}
    {ps : List (Option (Text × Nat))} {body : List Stmt}
    (h : EnvRel single g S c σ Γ env env') (hc : c.single = single) (hp : okParameters ps = true)
    (hb : okStmts single g (parameterTexts ps ++ Γ) body = true) :
    VRel single g S (.closure ps body env)
      (.closure (parameterNames ps) (genStmts { c with self := none } true .tail (σ.parameters ps) body).stms env') := by
  classical
  have hv : ∀ x, ∃ v k l v', x ∈ Γ → env.lookup x = some v ∧ σ.counter x = some k ∧ env'.lookup (.var x k) = some l ∧
      S[l]? = some (.val v') ∧ VRel single g S v v' := by
    intro x
    by_cases hx : x ∈ Γ
    · obtain ⟨v, k, l, v', h1⟩ := h.vars x hx
      exact ⟨v, k, l, v', fun _ => h1⟩
    · exact ⟨.nil, 0, 0, .empty, fun h => absurd h hx⟩
  choose value number loc value' hall using hv
  exact .closure _ σ Γ value number loc value' hc rfl hp hb (fun x hx => (hall x hx).1) (fun x hx => (hall x hx).2.1)
    (fun x hx => (hall x hx).2.2.1) (fun x hx => (hall x hx).2.2.2.1) (fun x hx => (hall x hx).2.2.2.2) h.globals h.clean

/-! ### Values without functions -/

theorem encode_nullary (tag : Text) : Spec.encode (.record tag []) = some (construct tag []) := by
  simp only [Spec.encode, construct]
  by_cases h1 : tag = tagTrue
  · rw [if_pos (show tag = "True".toList from h1), if_pos h1]
  · rw [if_neg (show ¬tag = "True".toList from h1), if_neg h1]
    by_cases h2 : tag = tagFalse
    · rw [if_pos (show tag = "False".toList from h2), if_pos h2]
    · rw [if_neg (show ¬tag = "False".toList from h2), if_neg h2]
      by_cases h3 : tag = tagNil
      · rw [if_pos (show tag = "Nil".toList from h3), if_pos h3]
      · rw [if_neg (show ¬tag = "Nil".toList from h3), if_neg h3]

mutual

theorem VRel.encode {S : Store} : ∀ {v v'}, VRel single g S v v' → Spec.IsData v → Spec.encode v = some v'
  | _, _, .int n, _ => by simp [Spec.encode]
  | _, _, .str s, _ => by simp [Spec.encode]
  | _, _, .tuple (vs := vs) h, hd => by
    unfold Spec.IsData at hd
    simp only [Spec.encode, Option.isSome_map] at hd
    simp only [Spec.encode]
    rw [VsRel.encode h hd]
    rfl
  | _, _, .nil, _ => by simp [Spec.encode]
  | _, _, .cons (v := v) (w := w) h h', hd => by
    unfold Spec.IsData at hd
    simp only [Spec.encode] at hd ⊢
    cases h1 : Spec.encode v with
    | none => simp [h1] at hd
    | some a =>
      cases h2 : Spec.encode w with
      | none => simp [h1, h2] at hd
      | some b =>
        have e1 := VRel.encode h (by unfold Spec.IsData; simp [h1])
        have e2 := VRel.encode h' (by unfold Spec.IsData; simp [h2])
        rw [h1] at e1
        rw [h2] at e2
        cases e1
        cases e2
        rfl
  | _, _, .record (tag := tag) (vs := []) .nil, _ => by
    exact encode_nullary tag
  | _, _, .record (vs := v :: vs) (.cons h h'), hd => by
    unfold Spec.IsData at hd
    simp only [Spec.encode] at hd ⊢
    cases h1 : Spec.encode v with
    | none => simp [h1] at hd
    | some a =>
      cases h2 : Spec.encodeAll vs with
      | none => simp [h1, h2] at hd
      | some b =>
        have e1 := VRel.encode h (by unfold Spec.IsData; simp [h1])
        have e2 := VsRel.encode h' (by simp [h2])
        rw [h1] at e1
        rw [h2] at e2
        cases e1
        cases e2
        rfl
  | _, _, .ctor _ _, hd => by simp [Spec.IsData, Spec.encode] at hd
  | _, _, .fn _ _, hd => by simp [Spec.IsData, Spec.encode] at hd
  | _, _, .ext _ _ _, hd => by simp [Spec.IsData, Spec.encode] at hd
  | _, _, .closure .., hd => by simp [Spec.IsData, Spec.encode] at hd

theorem VsRel.encode {S : Store} : ∀ {vs vs'}, VsRel single g S vs vs' → (Spec.encodeAll vs).isSome = true → Spec.encodeAll vs = some vs'
  | _, _, .nil, _ => by simp [Spec.encodeAll]
  | _, _, .cons (v := v) (vs := vs) h h', hd => by
    simp only [Spec.encodeAll] at hd ⊢
    cases h1 : Spec.encode v with
    | none => simp [h1] at hd
    | some a =>
      cases h2 : Spec.encodeAll vs with
      | none => simp [h1, h2] at hd
      | some b =>
        have e1 := VRel.encode h (by unfold Spec.IsData; simp [h1])
        have e2 := VsRel.encode h' (by simp [h2])
        rw [h1] at e1
        rw [h2] at e2
        cases e1
        cases e2
        rfl

end

mutual

theorem VRel.of_encode {S : Store} : ∀ (v : GValue) {v' : Value}, Spec.encode v = some v' → VRel single g S v v'
  | .int n, _, h => by simp only [Spec.encode, Option.some.injEq] at h; subst h; exact .int n
  | .str n, _, h => by simp only [Spec.encode, Option.some.injEq] at h; subst h; exact .str n
  | .tuple vs, _, h => by
    simp only [Spec.encode, Option.map_eq_some_iff] at h
    obtain ⟨vs', h1, rfl⟩ := h
    exact .tuple (VsRel.of_encode vs h1)
  | .nil, _, h => by simp only [Spec.encode, Option.some.injEq] at h; subst h; exact .nil
  | .cons v w, _, h => by
    simp only [Spec.encode] at h
    cases h1 : Spec.encode v with
    | none => simp [h1] at h
    | some a =>
      cases h2 : Spec.encode w with
      | none => simp [h1, h2] at h
      | some b =>
        simp only [h1, h2, Option.some.injEq] at h
        subst h
        exact .cons (VRel.of_encode v h1) (VRel.of_encode w h2)
  | .record tag [], v', h => by
    rw [encode_nullary, Option.some.injEq] at h
    subst h
    exact .record .nil
  | .record tag (v :: vs), _, h => by
    simp only [Spec.encode] at h
    cases h1 : Spec.encode v with
    | none => simp [h1] at h
    | some a =>
      cases h2 : Spec.encodeAll vs with
      | none => simp [h1, h2] at h
      | some b =>
        simp only [h1, h2, Option.some.injEq] at h
        subst h
        exact .record (vs' := a :: b) (.cons (VRel.of_encode v h1) (VsRel.of_encode vs h2))
  | .closure _ _ _, _, h => by simp [Spec.encode] at h
  | .ctor _ _, _, h => by simp [Spec.encode] at h
  | .fn _ _ _, _, h => by simp [Spec.encode] at h

theorem VsRel.of_encode {S : Store} : ∀ (vs : List GValue) {vs' : List Value}, Spec.encodeAll vs = some vs' → VsRel single g S vs vs'
  | [], _, h => by simp only [Spec.encodeAll, Option.some.injEq] at h; subst h; exact .nil
  | v :: vs, _, h => by
    simp only [Spec.encodeAll] at h
    cases h1 : Spec.encode v with
    | none => simp [h1] at h
    | some a =>
      cases h2 : Spec.encodeAll vs with
      | none => simp [h1, h2] at h
      | some b =>
        simp only [h1, h2, Option.some.injEq] at h
        subst h
        exact .cons (VRel.of_encode v h1) (VsRel.of_encode vs h2)

end

theorem VsRel.length {S : Store} : ∀ {vs vs'}, VsRel single g S vs vs' → vs.length = vs'.length
  | _, _, .nil => rfl
  | _, _, .cons _ h => by simp [VsRel.length h]

theorem VsRel.get {S : Store} : ∀ {vs vs'}, VsRel single g S vs vs' → ∀ (i : Nat) v, vs[i]? = some v →
    ∃ v', vs'[i]? = some v' ∧ VRel single g S v v'
  | _, _, .nil, i, v, h => by simp at h
  | _, _, .cons h _, 0, v, hv => by
    simp only [List.getElem?_cons_zero, Option.some.injEq] at hv
    subst hv
    exact ⟨_, rfl, h⟩
  | _, _, .cons _ h, i + 1, v, hv => by
    simp only [List.getElem?_cons_succ] at hv ⊢
    exact VsRel.get h i v hv

end

end Verif.JsGen
