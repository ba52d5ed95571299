import Verif.ErlGen.PatternSim

/-!
# Constants and guards
-/

namespace Verif.ErlGen

open Verif.ErlText (Text Term astAll)
open Verif.Strings.Spec (Piece text UpperCamel)

section

variable {W : Type} (ap : Erlang.Value → List Erlang.Value → Erlang.Run W Erlang.Value)

theorem expr_int (env : Erlang.Env) (b : Bool) (n : Int) :
    Erlang.expr ap env (Term.ast b (.int n)) = M.pure (.int n, []) := by
  cases n with
  | ofNat k => rw [Term.ast, Erlang.expr]; rfl
  | negSucc k =>
    rw [Term.ast, Erlang.expr, Erlang.expr, M.pure_bind]
    rfl

theorem expr_string (env : Erlang.Env) {ps : List Piece} {t : List Char} (h : Gleam.literal ps = some t) :
    Erlang.expr ap env (Term.ast false (.string (text ps))) = M.pure (.str t, []) := by
  simp [Term.ast, Erlang.expr, string_literal h, M.ofOption]

theorem expr_binary (env : Erlang.Env) {op : ErlText.Read.Op} (l r : ErlText.Read.Ast) (h1 : op ≠ .bind) (h2 : op ≠ .andalso)
    (h3 : op ≠ .orelse) :
    Erlang.expr ap env (.binary op l r) =
      (Erlang.expr ap env l).bind fun (v, a) => (Erlang.expr ap env r).bind fun (w, b) =>
        Erlang.joined a b fun c => (Erlang.binary op v w).bind fun r => M.pure (r, c) := by
  cases op <;> first | exact absurd rfl h1 | exact absurd rfl h2 | exact absurd rfl h3 | rw [Erlang.expr] <;> simp

theorem joined_nil {α : Type} (a : Erlang.Env) (f : Erlang.Env → Erlang.Run W α) : Erlang.joined a [] f = f a := by
  simp [Erlang.joined, Erlang.join, Erlang.keys, M.ofOption, M.pure_bind]

theorem nil_joined {α : Type} (a : Erlang.Env) (f : Erlang.Env → Erlang.Run W α) : Erlang.joined [] a f = f a := by
  simp [Erlang.joined, Erlang.join, Erlang.keys, M.ofOption, M.pure_bind]

theorem expr_remote (env : Erlang.Env) (m f : Text) (es : List ErlText.Read.Ast) :
    Erlang.expr ap env (.call (.remote (.atom m) (.atom f)) es) = (Erlang.exprs ap env es).bind fun (vs, a) =>
      if m = "erlang".toList ∧ f = "error".toList then
        match vs with
        | [v] => M.error v
        | _ => M.stuck
      else if m = "erlang".toList ∧ f = "element".toList then (Erlang.element vs).bind fun v => M.pure (v, a)
      else (ap (.ref (some m) f vs.length) vs).bind fun v => M.pure (v, a) := by
  rw [Erlang.expr]
  rfl

theorem expr_element (env : Erlang.Env) (i : Nat) (e : ErlText.Read.Ast) :
    Erlang.expr ap env (.call (.remote (.atom "erlang".toList) (.atom "element".toList)) [Term.ast false (.int i), e]) =
      (Erlang.expr ap env e).bind fun (v, a) => (Erlang.element [.int i, v]).bind fun v => M.pure (v, a) := by
  rw [expr_remote, Erlang.exprs, expr_int, M.pure_bind]
  simp only [Erlang.exprs, M.pure_bind, joined_nil, M.bind_assoc, nil_joined]
  simp

theorem element_get {W : Type} {vs : List Erlang.Value} {i : Nat} {v : Erlang.Value} (h : vs[i]? = some v) :
    (Erlang.element [.int ((i + 1 : Nat) : Int), .tuple vs] : Erlang.Run W _) = M.pure v := by
  show Erlang.element [.int (Int.ofNat (i + 1)), .tuple vs] = _
  simp [Erlang.element, h]

mutual

theorem const_sim (env : Erlang.Env) : ∀ (k : Const) (v : Gleam.Value), k.Wf → Gleam.constant k = some v →
    ∃ v', Erlang.expr ap env ((tConst k).ast false) = M.pure (v', []) ∧ VRel v v'
  | .int n, v, _, h => by
    simp only [Gleam.constant, Option.some.injEq] at h
    subst h
    exact ⟨_, expr_int ap env false n, VRel.int n⟩
  | .string ps, v, _, h => by
    simp only [Gleam.constant, Option.map_eq_some_iff] at h
    obtain ⟨t, h1, rfl⟩ := h
    exact ⟨_, expr_string ap env h1, VRel.str t⟩
  | .tuple cs, v, hw, h => by
    simp only [Gleam.constant, Option.map_eq_some_iff] at h
    obtain ⟨vs, h1, rfl⟩ := h
    simp only [Const.Wf] at hw
    obtain ⟨vs', h2, h3⟩ := consts_sim env cs vs hw h1
    refine ⟨_, ?_, VRel.tuple h3⟩
    simp [tConst, Term.ast, Erlang.expr, h2, M.pure_bind]
  | .nil, v, _, h => by
    simp only [Gleam.constant, Option.some.injEq] at h
    subst h
    exact ⟨.nil, by simp [tConst, Term.ast, Erlang.expr], VRel.nil⟩
  | .cons c d, v, hw, h => by
    simp only [Const.Wf] at hw
    simp only [Gleam.constant] at h
    split at h
    · rename_i a b h1 h2
      simp only [Option.some.injEq] at h
      subst h
      obtain ⟨a', e1, r1⟩ := const_sim env c a hw.1 h1
      obtain ⟨b', e2, r2⟩ := const_sim env d b hw.2 h2
      refine ⟨_, ?_, VRel.cons r1 r2⟩
      simp [tConst, Term.ast, Erlang.expr, e1, e2, M.pure_bind, joined_nil]
    · simp at h
  | .record tag [], v, hw, h => by
    simp only [Const.Wf] at hw
    simp only [Gleam.constant, Gleam.constants, Option.map_some, Option.some.injEq] at h
    subst h
    exact ⟨_, by simp only [tConst, Term.ast, Erlang.expr], VRel.enum hw.1⟩
  | .record tag (c :: cs), v, hw, h => by
    simp only [Const.Wf] at hw
    simp only [Gleam.constant, Option.map_eq_some_iff] at h
    obtain ⟨vs, h1, rfl⟩ := h
    obtain ⟨vs', h2, h3⟩ := consts_sim env (c :: cs) vs hw.2 h1
    cases h3 with
    | nil =>
      simp only [Gleam.constants] at h1
      split at h1 <;> simp at h1
    | cons h4 h5 =>
      refine ⟨_, ?_, VRel.record hw.1 h4 h5⟩
      simp only [tConsts] at h2
      simp only [tConst, Term.ast, Erlang.expr]
      rw [ErlText.astAll, Erlang.exprs, Term.ast, Erlang.expr, M.pure_bind, h2]
      simp only [M.pure_bind, joined_nil]

theorem consts_sim (env : Erlang.Env) : ∀ (ks : List Const) (vs : List Gleam.Value), constsWf ks →
    Gleam.constants ks = some vs →
    ∃ vs', Erlang.exprs ap env (astAll (tConsts ks)) = M.pure (vs', []) ∧ VsRel vs vs'
  | [], vs, _, h => by
    simp only [Gleam.constants, Option.some.injEq] at h
    subst h
    exact ⟨[], by simp [tConsts, ErlText.astAll, Erlang.exprs], .nil⟩
  | k :: ks, vs, hw, h => by
    simp only [constsWf] at hw
    simp only [Gleam.constants] at h
    split at h
    · rename_i a b h1 h2
      simp only [Option.some.injEq] at h
      subst h
      obtain ⟨a', e1, r1⟩ := const_sim env k a hw.1 h1
      obtain ⟨b', e2, r2⟩ := consts_sim env ks b hw.2 h2
      refine ⟨_, ?_, VsRel.cons r1 r2⟩
      simp [tConsts, ErlText.astAll, Erlang.exprs, e1, e2, M.pure_bind, joined_nil]
    · simp at h

end

end

/-! ### Guards -/

/-- Everything that is known when a guard is evaluated. -/
def GuardEnv (Γ : Scope) (s : State) (later : Later) (env : Gleam.Env) (env' : Erlang.Env) : Prop :=
  ∀ x v l, env.lookup x = some v → Γ.lookup x = some l →
    (∃ ps t, later.get x = some (text ps) ∧ Gleam.literal ps = some t ∧ v = .str t) ∨
    (later.get x = none ∧ ∃ n v', s.names l = some n ∧ env'.lookup n = some v' ∧ VRel v v')

section

variable {W : Type} (ap : Erlang.Value → List Erlang.Value → Erlang.Run W Erlang.Value)

theorem expr_local {s : State} {l : Loc} {n : Text} {v' : Erlang.Value} {env' : Erlang.Env} (b : Bool)
    (h1 : s.names l = some n) (h2 : env'.lookup n = some v') :
    Erlang.expr ap env' (Term.ast b (.var (s.localName l))) = M.pure (v', []) := by
  simp [Term.ast, Erlang.expr, State.localName, h1, h2, M.ofOption]

theorem bind_some {α β : Type} {o : Option α} {f : α → Option β} {b : β} (h : o.bind f = some b) :
    ∃ a, o = some a ∧ f a = some b := Option.bind_eq_some_iff.1 h

theorem path_sim {Γ : Scope} {s : State} {later : Later} {env : Gleam.Env} {env' : Erlang.Env} {aliases : List Text}
    (he : GuardEnv Γ s later env env') :
    ∀ (g : Guard) (v : Gleam.Value), g.isPath = true → g.Wf aliases Γ → Gleam.guard env g = some v →
      (∃ t, v = .str t) ∨
        ∃ v', Erlang.expr ap env' ((tGuard s [] g).ast false) = M.pure (v', []) ∧ VRel v v'
  | .var x l, v, _, hw, h => by
    simp only [Guard.Wf] at hw
    simp only [Gleam.guard] at h
    rcases he x v l h hw with ⟨ps, t, h1, h2, h3⟩ | ⟨-, n, v', h1, h2, h3⟩
    · exact Or.inl ⟨t, h3⟩
    · refine Or.inr ⟨v', ?_, h3⟩
      simp only [tGuard, Later.get, List.find?_nil, Option.map_none]
      exact expr_local ap false h1 h2
  | .const k, v, _, hw, h => by
    simp only [Guard.Wf] at hw
    simp only [Gleam.guard] at h
    exact Or.inr (const_sim ap env' k v hw h)
  | .block g, v, hp, hw, h => by
    simp only [Guard.Wf] at hw
    simp only [Gleam.guard] at h
    simp only [Guard.isPath] at hp
    exact path_sim he g v hp hw h
  | .index g i, v, hp, hw, h => by
    simp only [Guard.Wf] at hw
    simp only [Gleam.guard] at h
    split at h
    · rename_i vs hg
      rcases path_sim he g _ hw.1 hw.2.1 hg with ⟨t, ht⟩ | ⟨v', h1, h2⟩
      · simp at ht
      · cases h2 with
        | tuple h3 =>
          obtain ⟨w', h4, h5⟩ := h3.get h
          refine Or.inr ⟨w', ?_, h5⟩
          simp only [tGuard, Term.ast, ErlText.astAll]
          rw [show ((i : Int) + 1) = ((i + 1 : Nat) : Int) from rfl, expr_element, h1, M.pure_bind]
          simp only [element_get h4, M.pure_bind]
    · simp at h
  | .field g i, v, hp, hw, h => by
    simp only [Guard.Wf] at hw
    simp only [Gleam.guard] at h
    split at h
    · rename_i vs hg
      rcases path_sim he g _ hw.1 hw.2.1 hg with ⟨t, ht⟩ | ⟨v', h1, h2⟩
      · simp at ht
      · cases h2 with
        | enum => simp at h
        | @record tag a a' as as' u h3 h3' =>
          obtain ⟨w', h4, h5⟩ := (VsRel.cons h3 h3').get h
          refine Or.inr ⟨w', ?_, h5⟩
          simp only [tGuard, Term.ast, ErlText.astAll]
          rw [show ((i : Int) + 2) = ((i + 1 + 1 : Nat) : Int) from rfl, expr_element, h1, M.pure_bind]
          simp only [element_get (show (Erlang.Value.atom _ :: a' :: as')[i + 1]? = some w' from h4), M.pure_bind]
    · simp at h
  | .not _, _, hp, _, _ => by simp [Guard.isPath] at hp
  | .bin _ _ _, _, hp, _, _ => by simp [Guard.isPath] at hp

/-- Segments that are not literals. -/
theorem segments_cons (env : Erlang.Env) {e : ErlText.Read.Ast} (h : ∀ t, e ≠ .string t) (ss : List ErlText.Read.AstSegment) :
    Erlang.segments ap env (.mk e none [("binary".toList, none)] :: ss) =
      (Erlang.expr ap env e).bind fun (v, a) => (Erlang.segments ap env ss).bind fun (t, b) =>
        Erlang.joined a b fun c =>
          match v with
          | .str s => M.pure (s ++ t, c)
          | _ => M.error Erlang.badarg := by
  rw [Erlang.segments]
  · simp only [if_true]
    rfl
  · exact h

theorem segments_string (env : Erlang.Env) {ps : List Piece} {t : List Char} (h : Gleam.literal ps = some t)
    (ss : List ErlText.Read.AstSegment) :
    Erlang.segments ap env (.mk (Term.ast true (.string (text ps))) none (ErlText.specTypes (concatSpec true)) :: ss) =
      (Erlang.segments ap env ss).bind fun (u, b) => M.pure (t ++ u, b) := by
  simp only [Term.ast, if_true, concatSpec, show ErlText.specTypes [.utf8] = [("utf8".toList, none)] from rfl]
  rw [Erlang.segments]
  simp only [if_true, string_literal h, M.ofOption, M.pure_bind]

/-- Terms that are written in the same way as values of segments. -/
def Plain : Term → Prop
  | .string _ => False
  | .unary _ _ => False
  | .bind _ _ => False
  | _ => True

theorem Plain.ast {t : Term} (h : Plain t) : t.ast true = t.ast false ∧ ∀ u, t.ast true ≠ .string u := by
  cases t with
  | string _ => exact h.elim
  | unary _ _ => exact h.elim
  | bind _ _ => exact h.elim
  | int n => cases n <;> simp [Term.ast]
  | float s _ _ => cases s <;> simp [Term.ast, ErlText.Sign.ast]
  | _ => simp [Term.ast]

theorem segment_value (env : Erlang.Env) {t : Term} (h : Plain t) {v : List Char}
    (he : Erlang.expr ap env (t.ast false) = M.pure (.str v, [])) (ss : List ErlText.Read.AstSegment) :
    Erlang.segments ap env (.mk (t.ast true) none (ErlText.specTypes (concatSpec false)) :: ss) =
      (Erlang.segments ap env ss).bind fun (u, b) => M.pure (v ++ u, b) := by
  simp only [concatSpec]
  simp only [Bool.false_eq_true, if_false, show ErlText.specTypes [.binary] = [("binary".toList, none)] from rfl]
  rw [segments_cons ap env h.ast.2, h.ast.1, he, M.pure_bind]
  simp only [nil_joined]

theorem const_plain {k : Const} (h : k.literal = false) : Plain (tConst k) := by
  match k with
  | .int _ => simp [tConst, Plain]
  | .string _ => simp [Const.literal] at h
  | .tuple _ => simp [tConst, Plain]
  | .nil => simp [tConst, Plain]
  | .cons _ _ => simp [tConst, Plain]
  | .record _ [] => simp [tConst, Plain]
  | .record _ (_ :: _) => simp [tConst, Plain]

/-- A guard as a segment of a concatenation. -/
theorem guard_segment {s : State} {later : Later} {env : Gleam.Env} {env' : Erlang.Env} {aliases : List Text}
    (hl : ∀ x, later.get x ≠ none → x ∈ aliases) :
    ∀ (g : Guard) (v : List Char), g.isAlias aliases = false → Gleam.guard env g = some (.str v) →
      (∃ v', Erlang.expr ap env' ((tGuard s later g).ast false) = M.pure (v', []) ∧ VRel (.str v) v') →
      ∀ ss, Erlang.segments ap env' (.mk ((tGuard s later g).ast true) none (ErlText.specTypes (concatSpec g.literal)) :: ss) =
        (Erlang.segments ap env' ss).bind fun (u, b) => M.pure (v ++ u, b)
  | .var x l, v, ha, h, he, ss => by
    obtain ⟨v', h1, h2⟩ := he
    cases h2
    have : later.get x = none := by
      cases hg : later.get x with
      | none => rfl
      | some t =>
        have := hl x (by simp [hg])
        simp [Guard.isAlias, this] at ha
    simp only [tGuard, this, Guard.literal] at h1 ⊢
    exact segment_value ap env' (by simp [Plain]) h1 ss
  | .const k, v, ha, h, he, ss => by
    obtain ⟨v', h1, h2⟩ := he
    cases h2
    simp only [tGuard, Guard.literal] at h1 ⊢
    by_cases hk : k.literal = true
    · match k, hk with
      | .string ps, _ =>
        simp only [Gleam.guard, Gleam.constant, Option.map_eq_some_iff, Gleam.Value.str.injEq] at h
        obtain ⟨t, h3, rfl⟩ := h
        exact segments_string ap env' h3 ss
    · simp only [Bool.not_eq_true] at hk
      rw [hk]
      exact segment_value ap env' (const_plain hk) h1 ss
  | .block g, v, ha, h, he, ss => by
    simp only [Guard.isAlias] at ha
    simp only [Gleam.guard] at h
    simp only [tGuard, Guard.literal] at he ⊢
    exact guard_segment hl g v ha h he ss
  | .not g, v, ha, h, he, ss => by
    simp only [Gleam.guard, Option.map_eq_some_iff] at h
    obtain ⟨b, -, h⟩ := h
    cases b <;> simp [Gleam.Value.bool] at h
  | .index g i, v, ha, h, he, ss => by
    obtain ⟨v', h1, h2⟩ := he
    cases h2
    simp only [tGuard, Guard.literal] at h1 ⊢
    exact segment_value ap env' (by simp [Plain]) h1 ss
  | .field g i, v, ha, h, he, ss => by
    obtain ⟨v', h1, h2⟩ := he
    cases h2
    simp only [tGuard, Guard.literal] at h1 ⊢
    exact segment_value ap env' (by simp [Plain]) h1 ss
  | .bin op l r, v, ha, h, he, ss => by
    obtain ⟨v', h1, h2⟩ := he
    cases h2
    have hp : Plain (tGuard s later (.bin op l r)) := by
      cases op <;> simp [tGuard, Plain]
    simp only [Guard.literal] at h1 ⊢
    exact segment_value ap env' hp h1 ss

theorem isTrue_bool (b : Bool) : (Gleam.Value.bool b).isTrue = some b := by cases b <;> decide

/-- The value of a guard. -/
theorem guard_sim {Γ : Scope} {s : State} {later : Later} {env : Gleam.Env} {env' : Erlang.Env} {aliases : List Text}
    (he : GuardEnv Γ s later env env') (hl : ∀ x, later.get x ≠ none → x ∈ aliases) :
    ∀ (g : Guard) (v : Gleam.Value), g.Wf aliases Γ → Gleam.guard env g = some v →
      ∃ v', Erlang.expr ap env' ((tGuard s later g).ast false) = M.pure (v', []) ∧ VRel v v'
  | .var x l, v, hw, h => by
    simp only [Guard.Wf] at hw
    simp only [Gleam.guard] at h
    rcases he x v l h hw with ⟨ps, t, h1, h2, h3⟩ | ⟨h0, n, v', h1, h2, h3⟩
    · subst h3
      simp only [tGuard, h1]
      exact ⟨_, expr_string ap env' h2, VRel.str t⟩
    · refine ⟨v', ?_, h3⟩
      simp only [tGuard, h0]
      exact expr_local ap false h1 h2
  | .const k, v, hw, h => by
    simp only [Guard.Wf] at hw
    simp only [Gleam.guard] at h
    exact const_sim ap env' k v hw h
  | .block g, v, hw, h => by
    simp only [Guard.Wf] at hw
    simp only [Gleam.guard] at h
    exact guard_sim he hl g v hw h
  | .not g, v, hw, h => by
    simp only [Guard.Wf] at hw
    simp only [Gleam.guard, Option.map_eq_some_iff] at h
    obtain ⟨b, h1, rfl⟩ := h
    obtain ⟨w, h2, h3⟩ := bind_some h1
    obtain ⟨w', h4, h5⟩ := guard_sim he hl g w hw h2
    refine ⟨.bool !b, ?_, VRel.bool _⟩
    rw [h5.isTrue h3] at h4
    simp only [tGuard, Term.ast, Erlang.expr, h4, M.pure_bind]
    cases b <;> simp [ErlText.UnOp.op, Erlang.unary, Erlang.Value.bool, M.pure_bind]
  | .index g i, v, hw, h => by
    rcases path_sim ap he (.index g i) v (by simpa [Guard.isPath, Guard.Wf] using hw.1) hw h with ⟨t, rfl⟩ | hr
    · simp only [Guard.Wf] at hw
      simp only [Gleam.guard] at h
      split at h
      · rename_i vs hg
        rcases path_sim ap he g _ hw.1 hw.2.1 hg with ⟨t, ht⟩ | ⟨v', h1, h2⟩
        · simp at ht
        · cases h2 with
          | tuple h3 =>
            obtain ⟨w', h4, h5⟩ := h3.get h
            refine ⟨w', ?_, h5⟩
            simp only [tGuard, Term.ast, ErlText.astAll]
            rw [show ((i : Int) + 1) = ((i + 1 : Nat) : Int) from rfl, expr_element, h1, M.pure_bind]
            simp only [element_get h4, M.pure_bind]
      · simp at h
    · exact hr
  | .field g i, v, hw, h => by
    rcases path_sim ap he (.field g i) v (by simpa [Guard.isPath, Guard.Wf] using hw.1) hw h with ⟨t, rfl⟩ | hr
    · simp only [Guard.Wf] at hw
      simp only [Gleam.guard] at h
      split at h
      · rename_i vs hg
        rcases path_sim ap he g _ hw.1 hw.2.1 hg with ⟨t, ht⟩ | ⟨v', h1, h2⟩
        · simp at ht
        · cases h2 with
          | enum => simp at h
          | @record tag a a' as as' u h3 h3' =>
            obtain ⟨w', h4, h5⟩ := (VsRel.cons h3 h3').get h
            refine ⟨w', ?_, h5⟩
            simp only [tGuard, Term.ast, ErlText.astAll]
            rw [show ((i : Int) + 2) = ((i + 1 + 1 : Nat) : Int) from rfl, expr_element, h1, M.pure_bind]
            simp only [element_get (show (Erlang.Value.atom _ :: a' :: as')[i + 1]? = some w' from h4), M.pure_bind]
      · simp at h
    · exact hr
  | .bin op l r, v, hw, h => by
    by_cases hand : op = .and
    · subst hand
      simp only [Guard.Wf] at hw
      simp only [Gleam.guard] at h
      obtain ⟨b, h1, h2⟩ := bind_some h
      obtain ⟨w, h3, h4⟩ := bind_some h1
      obtain ⟨w', h5, h6⟩ := guard_sim he hl l w hw.1 h3
      rw [h6.isTrue h4] at h5
      simp only [tGuard, Term.ast, Op.erlangGuard, Op.erlang, ErlText.BinOp.op, Erlang.expr, h5, M.pure_bind]
      cases b with
      | false =>
        simp only [Bool.false_eq_true, if_false, Option.some.injEq] at h2
        subst h2
        exact ⟨.bool false, by simp [Erlang.Value.bool], VRel.bool _⟩
      | true =>
        simp only [if_true, Option.map_eq_some_iff] at h2
        obtain ⟨c, h7, rfl⟩ := h2
        obtain ⟨u, h8, h9⟩ := bind_some h7
        obtain ⟨u', h10, h11⟩ := guard_sim he hl r u hw.2.1 h8
        rw [h11.isTrue h9] at h10
        exact ⟨.bool c, by simp [Erlang.Value.bool, h10, M.pure_bind], VRel.bool _⟩
    by_cases hor : op = .or
    · subst hor
      simp only [Guard.Wf] at hw
      simp only [Gleam.guard] at h
      obtain ⟨b, h1, h2⟩ := bind_some h
      obtain ⟨w, h3, h4⟩ := bind_some h1
      obtain ⟨w', h5, h6⟩ := guard_sim he hl l w hw.1 h3
      rw [h6.isTrue h4] at h5
      simp only [tGuard, Term.ast, Op.erlangGuard, Op.erlang, ErlText.BinOp.op, Erlang.expr, h5, M.pure_bind]
      cases b with
      | true =>
        simp only [if_true, Option.some.injEq] at h2
        subst h2
        exact ⟨.bool true, by simp [Erlang.Value.bool], VRel.bool _⟩
      | false =>
        simp only [Bool.false_eq_true, if_false, Option.map_eq_some_iff] at h2
        obtain ⟨c, h7, rfl⟩ := h2
        obtain ⟨u, h8, h9⟩ := bind_some h7
        obtain ⟨u', h10, h11⟩ := guard_sim he hl r u hw.2.1 h8
        rw [h11.isTrue h9] at h10
        exact ⟨.bool c, by simp [Erlang.Value.bool, h10, M.pure_bind], VRel.bool _⟩
    by_cases hcon : op = .concat
    · subst hcon
      simp only [Guard.Wf] at hw
      simp only [Gleam.guard] at h
      split at h
      · rename_i a b h1 h2
        cases a <;> cases b <;> simp only [Gleam.binary, reduceCtorEq] at h
        rename_i a b
        simp only [Option.some.injEq] at h
        subst h
        have e1 := guard_segment ap hl l a (hw.2.2.2 trivial).1 h1 (guard_sim he hl l _ hw.1 h1)
        have e2 := guard_segment ap hl r b (hw.2.2.2 trivial).2 h2 (guard_sim he hl r _ hw.2.1 h2)
        refine ⟨_, ?_, VRel.str _⟩
        simp only [tGuard, Term.ast, ErlText.segmentAst, Erlang.expr, e1, e2, Erlang.segments, M.pure_bind, List.append_nil]
      · simp at h
    simp only [Guard.Wf] at hw
    rw [Gleam.guard] at h
    · split at h
      · rename_i a b h1 h2
        obtain ⟨a', e1, r1⟩ := guard_sim he hl l a hw.1 h1
        obtain ⟨b', e2, r2⟩ := guard_sim he hl r b hw.2.1 h2
        obtain ⟨r', e3, r3⟩ := binary_rel (W := W) r1 r2 h hcon (op' := op.erlangGuard) (by
          intro hd hz
          subst hz
          have := hw.2.2.1 hd
          cases r2
          match r, this with
          | .const (.int n), hn =>
            simp only [Gleam.guard, Gleam.constant, Option.some.injEq, Gleam.Value.int.injEq] at h2
            simp [Guard.nonZero, h2] at hn) (Or.inr rfl)
        refine ⟨r', ?_, r3⟩
        have ht : tGuard s later (.bin op l r) = .binary op.erlangGuard (tGuard s later l) (tGuard s later r) := by
          cases op <;> first | exact absurd rfl hcon | simp only [tGuard]
        rw [ht]
        simp only [Term.ast]
        rw [expr_binary, e1, M.pure_bind]
        · simp only [e2, M.pure_bind, joined_nil, e3]
        · cases op <;> simp [Op.erlangGuard, Op.erlang, ErlText.BinOp.op]
        · cases op <;> simp_all [Op.erlangGuard, Op.erlang, ErlText.BinOp.op]
        · cases op <;> simp_all [Op.erlangGuard, Op.erlang, ErlText.BinOp.op]
      · simp at h
    · exact hand
    · exact hor

/-! ### Guards are allowed -/

mutual

theorem const_legal (b : Bool) : ∀ k : Const, Erlang.legal ((tConst k).ast b) = true
  | .int (.ofNat _) => by simp [tConst, Term.ast, Erlang.legal]
  | .int (.negSucc _) => by simp [tConst, Term.ast, Erlang.legal]
  | .string _ => by cases b <;> simp [tConst, Term.ast, Erlang.legal]
  | .tuple cs => by simp [tConst, Term.ast, Erlang.legal, consts_legal cs]
  | .nil => by simp [tConst, Term.ast, Erlang.legal]
  | .cons c d => by simp [tConst, Term.ast, Erlang.legal, const_legal false c, const_legal false d]
  | .record _ [] => by simp [tConst, Term.ast, Erlang.legal]
  | .record _ (c :: cs) => by
    simp [tConst, Term.ast, Erlang.legal, ErlText.astAll, Erlang.legals, const_legal false c, consts_legal cs]

theorem consts_legal : ∀ ks : List Const, Erlang.legals (astAll (tConsts ks)) = true
  | [] => by simp [tConsts, ErlText.astAll, Erlang.legals]
  | k :: ks => by simp [tConsts, ErlText.astAll, Erlang.legals, const_legal false k, consts_legal ks]

end

theorem legal_int (n : Int) : Erlang.legal (Term.ast false (.int n)) = true := by
  cases n <;> simp [Term.ast, Erlang.legal]

theorem guard_legal (s : State) : ∀ (g : Guard) (later : Later) (b : Bool),
    Erlang.legal ((tGuard s later g).ast b) = true
  | .var x l, later, b => by
    simp only [tGuard]
    split
    · cases b <;> simp [Term.ast, Erlang.legal]
    · simp [Term.ast, Erlang.legal]
  | .const k, later, b => const_legal b k
  | .block g, later, b => guard_legal s g later b
  | .not g, later, b => by
    simp only [tGuard, Term.ast, Erlang.legal]
    exact guard_legal s g later b
  | .index g i, later, b => by
    simp only [tGuard, Term.ast, Erlang.legal, ErlText.astAll, Erlang.legals, legal_int, guard_legal s g [] false]
    decide
  | .field g i, later, b => by
    simp only [tGuard, Term.ast, Erlang.legal, ErlText.astAll, Erlang.legals, legal_int, guard_legal s g [] false]
    decide
  | .bin op l r, later, b => by
    have h1 := guard_legal s l later
    have h2 := guard_legal s r later
    cases op <;>
      simp only [tGuard, Term.ast, Op.erlangGuard, Op.erlang, ErlText.BinOp.op, ErlText.segmentAst, Erlang.legal,
        Erlang.legalSegments, h1, h2, Bool.and_self]

end

end Verif.ErlGen
