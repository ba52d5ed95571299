import Verif.Strings.Lemmas
import Verif.Strings.Props
import Verif.ErlGen.Rel

/-!
# Values, strings and sequences
-/

namespace Verif.ErlGen

open Verif.ErlText (Text Term astAll)
open Verif.Strings.Spec (Piece text UpperCamel Reads erlangChar Denotes)

/-! ### Strings -/

theorem literal_denotes {ps : List Piece} {v : List Char} (h : Gleam.literal ps = some v) : Denotes ps v := by
  induction ps generalizing v with
  | nil =>
    simp only [Gleam.literal, Option.some.injEq] at h
    subst h
    rfl
  | cons p ps ih =>
    simp only [Gleam.literal] at h
    split at h
    · rename_i c cs h1 h2
      simp only [Option.some.injEq] at h
      subst h
      have := ih h2
      unfold Denotes at this ⊢
      simp [h1, this]
    · simp at h

theorem literal_some {ps : List Piece} (h : Literal ps) : ∃ v, Gleam.literal ps = some v := by
  induction ps with
  | nil => exact ⟨_, rfl⟩
  | cons p ps ih =>
    obtain ⟨v, hv⟩ := ih fun q hq => h q (List.mem_cons_of_mem _ hq)
    have := h p (by simp)
    cases hp : p.value? with
    | none => exact absurd hp this
    | some d => exact ⟨d :: v, by simp [Gleam.literal, hp, hv]⟩

theorem untilBrace_shorter {s a b : List Char} (h : Strings.Spec.untilBrace s = some (a, b)) : b.length < s.length := by
  induction s generalizing a with
  | nil => simp [Strings.Spec.untilBrace] at h
  | cons c s ih =>
    unfold Strings.Spec.untilBrace at h
    split at h
    · simp only [Option.some.injEq, Prod.mk.injEq] at h
      simp [h.2]
    · simp only [Option.map_eq_some_iff] at h
      obtain ⟨⟨a', b'⟩, h1, h2⟩ := h
      simp only [Prod.mk.injEq] at h2
      have := ih (h2.2 ▸ h1)
      simp only [List.length_cons]
      omega

theorem erlangChar_shorter {s : List Char} {c : Char} {rest : List Char} (h : erlangChar s = some (c, rest)) :
    rest.length < s.length := by
  unfold erlangChar at h
  split at h <;> first
    | (simp at h; done)
    | (simp only [Option.some.injEq, Prod.mk.injEq] at h; rw [← h.2]; simp only [List.length_cons]; omega)
    | skip
  simp only [Option.bind_eq_some_iff, Option.map_eq_some_iff] at h
  obtain ⟨⟨a, b⟩, h1, d, h2, h3⟩ := h
  have := untilBrace_shorter h1
  simp only [Prod.mk.injEq] at h3
  rw [← h3.2]
  simp only [List.length_cons]
  omega

theorem stringValue_of_reads {s v : List Char} (h : Reads erlangChar s v) :
    ∀ n, s.length ≤ n → Erlang.stringValue n s = some v := by
  induction h with
  | nil => intro n _; cases n <;> rfl
  | @cons s c rest cs h1 h2 ih =>
    intro n hn
    have hl := erlangChar_shorter h1
    cases s with
    | nil => simp at hl
    | cons d s =>
      cases n with
      | zero => simp at hn
      | succ n =>
        simp only [List.length_cons] at hl hn
        simp only [Erlang.stringValue, h1, ih n (by omega), Option.map_some]

theorem string_literal {ps : List Piece} {v : List Char} (h : Gleam.literal ps = some v) :
    Erlang.string (Strings.escapeErlang 0 (text ps)) = some v :=
  stringValue_of_reads (Strings.reads_erlang ps v (literal_denotes h)) _ (Nat.le_refl _)

/-! ### Atoms -/

theorem snake_inj {a b : Text} (ha : UpperCamel a) (hb : UpperCamel b) (h : snake a = snake b) : a = b :=
  Strings.erlang_tags_distinct Strings.isUpperChar (by
    intro c hc
    exact Strings.isUpperChar_iff c) a b ha hb h

theorem upperTrue : UpperCamel "True".toList :=
  ⟨'T', "rue".toList, rfl, by unfold Strings.Spec.Upper; decide,
    by unfold Strings.Spec.Lower Strings.Spec.Upper Strings.Spec.Digit; decide⟩

theorem upperFalse : UpperCamel "False".toList :=
  ⟨'F', "alse".toList, rfl, by unfold Strings.Spec.Upper; decide,
    by unfold Strings.Spec.Lower Strings.Spec.Upper Strings.Spec.Digit; decide⟩

theorem snakeTrue : snake "True".toList = "true".toList := by decide +kernel
theorem snakeFalse : snake "False".toList = "false".toList := by decide +kernel

/-! ### Values -/

theorem VRel.bool (b : Bool) : VRel (.bool b) (.bool b) := by
  cases b
  · have := VRel.enum upperFalse
    rw [snakeFalse] at this
    exact this
  · have := VRel.enum upperTrue
    rw [snakeTrue] at this
    exact this

theorem VRel.isTrue {v : Gleam.Value} {v' : Erlang.Value} {b : Bool} (h : VRel v v') (hb : v.isTrue = some b) :
    v' = .bool b := by
  cases h with
  | enum ht =>
    simp only [Gleam.Value.isTrue] at hb
    split at hb
    · rename_i he
      cases hb
      rw [he, snakeTrue]
      rfl
    · split at hb
      · rename_i he
        cases hb
        rw [he, snakeFalse]
        rfl
      · simp at hb
  | _ => simp [Gleam.Value.isTrue] at hb

theorem VsRel.length {vs : List Gleam.Value} {vs' : List Erlang.Value} (h : VsRel vs vs') : vs.length = vs'.length := by
  induction vs generalizing vs' with
  | nil => cases h; rfl
  | cons v vs ih =>
    cases h with
    | cons h1 h2 => simp [ih h2]

theorem VsRel.get {vs : List Gleam.Value} {vs' : List Erlang.Value} (h : VsRel vs vs') {i : Nat} {v : Gleam.Value}
    (hv : vs[i]? = some v) : ∃ v', vs'[i]? = some v' ∧ VRel v v' := by
  induction vs generalizing vs' i with
  | nil => simp at hv
  | cons w vs ih =>
    cases h with
    | cons h1 h2 =>
      cases i with
      | zero =>
        simp only [List.getElem?_cons_zero, Option.some.injEq] at hv
        subst hv
        exact ⟨_, rfl, h1⟩
      | succ i =>
        simp only [List.getElem?_cons_succ] at hv
        simpa using ih h2 hv

theorem both_some {a b : Option Bool} {r : Bool} (h : Gleam.both a b = some r) :
    ∃ x y, a = some x ∧ b = some y ∧ r = (x && y) := by
  cases a <;> cases b <;> simp_all [Gleam.both]

mutual

/-- Values are equal in Gleam if they are equal in Erlang. -/
theorem VRel.eq : ∀ {a b : Gleam.Value} {a' b' : Erlang.Value} {r : Bool}, VRel a a' → VRel b b' → a.eq b = some r →
    a'.eq b' = some r
  | .int _, _, _, _, _, ha, hb, h => by
    cases ha; cases hb <;> simp_all [Gleam.Value.eq, Erlang.Value.eq]
  | .str _, _, _, _, _, ha, hb, h => by
    cases ha; cases hb <;> simp_all [Gleam.Value.eq, Erlang.Value.eq]
  | .tuple as, _, _, _, _, ha, hb, h => by
    cases ha with
    | tuple h1 =>
      cases hb with
      | tuple h2 =>
        simp only [Gleam.Value.eq] at h
        simp only [Erlang.Value.eq]
        exact VsRel.eq h1 h2 h
      | _ => simp [Gleam.Value.eq] at h
  | .nil, _, _, _, _, ha, hb, h => by
    cases ha; cases hb <;> simp_all [Gleam.Value.eq, Erlang.Value.eq]
  | .cons a as, _, _, _, _, ha, hb, h => by
    cases ha with
    | cons h1 h2 =>
      cases hb with
      | nil => simp_all [Gleam.Value.eq, Erlang.Value.eq]
      | cons h3 h4 =>
        simp only [Gleam.Value.eq] at h
        obtain ⟨x, y, hx, hy, hr⟩ := both_some h
        have e1 := VRel.eq h1 h3 hx
        have e2 := VRel.eq h2 h4 hy
        simp only [Erlang.Value.eq, e1]
        cases x <;> simp [e2, hr]
      | _ => simp [Gleam.Value.eq] at h
  | .record t as, _, _, _, _, ha, hb, h => by
    cases ha with
    | enum u1 =>
      cases hb with
      | enum u2 =>
        simp only [Gleam.Value.eq] at h
        simp only [Erlang.Value.eq]
        split at h
        · rename_i he
          subst he
          simp_all [Gleam.eqAll]
        · rename_i he
          simp only [Option.some.injEq] at h
          subst h
          simp only [Option.some.injEq, decide_eq_false_iff_not]
          exact fun hc => he (snake_inj u1 u2 hc)
      | record u2 _ _ =>
        simp only [Gleam.Value.eq] at h
        split at h
        · simp [Gleam.eqAll] at h
        · simp only [Option.some.injEq] at h
          subst h
          simp [Erlang.Value.eq]
      | _ => simp [Gleam.Value.eq] at h
    | record u1 h1 h2 =>
      cases hb with
      | enum u2 =>
        simp only [Gleam.Value.eq] at h
        split at h
        · simp [Gleam.eqAll] at h
        · simp only [Option.some.injEq] at h
          subst h
          simp [Erlang.Value.eq]
      | record u2 h3 h4 =>
        simp only [Gleam.Value.eq] at h
        split at h
        · rename_i he
          subst he
          have := VsRel.eq (.cons h1 h2) (.cons h3 h4) h
          simp only [Erlang.Value.eq, Erlang.eqAll, decide_true]
          exact this
        · rename_i he
          simp only [Option.some.injEq] at h
          subst h
          have : decide (snake _ = snake _) = false := decide_eq_false fun hc => he (snake_inj u1 u2 hc)
          simp [Erlang.Value.eq, Erlang.eqAll, this]
      | _ => simp [Gleam.Value.eq] at h
  | .closure _ _ _, _, _, _, _, _, _, h => by simp [Gleam.Value.eq] at h
  | .ctor _ _, _, _, _, _, _, _, h => by simp [Gleam.Value.eq] at h
  | .fn _ _ _, _, _, _, _, _, _, h => by simp [Gleam.Value.eq] at h

theorem VsRel.eq : ∀ {as bs : List Gleam.Value} {as' bs' : List Erlang.Value} {r : Bool}, VsRel as as' → VsRel bs bs' →
    Gleam.eqAll as bs = some r → Erlang.eqAll as' bs' = some r
  | [], _, _, _, _, ha, hb, h => by
    cases ha; cases hb <;> simp_all [Gleam.eqAll, Erlang.eqAll]
  | a :: as, _, _, _, _, ha, hb, h => by
    cases ha with
    | cons h1 h2 =>
      cases hb with
      | nil => simp [Gleam.eqAll] at h
      | cons h3 h4 =>
        simp only [Gleam.eqAll] at h
        obtain ⟨x, y, hx, hy, hr⟩ := both_some h
        have e1 := VRel.eq h1 h3 hx
        have e2 := VsRel.eq h2 h4 hy
        simp only [Erlang.eqAll, e1]
        cases x <;> simp [e2, hr]

end

/-- The operators that evaluate both operands, other than concatenation and division. -/
theorem binary_rel {W : Type} {op : Op} {a b r : Gleam.Value} {a' b' : Erlang.Value} (ha : VRel a a') (hb : VRel b b')
    (h : Gleam.binary op a b = some r) (hc : op ≠ .concat) (hd : op = .div ∨ op = .rem → b' ≠ .int 0)
    {op' : ErlText.BinOp} (ho : op' = op.erlang ∨ op' = op.erlangGuard) :
    ∃ r', (Erlang.binary op'.op a' b' : Erlang.Run W Erlang.Value) = M.pure r' ∧ VRel r r' := by
  cases op with
  | eq =>
    simp only [Gleam.binary, Option.map_eq_some_iff] at h
    obtain ⟨x, h1, rfl⟩ := h
    refine ⟨.bool x, ?_, VRel.bool x⟩
    rcases ho with rfl | rfl <;>
      simp [Op.erlang, Op.erlangGuard, ErlText.BinOp.op, Erlang.binary, ha.eq hb h1, M.ofOption]
  | notEq =>
    simp only [Gleam.binary, Option.map_eq_some_iff] at h
    obtain ⟨x, h1, rfl⟩ := h
    refine ⟨.bool !x, ?_, VRel.bool _⟩
    rcases ho with rfl | rfl <;>
      simp [Op.erlang, Op.erlangGuard, ErlText.BinOp.op, Erlang.binary, ha.eq hb h1, M.ofOption]
  | concat => exact absurd rfl hc
  | and => simp [Gleam.binary] at h
  | or => simp [Gleam.binary] at h
  | _ =>
    cases ha <;> first
      | (simp [Gleam.binary] at h; done)
      | skip
    cases hb <;> first
      | (simp [Gleam.binary] at h; done)
      | skip
    simp only [Gleam.binary, Option.some.injEq] at h
    subst h
    rcases ho with rfl | rfl <;>
      first
        | (refine ⟨_, rfl, ?_⟩; first | exact VRel.bool _ | exact VRel.int _)
        | (rename_i n
           have hn : n ≠ 0 := by
             intro hz
             subst hz
             simp at hd
           refine ⟨_, ?_, VRel.int _⟩
           simp [Op.erlang, Op.erlangGuard, ErlText.BinOp.op, Erlang.binary, Erlang.arithmetic, hn])

/-! ### Sequences -/

theorem astAll_append (ts us : List Term) : astAll (ts ++ us) = astAll ts ++ astAll us := by
  induction ts with
  | nil => rfl
  | cons t ts ih => simp [astAll, ih]

theorem astAll_ne {ts : List Term} (h : ts ≠ []) : astAll ts ≠ [] := by
  cases ts with
  | nil => exact absurd rfl h
  | cons t ts => simp [astAll]

section

variable {W : Type} (ap : Erlang.Value → List Erlang.Value → Erlang.Run W Erlang.Value)

theorem seq_cons (env : Erlang.Env) (e : ErlText.Read.Ast) {es : List ErlText.Read.Ast} (h : es ≠ []) :
    Erlang.seq ap env (e :: es) =
      (Erlang.expr ap env e).bind fun r => (Erlang.seq ap (r.2 ++ env) es).bind fun q => M.pure (q.1, q.2 ++ r.2) := by
  cases es with
  | nil => exact absurd rfl h
  | cons e' es => rw [Erlang.seq]

theorem seq_one (env : Erlang.Env) (e : ErlText.Read.Ast) : Erlang.seq ap env [e] = Erlang.expr ap env e := by
  rw [Erlang.seq]

theorem seq_append (env : Erlang.Env) {xs ys : List ErlText.Read.Ast} (hx : xs ≠ []) (hy : ys ≠ []) :
    Erlang.seq ap env (xs ++ ys) =
      (Erlang.seq ap env xs).bind fun r => (Erlang.seq ap (r.2 ++ env) ys).bind fun q => M.pure (q.1, q.2 ++ r.2) := by
  induction xs generalizing env with
  | nil => exact absurd rfl hx
  | cons x xs ih =>
    cases xs with
    | nil => rw [List.singleton_append, seq_cons ap env x hy, seq_one]
    | cons x' xs =>
      rw [List.cons_append, seq_cons ap env x (by simp), seq_cons ap env x (by simp), M.bind_assoc]
      congr 1
      funext r
      rw [ih (r.2 ++ env) (by simp), M.bind_assoc, M.bind_assoc]
      congr 1
      funext q
      rw [M.bind_assoc, M.pure_bind]
      simp only [List.append_assoc]
      congr 1
      funext p
      rw [M.pure_bind]
      simp only [List.append_assoc]

end

end Verif.ErlGen
