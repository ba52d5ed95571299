import Verif.Format.FileProps
import Verif.Format.ExpressionSpec

/-!
# A formatted expression is read as the same expression
-/
namespace Verif.Format
open Verif.Lexer Verif.Lexer.Spec Verif.Format.Spec Verif.TypeText
open Verif.Pretty (Doc joinWith)
open Verif.Pretty.Spec (Layout)

mutual
/-- The expression that a formatted expression is read as. -/
def normalExpr : Expr → Expr
  | .int value number => .int (int value) number
  | .string value => .string value
  | .callee c => .callee c
  | .call c arguments => .call c (normalExprs arguments)

def normalExprs : List Expr → List Expr
  | [] => []
  | e :: es => normalExpr e :: normalExprs es
end

mutual
theorem sameExpr_normal : (e : Expr) → SameExpr e (normalExpr e)
  | .int value number => by rw [normalExpr, SameExpr]
  | .string value => by rw [normalExpr, SameExpr]
  | .callee c => by rw [normalExpr, SameExpr]
  | .call c arguments => by rw [normalExpr, SameExpr]; exact ⟨rfl, sameExprs_normal arguments⟩

theorem sameExprs_normal : (es : List Expr) → SameExprs es (normalExprs es)
  | [] => by rw [normalExprs, SameExprs]; trivial
  | e :: es => by rw [normalExprs, SameExprs]; exact ⟨sameExpr_normal e, sameExprs_normal es⟩
end

/-- The tokens of a name and a field. -/
def calleeToks (c : Callee) : List Token :=
  (match c.record with
    | some r => [.name r, .symbol .dot]
    | none => []) ++ [if c.isUpper then .upName c.name else .name c.name]

mutual
/-- The tokens of a formatted expression: there may be a comma after the last argument. -/
def ExprToks : Expr → List Token → Prop
  | .int value number, ks => ks = [.int (int value) number]
  | .string value, ks => ks = [.string value]
  | .callee c, ks => ks = calleeToks c
  | .call c arguments, ks => ∃ a t, ks = calleeToks c ++ .symbol .leftParen :: (a ++ (t ++ [.symbol .rightParen])) ∧
      ExprsToks [] arguments a ∧ MaybeComma t ∧ (arguments = [] → t = [])

/-- The tokens of expressions, the first of which follows `lead`. -/
def ExprsToks (lead : List Token) : List Expr → List Token → Prop
  | [], ks => ks = []
  | e :: es, ks => ∃ a b, ks = lead ++ (a ++ b) ∧ ExprToks e a ∧ ExprsToks [.symbol .comma] es b
end

section
variable {eof : Nat} {width : List Char → Nat}

theorem seen_dotLower {c : Char} {rest : List Char} (hc : 'a' ≤ c ∧ c ≤ 'z') : Seen eof ['.'] [.symbol .dot] (c :: rest) := by
  refine seen_lexes (lexes_token (by simp) fun p he => ?_) rfl
  have h1 : c ≠ '\r' := by rintro rfl; revert hc; decide
  have h2 : c ≠ '.' := by rintro rfl; revert hc; decide
  have h3 : ¬isDigit c := by
    unfold isDigit
    simp only [Bool.and_eq_true, decide_eq_true_eq, not_and]
    intro _ h
    exact absurd (Char.le_trans hc.1 h) (by decide)
  simp only [List.singleton_append] at he ⊢
  have n1 := next1 he (by decide) (by decide)
  rw [bytes_one (by decide)]
  refine ⟨n1.2, p, (View eof (p + 1) (c :: rest)).location0, ?_⟩
  simp only [consumeNormal, view_cons_char0, ne_eq, Char.reduceEq, not_false_eq_true, location_cons, view_cons_char1,
    isUpper, isNameStart, isLower, isNumberStart, isDigit, startsDigit, consumeCharacter, singleSymbol, if_true, if_false,
    emit, n1.1, Option.some.injEq, Bool.and_eq_true, decide_eq_true_eq, lexDot, h1, h2]
  rw [maybeLexDotAccess_done (view_cons_char0 h1) h3]
  rfl

theorem callee_seen {c : Callee} (ok : CalleeOk c) {i : Int} {br : Bool} {out rest : List Char} (hs : Stop rest)
    (hl : Layout (calleeDoc width c) i br out) : Seen eof out (calleeToks c) rest := by
  obtain ⟨record, isUpper, name⟩ := c
  obtain ⟨h1, h2⟩ := ok
  have hn : Seen eof name [if isUpper then .upName name else .name name] rest := by
    cases isUpper with
    | true => exact seen_upName hs h2
    | false => exact seen_name hs h2
  cases record with
  | none => cases hl; exact hn
  | some r =>
    have hl : Layout (((text width r).append (text width ['.'])).append (text width name)) i br out := hl
    obtain ⟨x, y, rfl, e1, e2⟩ := layout_append hl
    obtain ⟨a, b, rfl, e3, e4⟩ := layout_append e1
    cases e2
    cases e3
    cases e4
    have hd : Seen eof ['.'] [.symbol .dot] (name ++ rest) := by
      cases isUpper with
      | true =>
        obtain ⟨_, ⟨c, q, e, hc⟩, _⟩ := h2
        simp only at e
        rw [e]
        exact seen_dot hc
      | false =>
        obtain ⟨_, ⟨c, q, e, hc⟩, _⟩ := h2
        simp only at e
        rw [e]
        exact seen_dotLower hc
    rw [List.append_assoc]
    exact Seen.append (ks := [.name r]) (seen_name (stop_open (.inr (.inl rfl))) (h1 r rfl))
      (Seen.append (t := ['.']) (ks := [.symbol .dot]) hd hn)

theorem noBreak_seen {i : Int} {br : Bool} {out rest : List Char} (h : Layout noBreak i br out) : Seen eof out [] rest := by
  rcases h with ⟨_, rfl⟩ | ⟨_, rfl⟩
  · exact seen_lineEnd _
  · exact Seen.nil

/-- A first document, and documents that follow it after commas, as arguments of a call. -/
theorem callArguments_seen {d : Doc} {ds : List Doc} {i : Int} {br : Bool} {out : List Char} {first more : List Token → Prop}
    (hl : Layout (callArguments width (d :: ds)) i br out)
    (h1 : ∀ i br x, Layout d i br x → ∃ ks, first ks ∧ SeenSep eof x ks)
    (h2 : ∀ i br x, LayAll commaBreak i br ds x → ∃ ks, more ks ∧ SeenSep eof x ks) :
    ∃ a b c, first a ∧ more b ∧ MaybeComma c ∧ (∃ r, out = '(' :: r) ∧
      SeenSep eof out (.symbol .leftParen :: (a ++ b ++ (c ++ [.symbol .rightParen]))) := by
  unfold callArguments at hl
  obtain ⟨br, hl⟩ := layout_grouped hl
  obtain ⟨x, y, rfl, e1, e2⟩ := layout_append hl
  obtain ⟨v, w, rfl, e4, w2, w3, rfl, e9, e10⟩ := layout_concat e2
  rw [LayEach] at e10
  subst e10
  cases e9
  obtain ⟨p, u, rfl, e3, e5⟩ := layout_append e1
  cases e3
  obtain ⟨o, s, rfl, e11, e6⟩ := layout_append (show Layout (noBreak.append (joinWith commaBreak (d :: ds))) _ _ u from e5)
  obtain ⟨f, t, rfl, e7, e8⟩ := layout_joinWith e6
  obtain ⟨a, ha, sa⟩ := h1 _ _ _ e7
  obtain ⟨b, hb, sb⟩ := h2 _ _ _ e8
  obtain ⟨c, hc, sc, sc'⟩ := seen_trailingCommaBreak (eof := eof) e4
  have st : Starts (v ++ [')']) := by
    rcases sc' with rfl | ⟨r, rfl⟩
    · exact .inr ⟨')', [], rfl, by simp [Sep]⟩
    · exact .inr ⟨',', _, rfl, by simp [Sep]⟩
  have sclose : SeenSep eof (v ++ [')']) (c ++ [.symbol .rightParen]) := by
    intro z rest hz
    exact Seen.append (sc _) (seen_symbol (by decide))
  refine ⟨a, b, c, ha, hb, hc, ⟨_, rfl⟩, ?_⟩
  intro z rest hz
  have h3 := (SeenSep.then (SeenSep.then sa (layAll_starts e8) sb) st sclose) z rest hz
  have h4 := Seen.append (ks := []) (noBreak_seen e11) h3
  have h5 := Seen.append (t := ['(']) (ks := [.symbol .leftParen]) (rest := z :: rest) (seen_symbol (by decide)) h4
  simpa using h5

/-- The layouts of the arguments do not depend on whether the last is breakable. -/
theorem call_layout {c : Callee} {arguments : List Expr} {i : Int} {br : Bool} {out : List Char}
    (hl : Layout (exprDoc width (.call c arguments)) i br out) :
    ∃ docs br, Layout ((calleeDoc width c).append (callArguments width docs)) i br out ∧
      (docs = exprDocs width arguments ∨ ∃ d as, arguments = [.call d as] ∧
        docs = [.nextBreakFits (exprDoc width (.call d as)).grouped .enabled]) := by
  rw [exprDoc] at hl
  split at hl
  · next h =>
    obtain ⟨br, hl⟩ := layout_grouped hl
    refine ⟨_, br, hl, .inr ?_⟩
    unfold onlyCall at h
    split at h
    · exact ⟨_, _, rfl, by rw [exprDocs, exprDocs]; rfl⟩
    · cases h
  · obtain ⟨br, hl⟩ := layout_grouped hl
    exact ⟨_, br, hl, .inl rfl⟩

theorem call_seen {c : Callee} (ok : CalleeOk c) {arguments : List Expr} {i : Int} {br : Bool} {out : List Char}
    (hl : Layout (exprDoc width (.call c arguments)) i br out)
    (h : arguments = [] ∨ ∃ e es, arguments = e :: es ∧
      (∀ i br x, Layout (exprDoc width e) i br x → ∃ ks, ExprToks e ks ∧ SeenSep eof x ks) ∧
      (∀ i br x, LayAll commaBreak i br (exprDocs width es) x → ∃ ks, ExprsToks [.symbol .comma] es ks ∧ SeenSep eof x ks)) :
    ∃ ks, ExprToks (.call c arguments) ks ∧ SeenSep eof out ks := by
  obtain ⟨docs, br, hl, hd⟩ := call_layout hl
  obtain ⟨x, y, rfl, e1, e2⟩ := layout_append hl
  have key : ∃ a t, ExprsToks [] arguments a ∧ MaybeComma t ∧ (arguments = [] → t = []) ∧ (∃ r, y = '(' :: r) ∧
      SeenSep eof y (.symbol .leftParen :: (a ++ (t ++ [.symbol .rightParen]))) := by
    rcases h with rfl | ⟨e, es, rfl, h1, h2⟩
    · rcases hd with rfl | ⟨_, _, hd, _⟩
      · rw [exprDocs] at e2
        cases e2
        refine ⟨[], [], by rw [ExprsToks], .inl rfl, fun _ => rfl, ⟨_, rfl⟩, fun z rest hz => ?_⟩
        exact Seen.append (t := ['(']) (u := [')']) (ks := [.symbol .leftParen]) (seen_symbol (by decide)) (seen_symbol (by decide))
      · cases hd
    · have e3 : ∃ d ds, docs = d :: ds ∧ (∀ i br x, Layout d i br x → ∃ ks, ExprToks e ks ∧ SeenSep eof x ks) ∧
          ds = exprDocs width es := by
        rcases hd with rfl | ⟨d, as, hd, rfl⟩
        · rw [exprDocs]
          exact ⟨_, _, rfl, h1, rfl⟩
        · cases hd
          refine ⟨_, _, rfl, fun i br x hx => ?_, by rw [exprDocs]⟩
          have hx : Layout (exprDoc width (.call d as)).grouped i br x := hx
          obtain ⟨br, hx⟩ := layout_grouped hx
          exact h1 _ _ _ hx
      obtain ⟨d, ds, rfl, h3, rfl⟩ := e3
      obtain ⟨a, b, t, ha, hb, ht, hr, sd⟩ := callArguments_seen (eof := eof) e2 h3 h2
      refine ⟨a ++ b, t, ?_, ht, (fun h => by cases h), hr, sd⟩
      rw [ExprsToks]
      exact ⟨a, b, rfl, ha, hb⟩
  obtain ⟨a, t, ha, ht, hn, ⟨r, hr⟩, sa⟩ := key
  refine ⟨_, by rw [ExprToks]; exact ⟨a, t, rfl, ha, ht, hn⟩, fun z rest hz => ?_⟩
  refine Seen.append (callee_seen ok ?_ e1) (sa z rest hz)
  rw [hr]
  exact stop_open (.inl rfl)

mutual
theorem expr_seen : (e : Expr) → ExprOk e → ∀ i br out, Layout (exprDoc width e) i br out →
    ∃ ks, ExprToks e ks ∧ SeenSep eof out ks
  | .int value n, ok, i, br, out, hl => by
    rw [exprDoc] at hl
    cases hl
    rw [ExprOk] at ok
    obtain ⟨t, ok⟩ := ok
    exact ⟨_, by rw [ExprToks], fun z rest hz => seen_int hz (formatted_int_is_same ok).1⟩
  | .string value, ok, i, br, out, hl => by
    rw [exprDoc] at hl
    rw [ExprOk] at ok
    rw [layout_string hl]
    exact ⟨_, by rw [ExprToks], fun z rest hz => seen_string ok⟩
  | .callee c, ok, i, br, out, hl => by
    rw [exprDoc] at hl
    rw [ExprOk] at ok
    exact ⟨_, by rw [ExprToks], fun z rest hz => callee_seen ok (stop_sep hz) hl⟩
  | .call c [], ok, i, br, out, hl => by
    rw [ExprOk] at ok
    exact call_seen ok.1 hl (.inl rfl)
  | .call c (e :: es), ok, i, br, out, hl => by
    rw [ExprOk, ExprsOk] at ok
    exact call_seen ok.1 hl (.inr ⟨e, es, rfl, expr_seen e ok.2.1, exprs_seen es ok.2.2⟩)

theorem exprs_seen : (es : List Expr) → ExprsOk es → ∀ i br out, LayAll commaBreak i br (exprDocs width es) out →
    ∃ ks, ExprsToks [.symbol .comma] es ks ∧ SeenSep eof out ks
  | [], _, i, br, out, hl => by
    rw [exprDocs, LayAll] at hl
    subst hl
    exact ⟨[], by rw [ExprsToks], fun _ _ _ => Seen.nil⟩
  | e :: es, ok, i, br, out, hl => by
    rw [ExprsOk] at ok
    rw [exprDocs] at hl
    obtain ⟨s, x, y, rfl, e1, e2, e3⟩ := hl
    obtain ⟨a, ha, sa⟩ := expr_seen e ok.1 _ _ _ e2
    obtain ⟨b, hb, sb⟩ := exprs_seen es ok.2 _ _ _ e3
    refine ⟨_, by rw [ExprsToks]; exact ⟨a, b, rfl, ha, hb⟩, fun z rest hz => ?_⟩
    exact Seen.append (seen_commaBreak e1).1 (SeenSep.then sa (layAll_starts e3) sb z rest hz)
end

end

/-! ### Reading -/

/-- Nothing follows that would be a part of the expression. -/
def Bounded (rest : List Token) : Prop := rest.head? ≠ some (.symbol .dot) ∧ rest.head? ≠ some (.symbol .leftParen)

theorem bounded_symbol {s : Symbol} {rest : List Token} (h : s ≠ .dot ∧ s ≠ .leftParen) : Bounded (.symbol s :: rest) := by
  simpa [Bounded] using h

theorem reads_callee {c : Callee} {rest : List Token} (h : rest.head? ≠ some (.symbol .dot)) :
    parseCallee (calleeToks c ++ rest) = some (c, rest) := by
  obtain ⟨record, isUpper, name⟩ := c
  cases record with
  | some r => cases isUpper <;> rfl
  | none =>
    cases isUpper with
    | true => rfl
    | false =>
      unfold parseCallee calleeToks
      simp only [Bool.false_eq_true, if_false, List.nil_append, List.cons_append]
      rcases rest with _ | ⟨k, rest⟩
      · rfl
      · split
        · next e => cases e; simp at h
        · next e => cases e; simp at h
        · next e => cases e; rfl
        · next e => cases e
        · next h3 _ => exact absurd rfl (h3 _ _)

theorem calleeToks_head (c : Callee) (rest : List Token) :
    (∃ n r, calleeToks c ++ rest = .name n :: r) ∨ ∃ n r, calleeToks c ++ rest = .upName n :: r := by
  obtain ⟨record, isUpper, name⟩ := c
  cases record with
  | some r => exact .inl ⟨_, _, rfl⟩
  | none =>
    cases isUpper with
    | true => exact .inr ⟨_, _, rfl⟩
    | false => exact .inl ⟨_, _, rfl⟩

theorem parseExpr_callee {fuel : Nat} {c : Callee} {rest : List Token} (h : rest.head? ≠ some (.symbol .dot)) :
    parseExpr (fuel + 1) (calleeToks c ++ rest) =
      match (generalizing := false) rest with
      | .symbol .leftParen :: rest =>
        match parseExprs fuel rest with
        | some (arguments, .symbol .rightParen :: rest) => some (.call c arguments, rest)
        | _ => none
      | _ => some (.callee c, rest) := by
  have h1 := reads_callee (c := c) h
  rw [parseExpr.eq_def]
  simp only
  rcases calleeToks_head c rest with ⟨n, r, e⟩ | ⟨n, r, e⟩
  · rw [e] at h1 ⊢
    simp only [h1]
    rfl
  · rw [e] at h1 ⊢
    simp only [h1]
    rfl

/-- What an expression begins with. -/
theorem exprToks_head {e : Expr} {ks : List Token} (h : ExprToks e ks) (rest : List Token) :
    ∃ k r, ks ++ rest = k :: r ∧ ((∃ v n, k = .int v n) ∨ (∃ v, k = .string v) ∨ (∃ v, k = .name v) ∨ ∃ v, k = .upName v) := by
  have key : ∀ (c : Callee) (rest : List Token), ∃ k r, calleeToks c ++ rest = k :: r ∧
      ((∃ v n, k = .int v n) ∨ (∃ v, k = .string v) ∨ (∃ v, k = .name v) ∨ ∃ v, k = .upName v) := by
    intro c rest
    rcases calleeToks_head c rest with ⟨n, r, e⟩ | ⟨n, r, e⟩
    · exact ⟨_, _, e, .inr (.inr (.inl ⟨_, rfl⟩))⟩
    · exact ⟨_, _, e, .inr (.inr (.inr ⟨_, rfl⟩))⟩
  match e with
  | .int v n => rw [ExprToks] at h; subst h; exact ⟨_, _, rfl, .inl ⟨_, _, rfl⟩⟩
  | .string v => rw [ExprToks] at h; subst h; exact ⟨_, _, rfl, .inr (.inl ⟨_, rfl⟩)⟩
  | .callee c => rw [ExprToks] at h; subst h; exact key c rest
  | .call c as =>
    rw [ExprToks] at h
    obtain ⟨a, t, rfl, _⟩ := h
    rw [List.append_assoc]
    exact key c _

theorem parseExprs_none {fuel : Nat} {rest : List Token} :
    parseExprs (fuel + 1) (.symbol .rightParen :: rest) = some ([], .symbol .rightParen :: rest) := by
  rw [parseExprs.eq_def]

theorem exprs_step {fuel : Nat} {e : Expr} {ks rest : List Token} (h : ExprToks e ks) :
    parseExprs (fuel + 1) (ks ++ rest) = match parseExpr fuel (ks ++ rest) with
      | none => none
      | some (e, rest) =>
        match rest with
        | .symbol .comma :: rest => (parseExprs fuel rest).map fun r => (e :: r.1, r.2)
        | _ => some ([e], rest) := by
  rw [parseExprs.eq_def]
  obtain ⟨k, r, e, hk⟩ := exprToks_head h rest
  rw [e]
  rcases hk with ⟨v, n, rfl⟩ | ⟨v, rfl⟩ | ⟨v, rfl⟩ | ⟨v, rfl⟩ <;> rfl

mutual
theorem reads_expr : (e : Expr) → ∀ ks rest fuel, ExprToks e ks → Bounded rest → 2 * ks.length ≤ fuel →
    parseExpr fuel (ks ++ rest) = some (normalExpr e, rest)
  | .int value n, ks, rest, fuel, h, hb, hl => by
    rw [ExprToks] at h
    subst h
    obtain ⟨k, rfl⟩ : ∃ k, fuel = k + 1 := ⟨fuel - 1, by simp at hl; omega⟩
    rw [parseExpr.eq_def, normalExpr]
    rfl
  | .string value, ks, rest, fuel, h, hb, hl => by
    rw [ExprToks] at h
    subst h
    obtain ⟨k, rfl⟩ : ∃ k, fuel = k + 1 := ⟨fuel - 1, by simp at hl; omega⟩
    rw [parseExpr.eq_def, normalExpr]
    rfl
  | .callee c, ks, rest, fuel, h, hb, hl => by
    rw [ExprToks] at h
    subst h
    obtain ⟨k, rfl⟩ : ∃ k, fuel = k + 1 := ⟨fuel - 1, by
      have : 1 ≤ (calleeToks c).length := by unfold calleeToks; simp
      omega⟩
    rw [parseExpr_callee hb.1, normalExpr]
    split
    · next r => exact absurd rfl hb.2
    · rfl
  | .call c arguments, ks, rest, fuel, h, hb, hl => by
    rw [ExprToks] at h
    obtain ⟨a, t, rfl, ha, ht, hn⟩ := h
    have hc : 1 ≤ (calleeToks c).length := by unfold calleeToks; simp
    simp only [List.length_append, List.length_cons, List.length_nil] at hl
    obtain ⟨k, rfl⟩ : ∃ k, fuel = k + 1 := ⟨fuel - 1, by omega⟩
    have h1 := reads_exprs arguments a t rest k ha ht hn (by omega)
    rw [normalExpr]
    simp only [List.cons_append, List.append_assoc, List.nil_append]
    rw [parseExpr_callee (by simp)]
    simp only
    rw [h1]

theorem reads_exprs : (es : List Expr) → ∀ ks t rest fuel, ExprsToks [] es ks → MaybeComma t →
    (es = [] → t = []) → 2 * (ks.length + t.length) + 2 ≤ fuel →
    parseExprs fuel (ks ++ (t ++ .symbol .rightParen :: rest)) = some (normalExprs es, .symbol .rightParen :: rest)
  | [], ks, t, rest, fuel, h, ht, hn, hl => by
    rw [ExprsToks] at h
    subst h
    rw [hn rfl, normalExprs]
    obtain ⟨k, rfl⟩ : ∃ k, fuel = k + 1 := ⟨fuel - 1, by omega⟩
    exact parseExprs_none
  | [e], ks, t, rest, fuel, h, ht, hn, hl => by
    rw [ExprsToks] at h
    obtain ⟨a, b, rfl, ha, hb⟩ := h
    rw [ExprsToks] at hb
    subst hb
    obtain ⟨k, rfl⟩ : ∃ k, fuel = k + 1 := ⟨fuel - 1, by omega⟩
    simp only [List.nil_append, List.append_nil] at hl ⊢
    rw [normalExprs, normalExprs, exprs_step ha]
    rcases ht with rfl | rfl
    · rw [reads_expr e a _ k ha (by exact bounded_symbol (by simp)) (by simp at hl; omega)]
      rfl
    · simp only [List.length_cons, List.length_nil] at hl
      rw [reads_expr e a _ k ha (by exact bounded_symbol (by simp)) (by omega)]
      obtain ⟨j, rfl⟩ : ∃ j, k = j + 1 := ⟨k - 1, by omega⟩
      simp only [List.cons_append, List.nil_append]
      rw [parseExprs_none]
      rfl
  | e :: f :: es, ks, t, rest, fuel, h, ht, hn, hl => by
    rw [ExprsToks] at h
    obtain ⟨a, b, rfl, ha, hb⟩ := h
    rw [ExprsToks] at hb
    obtain ⟨x, y, rfl, hx, hy⟩ := hb
    obtain ⟨k, rfl⟩ : ∃ k, fuel = k + 1 := ⟨fuel - 1, by omega⟩
    simp only [List.nil_append, List.cons_append, List.append_assoc, List.length_append, List.length_cons,
      List.length_nil] at hl ⊢
    have h2 := reads_exprs (f :: es) (x ++ y) t rest k (by rw [ExprsToks]; exact ⟨x, y, rfl, hx, hy⟩) ht
      (fun e => by cases e) (by simp; omega)
    rw [List.append_assoc] at h2
    rw [normalExprs, exprs_step ha, reads_expr e a _ k ha (bounded_symbol (by simp)) (by omega)]
    simp only
    rw [h2]
    rfl
end

/-! ### What is read can be written -/

theorem parseCallee_ok {ks : List Token} (h : Spelled ks) {c : Callee} {rest : List Token}
    (e : parseCallee ks = some (c, rest)) : CalleeOk c ∧ Spelled rest := by
  unfold parseCallee at e
  split at e
  · cases e
    have h1 := spelled_cons h
    have h2 := spelled_cons (spelled_cons h1.2).2
    exact ⟨⟨fun r hr => by cases hr; exact spelled_name h1.1, spelled_name h2.1⟩, h2.2⟩
  · cases e
    have h1 := spelled_cons h
    have h2 := spelled_cons (spelled_cons h1.2).2
    exact ⟨⟨fun r hr => by cases hr; exact spelled_name h1.1, spelled_upName h2.1⟩, h2.2⟩
  · cases e
    have h1 := spelled_cons h
    exact ⟨⟨by simp, spelled_name h1.1⟩, h1.2⟩
  · cases e
    have h1 := spelled_cons h
    exact ⟨⟨by simp, spelled_upName h1.1⟩, h1.2⟩
  · cases e

mutual
theorem parseExpr_ok : (fuel : Nat) → ∀ {ks : List Token}, Spelled ks → ∀ {e : Expr} {rest : List Token},
    parseExpr fuel ks = some (e, rest) → ExprOk e ∧ Spelled rest
  | 0, ks, h, e, rest, he => by rw [parseExpr.eq_def] at he; cases he
  | fuel + 1, ks, h, e, rest, he => by
    rw [parseExpr.eq_def] at he
    simp only at he
    split at he
    · cases he
      have h1 := spelled_cons h
      exact ⟨by rw [ExprOk]; exact h1.1, h1.2⟩
    · cases he
      have h1 := spelled_cons h
      exact ⟨by rw [ExprOk]; exact h1.1, h1.2⟩
    · split at he
      · cases he
      · next e1 =>
        have h1 := parseCallee_ok h e1
        split at he
        · split at he
          · next e2 =>
            cases he
            have h2 := parseExprs_ok fuel (spelled_cons h1.2).2 e2
            exact ⟨by rw [ExprOk]; exact ⟨h1.1, h2.1⟩, (spelled_cons h2.2).2⟩
          · cases he
        · cases he
          exact ⟨by rw [ExprOk]; exact h1.1, h1.2⟩

theorem parseExprs_ok : (fuel : Nat) → ∀ {ks : List Token}, Spelled ks → ∀ {es : List Expr} {rest : List Token},
    parseExprs fuel ks = some (es, rest) → ExprsOk es ∧ Spelled rest
  | 0, ks, h, es, rest, he => by rw [parseExprs.eq_def] at he; cases he
  | fuel + 1, ks, h, es, rest, he => by
    rw [parseExprs.eq_def] at he
    simp only at he
    split at he
    · cases he
      exact ⟨by rw [ExprsOk]; trivial, h⟩
    · split at he
      · cases he
      · next e1 =>
        have h1 := parseExpr_ok fuel h e1
        split at he
        · obtain ⟨⟨es, r⟩, e2, e3⟩ := Option.map_eq_some_iff.1 he
          cases e3
          have h2 := parseExprs_ok fuel (spelled_cons h1.2).2 e2
          exact ⟨by rw [ExprsOk]; exact ⟨h1.1, h2.1⟩, h2.2⟩
        · cases he
          exact ⟨by rw [ExprsOk, ExprsOk]; exact ⟨h1.1, trivial⟩, h1.2⟩
end

/-! ### The normal form is formatted as it is -/

theorem onlyCall_two (a b : Expr) (es : List Expr) : onlyCall (a :: b :: es) = false := by cases a <;> rfl

theorem onlyCall_normal (es : List Expr) : onlyCall (normalExprs es) = onlyCall es := by
  match es with
  | [] => rw [normalExprs]
  | [.int _ _] => rw [normalExprs, normalExprs, normalExpr]; rfl
  | [.string _] => rw [normalExprs, normalExprs, normalExpr]
  | [.callee _] => rw [normalExprs, normalExprs, normalExpr]
  | [.call _ _] => rw [normalExprs, normalExprs, normalExpr]; rfl
  | a :: b :: _ => rw [normalExprs, normalExprs, onlyCall_two, onlyCall_two]

section
variable {width : List Char → Nat}

mutual
theorem exprDoc_normal : (e : Expr) → ExprOk e → exprDoc width (normalExpr e) = exprDoc width e
  | .int value n, ok => by
    rw [ExprOk] at ok
    obtain ⟨t, ok⟩ := ok
    rw [normalExpr, exprDoc, exprDoc, (formatted_int_is_same ok).2]
  | .string value, ok => by rw [normalExpr]
  | .callee c, ok => by rw [normalExpr]
  | .call c arguments, ok => by
    rw [ExprOk] at ok
    rw [normalExpr, exprDoc, exprDoc, onlyCall_normal, exprDocs_normal arguments ok.2]

theorem exprDocs_normal : (es : List Expr) → ExprsOk es → exprDocs width (normalExprs es) = exprDocs width es
  | [], ok => by rw [normalExprs]
  | e :: es, ok => by
    rw [ExprsOk] at ok
    rw [normalExprs, exprDocs, exprDocs, exprDoc_normal e ok.1, exprDocs_normal es ok.2]
end

end

end Verif.Format
