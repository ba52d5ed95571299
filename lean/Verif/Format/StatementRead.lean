import Verif.Format.ExpressionRead
import Verif.Format.StatementSpec

/-!
# Formatted statements are read as the same statements
-/
namespace Verif.Format
open Verif.Lexer Verif.Lexer.Spec Verif.Format.Spec Verif.TypeText
open Verif.Pretty (Doc)
open Verif.Pretty.Spec (Layout)

/-- The statement that a formatted statement is read as. -/
def normalStatement : Statement → Statement
  | .expression v => .expression (normalExpr v)
  | .assignment a t o v => .assignment a t (o.map normalType) (normalExpr v)
  | .assert_ v => .assert_ (normalExpr v)

def normalBody (b : Body) : Body := ⟨normalStatement b.first, b.more.map normalStatement⟩

theorem sameStatement_normal (s : Statement) : SameStatement s (normalStatement s) := by
  cases s with
  | expression v => exact sameExpr_normal v
  | assignment a t o v => exact ⟨rfl, rfl, rfl, sameExpr_normal v⟩
  | assert_ v => exact sameExpr_normal v

/-- The tokens of a statement. -/
def StatementToks : Statement → List Token → Prop
  | .expression v, ks => ExprToks v ks
  | .assignment a target o v, ks => ∃ t x, AnnotationToks .colon o t ∧ ExprToks v x ∧
    ks = .keyword .let_ :: ((if a then [.keyword .assert_] else []) ++ (assignNameToks target ++ (t ++ .symbol .equal :: x)))
  | .assert_ v, ks => ∃ x, ExprToks v x ∧ ks = .keyword .assert_ :: x

section
variable {eof : Nat} {width : List Char → Nat}

theorem assigned_seen {v : Expr} (ok : ExprOk v) {i : Int} {br : Bool} {out : List Char}
    (hl : Layout (assignedDoc width v) i br out) : ∃ ks, ExprToks v ks ∧ SeenSep eof (['='] ++ out) (.symbol .equal :: ks) := by
  unfold assignedDoc at hl
  obtain ⟨br3, e3⟩ := layout_grouped hl
  have e3 : ∃ j, Layout (breakableSpace.append (exprDoc width v).grouped) j br3 out := ⟨_, e3⟩
  obtain ⟨j, e3⟩ := e3
  obtain ⟨s, x, rfl, e7, e8⟩ := layout_append e3
  obtain ⟨br4, e8⟩ := layout_grouped e8
  obtain ⟨ks, hk, sv⟩ := expr_seen (eof := eof) v ok _ _ _ e8
  refine ⟨ks, hk, fun z rest hz => ?_⟩
  rcases e7 with ⟨_, rfl⟩ | ⟨_, rfl⟩
  · exact Seen.append seen_equal (Seen.append (seen_lineEnd _) (sv z rest hz))
  · exact Seen.append seen_equal_space (Seen.append seen_space (sv z rest hz))

theorem assignTarget_seen {a : AssignName} (h : AssignNameOk a) {o : Option TypeAst} (ht : ∀ t, o = some t → TypeOk t) {i : Int}
    {br : Bool} {out : List Char} (hl : Layout (targetDoc width a o) i br out) :
    ∃ t, AnnotationToks .colon o t ∧ SeenSep eof out (assignNameToks a ++ t) := by
  unfold targetDoc at hl
  obtain ⟨br, hl⟩ := layout_grouped hl
  obtain ⟨x, y, rfl, e1, e2⟩ := layout_append hl
  cases o with
  | none =>
    have e2 : y = [] := e2
    subst e2
    refine ⟨[], rfl, fun z rest hz => ?_⟩
    have g := seen_assignName (eof := eof) h e1 z rest hz
    simpa using g
  | some t =>
    obtain ⟨c, u, rfl, e3, e4⟩ := layout_append e2
    cases e3
    obtain ⟨ks, hk, sk⟩ := type_seen (eof := eof) t (ht t rfl) _ _ _ e4
    refine ⟨_, ⟨ks, hk, rfl⟩, fun z rest hz => ?_⟩
    have g := Seen.append (t := [':']) (u := [' '] ++ u) (ks := [.symbol .colon]) (ls := [] ++ ks) (rest := z :: rest)
      (seen_symbol (by decide)) (Seen.append seen_space (sk z rest hz))
    have gn : ∀ r, Seen eof x (assignNameToks a) (':' :: r) := by
      intro r
      cases a with
      | variable_ n => cases e1; exact seen_name (stop_open (.inr (.inr (.inr rfl)))) h
      | discard n => cases e1; exact seen_discard (stop_open (.inr (.inr (.inr rfl)))) h
    have g2 := Seen.append (gn _) g
    simpa using g2

theorem statement_seen {s : Statement} (ok : StatementOk s) {i : Int} {br : Bool} {out : List Char}
    (hl : Layout (statementDoc width s) i br out) : ∃ ks, StatementToks s ks ∧ SeenSep eof out ks := by
  cases s with
  | expression v => exact expr_seen v ok _ _ _ hl
  | assignment a target o v =>
    obtain ⟨h1, h2, h3⟩ := ok
    unfold statementDoc at hl
    obtain ⟨x, y, rfl, e1, e2⟩ := layout_append hl
    obtain ⟨x, u, rfl, e3, e4⟩ := layout_append e1
    obtain ⟨k, w, rfl, e5, e6⟩ := layout_append e3
    cases e4
    cases e5
    obtain ⟨t, ht, st⟩ := assignTarget_seen (eof := eof) h1 h2 e6
    obtain ⟨vs, hv, sv⟩ := assigned_seen (eof := eof) h3 e2
    refine ⟨_, ⟨t, vs, ht, hv, rfl⟩, fun z rest hz => ?_⟩
    have g2 := Seen.append (t := [' ']) (ks := []) seen_space (sv z rest hz)
    have g3 := Seen.append (st ' ' ((['='] ++ y) ++ z :: rest) (by simp [Sep])) g2
    cases a with
    | false =>
      have g4 := Seen.append (t := "let ".toList) (ks := [.keyword .let_]) (seen_keywordSpace .let_) g3
      simpa using g4
    | true =>
      have g4 := Seen.append (t := "let ".toList) (ks := [.keyword .let_]) (seen_keywordSpace .let_)
        (Seen.append (t := "assert ".toList) (ks := [.keyword .assert_]) (seen_keywordSpace .assert_) g3)
      simpa using g4
  | assert_ v =>
    unfold statementDoc at hl
    obtain ⟨x, y, rfl, e1, u, w, rfl, e2, e3⟩ := layout_concat hl
    rw [LayEach] at e3
    subst e3
    cases e1
    obtain ⟨vs, hv, sv⟩ := expr_seen (eof := eof) v ok _ _ _ e2
    refine ⟨_, ⟨vs, hv, rfl⟩, fun z rest hz => ?_⟩
    have g := Seen.append (t := "assert ".toList) (ks := [.keyword .assert_]) (seen_keywordSpace .assert_) (sv z rest hz)
    simpa using g

theorem more_seen {blanks : Nat → Bool} {i : Int} {br : Bool} : (ss : List Statement) → (∀ s ∈ ss, StatementOk s) →
    ∀ {n : Nat} {out : List Char}, LayEach i br (moreDocs width blanks n ss) out →
    ∃ kss, List.Forall₂ StatementToks ss kss ∧ (∀ rest, Seen eof out kss.flatten ('\n' :: rest)) ∧
      (out = [] ∨ ∃ r, out = '\n' :: r)
  | [], _, n, out, hl => by
    have hl : out = [] := hl
    subst hl
    exact ⟨[], .nil, fun _ => Seen.nil, .inl rfl⟩
  | s :: ss, ok, n, out, hl => by
    obtain ⟨l, u, rfl, e1, x, y, rfl, e2, e3⟩ := hl
    obtain ⟨br2, e2⟩ := layout_grouped e2
    obtain ⟨ks, h1, h2⟩ := statement_seen (eof := eof) (ok s (by simp)) e2
    obtain ⟨kss, h3, h4, h5⟩ := more_seen ss (fun e he => ok e (by simp [he])) e3
    have hs : ∀ rest, Seen eof (x ++ y) (ks ++ kss.flatten) ('\n' :: rest) := by
      intro rest
      refine Seen.append ?_ (h4 rest)
      rcases h5 with rfl | ⟨r, rfl⟩
      · exact h2 '\n' rest (by simp [Sep])
      · exact h2 '\n' _ (by simp [Sep])
    refine ⟨ks :: kss, .cons h1 h3, fun rest => ?_, .inr ?_⟩
    · rw [List.flatten_cons]
      cases hb : blanks n with
      | true =>
        rw [hb] at e1
        cases e1
        exact Seen.append (ks := []) seen_emptyLine (hs rest)
      | false =>
        rw [hb] at e1
        cases e1
        exact Seen.append (ks := []) (seen_lineEnd _) (hs rest)
    · cases hb : blanks n with
      | true => rw [hb] at e1; cases e1; exact ⟨_, rfl⟩
      | false => rw [hb] at e1; cases e1; exact ⟨_, rfl⟩

theorem body_seen {blanks : Nat → Bool} {b : Body} (ok : BodyOk b) {i : Int} {br : Bool} {out : List Char}
    (hl : Layout (bodyDoc width blanks b) i br out) :
    ∃ kss, List.Forall₂ StatementToks (b.first :: b.more) kss ∧ ∀ rest, Seen eof out kss.flatten ('\n' :: rest) := by
  have hl : ∃ br, Layout (Pretty.concat ((statementDoc width b.first).grouped :: moreDocs width blanks 1 b.more)) i br out := by
    unfold bodyDoc at hl
    simp only at hl
    split at hl
    · exact ⟨_, hl⟩
    · exact ⟨_, hl⟩
  obtain ⟨br, hl⟩ := hl
  obtain ⟨x, y, rfl, e1, e2⟩ := layout_concat hl
  obtain ⟨br2, e1⟩ := layout_grouped e1
  obtain ⟨ks, h1, h2⟩ := statement_seen (eof := eof) ok.1 e1
  obtain ⟨kss, h3, h4, h5⟩ := more_seen (eof := eof) b.more ok.2 e2
  refine ⟨ks :: kss, .cons h1 h3, fun rest => ?_⟩
  rw [List.flatten_cons]
  refine Seen.append ?_ (h4 rest)
  rcases h5 with rfl | ⟨r, rfl⟩
  · exact h2 '\n' rest (by simp [Sep])
  · exact h2 '\n' _ (by simp [Sep])

end

/-! ### Reading -/

theorem ends_bounded {rest : List Token} (h : endsStatement rest = true) : Bounded rest := by
  unfold endsStatement at h
  split at h
  all_goals first
    | exact absurd h (by decide)
    | exact ⟨by simp, by simp⟩

theorem reads_value {v : Expr} {ks rest : List Token} (hk : ExprToks v ks) (h : endsStatement rest = true) :
    parseValue (ks ++ rest) = some (normalExpr v, rest) := by
  unfold parseValue
  rw [reads_expr v ks rest _ hk (ends_bounded h) (by simp)]
  simp only
  rw [if_pos h]

theorem reads_assignment {a : Bool} {target : AssignName} {o : Option TypeAst} (ok : ∀ t, o = some t → TypeOk t) {v : Expr}
    {t x rest : List Token} (ht : AnnotationToks .colon o t) (hx : ExprToks v x) (h : endsStatement rest = true) :
    parseAssignment a (assignNameToks target ++ (t ++ .symbol .equal :: (x ++ rest))) =
      some (.assignment a target (o.map normalType) (normalExpr v), rest) := by
  have h5 := reads_annotation (rest := .symbol .equal :: (x ++ rest)) ok ht (after_symbol (by simp)) (by simp)
  unfold parseAssignment
  cases target <;>
    (simp only [assignNameToks, List.cons_append, List.nil_append]; rw [h5]; simp only; rw [reads_value hx h]; rfl)

theorem reads_statement {s : Statement} (ok : StatementOk s) {ks rest : List Token} (h : StatementToks s ks)
    (he : endsStatement rest = true) : parseStatement (ks ++ rest) = some (normalStatement s, rest) := by
  cases s with
  | expression v =>
    have hv := reads_value (v := v) h he
    obtain ⟨k, r, e, hk⟩ := exprToks_head h rest
    rw [e] at hv ⊢
    unfold parseStatement
    rcases hk with ⟨v, n, rfl⟩ | ⟨v, rfl⟩ | ⟨v, rfl⟩ | ⟨v, rfl⟩ <;> (simp only; rw [hv]; rfl)
  | assignment a target o v =>
    obtain ⟨t, x, ht, hx, rfl⟩ := h
    have h1 := reads_assignment (a := a) (target := target) ok.2.1 ht hx he
    unfold parseStatement
    cases a with
    | true =>
      simp only [if_true, List.cons_append, List.nil_append, List.append_assoc]
      exact h1
    | false =>
      simp only [Bool.false_eq_true, if_false, List.cons_append, List.nil_append, List.append_assoc]
      cases target <;> exact h1
  | assert_ v =>
    obtain ⟨x, hx, rfl⟩ := h
    unfold parseStatement
    simp only [List.cons_append]
    rw [reads_value hx he]
    rfl

theorem statement_starts {s : Statement} {ks : List Token} (h : StatementToks s ks) (rest : List Token) :
    endsStatement (ks ++ rest) = true ∧ ∀ r, ks ++ rest ≠ .symbol .rightBrace :: r := by
  cases s with
  | expression v =>
    obtain ⟨k, r, e, hk⟩ := exprToks_head h rest
    rw [e]
    rcases hk with ⟨v, n, rfl⟩ | ⟨v, rfl⟩ | ⟨v, rfl⟩ | ⟨v, rfl⟩ <;> exact ⟨rfl, by simp⟩
  | assignment a target o v =>
    obtain ⟨t, x, ht, hx, rfl⟩ := h
    exact ⟨rfl, by simp⟩
  | assert_ v =>
    obtain ⟨x, hx, rfl⟩ := h
    exact ⟨rfl, by simp⟩

theorem statements_start {ss : List Statement} {kss : List (List Token)} (h : List.Forall₂ StatementToks ss kss)
    (rest : List Token) : endsStatement (kss.flatten ++ .symbol .rightBrace :: rest) = true := by
  cases h with
  | nil => rfl
  | cons h1 h2 =>
    rw [List.flatten_cons, List.append_assoc]
    exact (statement_starts h1 _).1

theorem reads_more {rest : List Token} : (ss : List Statement) → (∀ s ∈ ss, StatementOk s) → ∀ {kss : List (List Token)},
    List.Forall₂ StatementToks ss kss → ∀ {fuel : Nat}, ss.length < fuel →
    parseMore fuel (kss.flatten ++ .symbol .rightBrace :: rest) = some (ss.map normalStatement, .symbol .rightBrace :: rest)
  | [], _, kss, h, fuel, hf => by
    cases h
    obtain ⟨f, rfl⟩ : ∃ f, fuel = f + 1 := ⟨fuel - 1, by omega⟩
    rfl
  | s :: ss, ok, kss, h, fuel, hf => by
    obtain ⟨f, rfl⟩ : ∃ f, fuel = f + 1 := ⟨fuel - 1, by omega⟩
    cases h with
    | cons h1 h2 =>
      rename_i ks kss
      have h3 := reads_statement (ok s (by simp)) h1 (statements_start h2 rest)
      have h4 := reads_more (rest := rest) ss (fun e he => ok e (by simp [he])) h2 (fuel := f) (by simp at hf; omega)
      have h5 := (statement_starts h1 (kss.flatten ++ .symbol .rightBrace :: rest)).2
      rw [List.flatten_cons, List.append_assoc, parseMore]
      · rw [h3]
        simp only
        rw [h4]
        rfl
      · exact h5

theorem flatten_long {ss : List Statement} {kss : List (List Token)} (h : List.Forall₂ StatementToks ss kss) :
    ss.length ≤ kss.flatten.length := by
  induction h with
  | nil => simp
  | cons h1 h2 ih =>
    rename_i s ks ss kss
    have h3 : 0 < ks.length := by
      rcases ks with _ | ⟨k, ks⟩
      · have := (statement_starts h1 []).1
        cases this
      · simp
    rw [List.flatten_cons, List.length_append, List.length_cons]
    omega

theorem reads_sequence {b : Body} (ok : BodyOk b) {kss : List (List Token)}
    (h : List.Forall₂ StatementToks (b.first :: b.more) kss) (rest : List Token) :
    parseSequence (kss.flatten ++ .symbol .rightBrace :: rest) = some (normalBody b, .symbol .rightBrace :: rest) := by
  have h1 := reads_more (rest := rest) (b.first :: b.more) (by simpa [BodyOk] using ok) h
    (fuel := (kss.flatten ++ .symbol .rightBrace :: rest).length + 1) (by
      have := flatten_long h
      simp at this ⊢
      omega)
  unfold parseSequence
  rw [h1]
  rfl

/-! ### What is read can be written -/

theorem parseValue_ok {ks : List Token} (h : Spelled ks) {v : Expr} {rest : List Token}
    (e : parseValue ks = some (v, rest)) : ExprOk v ∧ Spelled rest := by
  unfold parseValue at e
  split at e
  · cases e
  · next e1 =>
    split at e
    · cases e
      exact parseExpr_ok _ h e1
    · cases e

theorem parseAssignment_ok {a : Bool} {ks : List Token} (h : Spelled ks) {s : Statement} {rest : List Token}
    (e : parseAssignment a ks = some (s, rest)) : StatementOk s ∧ Spelled rest := by
  have key : ∀ {target : AssignName} {ks : List Token}, AssignNameOk target → Spelled ks →
      (match parseTypeAnnotation .colon ks with
        | none => none
        | some (annotation, rest) =>
          match rest with
          | .symbol .equal :: rest => (parseValue rest).map fun r => (Statement.assignment a target annotation r.1, r.2)
          | _ => none) = some (s, rest) → StatementOk s ∧ Spelled rest := by
    intro target ks ht hk e
    split at e
    · cases e
    · next e1 =>
      have h2 := parseTypeAnnotation_ok hk e1
      split at e
      · obtain ⟨⟨v, r⟩, e2, e3⟩ := Option.map_eq_some_iff.1 e
        cases e3
        have h3 := parseValue_ok (spelled_cons h2.1).2 e2
        exact ⟨⟨ht, h2.2, h3.1⟩, h3.2⟩
      · cases e
  unfold parseAssignment at e
  simp only at e
  split at e
  · cases e
  · next e1 =>
    split at e1
    · cases e1
      have h1 := spelled_cons h
      exact key (target := .variable_ _) (spelled_name h1.1) h1.2 e
    · cases e1
      have h1 := spelled_cons h
      exact key (target := .discard _) (spelled_discard h1.1) h1.2 e
    · cases e1

theorem parseStatement_ok {ks : List Token} (h : Spelled ks) {s : Statement} {rest : List Token}
    (e : parseStatement ks = some (s, rest)) : StatementOk s ∧ Spelled rest := by
  unfold parseStatement at e
  split at e
  · exact parseAssignment_ok (spelled_cons (spelled_cons h).2).2 e
  · exact parseAssignment_ok (spelled_cons h).2 e
  · obtain ⟨⟨v, r⟩, e2, e3⟩ := Option.map_eq_some_iff.1 e
    cases e3
    exact parseValue_ok (spelled_cons h).2 e2
  · obtain ⟨⟨v, r⟩, e2, e3⟩ := Option.map_eq_some_iff.1 e
    cases e3
    exact parseValue_ok h e2

theorem parseMore_ok : (fuel : Nat) → ∀ {ks : List Token}, Spelled ks → ∀ {ss : List Statement} {rest : List Token},
    parseMore fuel ks = some (ss, rest) → (∀ s ∈ ss, StatementOk s) ∧ Spelled rest
  | 0, ks, h, ss, rest, e => by cases e
  | fuel + 1, ks, h, ss, rest, e => by
    unfold parseMore at e
    split at e
    · cases e
      exact ⟨by simp, h⟩
    · split at e
      · cases e
      · next e1 =>
        have h1 := parseStatement_ok h e1
        obtain ⟨⟨ss, r⟩, e2, e3⟩ := Option.map_eq_some_iff.1 e
        cases e3
        have h2 := parseMore_ok fuel h1.2 e2
        refine ⟨fun s hs => ?_, h2.2⟩
        rcases List.mem_cons.1 hs with rfl | hs
        · exact h1.1
        · exact h2.1 s hs

theorem parseSequence_ok {ks : List Token} (h : Spelled ks) {b : Body} {rest : List Token} (e : parseSequence ks = some (b, rest)) :
    BodyOk b ∧ Spelled rest := by
  unfold parseSequence at e
  split at e
  · next e1 =>
    cases e
    have h1 := parseMore_ok _ h e1
    exact ⟨by simpa [BodyOk] using h1.1, h1.2⟩
  · cases e

/-! ### The normal form is formatted as it is -/

section
variable {width : List Char → Nat}

theorem statementDoc_normal {s : Statement} (ok : StatementOk s) :
    statementDoc width (normalStatement s) = statementDoc width s := by
  cases s with
  | expression v => exact exprDoc_normal _ ok
  | assignment a target o v =>
    have h1 := exprDoc_normal (width := width) _ ok.2.2
    unfold normalStatement statementDoc assignedDoc targetDoc
    simp only [h1]
    cases o with
    | none => rfl
    | some t => simp only [Option.map_some, typeDoc_normal]
  | assert_ v =>
    have h1 := exprDoc_normal (width := width) _ ok
    unfold normalStatement statementDoc
    simp only [h1]

theorem moreDocs_normal {blanks : Nat → Bool} : (ss : List Statement) → (∀ s ∈ ss, StatementOk s) → ∀ n,
    moreDocs width blanks n (ss.map normalStatement) = moreDocs width blanks n ss
  | [], _, _ => rfl
  | s :: ss, ok, n => by
    rw [List.map_cons, moreDocs, moreDocs, statementDoc_normal (ok s (by simp)),
      moreDocs_normal ss fun e he => ok e (by simp [he])]

theorem bodyDoc_normal {blanks : Nat → Bool} {b : Body} (ok : BodyOk b) :
    bodyDoc width blanks (normalBody b) = bodyDoc width blanks b := by
  obtain ⟨s, ss⟩ := b
  have h1 := statementDoc_normal (width := width) ok.1
  have h2 := moreDocs_normal (width := width) (blanks := blanks) ss ok.2 1
  simp only at h1
  unfold bodyDoc normalBody
  simp only [h1, h2]
  cases s <;> cases ss <;> rfl

end

end Verif.Format
