import Verif.ErlText.Toks
import Verif.ErlText.Ok

/-! # Reading tokens: one step of the grammar at a time -/

namespace Verif.ErlText

open Read

/-- The result of a parser, once the bound on the depth is large enough. -/
def Ev {α : Type} (p : Nat → List Tok → Option α) (ts : List Tok) (x : α) : Prop :=
  ∃ n, ∀ m, n ≤ m → p m ts = some x

theorem Ev.succ {α : Type} {p : Nat → List Tok → Option α} {ts : List Tok} {x : α} {n : Nat}
    (h : ∀ m, n ≤ m → p (m + 1) ts = some x) : Ev p ts x := by
  refine ⟨n + 1, fun m hm => ?_⟩
  obtain ⟨m, rfl⟩ : ∃ m', m = m' + 1 := ⟨m - 1, by omega⟩
  exact h m (by omega)

/-- The tokens after an operand: no argument list and no colon. -/
def stops : List Tok → Bool
  | .lparen :: _ => false
  | .colon :: _ => false
  | _ => true

/-- The tokens after an expression: no operator either. -/
def follow : List Tok → Bool
  | .op _ :: _ => false
  | .lparen :: _ => false
  | .colon :: _ => false
  | _ => true

/-- The tokens after a sequence of expressions: no comma either. -/
def closes : List Tok → Bool
  | .comma :: _ => false
  | r => follow r

theorem follow_stops {r : List Tok} (h : follow r = true) : stops r = true := by
  unfold follow at h
  split at h <;> simp_all [stops]

theorem closes_follow {r : List Tok} (h : closes r = true) : follow r = true := by
  unfold closes at h
  split at h
  · cases h
  · exact h

/-! ### First tokens -/

/-- The tokens that end something. -/
def closer : Tok → Bool
  | .rparen | .rbrack | .rbrace | .gtgt => true
  | _ => false

theorem primary_head {n : Nat} {ts : List Tok} {x : Ast × List Tok} (h : primary n ts = some x) :
    ∃ a r, ts = a :: r ∧ closer a = false ∧ a ≠ .hash ∧ ∀ o, a ≠ .op o := by
  cases n with
  | zero => simp [primary] at h
  | succ n =>
    cases ts with
    | nil => simp [primary] at h
    | cons a r =>
      refine ⟨a, r, rfl, ?_⟩
      cases a <;> simp [primary] at h <;> simp [closer]

theorem application_head {n : Nat} {ts : List Tok} {x : Ast × List Tok} (h : application n ts = some x) :
    ∃ a r, ts = a :: r ∧ closer a = false ∧ ∀ o, a ≠ .op o := by
  cases n with
  | zero => simp [application] at h
  | succ n =>
    simp only [application] at h
    split at h
    · exact ⟨_, _, rfl, rfl, by simp⟩
    · exact ⟨_, _, rfl, rfl, by simp⟩
    · cases hp : primary n ts with
      | none => simp [hp] at h
      | some y =>
        obtain ⟨a, r, he, h1, _, h3⟩ := primary_head hp
        exact ⟨a, r, he, h1, h3⟩

theorem operand_head {n : Nat} {ts : List Tok} {x : Ast × List Tok} (h : operand n ts = some x) :
    ∃ a r, ts = a :: r ∧ closer a = false := by
  cases n with
  | zero => simp [operand] at h
  | succ n =>
    simp only [operand] at h
    split at h
    · exact ⟨_, _, rfl, rfl⟩
    · obtain ⟨a, r, he, h1, _⟩ := application_head h
      exact ⟨a, r, he, h1⟩

theorem expression_head {n p : Nat} {ts : List Tok} {x : Ast × List Tok} (h : expression n p ts = some x) :
    ∃ a r, ts = a :: r ∧ closer a = false := by
  cases n with
  | zero => simp [expression] at h
  | succ n =>
    simp only [expression] at h
    cases ho : operand n ts with
    | none => simp [ho] at h
    | some y => exact operand_head ho

theorem expressions_head {n : Nat} {ts : List Tok} {x : List Ast × List Tok} (h : expressions n ts = some x) :
    ∃ a r, ts = a :: r ∧ closer a = false := by
  cases n with
  | zero => simp [expressions] at h
  | succ n =>
    simp only [expressions] at h
    cases ho : expression n 0 ts with
    | none => simp [ho] at h
    | some y => exact expression_head ho

theorem bitExpression_head {n : Nat} {ts : List Tok} {x : Ast × List Tok} (h : bitExpression n ts = some x) :
    ∃ a r, ts = a :: r ∧ closer a = false := by
  cases n with
  | zero => simp [bitExpression] at h
  | succ n =>
    simp only [bitExpression] at h
    split at h
    · exact ⟨_, _, rfl, rfl⟩
    · obtain ⟨a, r, he, h1, _⟩ := primary_head h
      exact ⟨a, r, he, h1⟩

theorem segments_head {n : Nat} {ts : List Tok} {x : List AstSegment × List Tok} (h : segments n ts = some x) :
    ∃ a r, ts = a :: r ∧ closer a = false := by
  cases n with
  | zero => simp [segments] at h
  | succ n =>
    simp only [segments] at h
    cases n with
    | zero => simp [segment] at h
    | succ n =>
      simp only [segment] at h
      cases ho : bitExpression n ts with
      | none => simp [ho] at h
      | some y => exact bitExpression_head ho

theorem fields_head {n : Nat} {ts : List Tok} {x : List AstField × List Tok} (h : fields n ts = some x) :
    ∃ a r, ts = a :: r ∧ closer a = false := by
  cases n with
  | zero => simp [fields] at h
  | succ n =>
    simp only [fields] at h
    cases ho : expression n 0 ts with
    | none => simp [ho] at h
    | some y => exact expression_head ho

/-! ### Levels -/

theorem ev_application {ts r : List Tok} {e : Ast} (h : Ev primary ts (e, r)) (hr : stops r = true) :
    Ev application ts (e, r) := by
  obtain ⟨n, hn⟩ := h
  refine Ev.succ (n := n + 1) fun m hm => ?_
  obtain ⟨m, rfl⟩ : ∃ m', m = m' + 1 := ⟨m - 1, by omega⟩
  have hp := hn (m + 1) (by omega)
  obtain ⟨a, ts, rfl, _, ha, _⟩ := primary_head hp
  have harg : arguments (m + 1) e r = some (e, r) := by
    simp only [arguments]
    split <;> simp_all [stops]
  rw [application.eq_def]
  split
  · rename_i he; simp at he
  · rename_i he
    cases he
    split
    · rename_i h1; cases h1; exact absurd rfl ha
    · rename_i h1; cases h1; exact absurd rfl ha
    · rw [hp]
      split
      · rename_i h1
        cases h1
        simp [stops] at hr
      · rename_i h1
        cases h1
        exact harg
      · rename_i h1; cases h1

theorem ev_operand {ts : List Tok} {x : Ast × List Tok} (h : Ev application ts x) : Ev operand ts x := by
  obtain ⟨n, hn⟩ := h
  refine Ev.succ (n := n) fun m hm => ?_
  have ha := hn m hm
  obtain ⟨a, ts, rfl, _, ho⟩ := application_head ha
  simp only [operand]
  split
  · rename_i h1; cases h1; exact absurd rfl (by apply ho)
  · exact ha

theorem ev_unary {o : Op} {ts r : List Tok} {e : Ast} (ho : o.prefix = true) (h : Ev operand ts (e, r)) :
    Ev operand (.op o :: ts) (.unary o e, r) := by
  obtain ⟨n, hn⟩ := h
  exact Ev.succ (n := n) fun m hm => by simp [operand, ho, hn m hm]

theorem climb_follow {n p : Nat} {l : Ast} {r : List Tok} (hr : follow r = true) : climb (n + 1) p l r = some (l, r) := by
  simp only [climb]
  split
  · simp [follow] at hr
  · rfl

theorem ev_expression {p : Nat} {ts r : List Tok} {e : Ast} (h : Ev operand ts (e, r)) (hr : follow r = true) :
    Ev (fun n => expression n p) ts (e, r) := by
  obtain ⟨n, hn⟩ := h
  refine Ev.succ (n := n + 1) fun m hm => ?_
  obtain ⟨m, rfl⟩ : ∃ m', m = m' + 1 := ⟨m - 1, by omega⟩
  simp only [expression]
  rw [hn (m + 1) (by omega)]
  exact climb_follow hr

theorem continuesAt_follow {q : Nat} {r : List Tok} (hr : follow r = true) : continuesAt q r = false := by
  unfold continuesAt
  split
  · simp [follow] at hr
  · rfl

/-- A binary operator and its operands. -/
theorem ev_binary {p q : Nat} {assoc : Assoc} {o : Op} {L R r : List Tok} {l e : Ast}
    (hl : Ev operand L (l, .op o :: R)) (ho : o.precedence = some (q, assoc)) (hq : p ≤ q)
    (he : Ev (fun n => expression n (if assoc = .right then q else q + 1)) R (e, r)) (hr : follow r = true) :
    Ev (fun n => expression n p) L (.binary o l e, r) := by
  obtain ⟨n1, h1⟩ := hl
  obtain ⟨n2, h2⟩ := he
  refine Ev.succ (n := n1 + n2 + 2) fun m hm => ?_
  obtain ⟨m, rfl⟩ : ∃ m', m = m' + 2 := ⟨m - 2, by omega⟩
  have hc : climb (m + 1) p (.binary o l e) r = some (.binary o l e, r) := climb_follow hr
  have h2 := h2 (m + 1) (by omega)
  simp only at h2
  simp only [expression]
  rw [h1 (m + 2) (by omega)]
  simp only
  rw [climb.eq_def]
  simp only [ho]
  rw [if_neg (by omega), h2]
  simp only [continuesAt_follow hr, Bool.and_false, Bool.false_eq_true, if_false]
  exact hc

theorem ev_paren {ts r : List Tok} {e : Ast} (h : Ev (fun n => expression n 0) ts (e, .rparen :: r)) :
    Ev primary (.lparen :: ts) (e, r) := by
  obtain ⟨n, hn⟩ := h
  exact Ev.succ (n := n) fun m hm => by
    have := hn m hm
    simp only at this
    simp only [primary, this]

theorem ev_cons {ts r1 r : List Tok} {h t : Ast} (hh : Ev (fun n => expression n 0) ts (h, r1)) (ht : Ev tail r1 (t, r)) :
    Ev primary (.lbrack :: ts) (.cons h t, r) := by
  obtain ⟨n1, h1⟩ := hh
  obtain ⟨n2, h2⟩ := ht
  refine Ev.succ (n := n1 + n2) fun m hm => ?_
  have := h1 m (by omega)
  simp only at this
  obtain ⟨a, ts, rfl, ha⟩ := expression_head this
  have h2 := h2 m (by omega)
  clear h1
  cases a <;> simp_all [primary, closer]

theorem ev_tuple {ts r : List Tok} {es : List Ast} (h : Ev expressions ts (es, .rbrace :: r)) :
    Ev primary (.lbrace :: ts) (.tuple es, r) := by
  obtain ⟨n, hn⟩ := h
  refine Ev.succ (n := n) fun m hm => ?_
  have := hn m hm
  obtain ⟨a, ts, rfl, ha⟩ := expressions_head this
  cases a <;> simp_all [primary, closer]

theorem ev_bits {ts r : List Tok} {ss : List AstSegment} (h : Ev segments ts (ss, .gtgt :: r)) :
    Ev primary (.ltlt :: ts) (.bits ss, r) := by
  obtain ⟨n, hn⟩ := h
  refine Ev.succ (n := n) fun m hm => ?_
  have := hn m hm
  obtain ⟨a, ts, rfl, ha⟩ := segments_head this
  cases a <;> simp_all [primary, closer]

theorem ev_map {ts r : List Tok} {fs : List AstField} (h : Ev fields ts (fs, .rbrace :: r)) :
    Ev application (.hash :: .lbrace :: ts) (.map fs, r) := by
  obtain ⟨n, hn⟩ := h
  refine Ev.succ (n := n) fun m hm => ?_
  have := hn m hm
  obtain ⟨a, ts, rfl, ha⟩ := fields_head this
  cases a <;> simp_all [application, closer]

theorem ev_block {ts r : List Tok} {es : List Ast} (h : Ev expressions ts (es, .word .end_ :: r)) :
    Ev primary (.word .begin :: ts) (.block es, r) := by
  obtain ⟨n, hn⟩ := h
  exact Ev.succ (n := n) fun m hm => by simp only [primary, hn m hm]

theorem ev_case {ts us r : List Tok} {s : Ast} {cs : List AstClause}
    (hs : Ev (fun n => expression n 0) ts (s, .word .of :: us)) (hc : Ev clauses us (cs, .word .end_ :: r)) :
    Ev primary (.word .case_ :: ts) (.case_ s cs, r) := by
  obtain ⟨n1, h1⟩ := hs
  obtain ⟨n2, h2⟩ := hc
  exact Ev.succ (n := n1 + n2) fun m hm => by
    have := h1 m (by omega)
    simp only at this
    simp only [primary, this, h2 m (by omega)]

theorem parameterList_toks (ps : List Text) (r : List Tok) :
    parameterList (parameterToks ps ++ .rparen :: r) = some (ps, r) := by
  have key : ∀ ps : List Text, ps ≠ [] → parameters (parameterToks ps ++ .rparen :: r) = some (ps, r) := by
    intro ps
    induction ps with
    | nil => intro h; exact absurd rfl h
    | cons p ps ih =>
      intro _
      cases ps with
      | nil => simp [parameterToks, parameters]
      | cons q ps =>
        have := ih (by simp)
        simp only [parameterToks, List.cons_append, parameters, this, Option.map_some]
  cases ps with
  | nil => simp [parameterToks, parameterList]
  | cons p ps =>
    have := key (p :: ps) (by simp)
    cases ps with
    | nil => simpa [parameterToks, parameterList] using this
    | cons q ps => simpa [parameterToks, parameterList] using this

theorem ev_function {ps : List Text} {ts r : List Tok} {es : List Ast} (h : Ev expressions ts (es, .word .end_ :: r)) :
    Ev primary (.word .fun_ :: .lparen :: (parameterToks ps ++ .rparen :: .arrow :: ts)) (.function ps es, r) := by
  obtain ⟨n, hn⟩ := h
  exact Ev.succ (n := n) fun m hm => by simp only [primary, parameterList_toks, hn m hm]

theorem ev_call {ts us r : List Tok} {f : Ast} {es : List Ast} (hf : Ev primary ts (f, .lparen :: us))
    (ha : (es = [] ∧ us = .rparen :: r) ∨ Ev expressions us (es, .rparen :: r)) :
    Ev application ts (.call f es, r) := by
  obtain ⟨n1, h1⟩ := hf
  have harg : ∃ n2, ∀ m, n2 ≤ m → arguments m f (.lparen :: us) = some (.call f es, r) := by
    rcases ha with ⟨rfl, rfl⟩ | ⟨n2, h2⟩
    · refine ⟨1, fun m hm => ?_⟩
      obtain ⟨m, rfl⟩ : ∃ m', m = m' + 1 := ⟨m - 1, by omega⟩
      simp [arguments]
    · refine ⟨n2 + 1, fun m hm => ?_⟩
      obtain ⟨m, rfl⟩ : ∃ m', m = m' + 1 := ⟨m - 1, by omega⟩
      have := h2 m (by omega)
      obtain ⟨a, ts, rfl, ha⟩ := expressions_head this
      cases a <;> simp_all [arguments, closer]
  obtain ⟨n2, h2⟩ := harg
  refine Ev.succ (n := n1 + n2) fun m hm => ?_
  have hp := h1 m (by omega)
  obtain ⟨a, ts, rfl, _, ha, _⟩ := primary_head hp
  have h2 := h2 m (by omega)
  cases a <;> simp_all [application]

theorem ev_remote {us r : List Tok} {m f : List Char} {es : List Ast}
    (ha : (es = [] ∧ us = .rparen :: r) ∨ Ev expressions us (es, .rparen :: r)) :
    Ev application (.atom m :: .colon :: .atom f :: .lparen :: us) (.call (.remote (.atom m) (.atom f)) es, r) := by
  rcases ha with ⟨rfl, rfl⟩ | ⟨n2, h2⟩
  · refine Ev.succ (n := 1) fun m hm => ?_
    obtain ⟨m, rfl⟩ : ∃ m', m = m' + 1 := ⟨m - 1, by omega⟩
    simp [application, primary, arguments]
  · refine Ev.succ (n := n2 + 1) fun m hm => ?_
    obtain ⟨m, rfl⟩ : ∃ m', m = m' + 1 := ⟨m - 1, by omega⟩
    have := h2 m (by omega)
    obtain ⟨a, ts, rfl, ha⟩ := expressions_head this
    cases a <;> simp_all [application, primary, arguments, closer]

theorem ev_reference (m : Option (List Char)) (f : List Char) (a : Nat) (r : List Tok) :
    Ev primary (.word .fun_ :: (moduleToks m ++ .atom f :: .op .slash :: .int a :: r)) (.reference m f a, r) := by
  refine Ev.succ (n := 0) fun n _ => ?_
  cases m <;> simp [moduleToks, primary]

/-! ### Lists -/

theorem ev_tailNil (r : List Tok) : Ev tail (.rbrack :: r) (.nil, r) := Ev.succ (n := 0) fun m _ => by simp [tail]

theorem ev_tailBar {ts r : List Tok} {e : Ast} (h : Ev (fun n => expression n 0) ts (e, .rbrack :: r)) :
    Ev tail (.bar :: ts) (e, r) := by
  obtain ⟨n, hn⟩ := h
  exact Ev.succ (n := n) fun m hm => by
    have := hn m hm
    simp only at this
    simp only [tail, this]

theorem ev_tailCons {ts r1 r : List Tok} {h t : Ast} (hh : Ev (fun n => expression n 0) ts (h, r1))
    (ht : Ev tail r1 (t, r)) : Ev tail (.comma :: ts) (.cons h t, r) := by
  obtain ⟨n1, h1⟩ := hh
  obtain ⟨n2, h2⟩ := ht
  exact Ev.succ (n := n1 + n2) fun m hm => by
    have := h1 m (by omega)
    simp only at this
    simp only [tail, this, h2 m (by omega)]

theorem ev_last {ts r : List Tok} {e : Ast} (h : Ev (fun n => expression n 0) ts (e, r)) (hr : closes r = true) :
    Ev expressions ts ([e], r) := by
  obtain ⟨n, hn⟩ := h
  refine Ev.succ (n := n) fun m hm => ?_
  have := hn m hm
  simp only at this
  simp only [expressions, this]
  split
  · rename_i he; cases he; simp [closes] at hr
  · rename_i he; cases he; rfl
  · rename_i he; cases he

theorem ev_more {ts us r : List Tok} {e : Ast} {es : List Ast} (h : Ev (fun n => expression n 0) ts (e, .comma :: us))
    (hs : Ev expressions us (es, r)) : Ev expressions ts (e :: es, r) := by
  obtain ⟨n1, h1⟩ := h
  obtain ⟨n2, h2⟩ := hs
  exact Ev.succ (n := n1 + n2) fun m hm => by
    have := h1 m (by omega)
    simp only at this
    simp only [expressions, this, h2 m (by omega)]

end Verif.ErlText
