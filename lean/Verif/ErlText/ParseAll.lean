import Verif.ErlText.Parse

/-! # Reading the tokens of a term -/

namespace Verif.ErlText

open Read

/-- Terms that are never put in parentheses and need none before an argument list. -/
def Term.primary : Term → Bool
  | .int n => 0 ≤ n
  | .float sign _ _ => sign = .none
  | .map _ => false
  | .call _ _ => false
  | .remote _ _ _ => false
  | .unary _ _ => false
  | .binary _ _ _ => false
  | .bind _ _ => false
  | _ => true

/-- How the tokens of a term are read. -/
structure Parses (k : Kind) (t : Term) : Prop where
  prim : t.primary = true → ∀ v r, Ev Read.primary (t.toks k { value := v } ++ r) (t.ast v, r)
  operand : t.operandLike = true → ∀ v r, stops r = true →
    Ev Read.operand (t.toks k { operand := true, value := v } ++ r) (t.ast v, r)
  expr : ∀ v p r, p ≤ 100 → follow r = true → Ev (fun n => expression n p) (t.toks k { value := v } ++ r) (t.ast v, r)
  bind : k = .pattern → ∀ p R e r, p ≤ 100 → Ev (fun n => expression n 100) R (e, r) → follow r = true →
    Ev (fun n => expression n p) (t.toks k plain ++ .op .bind :: R) (chain (t.ast false) e, r)
  tail : ∀ r, Ev Read.tail (t.toks k { tail := true } ++ r) (t.ast false, r)

theorem chain_assoc : ∀ (a b c : Ast), chain (chain a b) c = chain a (chain b c) := by
  intro a b c
  fun_induction chain a b with
  | case1 a b x ih => simp [chain, ih]
  | case2 p x h =>
    rw [chain.eq_def p (chain x c)]
    split
    · exact absurd rfl (by apply h)
    · simp [chain]

/-- A term that is read as an operand. -/
theorem parses_operand {k : Kind} {t : Term} (T : Bool → List Tok) (ht : ∀ c : Ctx, c.tail = false → t.toks k c = T c.value)
    (hp : t.primary = true → ∀ v r, Ev Read.primary (T v ++ r) (t.ast v, r))
    (ho : ∀ v r, stops r = true → Ev Read.operand (T v ++ r) (t.ast v, r))
    (hc : k = .pattern → ∀ e, chain (t.ast false) e = .binary .bind (t.ast false) e)
    (hl : ∀ r, Ev Read.tail (t.toks k { tail := true } ++ r) (t.ast false, r)) : Parses k t where
  prim h v r := by rw [ht { value := v } rfl]; exact hp h v r
  operand _ v r hr := by rw [ht { operand := true, value := v } rfl]; exact ho v r hr
  expr v p r _ hr := by rw [ht { value := v } rfl]; exact ev_expression (ho v r (follow_stops hr)) hr
  bind hk p R e r hp he hr := by
    rw [ht plain rfl, hc hk]
    exact ev_binary (q := 100) (assoc := .right) (ho false _ rfl) rfl hp (by simpa using he) hr
  tail := hl

theorem tail_of_operand {k : Kind} {t : Term} (T : Bool → List Tok) (hlt : t.toks k { tail := true } = .bar :: (T false ++ [.rbrack]))
    (ho : ∀ v r, stops r = true → Ev Read.operand (T v ++ r) (t.ast v, r)) :
    ∀ r, Ev Read.tail (t.toks k { tail := true } ++ r) (t.ast false, r) := by
  intro r
  rw [hlt]
  simp only [List.cons_append, List.append_assoc, List.nil_append]
  exact ev_tailBar (ev_expression (ho false _ rfl) rfl)

/-- A term that is read as a primary expression. -/
theorem parses_primary {k : Kind} {t : Term} (T : Bool → List Tok) (ht : ∀ c : Ctx, c.tail = false → t.toks k c = T c.value)
    (hlt : t.toks k { tail := true } = .bar :: (T false ++ [.rbrack]))
    (hp : ∀ v r, Ev Read.primary (T v ++ r) (t.ast v, r))
    (hc : k = .pattern → ∀ e, chain (t.ast false) e = .binary .bind (t.ast false) e) : Parses k t :=
  have ho : ∀ v r, stops r = true → Ev Read.operand (T v ++ r) (t.ast v, r) :=
    fun v r hr => ev_operand (ev_application (hp v r) hr)
  parses_operand T ht (fun _ => hp) ho hc (tail_of_operand T hlt ho)

theorem ev_token {a : Tok} {e : Ast} (h : ∀ n r, Read.primary (n + 1) (a :: r) = some (e, r)) (r : List Tok) :
    Ev Read.primary (a :: r) (e, r) := Ev.succ (n := 0) fun m _ => h m r

theorem restToks_plain {c : Ctx} (h : c.tail = false) (ts : List Tok) : c.restToks ts = ts := by simp [Ctx.restToks, h]

theorem parses_int (k : Kind) (n : Int) : Parses k (.int n) := by
  cases n with
  | ofNat n =>
    refine parses_primary (fun _ => [.int n]) (fun c hc => ?_) ?_ (fun v r => ?_) (fun _ e => ?_)
    · simp [Term.toks, restToks_plain hc, intToks]
    · simp [Term.toks, Ctx.restToks, intToks]
    · exact ev_token (fun _ _ => rfl) r
    · simp [Term.ast, chain]
  | negSucc n =>
    have ho : ∀ (v : Bool) r, stops r = true →
        Ev Read.operand ([Tok.op .minus, .int (n + 1)] ++ r) ((Term.int (.negSucc n)).ast v, r) := fun v r hr =>
      ev_unary rfl (ev_operand (ev_application (ev_token (fun _ _ => rfl) r) hr))
    refine parses_operand (fun _ => [.op .minus, .int (n + 1)]) (fun c hc => ?_) (fun h => ?_) ho (fun _ e => ?_)
      (tail_of_operand _ ?_ ho)
    · simp [Term.toks, restToks_plain hc, intToks]
    · simp [Term.primary] at h
    · simp [Term.ast, chain]
    · simp [Term.toks, Ctx.restToks, intToks]

theorem parses_float (k : Kind) (s : Sign) (w f : Text) : Parses k (.float s w f) := by
  have hf : ∀ r, Ev Read.primary (Tok.float w f :: r) (.float w f, r) := ev_token (fun _ _ => rfl)
  have ho : ∀ (v : Bool) r, stops r = true →
      Ev Read.operand ((s.toks ++ [.float w f]) ++ r) ((Term.float s w f).ast v, r) := fun v r hr => by
    have := ev_operand (ev_application (hf r) hr)
    cases s with
    | none => simpa [Sign.toks, Term.ast, Sign.ast] using this
    | plus => simpa [Sign.toks, Term.ast, Sign.ast] using ev_unary (o := .plus) rfl this
    | minus => simpa [Sign.toks, Term.ast, Sign.ast] using ev_unary (o := .minus) rfl this
  refine parses_operand (fun _ => s.toks ++ [.float w f]) (fun c hc => ?_) (fun h v r => ?_) ho (fun _ e => ?_)
    (tail_of_operand _ ?_ ho)
  · simp [Term.toks, restToks_plain hc]
  · simp only [Term.primary, decide_eq_true_eq] at h
    subst h
    simpa [Sign.toks, Term.ast, Sign.ast] using hf r
  · cases s <;> simp [Term.ast, Sign.ast, chain]
  · simp [Term.toks, Ctx.restToks]

theorem parses_string (k : Kind) (s : Text) : Parses k (.string s) := by
  refine parses_primary (fun v => [if v then .string (Strings.escapeErlang 0 s) else .sigil (Strings.escapeErlang 0 s)])
    (fun c hc => ?_) ?_ (fun v r => ?_) (fun _ e => ?_)
  · simp [Term.toks, restToks_plain hc]
  · simp [Term.toks, Ctx.restToks]
  · cases v <;> exact ev_token (fun _ _ => rfl) r
  · simp [Term.ast, chain]

theorem parses_nil (k : Kind) : Parses k .nil := by
  have hp : ∀ (v : Bool) r, Ev Read.primary ([Tok.lbrack, .rbrack] ++ r) (Term.nil.ast v, r) := fun v r =>
    Ev.succ (n := 0) fun m _ => rfl
  refine parses_operand (fun _ => [.lbrack, .rbrack]) (fun c hc => ?_) (fun _ => hp)
    (fun v r hr => ev_operand (ev_application (hp v r) hr)) (fun _ e => ?_) (fun r => ?_)
  · simp [Term.toks, hc]
  · simp [Term.ast, chain]
  · simpa [Term.toks, Term.ast] using ev_tailNil r

theorem follow_tail (k : Kind) (t : Term) (r : List Tok) : follow (t.toks k { tail := true } ++ r) = true := by
  cases t <;> simp [Term.toks, Ctx.restToks, follow]

theorem parses_cons {k : Kind} {h t : Term} (hh : Parses k h) (ht : Parses k t) : Parses k (.cons h t) := by
  have he : ∀ r, Ev (fun n => expression n 0) (h.toks k plain ++ (t.toks k { tail := true } ++ r))
      (h.ast false, t.toks k { tail := true } ++ r) := fun r => hh.expr false 0 _ (by omega) (follow_tail k t r)
  have hp : ∀ (v : Bool) r, Ev Read.primary (.lbrack :: (h.toks k plain ++ t.toks k { tail := true }) ++ r)
      ((Term.cons h t).ast v, r) := fun v r => by
    simpa [Term.ast] using ev_cons (he r) (ht.tail r)
  refine parses_operand (fun _ => .lbrack :: (h.toks k plain ++ t.toks k { tail := true })) (fun c hc => ?_) (fun _ => hp)
    (fun v r hr => ev_operand (ev_application (hp v r) hr)) (fun _ e => ?_) (fun r => ?_)
  · simp [Term.toks, hc]
  · simp [Term.ast, chain]
  · simpa [Term.toks, Term.ast] using ev_tailCons (he r) (ht.tail r)

/-! ### Sequences -/

theorem follow_items (k : Kind) (ts : List Term) (r : List Tok) (h : closes r = true) :
    follow (toksAll k false ts ++ r) = true := by
  cases ts with
  | nil => simpa [toksAll] using closes_follow h
  | cons t ts => simp [toksAll, sepToks, follow]

theorem ev_items {k : Kind} : ∀ (ts : List Term), (∀ t ∈ ts, Parses k t) → ts ≠ [] → ∀ r, closes r = true →
    Ev expressions (toksAll k true ts ++ r) (astAll ts, r)
  | [], _, h, _, _ => absurd rfl h
  | [t], h, _, r, hr => by
    have := ev_last ((h t (by simp)).expr false 0 r (by omega) (closes_follow hr)) hr
    simpa [toksAll, sepToks, astAll, plain] using this
  | t :: u :: ts, h, _, r, hr => by
    have ih := ev_items (u :: ts) (fun x hx => h x (List.mem_cons_of_mem _ hx)) (by simp) r hr
    have := (h t (by simp)).expr false 0 (.comma :: (toksAll k true (u :: ts) ++ r)) (by omega) rfl
    simpa [toksAll, sepToks, astAll, plain] using ev_more this ih

theorem parses_tuple {k : Kind} {ts : List Term} (h : ∀ t ∈ ts, Parses k t) : Parses k (.tuple ts) := by
  refine parses_primary (fun _ => .lbrace :: (toksAll k true ts ++ [.rbrace])) (fun c hc => ?_) ?_ (fun v r => ?_) (fun _ e => ?_)
  · simp [Term.toks, restToks_plain hc]
  · simp [Term.toks, Ctx.restToks]
  · cases ts with
    | nil => exact Ev.succ (n := 0) fun m _ => rfl
    | cons t ts =>
      have := ev_items (t :: ts) h (by simp) (.rbrace :: r) rfl
      simpa [Term.ast] using ev_tuple this
  · simp [Term.ast, chain]

theorem parses_block {ts : List Term} (h : ∀ t ∈ ts, Parses .expression t) (hne : ts ≠ []) : Parses .expression (.block ts) := by
  refine parses_primary (fun _ => .word .begin :: (toksAll .expression true ts ++ [.word .end_])) (fun c hc => ?_) ?_
    (fun v r => ?_) (fun hk => by cases hk)
  · simp [Term.toks, restToks_plain hc]
  · simp [Term.toks, Ctx.restToks]
  · have := ev_items ts h hne (.word .end_ :: r) rfl
    simpa [Term.ast] using ev_block this

theorem parses_function {ps : List Text} {ts : List Term} (h : ∀ t ∈ ts, Parses .expression t) (hne : ts ≠ []) :
    Parses .expression (.function ps ts) := by
  refine parses_primary (fun _ => .word .fun_ :: .lparen :: (parameterToks ps ++
      .rparen :: .arrow :: (toksAll .expression true ts ++ [.word .end_]))) (fun c hc => ?_) ?_
    (fun v r => ?_) (fun hk => by cases hk)
  · simp [Term.toks, restToks_plain hc]
  · simp [Term.toks, Ctx.restToks]
  · have := ev_items ts h hne (.word .end_ :: r) rfl
    simpa [Term.ast] using ev_function (ps := ps) this

theorem parses_reference (m : Option Text) (f : Text) (a : Nat) : Parses .expression (.reference m f a) := by
  refine parses_primary (fun _ => .word .fun_ :: (moduleToks m ++ [.atom f, .op .slash, .int a])) (fun c hc => ?_) ?_
    (fun v r => ?_) (fun hk => by cases hk)
  · simp [Term.toks, restToks_plain hc]
  · simp [Term.toks, Ctx.restToks]
  · simpa [Term.ast] using ev_reference m f a r

theorem ev_args {ts : List Term} (h : ∀ t ∈ ts, Parses .expression t) (r : List Tok) :
    (astAll ts = [] ∧ toksAll .expression true ts ++ .rparen :: r = .rparen :: r) ∨
      Ev expressions (toksAll .expression true ts ++ .rparen :: r) (astAll ts, .rparen :: r) := by
  cases ts with
  | nil => exact Or.inl ⟨rfl, rfl⟩
  | cons t ts => exact Or.inr (ev_items (t :: ts) h (by simp) _ rfl)

/-- A term read as a call. -/
theorem parses_application {t : Term} (T : List Tok) (ht : ∀ c : Ctx, t.toks .expression c = c.restToks T) (hn : t.primary = false)
    (ha : ∀ v r, Ev application (T ++ r) (t.ast v, r)) : Parses .expression t :=
  have ho : ∀ v r, stops r = true → Ev Read.operand (T ++ r) (t.ast v, r) := fun v r _ => ev_operand (ha v r)
  parses_operand (fun _ => T) (fun c hc => by rw [ht, restToks_plain hc]) (fun h => by rw [hn] at h; cases h) ho
    (fun hk => by cases hk) (tail_of_operand (fun _ => T) (by rw [ht]; simp [Ctx.restToks]) ho)

theorem parses_call {f : Term} {ts : List Term} (hf : Parses .expression f) (hc : f.callable = true)
    (h : ∀ t ∈ ts, Parses .expression t) : Parses .expression (.call f ts) := by
  refine parses_application (parenToks f.isCall (f.toks .expression plain) ++
      .lparen :: (toksAll .expression true ts ++ [.rparen])) (fun c => by simp [Term.toks]) rfl (fun v r => ?_)
  have hp : ∀ r, Ev Read.primary (parenToks f.isCall (f.toks .expression plain) ++ r) (f.ast false, r) := by
    intro r
    by_cases hi : f.isCall = true
    · simp only [parenToks, hi, if_true, List.cons_append, List.append_assoc, List.nil_append]
      exact ev_paren (hf.expr false 0 _ (by omega) rfl)
    · have : f.primary = true := by cases f <;> simp_all [Term.callable, Term.isCall, Term.primary]
      simpa [parenToks, hi, plain] using hf.prim this false r
  simpa [Term.ast] using ev_call (hp _) (ev_args h r)

theorem parses_remote {m f : Text} {ts : List Term} (h : ∀ t ∈ ts, Parses .expression t) : Parses .expression (.remote m f ts) := by
  refine parses_application (.atom m :: .colon :: .atom f :: .lparen :: (toksAll .expression true ts ++ [.rparen]))
    (fun c => by simp [Term.toks]) rfl (fun v r => ?_)
  simpa [Term.ast] using ev_remote (m := m) (f := f) (ev_args h r)

theorem parses_unary {op : UnOp} {t : Term} (h : Parses .expression t) (ho : t.operandLike = true) :
    Parses .expression (.unary op t) := by
  have key : ∀ v r, stops r = true →
      Ev Read.operand ((.op op.op :: t.toks .expression { operand := true, value := v }) ++ r) ((Term.unary op t).ast v, r) :=
    fun v r hr => by
      have := ev_unary (o := op.op) (by cases op <;> rfl) (h.operand ho v r hr)
      simpa [Term.ast] using this
  exact parses_operand (fun v => .op op.op :: t.toks .expression { operand := true, value := v })
    (fun c hc => by simp [Term.toks, restToks_plain hc]) (fun h => by simp [Term.primary] at h) key (fun hk => by cases hk)
    (tail_of_operand (fun v => .op op.op :: t.toks .expression { operand := true, value := v })
      (by simp [Term.toks, Ctx.restToks]) key)

theorem parses_binary {op : BinOp} {a b : Term} (ha : Parses .expression a) (hb : Parses .expression b)
    (hoa : a.operandLike = true) (hob : b.operandLike = true) : Parses .expression (.binary op a b) := by
  have key : ∀ p r, p ≤ 100 → follow r = true → Ev (fun n => expression n p)
      ((a.toks .expression { operand := true } ++ .op op.op :: b.toks .expression { operand := true }) ++ r)
      (.binary op.op (a.ast false) (b.ast false), r) := by
    intro p r hp hr
    have hq : ∃ q assoc, op.op.precedence = some (q, assoc) ∧ 100 ≤ q := by
      cases op <;> exact ⟨_, _, rfl, by omega⟩
    obtain ⟨q, assoc, ho, hq⟩ := hq
    have h1 := ha.operand hoa false (.op op.op :: (b.toks .expression { operand := true } ++ r)) rfl
    have h2 := ev_expression (p := if assoc = .right then q else q + 1) (hb.operand hob false r (follow_stops hr)) hr
    simpa using ev_binary h1 ho (by omega) h2 hr
  refine ⟨fun h => by simp [Term.primary] at h, fun _ v r hr => ?_, fun v p r hp hr => ?_, (fun hk => by cases hk),
    fun r => ?_⟩
  · have := ev_paren (key 0 (.rparen :: r) (by omega) rfl)
    simpa [Term.toks, Ctx.restToks, parenToks, Term.ast] using ev_operand (ev_application this hr)
  · simpa [Term.toks, Ctx.restToks, parenToks, Term.ast] using key p r hp hr
  · simpa [Term.toks, Ctx.restToks, parenToks, Term.ast] using ev_tailBar (key 0 (.rbrack :: r) (by omega) rfl)

theorem parses_bind {k : Kind} {a b : Term} (ha : Parses .pattern a) (hb : Parses k b) : Parses k (.bind a b) := by
  have key : ∀ v p r, p ≤ 100 → follow r = true → Ev (fun n => expression n p)
      ((a.toks .pattern plain ++ .op .bind :: b.toks k { value := v }) ++ r) ((Term.bind a b).ast v, r) := by
    intro v p r hp hr
    have := ha.bind rfl p _ _ r hp (hb.expr v 100 r (by omega) hr) hr
    simpa [Term.ast] using this
  refine ⟨fun h => by simp [Term.primary] at h, fun h => by simp [Term.operandLike] at h, fun v p r hp hr => ?_,
    fun hk p R e r hp he hr => ?_, fun r => ?_⟩
  · simpa [Term.toks, Ctx.restToks] using key v p r hp hr
  · have h1 := hb.bind hk 100 R e r (by omega) he hr
    have h2 := ha.bind rfl p _ _ r hp h1 hr
    simp only [Term.ast, chain_assoc]
    simpa [Term.toks, Ctx.restToks, plain] using h2
  · simpa [Term.toks, Ctx.restToks] using ev_tailBar (key false 0 (.rbrack :: r) (by omega) rfl)

/-! ### Segments -/

/-- The type written for a specifier. -/
def Spec.pair : Spec → List Char × Option Nat
  | .unit n => ("unit".toList, some n)
  | s => (s.text, none)

theorem spec_cases (s : Spec) : (∃ n, s = .unit n) ∨ (s.toks = [.atom s.text] ∧ s.pair = (s.text, none)) := by
  cases s with
  | unit n => exact Or.inl ⟨n, rfl⟩
  | _ => exact Or.inr ⟨rfl, rfl⟩

theorem types_last {a : List Char} {r : List Tok} (h1 : ∀ x, r ≠ .op .minus :: x) (h2 : ∀ x, r ≠ .colon :: x) :
    types (.atom a :: r) = some ([(a, none)], r) := by
  rw [types.eq_def]
  split
  · rename_i he; cases he; exact absurd rfl (by apply h2)
  · rename_i he; cases he; exact absurd rfl (by apply h2)
  · rename_i he; cases he; exact absurd rfl (by apply h1)
  · rename_i he; cases he; rfl
  · rename_i h; exact absurd rfl (by apply h)

theorem types_lastUnit {a : List Char} {n : Nat} {r : List Tok} (h1 : ∀ x, r ≠ .op .minus :: x) :
    types (.atom a :: .colon :: .int n :: r) = some ([(a, some n)], r) := by
  rw [types]
  exact fun x hx => h1 x hx

theorem types_toks : ∀ (s : Spec) (ss : List Spec) (r : List Tok), (∀ x, r ≠ .op .minus :: x) → (∀ x, r ≠ .colon :: x) →
    types (s.toks ++ (specToks false ss ++ r)) = some ((s :: ss).map Spec.pair, r)
  | s, [], r, h1, h2 => by
    simp only [specToks, List.nil_append, List.map_cons, List.map_nil]
    rcases spec_cases s with ⟨n, rfl⟩ | ⟨h, h'⟩
    · exact types_lastUnit h1
    · rw [h, h']; exact types_last h1 h2
  | s, t :: ss, r, h1, h2 => by
    have ih := types_toks t ss r h1 h2
    rw [List.map_cons]
    have hs : specToks false (t :: ss) ++ r = .op .minus :: (t.toks ++ (specToks false ss ++ r)) := by simp [specToks]
    rw [hs]
    rcases spec_cases s with ⟨n, rfl⟩ | ⟨h, h'⟩
    · have : Spec.toks (.unit n) ++ Tok.op .minus :: (t.toks ++ (specToks false ss ++ r)) =
          .atom "unit".toList :: .colon :: .int n :: .op .minus :: (t.toks ++ (specToks false ss ++ r)) := rfl
      rw [this, types, ih]; rfl
    · rw [h, h']; simp only [List.cons_append, List.nil_append, types, ih, Option.map_some]

theorem spec_types (s : Spec) : (s.isUnit = true ∧ s.type = none ∧ s.unitType = some s.pair) ∨
    (s.isUnit = false ∧ s.type = some s.pair ∧ s.unitType = none) := by
  cases s with
  | unit n => exact Or.inl ⟨rfl, rfl, rfl⟩
  | _ => exact Or.inr ⟨rfl, rfl, rfl⟩

theorem sortSpecs_pair (specs : List Spec) : (sortSpecs specs).map Spec.pair = specTypes specs := by
  have h1 : ∀ l : List Spec, (l.filter (fun s => !s.isUnit)).map Spec.pair = l.filterMap Spec.type := by
    intro l
    induction l with
    | nil => rfl
    | cons s l ih =>
      rcases spec_types s with ⟨a, b, _⟩ | ⟨a, b, _⟩
      · rw [List.filterMap_cons_none b, ← ih]; simp only [List.filter_cons, a, Bool.not_true, Bool.false_eq_true, if_false]
      · rw [List.filterMap_cons_some b, ← ih]; simp only [List.filter_cons, a, Bool.not_false, if_true, List.map_cons]
  have h2 : ∀ l : List Spec, (l.filter Spec.isUnit).map Spec.pair = l.filterMap Spec.unitType := by
    intro l
    induction l with
    | nil => rfl
    | cons s l ih =>
      rcases spec_types s with ⟨a, _, b⟩ | ⟨a, _, b⟩
      · rw [List.filterMap_cons_some b, ← ih]; simp only [List.filter_cons, a, if_true, List.map_cons]
      · rw [List.filterMap_cons_none b, ← ih]; simp only [List.filter_cons, a, Bool.false_eq_true, if_false]
  rw [sortSpecs, specTypes, List.map_append, h1, h2]

/-- The types after a segment, if there are any. -/
theorem ev_types (specs : List Spec) (r : List Tok) (hr : follow r = true) :
    (specToks true (sortSpecs specs) ++ r = r ∧ specTypes specs = []) ∨
      ∃ ts, specToks true (sortSpecs specs) ++ r = .op .slash :: ts ∧ types ts = some (specTypes specs, r) := by
  rw [← sortSpecs_pair]
  cases sortSpecs specs with
  | nil => exact Or.inl ⟨rfl, rfl⟩
  | cons s ss =>
    refine Or.inr ⟨s.toks ++ (specToks false ss ++ r), by simp [specToks], types_toks s ss r ?_ ?_⟩
    · rintro x rfl; simp [follow] at hr
    · rintro x rfl; simp [follow] at hr

theorem ev_bitPrimary {ts : List Tok} {x : Ast × List Tok} (h : Ev Read.primary ts x) : Ev bitExpression ts x := by
  obtain ⟨n, hn⟩ := h
  refine Ev.succ (n := n) fun m hm => ?_
  have hp := hn m hm
  obtain ⟨a, ts, rfl, _, _, ho⟩ := primary_head hp
  simp only [bitExpression]
  split
  · rename_i h1; cases h1; exact absurd rfl (by apply ho)
  · exact hp

theorem ev_bitSigned {o : Op} {ts r : List Tok} {e : Ast} (ho : o.prefix = true) (h : Ev Read.primary ts (e, r)) :
    Ev bitExpression (.op o :: ts) (.unary o e, r) := by
  obtain ⟨n, hn⟩ := h
  exact Ev.succ (n := n) fun m hm => by simp [bitExpression, ho, hn m hm]

/-- The value of a segment. -/
theorem ev_value {k : Kind} {v : Term} (h : Parses k v) (r : List Tok) :
    Ev bitExpression (parenToks (!v.bare k) (v.toks k { value := true }) ++ r) (v.ast true, r) := by
  by_cases hb : v.bare k = true
  · simp only [parenToks, hb, Bool.not_true, Bool.false_eq_true, if_false]
    by_cases hp : v.primary = true
    · exact ev_bitPrimary (h.prim hp true r)
    · cases v with
      | int n =>
        cases n with
        | ofNat n => simp [Term.primary] at hp
        | negSucc n =>
          have := ev_bitSigned (o := .minus) rfl (ev_token (a := .int (n + 1)) (fun _ _ => rfl) r)
          simpa [Term.toks, Ctx.restToks, intToks, Term.ast] using this
      | float s w f =>
        cases s with
        | none => simp [Term.primary] at hp
        | plus =>
          have := ev_bitSigned (o := .plus) rfl (ev_token (a := .float w f) (fun _ _ => rfl) r)
          simpa [Term.toks, Ctx.restToks, Sign.toks, Term.ast, Sign.ast] using this
        | minus =>
          have := ev_bitSigned (o := .minus) rfl (ev_token (a := .float w f) (fun _ _ => rfl) r)
          simpa [Term.toks, Ctx.restToks, Sign.toks, Term.ast, Sign.ast] using this
      | _ => simp_all [Term.bare, Term.primary]
  · simp only [parenToks, hb, Bool.not_false, if_true, List.cons_append, List.append_assoc, List.nil_append]
    exact ev_bitPrimary (ev_paren (h.expr true 0 _ (by omega) rfl))

/-- The size of a segment. -/
theorem ev_size {s : Term} (h : Parses .expression s) (hs : s.sizeLike = true) (r : List Tok) :
    Ev Read.primary (parenToks (!s.bare .expression) (s.toks .expression plain) ++ r) (s.ast false, r) := by
  by_cases hb : s.bare .expression = true
  · simp only [parenToks, hb, Bool.not_true, Bool.false_eq_true, if_false]
    have hp : s.primary = true := by cases s <;> simp_all [Term.bare, Term.primary, Term.sizeLike]
    exact h.prim hp false r
  · simp only [parenToks, hb, Bool.not_false, if_true, List.cons_append, List.append_assoc, List.nil_append]
    exact ev_paren (h.expr false 0 _ (by omega) rfl)

theorem ev_segment {ts r : List Tok} {v : Ast} (specs : List Spec) (hr : follow r = true)
    (hv : Ev bitExpression ts (v, specToks true (sortSpecs specs) ++ r)) :
    Ev segment ts (.mk v none (specTypes specs), r) := by
  obtain ⟨n, hn⟩ := hv
  refine Ev.succ (n := n) fun m hm => ?_
  have hn := hn m hm
  rcases ev_types specs r hr with ⟨h1, h2⟩ | ⟨us, h1, h2⟩
  · rw [h1] at hn
    rw [h2]
    simp only [segment, hn]
    split
    · rename_i he; cases he; simp [follow] at hr
    · rename_i he; cases he; simp [follow] at hr
    · rename_i he; cases he; rfl
    · rename_i he; cases he
  · rw [h1] at hn
    simp only [segment, hn, h2]

theorem ev_sized {ts us r : List Tok} {v s : Ast} (specs : List Spec) (hr : follow r = true)
    (hv : Ev bitExpression ts (v, .colon :: us)) (hs : Ev Read.primary us (s, specToks true (sortSpecs specs) ++ r)) :
    Ev segment ts (.mk v (some s) (specTypes specs), r) := by
  obtain ⟨n1, hn⟩ := hv
  obtain ⟨n2, hs⟩ := hs
  refine Ev.succ (n := n1 + n2) fun m hm => ?_
  have hn := hn m (by omega)
  have hs := hs m (by omega)
  rcases ev_types specs r hr with ⟨h1, h2⟩ | ⟨ws, h1, h2⟩
  · rw [h1] at hs
    rw [h2]
    simp only [segment, hn, hs]
    split
    · rename_i he; cases he; simp [follow] at hr
    · rename_i he; cases he; rfl
    · rename_i he; cases he
  · rw [h1] at hs
    simp only [segment, hn, hs, h2]

theorem ev_lastSegment {ts r : List Tok} {s : AstSegment} (h : Ev segment ts (s, r)) (hr : closes r = true) :
    Ev segments ts ([s], r) := by
  obtain ⟨n, hn⟩ := h
  refine Ev.succ (n := n) fun m hm => ?_
  simp only [segments, hn m hm]
  split
  · rename_i he; cases he; simp [closes] at hr
  · rename_i he; cases he; rfl
  · rename_i he; cases he

theorem ev_moreSegments {ts us r : List Tok} {s : AstSegment} {ss : List AstSegment} (h : Ev segment ts (s, .comma :: us))
    (hs : Ev segments us (ss, r)) : Ev segments ts (s :: ss, r) := by
  obtain ⟨n1, h1⟩ := h
  obtain ⟨n2, h2⟩ := hs
  exact Ev.succ (n := n1 + n2) fun m hm => by simp only [segments, h1 m (by omega), h2 m (by omega)]

/-- The value and the size of a segment are read back. -/
def SegmentParses (k : Kind) : Segment → Prop
  | .mk v none _ => Parses k v
  | .mk v (some s) _ => Parses k v ∧ Parses .expression s ∧ s.sizeLike = true

/-- The tokens of one segment. -/
def oneToks (k : Kind) : Segment → List Tok
  | .mk value none specs => parenToks (!value.bare k) (value.toks k { value := true }) ++ specToks true (sortSpecs specs)
  | .mk value (some size) specs => parenToks (!value.bare k) (value.toks k { value := true }) ++
      .colon :: (parenToks (!size.bare .expression) (size.toks .expression plain) ++ specToks true (sortSpecs specs))

def oneAst : Segment → AstSegment
  | .mk value none specs => .mk (value.ast true) none (specTypes specs)
  | .mk value (some size) specs => .mk (value.ast true) (some (size.ast false)) (specTypes specs)

theorem segmentToks_cons (k : Kind) (f : Bool) (s : Segment) (ss : List Segment) :
    segmentToks k f (s :: ss) = sepToks .comma f ++ (oneToks k s ++ segmentToks k false ss) := by
  match s with
  | .mk v none sp => simp [segmentToks, oneToks]
  | .mk v (some z) sp => simp [segmentToks, oneToks]

theorem segmentAst_cons (s : Segment) (ss : List Segment) : segmentAst (s :: ss) = oneAst s :: segmentAst ss := by
  match s with
  | .mk v none sp => simp [segmentAst, oneAst]
  | .mk v (some z) sp => simp [segmentAst, oneAst]

theorem ev_oneSegment {k : Kind} {s : Segment} (h : SegmentParses k s) (r : List Tok) (hr : follow r = true) :
    Ev segment (oneToks k s ++ r) (oneAst s, r) := by
  match s, h with
  | .mk v none sp, h =>
    simp only [oneToks, oneAst, List.append_assoc]
    exact ev_segment sp hr (ev_value h _)
  | .mk v (some z) sp, h =>
    simp only [oneToks, oneAst, List.append_assoc, List.cons_append]
    exact ev_sized sp hr (ev_value h.1 _) (ev_size h.2.1 h.2.2 _)

theorem ev_allSegments {k : Kind} : ∀ (ss : List Segment), (∀ s ∈ ss, SegmentParses k s) → ss ≠ [] → ∀ r, closes r = true →
    Ev segments (segmentToks k true ss ++ r) (segmentAst ss, r)
  | [], _, h, _, _ => absurd rfl h
  | [s], h, _, r, hr => by
    have := ev_lastSegment (ev_oneSegment (h s (by simp)) r (closes_follow hr)) hr
    simpa [segmentToks_cons, segmentAst_cons, sepToks, segmentToks, segmentAst] using this
  | s :: t :: ss, h, _, r, hr => by
    have ih := ev_allSegments (t :: ss) (fun x hx => h x (List.mem_cons_of_mem _ hx)) (by simp) r hr
    have := ev_oneSegment (h s (by simp)) (.comma :: (segmentToks k true (t :: ss) ++ r)) rfl
    have := ev_moreSegments this ih
    rw [segmentToks_cons, segmentAst_cons]
    simpa [segmentToks_cons k false t, segmentToks_cons k true t, sepToks] using this

theorem parses_bits {k : Kind} {ss : List Segment} (h : ∀ s ∈ ss, SegmentParses k s) : Parses k (.bits ss) := by
  refine parses_primary (fun _ => .ltlt :: (segmentToks k true ss ++ [.gtgt])) (fun c hc => ?_) ?_ (fun v r => ?_) (fun _ e => ?_)
  · simp [Term.toks, restToks_plain hc]
  · simp [Term.toks, Ctx.restToks]
  · cases ss with
    | nil => exact Ev.succ (n := 0) fun m _ => rfl
    | cons s ss =>
      have := ev_allSegments (s :: ss) h (by simp) (.gtgt :: r) rfl
      simpa [Term.ast] using ev_bits this
  · simp [Term.ast, chain]

/-! ### Fields and clauses -/

def FieldParses : Field → Prop
  | .mk key value => Parses .expression key ∧ Parses .expression value

theorem ev_lastField {ts us r : List Tok} {k v : Ast} (hk : Ev (fun n => expression n 0) ts (k, .assoc :: us))
    (hv : Ev (fun n => expression n 0) us (v, r)) (hr : closes r = true) : Ev fields ts ([.mk k v], r) := by
  obtain ⟨n1, h1⟩ := hk
  obtain ⟨n2, h2⟩ := hv
  refine Ev.succ (n := n1 + n2) fun m hm => ?_
  have h1 := h1 m (by omega)
  have h2 := h2 m (by omega)
  simp only at h1 h2
  simp only [fields, h1, h2]
  split
  · rename_i he; cases he; simp [closes] at hr
  · rename_i he; cases he; rfl
  · rename_i he; cases he

theorem ev_moreFields {ts us ws r : List Tok} {k v : Ast} {fs : List AstField}
    (hk : Ev (fun n => expression n 0) ts (k, .assoc :: us))
    (hv : Ev (fun n => expression n 0) us (v, .comma :: ws)) (hf : Ev fields ws (fs, r)) :
    Ev fields ts (.mk k v :: fs, r) := by
  obtain ⟨n1, h1⟩ := hk
  obtain ⟨n2, h2⟩ := hv
  obtain ⟨n3, h3⟩ := hf
  refine Ev.succ (n := n1 + n2 + n3) fun m hm => ?_
  have h1 := h1 m (by omega)
  have h2 := h2 m (by omega)
  simp only at h1 h2
  simp only [fields, h1, h2, h3 m (by omega)]

theorem ev_allFields : ∀ (fs : List Field), (∀ f ∈ fs, FieldParses f) → fs ≠ [] → ∀ r, closes r = true →
    Ev fields (fieldToks true fs ++ r) (fieldAst fs, r)
  | [], _, h, _, _ => absurd rfl h
  | [.mk k v], h, _, r, hr => by
    have hf := h (.mk k v) (by simp)
    have := ev_lastField (hf.1.expr false 0 (.assoc :: (v.toks .expression plain ++ r)) (by omega) rfl)
      (hf.2.expr false 0 r (by omega) (closes_follow hr)) hr
    simpa [fieldToks, fieldAst, sepToks, plain] using this
  | .mk k v :: .mk k' v' :: fs, h, _, r, hr => by
    have hf := h (.mk k v) (by simp)
    have ih := ev_allFields (.mk k' v' :: fs) (fun x hx => h x (List.mem_cons_of_mem _ hx)) (by simp) r hr
    have := ev_moreFields (hf.1.expr false 0 (.assoc :: (v.toks .expression plain ++ .comma :: (fieldToks true (.mk k' v' :: fs) ++ r)))
        (by omega) rfl)
      (hf.2.expr false 0 (.comma :: (fieldToks true (.mk k' v' :: fs) ++ r)) (by omega) rfl) ih
    simpa [fieldToks, fieldAst, sepToks, plain] using this

theorem parses_map {fs : List Field} (h : ∀ f ∈ fs, FieldParses f) : Parses .expression (.map fs) := by
  refine parses_application (.hash :: .lbrace :: (fieldToks true fs ++ [.rbrace])) (fun c => by simp [Term.toks]) rfl
    (fun v r => ?_)
  cases fs with
  | nil => exact Ev.succ (n := 0) fun m _ => rfl
  | cons f fs =>
    have := ev_allFields (f :: fs) h (by simp) (.rbrace :: r) rfl
    simpa [Term.ast] using ev_map this

def ClauseParses : Clause → Prop
  | .mk p none b => Parses .pattern p ∧ b ≠ [] ∧ ∀ t ∈ b, Parses .expression t
  | .mk p (some g) b => Parses .pattern p ∧ Parses .expression g ∧ b ≠ [] ∧ ∀ t ∈ b, Parses .expression t

theorem ev_plainClause {ts us r : List Tok} {p : Ast} {es : List Ast} (hp : Ev (fun n => expression n 0) ts (p, .arrow :: us))
    (hb : Ev expressions us (es, r)) : Ev clause ts (.mk p none es, r) := by
  obtain ⟨n1, h1⟩ := hp
  obtain ⟨n2, h2⟩ := hb
  refine Ev.succ (n := n1 + n2) fun m hm => ?_
  have h1 := h1 m (by omega)
  simp only at h1
  simp only [clause, h1, h2 m (by omega)]

theorem ev_guardClause {ts us ws r : List Tok} {p g : Ast} {es : List Ast}
    (hp : Ev (fun n => expression n 0) ts (p, .word .when :: us)) (hg : Ev (fun n => expression n 0) us (g, .arrow :: ws))
    (hb : Ev expressions ws (es, r)) : Ev clause ts (.mk p (some g) es, r) := by
  obtain ⟨n1, h1⟩ := hp
  obtain ⟨n2, h2⟩ := hg
  obtain ⟨n3, h3⟩ := hb
  refine Ev.succ (n := n1 + n2 + n3) fun m hm => ?_
  have h1 := h1 m (by omega)
  have h2 := h2 m (by omega)
  simp only at h1 h2
  simp only [clause, h1, h2, h3 m (by omega)]

def clauseOne : Clause → List Tok
  | .mk p none b => p.toks .pattern plain ++ .arrow :: toksAll .expression true b
  | .mk p (some g) b => p.toks .pattern plain ++ .word .when :: (g.toks .expression plain ++ .arrow :: toksAll .expression true b)

def clauseOneAst : Clause → AstClause
  | .mk p none b => .mk (p.ast false) none (astAll b)
  | .mk p (some g) b => .mk (p.ast false) (some (g.ast false)) (astAll b)

theorem clauseToks_cons (f : Bool) (c : Clause) (cs : List Clause) :
    clauseToks f (c :: cs) = sepToks .semi f ++ (clauseOne c ++ clauseToks false cs) := by
  match c with
  | .mk p none b => simp [clauseToks, clauseOne]
  | .mk p (some g) b => simp [clauseToks, clauseOne]

theorem clauseAst_cons (c : Clause) (cs : List Clause) : clauseAst (c :: cs) = clauseOneAst c :: clauseAst cs := by
  match c with
  | .mk p none b => simp [clauseAst, clauseOneAst]
  | .mk p (some g) b => simp [clauseAst, clauseOneAst]

theorem ev_oneClause {c : Clause} (h : ClauseParses c) (r : List Tok) (hr : closes r = true) :
    Ev clause (clauseOne c ++ r) (clauseOneAst c, r) := by
  match c, h with
  | .mk p none b, h =>
    have := ev_plainClause (h.1.expr false 0 (.arrow :: (toksAll .expression true b ++ r)) (by omega) rfl)
      (ev_items b h.2.2 h.2.1 r hr)
    simpa [clauseOne, clauseOneAst, plain] using this
  | .mk p (some g) b, h =>
    have := ev_guardClause (h.1.expr false 0 (.word .when :: (g.toks .expression plain ++ .arrow :: (toksAll .expression true b ++ r)))
        (by omega) rfl)
      (h.2.1.expr false 0 (.arrow :: (toksAll .expression true b ++ r)) (by omega) rfl)
      (ev_items b h.2.2.2 h.2.2.1 r hr)
    simpa [clauseOne, clauseOneAst, plain] using this

theorem ev_lastClause {ts r : List Tok} {c : AstClause} (h : Ev clause ts (c, r)) (hr : ∀ x, r ≠ .semi :: x) :
    Ev clauses ts ([c], r) := by
  obtain ⟨n, hn⟩ := h
  refine Ev.succ (n := n) fun m hm => ?_
  simp only [clauses, hn m hm]

theorem ev_moreClauses {ts us r : List Tok} {c : AstClause} {cs : List AstClause} (h : Ev clause ts (c, .semi :: us))
    (hs : Ev clauses us (cs, r)) : Ev clauses ts (c :: cs, r) := by
  obtain ⟨n1, h1⟩ := h
  obtain ⟨n2, h2⟩ := hs
  exact Ev.succ (n := n1 + n2) fun m hm => by simp only [clauses, h1 m (by omega), h2 m (by omega)]

theorem ev_allClauses : ∀ (cs : List Clause), (∀ c ∈ cs, ClauseParses c) → cs ≠ [] → ∀ r,
    Ev clauses (clauseToks true cs ++ .word .end_ :: r) (clauseAst cs, .word .end_ :: r)
  | [], _, h, _ => absurd rfl h
  | [c], h, _, r => by
    have := ev_lastClause (ev_oneClause (h c (by simp)) (.word .end_ :: r) rfl) (by simp)
    simpa [clauseToks_cons, clauseAst_cons, clauseToks, clauseAst, sepToks] using this
  | c :: d :: cs, h, _, r => by
    have ih := ev_allClauses (d :: cs) (fun x hx => h x (List.mem_cons_of_mem _ hx)) (by simp) r
    have := ev_moreClauses (ev_oneClause (h c (by simp)) (.semi :: (clauseToks true (d :: cs) ++ .word .end_ :: r)) rfl) ih
    rw [clauseToks_cons, clauseAst_cons]
    simpa [clauseToks_cons false d, clauseToks_cons true d, sepToks] using this

theorem parses_case {s : Term} {cs : List Clause} (hs : Parses .expression s) (h : ∀ c ∈ cs, ClauseParses c) (hne : cs ≠ []) :
    Parses .expression (.case_ s cs) := by
  refine parses_primary (fun _ => .word .case_ :: (s.toks .expression plain ++
      .word .of :: (clauseToks true cs ++ [.word .end_]))) (fun c hc => ?_) ?_ (fun v r => ?_) (fun hk => by cases hk)
  · simp [Term.toks, restToks_plain hc]
  · simp [Term.toks, Ctx.restToks]
  · have := ev_case (hs.expr false 0 (.word .of :: (clauseToks true cs ++ .word .end_ :: r)) (by omega) rfl)
      (ev_allClauses cs h hne r)
    simpa [Term.ast, plain] using this

mutual

theorem Term.parses (k : Kind) : ∀ (t : Term), t.Ok k → Parses k t
  | .var n, _ => parses_primary (fun _ => [.var n]) (fun c hc => by simp [Term.toks, restToks_plain hc])
      (by simp [Term.toks, Ctx.restToks]) (fun _ r => ev_token (fun _ _ => rfl) r) (fun _ _ => by simp [Term.ast, chain])
  | .discard, _ => parses_primary (fun _ => [.var ['_']]) (fun c hc => by simp [Term.toks, restToks_plain hc])
      (by simp [Term.toks, Ctx.restToks]) (fun _ r => ev_token (fun _ _ => rfl) r) (fun _ _ => by simp [Term.ast, chain])
  | .int n, _ => parses_int k n
  | .float s w f, _ => parses_float k s w f
  | .string s, _ => parses_string k s
  | .atom n, _ => parses_primary (fun _ => [.atom n]) (fun c hc => by simp [Term.toks, restToks_plain hc])
      (by simp [Term.toks, Ctx.restToks]) (fun _ r => ev_token (fun _ _ => rfl) r) (fun _ _ => by simp [Term.ast, chain])
  | .nil, _ => parses_nil k
  | .cons h t, ho => by
    simp only [Term.Ok] at ho; exact parses_cons (h.parses k ho.1) (t.parses k ho.2)
  | .tuple ts, ho => by
    simp only [Term.Ok] at ho; exact parses_tuple (parsesAll k ts ho)
  | .bits ss, ho => by
    simp only [Term.Ok] at ho; exact parses_bits (parsesSegments k ss ho)
  | .map fs, ho => by
    simp only [Term.Ok] at ho; obtain ⟨rfl, ho⟩ := ho; exact parses_map (parsesFields fs ho)
  | .block ts, ho => by
    simp only [Term.Ok] at ho; obtain ⟨rfl, hne, ho⟩ := ho; exact parses_block (parsesAll _ ts ho) hne
  | .call f ts, ho => by
    simp only [Term.Ok] at ho; obtain ⟨rfl, hc, hf, ho⟩ := ho
    exact parses_call (f.parses _ hf) hc (parsesAll _ ts ho)
  | .remote m f ts, ho => by
    simp only [Term.Ok] at ho; obtain ⟨rfl, _, _, ho⟩ := ho; exact parses_remote (parsesAll _ ts ho)
  | .function ps ts, ho => by
    simp only [Term.Ok] at ho; obtain ⟨rfl, _, hne, ho⟩ := ho; exact parses_function (parsesAll _ ts ho) hne
  | .reference m f a, ho => by
    simp only [Term.Ok] at ho; obtain ⟨rfl, _⟩ := ho; exact parses_reference m f a
  | .unary op t, ho => by
    simp only [Term.Ok] at ho; obtain ⟨rfl, hl, ho⟩ := ho; exact parses_unary (t.parses _ ho) hl
  | .binary op a b, ho => by
    simp only [Term.Ok] at ho; obtain ⟨rfl, h1, h2, ha, hb⟩ := ho
    exact parses_binary (a.parses _ ha) (b.parses _ hb) h1 h2
  | .bind a b, ho => by
    simp only [Term.Ok] at ho; exact parses_bind (a.parses _ ho.1) (b.parses k ho.2)
  | .case_ s cs, ho => by
    simp only [Term.Ok] at ho; obtain ⟨rfl, hs, hne, ho⟩ := ho
    exact parses_case (s.parses _ hs) (parsesClauses cs ho) hne

theorem parsesAll (k : Kind) : ∀ (ts : List Term), OkAll k ts → ∀ t ∈ ts, Parses k t
  | [], _ => fun t ht => absurd ht (by simp)
  | t :: ts, h => by
    simp only [OkAll] at h
    intro u hu
    rcases List.mem_cons.mp hu with hu | hu
    · rw [hu]; exact t.parses k h.1
    · exact parsesAll k ts h.2 u hu

theorem parsesSegments (k : Kind) : ∀ (ss : List Segment), OkSegments k ss → ∀ s ∈ ss, SegmentParses k s
  | [], _ => fun t ht => absurd ht (by simp)
  | .mk v none sp :: ss, h => by
    simp only [OkSegments] at h
    intro u hu
    rcases List.mem_cons.mp hu with hu | hu
    · rw [hu]; exact v.parses k h.1
    · exact parsesSegments k ss h.2 u hu
  | .mk v (some z) sp :: ss, h => by
    simp only [OkSegments] at h
    intro u hu
    rcases List.mem_cons.mp hu with hu | hu
    · rw [hu]; exact ⟨v.parses k h.1, z.parses .expression h.2.2.1, h.2.1⟩
    · exact parsesSegments k ss h.2.2.2 u hu

theorem parsesFields : ∀ (fs : List Field), OkFields fs → ∀ f ∈ fs, FieldParses f
  | [], _ => fun t ht => absurd ht (by simp)
  | .mk k v :: fs, h => by
    simp only [OkFields] at h
    intro u hu
    rcases List.mem_cons.mp hu with hu | hu
    · rw [hu]; exact ⟨k.parses _ h.1, v.parses _ h.2.1⟩
    · exact parsesFields fs h.2.2 u hu

theorem parsesClauses : ∀ (cs : List Clause), OkClauses cs → ∀ c ∈ cs, ClauseParses c
  | [], _ => fun t ht => absurd ht (by simp)
  | .mk p none b :: cs, h => by
    simp only [OkClauses] at h
    intro u hu
    rcases List.mem_cons.mp hu with hu | hu
    · rw [hu]; exact ⟨p.parses _ h.1, h.2.1, parsesAll _ b h.2.2.1⟩
    · exact parsesClauses cs h.2.2.2 u hu
  | .mk p (some g) b :: cs, h => by
    simp only [OkClauses] at h
    intro u hu
    rcases List.mem_cons.mp hu with hu | hu
    · rw [hu]; exact ⟨p.parses _ h.1, g.parses _ h.2.1, h.2.2.1, parsesAll _ b h.2.2.2.1⟩
    · exact parsesClauses cs h.2.2.2.2 u hu

end

end Verif.ErlText
