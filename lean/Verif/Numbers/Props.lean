import Verif.Numbers.Round
import Verif.Numbers.Erlang

/-
C38: integer arithmetic means the same on both targets; C54: `!=` is the negation of `==`.
-/
namespace Verif.Numbers
variable {σ : Type}

/-! ### JavaScript -/

theorem safe_iff (n : Int) : safe n = true ↔ n.natAbs < 2 ^ 53 := by simp [safe]

theorem safe_abs {n : Int} (h : safe n = true) : |n| < 2 ^ 53 := by
  have := (safe_iff n).mp h
  rw [Int.abs_eq_natAbs]
  exact_mod_cast this

theorem jsOp_safe {round : ℚ → ℚ} (hr : RoundsToNearest round) (op : Op) (a b : Int) (h : safe (gleamOp op a b) = true)
    (hop : op ≠ .div) (hrem : op = .rem → b ≠ 0) : jsOp round op a b = gleamOp op a b := by
  have hi := round_int hr (safe_abs h)
  cases op with
  | add => simpa [jsOp, gleamOp] using hi
  | sub => simpa [jsOp, gleamOp] using hi
  | mul => simpa [jsOp, gleamOp] using hi
  | div => exact absurd rfl hop
  | rem =>
    have hb := hrem rfl
    simp only [gleamOp, hb, if_false] at hi ⊢
    simp only [jsOp, exactRem_int a b hb]
    exact hi

theorem divideInt_safe {round : ℚ → ℚ} (hr : RoundsToNearest round) (a b : Int) (ha : safe a = true) (hb : safe b = true) :
    divideInt round a b = gleamOp .div a b := by
  by_cases h : b = 0
  · subst h; simp [divideInt, divideFloat, gleamOp, trunc]
  · have h' : (b : ℚ) ≠ 0 := by exact_mod_cast h
    simp only [divideInt, divideFloat, h', if_false, jsOp, gleamOp, h]
    exact trunc_round_div hr a b ((safe_iff a).mp ha) ((safe_iff b).mp hb) h

theorem remainderInt_safe {round : ℚ → ℚ} (hr : RoundsToNearest round) (a b : Int) (h : safe (gleamOp .rem a b) = true) :
    remainderInt round a b = gleamOp .rem a b := by
  by_cases hb : b = 0
  · subst hb; simp [remainderInt, gleamOp]
  · have h' : (b : ℚ) ≠ 0 := by exact_mod_cast hb
    simp only [remainderInt, h', if_false]
    exact jsOp_safe hr .rem a b h (by simp) (fun _ => hb)

theorem spec_value_safe (w : World σ) (ρ : String → Int) (e : Expr) (s s' : σ) (v : Int)
    (h : evalSpec safe w ρ e s = (.value v, s')) : safe v = true := by
  induction e generalizing s s' v with
  | lit n =>
    simp only [evalSpec, inRange] at h
    split at h <;> simp_all
  | var x =>
    simp only [evalSpec, inRange] at h
    split at h <;> simp_all
  | call f p a ih =>
    simp only [evalSpec] at h
    generalize evalSpec safe w ρ a s = o at h
    obtain ⟨o, s1⟩ := o
    cases o with
    | value u =>
      simp only at h
      generalize w.call f u s1 = c at h
      obtain ⟨c, s2⟩ := c
      cases c with
      | none => simp at h
      | some x =>
        simp only [inRange] at h
        split at h <;> simp_all
    | crash => simp at h
    | outOfRange => simp at h
  | field i a ih =>
    simp only [evalSpec] at h
    generalize evalSpec safe w ρ a s = o at h
    obtain ⟨o, s1⟩ := o
    cases o with
    | value u =>
      simp only [inRange] at h
      split at h <;> simp_all
    | crash => simp at h
    | outOfRange => simp at h
  | neg a ih =>
    simp only [evalSpec] at h
    generalize evalSpec safe w ρ a s = o at h
    obtain ⟨o, s1⟩ := o
    cases o with
    | value u =>
      simp only [inRange] at h
      split at h <;> simp_all
    | crash => simp at h
    | outOfRange => simp at h
  | block a ih => exact ih s s' v h
  | bin op l r ihl ihr =>
    simp only [evalSpec] at h
    generalize evalSpec safe w ρ l s = o at h
    obtain ⟨o, s1⟩ := o
    cases o with
    | value u =>
      simp only at h
      generalize evalSpec safe w ρ r s1 = o at h
      obtain ⟨o, s2⟩ := o
      cases o with
      | value u' =>
        simp only [inRange] at h
        split at h <;> simp_all
      | crash => simp at h
      | outOfRange => simp at h
    | crash => simp at h
    | outOfRange => simp at h

/-- **C38 (JavaScript).** As long as all integers that occur are safe integers (below 2^53), the code generated for
JavaScript does what the expression means: same result or crash, same effects in the same order. Doubles round to a
nearest double, with any rule for ties. -/
theorem javascript_arithmetic {round : ℚ → ℚ} (hr : RoundsToNearest round) (w : World σ) (ρ : String → Int) (e : Expr) (s : σ)
    (hsafe : (evalSpec safe w ρ e s).1 ≠ .outOfRange) :
    Out.Shows (runJs round w ρ e s).1 (evalSpec safe w ρ e s).1 ∧ (runJs round w ρ e s).2 = (evalSpec safe w ρ e s).2 := by
  unfold runJs
  induction e generalizing s with
  | lit n =>
    simp only [evalSpec, inRange] at hsafe ⊢
    by_cases h : safe n = true
    · simp [h, js, JExpr.eval, Out.Shows, round_int hr (safe_abs h)]
    · simp [h] at hsafe
  | var x =>
    simp only [evalSpec, inRange] at hsafe ⊢
    by_cases h : safe (ρ x) = true
    · simp [h, js, JExpr.eval, Out.Shows]
    · simp [h] at hsafe
  | call f p a ih =>
    have ih := ih s
    simp only [evalSpec, js, JExpr.eval] at hsafe ih ⊢
    generalize evalSpec safe w ρ a s = o at hsafe ih ⊢
    generalize (js a).eval round w ρ s = q at ih ⊢
    obtain ⟨o, s1⟩ := o
    obtain ⟨q, s2⟩ := q
    cases o with
    | value v =>
      have ih := ih (by simp)
      cases q with
      | none => simp [Out.Shows] at ih
      | some q =>
        simp only [Out.Shows] at ih
        obtain ⟨rfl, rfl⟩ := ih
        simp only [World.callNumber, Rat.num_intCast] at hsafe ⊢
        generalize w.call f v s2 = c at hsafe ⊢
        obtain ⟨c, s3⟩ := c
        cases c with
        | none => exact ⟨trivial, rfl⟩
        | some x =>
          simp only [inRange] at hsafe ⊢
          by_cases h : safe x = true
          · simp only [h, if_true]; exact ⟨rfl, trivial⟩
          · simp [h] at hsafe
    | crash =>
      have ih := ih (by simp)
      cases q with
      | none => simpa [Out.Shows] using ih
      | some q => simp [Out.Shows] at ih
    | outOfRange => simp at hsafe
  | field i a ih =>
    have ih := ih s
    simp only [evalSpec, js, JExpr.eval] at hsafe ih ⊢
    generalize evalSpec safe w ρ a s = o at hsafe ih ⊢
    generalize (js a).eval round w ρ s = q at ih ⊢
    obtain ⟨o, s1⟩ := o
    obtain ⟨q, s2⟩ := q
    cases o with
    | value v =>
      have ih := ih (by simp)
      cases q with
      | none => simp [Out.Shows] at ih
      | some q =>
        simp only [Out.Shows] at ih
        obtain ⟨rfl, rfl⟩ := ih
        simp only [inRange] at hsafe ⊢
        by_cases h : safe (w.field i v) = true
        · simp [h, Out.Shows]
        · simp [h] at hsafe
    | crash =>
      have ih := ih (by simp)
      cases q with
      | none => simpa [Out.Shows] using ih
      | some q => simp [Out.Shows] at ih
    | outOfRange => simp at hsafe
  | neg a ih =>
    have ih := ih s
    simp only [evalSpec, js, JExpr.eval] at hsafe ih ⊢
    generalize evalSpec safe w ρ a s = o at hsafe ih ⊢
    generalize (js a).eval round w ρ s = q at ih ⊢
    obtain ⟨o, s1⟩ := o
    obtain ⟨q, s2⟩ := q
    cases o with
    | value v =>
      have ih := ih (by simp)
      cases q with
      | none => simp [Out.Shows] at ih
      | some q =>
        simp only [Out.Shows] at ih
        obtain ⟨rfl, rfl⟩ := ih
        simp only [inRange] at hsafe ⊢
        by_cases h : safe (-v) = true
        · simp [h, Out.Shows]
        · simp [h] at hsafe
    | crash =>
      have ih := ih (by simp)
      cases q with
      | none => simpa [Out.Shows] using ih
      | some q => simp [Out.Shows] at ih
    | outOfRange => simp at hsafe
  | block a ih => exact ih s hsafe
  | bin op l r ihl ihr =>
    have ihl := ihl s
    -- the code evaluates both operands in order, or is `0` for a literal divided by zero
    have main : ∀ f : JExpr → JExpr → JExpr, ∀ g : ℚ → ℚ → ℚ,
        (∀ l r s, (f l r).eval round w ρ s = match l.eval round w ρ s with
          | (none, s) => (none, s)
          | (some a, s) => match r.eval round w ρ s with
            | (none, s) => (none, s)
            | (some b, s) => (some (g a b), s)) →
        (∀ a b s1, safe a = true → safe b = true → safe (gleamOp op a b) = true → ((∃ s2, evalSpec safe w ρ r s1 = (.value b, s2)) → g a b = gleamOp op a b)) →
        Out.Shows ((f (js l) (js r)).eval round w ρ s).1 (evalSpec safe w ρ (.bin op l r) s).1 ∧
          ((f (js l) (js r)).eval round w ρ s).2 = (evalSpec safe w ρ (.bin op l r) s).2 := by
      intro f g hf hg
      rw [hf]
      simp only [evalSpec] at hsafe ⊢
      have hvl := spec_value_safe w ρ l s
      generalize evalSpec safe w ρ l s = o at hsafe ihl hvl ⊢
      generalize (js l).eval round w ρ s = q at ihl ⊢
      obtain ⟨o, s1⟩ := o
      obtain ⟨q, s2⟩ := q
      cases o with
      | value a =>
        have ihl := ihl (by simp)
        cases q with
        | none => simp [Out.Shows] at ihl
        | some q =>
          simp only [Out.Shows] at ihl
          obtain ⟨rfl, rfl⟩ := ihl
          have ha := hvl s2 a rfl
          have ihr := ihr s2
          simp only at hsafe ⊢
          have hvr := spec_value_safe w ρ r s2
          have hg' := hg a
          cases hro : evalSpec safe w ρ r s2 with
          | mk o s3 =>
            rw [hro] at hsafe ihr hvr
            generalize (js r).eval round w ρ s2 = q at ihr ⊢
            obtain ⟨q, s4⟩ := q
            cases o with
            | value b =>
              have ihr := ihr (by simp)
              cases q with
              | none => simp [Out.Shows] at ihr
              | some q =>
                simp only [Out.Shows] at ihr
                obtain ⟨rfl, rfl⟩ := ihr
                simp only [inRange] at hsafe ⊢
                by_cases h : safe (gleamOp op a b) = true
                · simp [h, Out.Shows, hg a b s2 ha (hvr _ b rfl) h ⟨_, hro⟩]
                · simp [h] at hsafe
            | crash =>
              have ihr := ihr (by simp)
              cases q with
              | none => simpa [Out.Shows] using ihr
              | some q => simp [Out.Shows] at ihr
            | outOfRange => simp at hsafe
      | crash =>
        have ihl := ihl (by simp)
        cases q with
        | none => simpa [Out.Shows] using ihl
        | some q => simp [Out.Shows] at ihl
      | outOfRange => simp at hsafe
    have zero : (op = .div ∨ op = .rem) → (l.isLiteral && r.isZeroNumber) = true →
        Out.Shows ((JExpr.num 0).eval round w ρ s).1 (evalSpec safe w ρ (.bin op l r) s).1 ∧
          ((JExpr.num 0).eval round w ρ s).2 = (evalSpec safe w ρ (.bin op l r) s).2 := by
      intro hop hz
      simp only [Bool.and_eq_true] at hz
      obtain ⟨hl, hz⟩ := hz
      have := isZero_lit hz
      subst this
      cases l with
      | lit n =>
        have hz0 : gleamOp op n 0 = 0 := by rcases hop with rfl | rfl <;> simp [gleamOp]
        have hs0 : safe 0 = true := by decide
        have hr0 := round_int hr (n := 0) (by norm_num)
        simp only [evalSpec, inRange] at hsafe ⊢
        by_cases h : safe n = true
        · simp only [h, hs0, hz0, if_true, JExpr.eval, Out.Shows, and_true]; simpa using hr0
        · simp [h] at hsafe
      | _ => simp [Expr.isLiteral] at hl
    cases op with
    | add => exact main (.bin .add) (jsOp round .add) (fun _ _ _ => rfl) fun a b _ _ _ h _ => jsOp_safe hr .add a b h (by simp) (by simp)
    | sub => exact main (.bin .sub) (jsOp round .sub) (fun _ _ _ => rfl) fun a b _ _ _ h _ => jsOp_safe hr .sub a b h (by simp) (by simp)
    | mul => exact main (.bin .mul) (jsOp round .mul) (fun _ _ _ => rfl) fun a b _ _ _ h _ => jsOp_safe hr .mul a b h (by simp) (by simp)
    | div =>
      simp only [js, divInt]
      by_cases hz : (l.isLiteral && r.isZeroNumber) = true
      · simp only [hz, if_true]; exact zero (.inl rfl) hz
      · simp only [hz, if_false]
        by_cases hnz : r.isNonZeroNumber = true
        · simp only [hnz, if_true]
          obtain ⟨n, hn, rfl⟩ := isNonZero_lit hnz
          refine main (fun l r => .trunc (.bin .div l r)) (fun a b => trunc (jsOp round .div a b)) ?_ ?_
          · intro l r s
            simp only [JExpr.eval]
            generalize l.eval round w ρ s = q
            obtain ⟨q, s1⟩ := q
            cases q with
            | none => rfl
            | some a =>
              simp only
              generalize r.eval round w ρ s1 = q
              obtain ⟨q, s2⟩ := q
              cases q <;> rfl
          · intro a b s1 ha hb h ⟨s2, hv⟩
            simp only [evalSpec, inRange] at hv
            split at hv
            · simp only [Prod.mk.injEq, Out.value.injEq] at hv
              obtain ⟨rfl, _⟩ := hv
              simp only [jsOp, gleamOp, hn, if_false]
              exact trunc_round_div hr a n ((safe_iff a).mp ha) ((safe_iff n).mp hb) hn
            · simp at hv
        · simp only [hnz, if_false]
          exact main .divideInt (divideInt round) (fun _ _ _ => rfl) fun a b _ ha hb _ _ => divideInt_safe hr a b ha hb
    | rem =>
      simp only [js, remInt]
      by_cases hz : (l.isLiteral && r.isZeroNumber) = true
      · simp only [hz, if_true]; exact zero (.inr rfl) hz
      · simp only [hz, if_false]
        by_cases hnz : r.isNonZeroNumber = true
        · simp only [hnz, if_true]
          obtain ⟨n, hn, rfl⟩ := isNonZero_lit hnz
          refine main (.bin .rem) (jsOp round .rem) (fun _ _ _ => rfl) ?_
          intro a b s1 ha hb h ⟨s2, hv⟩
          simp only [evalSpec, inRange] at hv
          split at hv
          · simp only [Prod.mk.injEq, Out.value.injEq] at hv
            obtain ⟨rfl, _⟩ := hv
            exact jsOp_safe hr .rem a n h (by simp) (fun _ => hn)
          · simp at hv
        · simp only [hnz, if_false]
          exact main .remainderInt (remainderInt round) (fun _ _ _ => rfl) fun a b _ _ _ h _ => remainderInt_safe hr a b h

/-- The example world: a function `f` that counts its calls and returns its argument, and `g` that returns zero. -/
def exampleWorld : World (List String) where
  call f v s := (some (if f = "g" then 0 else v), s ++ [f])
  field _ v := v

/-- The hypotheses of `javascript_arithmetic` can be met: rounding functions exist, and this expression stays in range. -/
example : (∃ round, RoundsToNearest round) ∧
    (evalSpec safe exampleWorld (fun _ => 7) (.bin .div (.neg (.var "x")) (.call "f" false (.lit 2))) []) = (.value (-3), ["f"]) :=
  ⟨exists_round, by decide⟩

/-! ### Erlang -/

/-- **C38 (Erlang, partial).** The code generated for Erlang does what the expression means, for integers of any size: same
result or crash, same effects in the same order. What is missing: the dividend of a division must not be an operator or field
access that calls an impure function, see `erlang_arithmetic_wrong`. -/
theorem erlang_arithmetic_partial (w : World σ) (ρ : String → Int) (e : Expr) (s : σ) (hh : HonestCalls w e) (hd : DividendsPure e) :
    (Out.ofErlang (runErlang w ρ e s).1, (runErlang w ρ e s).2) = evalSpec unlimited w ρ e s := by
  have h := (erl_computes (w := w) (ρ := ρ) e hh hd 0).2
  unfold runErlang ESeq.eval
  rcases spec_cases w ρ e s with ⟨v, s1, hs1⟩ | ⟨s1, hs1⟩
  · obtain ⟨env, he, _⟩ := h.value (env := fun _ => none) (fun _ _ => rfl) hs1
    rw [he, hs1]; rfl
  · have he := h.crash (env := fun _ => none) (fun _ _ => rfl) hs1
    rw [he, hs1]; rfl

/-- The hypotheses can be met by an expression with effects on both sides of a division. -/
example : HonestCalls exampleWorld (.bin .rem (.call "f" false (.var "x")) (.bin .add (.call "g" false (.lit 1)) (.lit 2))) ∧
    DividendsPure (.bin .rem (.call "f" false (.var "x")) (.bin .add (.call "g" false (.lit 1)) (.lit 2))) := by
  simp only [HonestCalls, DividendsPure]
  refine ⟨by simp, trivial, ⟨trivial, trivial, by simp⟩, fun _ h => by cases h⟩

/-- The compiler takes every operator for pure. So in `{ f(1) + 1 } / g(1)` the Erlang code calls `g` first, and `f` not at all
when `g` returns zero; and in `{ f(1) + 1 } / 0` it never calls `f`. The same holds for field access: `f(1).x / 0`. -/
theorem erlang_arithmetic_wrong :
    runErlang exampleWorld (fun _ => 0) (.bin .div (.block (.bin .add (.call "f" false (.lit 1)) (.lit 1))) (.call "g" false (.lit 1))) [] = (some 0, ["g"]) ∧
    evalSpec unlimited exampleWorld (fun _ => 0) (.bin .div (.block (.bin .add (.call "f" false (.lit 1)) (.lit 1))) (.call "g" false (.lit 1))) [] =
      (.value 0, ["f", "g"]) ∧
    runErlang exampleWorld (fun _ => 0) (.bin .div (.block (.bin .add (.call "f" false (.lit 1)) (.lit 1))) (.lit 0)) [] = (some 0, []) ∧
    evalSpec unlimited exampleWorld (fun _ => 0) (.bin .div (.block (.bin .add (.call "f" false (.lit 1)) (.lit 1))) (.lit 0)) [] = (.value 0, ["f"]) ∧
    runErlang exampleWorld (fun _ => 0) (.bin .div (.field 0 (.call "f" false (.lit 1))) (.lit 0)) [] = (some 0, []) := by
  refine ⟨?_, ?_, ?_, ?_, ?_⟩ <;> decide

/-- **C38.** Where both theorems apply, the two targets agree. -/
theorem targets_agree_partial {round : ℚ → ℚ} (hr : RoundsToNearest round) (w : World σ) (ρ : String → Int) (e : Expr) (s : σ)
    (hh : HonestCalls w e) (hd : DividendsPure e) (hsafe : (evalSpec safe w ρ e s).1 ≠ .outOfRange) :
    (runJs round w ρ e s).1 = (runErlang w ρ e s).1.map (fun n : Int => (n : ℚ)) ∧ (runJs round w ρ e s).2 = (runErlang w ρ e s).2 := by
  have key : ∀ (e : Expr) (s : σ), (evalSpec safe w ρ e s).1 ≠ .outOfRange → evalSpec safe w ρ e s = evalSpec unlimited w ρ e s := by
    intro e
    induction e with
    | lit n => intro s h; simp only [evalSpec, inRange, unlimited] at h ⊢; split at h <;> simp_all
    | var n => intro s h; simp only [evalSpec, inRange, unlimited] at h ⊢; split at h <;> simp_all
    | call f p a ih =>
      intro s h
      have ih := ih s
      simp only [evalSpec] at h ⊢
      cases hx : evalSpec safe w ρ a s with
      | mk o s1 =>
        rw [hx] at h ih
        cases o with
        | value v =>
          rw [← ih (by simp)]
          simp only at h ⊢
          generalize w.call f v s1 = c at h ⊢
          obtain ⟨c, s2⟩ := c
          cases c with
          | none => rfl
          | some x => simp only [inRange, unlimited] at h ⊢; split at h <;> simp_all
        | crash => rw [← ih (by simp)]
        | outOfRange => simp at h
    | field i a ih =>
      intro s h
      have ih := ih s
      simp only [evalSpec] at h ⊢
      cases hx : evalSpec safe w ρ a s with
      | mk o s1 =>
        rw [hx] at h ih
        cases o with
        | value v =>
          rw [← ih (by simp)]
          simp only [inRange, unlimited] at h ⊢; split at h <;> simp_all
        | crash => rw [← ih (by simp)]
        | outOfRange => simp at h
    | neg a ih =>
      intro s h
      have ih := ih s
      simp only [evalSpec] at h ⊢
      cases hx : evalSpec safe w ρ a s with
      | mk o s1 =>
        rw [hx] at h ih
        cases o with
        | value v =>
          rw [← ih (by simp)]
          simp only [inRange, unlimited] at h ⊢; split at h <;> simp_all
        | crash => rw [← ih (by simp)]
        | outOfRange => simp at h
    | block a ih => intro s h; exact ih s h
    | bin op l r ihl ihr =>
      intro s h
      have ihl := ihl s
      simp only [evalSpec] at h ⊢
      cases hx : evalSpec safe w ρ l s with
      | mk o s1 =>
        rw [hx] at h ihl
        cases o with
        | value v =>
          rw [← ihl (by simp)]
          simp only at h ⊢
          have ihr := ihr s1
          cases hy : evalSpec safe w ρ r s1 with
          | mk o s2 =>
            rw [hy] at h ihr
            cases o with
            | value u =>
              rw [← ihr (by simp)]
              simp only [inRange, unlimited] at h ⊢; split at h <;> simp_all
            | crash => rw [← ihr (by simp)]
            | outOfRange => simp at h
        | crash => rw [← ihl (by simp)]
        | outOfRange => simp at h
  have h1 := javascript_arithmetic hr w ρ e s hsafe
  have h2 := erlang_arithmetic_partial w ρ e s hh hd
  rw [key e s hsafe, ← h2] at h1
  obtain ⟨h1, h3⟩ := h1
  refine ⟨?_, h3⟩
  simp only at h1
  generalize (runJs round w ρ e s).1 = q at h1 ⊢
  generalize (runErlang w ρ e s).1 = o at h1 ⊢
  cases q <;> cases o <;> simp_all [Out.Shows, Out.ofErlang]

/-! ### Guards -/

theorem gexpr_erlang (ρ : String → Int) (g : GExpr) (h : g.NoZeroDivisor ρ) : g.evalErlang ρ = g.spec unlimited ρ := by
  induction g with
  | lit n => simp [GExpr.evalErlang, GExpr.spec, unlimited]
  | var x => simp [GExpr.evalErlang, GExpr.spec, unlimited]
  | bin op l r ihl ihr =>
    obtain ⟨hl, hr, hz⟩ := h
    simp only [GExpr.evalErlang, GExpr.spec, ihl hl, ihr hr]
    cases hlv : l.spec unlimited ρ with
    | none => rfl
    | some a =>
      cases hrv : r.spec unlimited ρ with
      | none => rfl
      | some b =>
        simp only [unlimited, if_true]
        apply erlangOp_eq
        by_cases hop : op = .div ∨ op = .rem
        · left
          have := hz hop
          rw [hrv] at this
          simpa using this
        · right
          exact ⟨fun h => hop (.inl h), fun h => hop (.inr h)⟩

theorem gexpr_total (ρ : String → Int) (g : GExpr) : ∃ v, g.spec unlimited ρ = some v := by
  induction g with
  | lit n => exact ⟨n, by simp [GExpr.spec, unlimited]⟩
  | var x => exact ⟨ρ x, by simp [GExpr.spec, unlimited]⟩
  | bin op l r ihl ihr =>
    obtain ⟨a, ha⟩ := ihl
    obtain ⟨b, hb⟩ := ihr
    exact ⟨gleamOp op a b, by simp [GExpr.spec, ha, hb, unlimited]⟩

/-- **C38 (guards on Erlang, partial).** A guard on Erlang decides as it should, if nothing is divided by zero in it. -/
theorem erlang_guard_partial (ρ : String → Int) (g : Guard) (h : g.NoZeroDivisor ρ) : g.spec unlimited ρ = some (g.runErlang ρ) := by
  have key : g.evalErlang ρ = g.spec unlimited ρ ∧ ∃ b, g.spec unlimited ρ = some b := by
    induction g with
    | cmp c l r =>
      obtain ⟨a, ha⟩ := gexpr_total ρ l
      obtain ⟨b, hb⟩ := gexpr_total ρ r
      have h1 := gexpr_erlang ρ l h.1
      have h2 := gexpr_erlang ρ r h.2
      simp only [Guard.evalErlang, Guard.spec, h1, h2, ha, hb, Option.some.injEq]
      refine ⟨?_, _, rfl⟩
      cases c <;> simp [Cmp.holds, bne, BEq.beq]
    | and l r ihl ihr =>
      obtain ⟨h1, a, ha⟩ := ihl h.1
      obtain ⟨h2, b, hb⟩ := ihr h.2
      simp only [Guard.evalErlang, Guard.spec, h1, h2, ha, hb]
      refine ⟨?_, _, rfl⟩
      cases a <;> simp
    | or l r ihl ihr =>
      obtain ⟨h1, a, ha⟩ := ihl h.1
      obtain ⟨h2, b, hb⟩ := ihr h.2
      simp only [Guard.evalErlang, Guard.spec, h1, h2, ha, hb]
      refine ⟨?_, _, rfl⟩
      cases a <;> simp
    | not g ih =>
      obtain ⟨h1, a, ha⟩ := ih h
      simp only [Guard.evalErlang, Guard.spec, h1, ha, Option.map_some]
      exact ⟨trivial, _, rfl⟩
  obtain ⟨h1, b, hb⟩ := key
  rw [Guard.runErlang, h1, hb]
  cases b <;> simp

example : Guard.NoZeroDivisor (fun _ => 3) (.cmp .eq (.bin .rem (.lit 7) (.var "x")) (.lit 1)) := by
  simp [Guard.NoZeroDivisor, GExpr.NoZeroDivisor, GExpr.spec, unlimited]

theorem gexpr_js {round : ℚ → ℚ} (hr : RoundsToNearest round) (ρ : String → Int) (g : GExpr) (v : Int) (h : g.spec safe ρ = some v) :
    g.evalJs round ρ = v ∧ safe v = true := by
  induction g generalizing v with
  | lit n =>
    simp only [GExpr.spec] at h
    split at h
    · rename_i hs
      simp only [Option.some.injEq] at h
      subst h
      exact ⟨round_int hr (safe_abs hs), hs⟩
    · simp at h
  | var x =>
    simp only [GExpr.spec] at h
    split at h
    · rename_i hs
      simp only [Option.some.injEq] at h
      subst h
      exact ⟨rfl, hs⟩
    · simp at h
  | bin op l r ihl ihr =>
    simp only [GExpr.spec] at h
    cases hl : l.spec safe ρ with
    | none => simp [hl] at h
    | some a =>
      cases hrr : r.spec safe ρ with
      | none => simp [hl, hrr] at h
      | some b =>
        simp only [hl, hrr] at h
        split at h
        · rename_i hs
          simp only [Option.some.injEq] at h
          subst h
          obtain ⟨h1, h1'⟩ := ihl a hl
          obtain ⟨h2, h2'⟩ := ihr b hrr
          refine ⟨?_, hs⟩
          cases op with
          | add => simp only [GExpr.evalJs, h1, h2]; exact jsOp_safe hr .add a b hs (by simp) (by simp)
          | sub => simp only [GExpr.evalJs, h1, h2]; exact jsOp_safe hr .sub a b hs (by simp) (by simp)
          | mul => simp only [GExpr.evalJs, h1, h2]; exact jsOp_safe hr .mul a b hs (by simp) (by simp)
          | div => simp only [GExpr.evalJs, h1, h2]; exact divideInt_safe hr a b h1' h2'
          | rem => simp only [GExpr.evalJs, h1, h2]; exact remainderInt_safe hr a b hs
        · simp at h

/-- **C38 (guards on JavaScript).** A guard on JavaScript decides as it should, as long as the integers in it are safe. -/
theorem javascript_guard {round : ℚ → ℚ} (hr : RoundsToNearest round) (ρ : String → Int) (g : Guard) (b : Bool)
    (h : g.spec safe ρ = some b) : g.runJs round ρ = b := by
  induction g generalizing b with
  | cmp c l r =>
    simp only [Guard.spec] at h
    cases hl : l.spec safe ρ with
    | none => simp [hl] at h
    | some x =>
      cases hrr : r.spec safe ρ with
      | none => simp [hl, hrr] at h
      | some y =>
        simp only [hl, hrr, Option.some.injEq] at h
        subst h
        simp only [Guard.runJs, (gexpr_js hr ρ l x hl).1, (gexpr_js hr ρ r y hrr).1]
        cases c <;> simp [Cmp.holdsNumber, bne, BEq.beq]
  | and l r ihl ihr =>
    simp only [Guard.spec] at h
    cases hl : l.spec safe ρ with
    | none => simp [hl] at h
    | some x =>
      cases hrr : r.spec safe ρ with
      | none => simp [hl, hrr] at h
      | some y =>
        simp only [hl, hrr, Option.some.injEq] at h
        simp [Guard.runJs, ihl x hl, ihr y hrr, h]
  | or l r ihl ihr =>
    simp only [Guard.spec] at h
    cases hl : l.spec safe ρ with
    | none => simp [hl] at h
    | some x =>
      cases hrr : r.spec safe ρ with
      | none => simp [hl, hrr] at h
      | some y =>
        simp only [hl, hrr, Option.some.injEq] at h
        simp [Guard.runJs, ihl x hl, ihr y hrr, h]
  | not g ih =>
    simp only [Guard.spec] at h
    cases hl : g.spec safe ρ with
    | none => simp [hl] at h
    | some x =>
      simp only [hl, Option.map_some, Option.some.injEq] at h
      simp [Guard.runJs, ih x hl, h]

example : Guard.spec safe (fun _ => 0) (.cmp .eq (.bin .div (.lit 7) (.var "x")) (.lit 0)) = some true := by
  simp [Guard.spec, GExpr.spec, safe, gleamOp]

/-- In guards the Erlang code divides with Erlang's own operators: `n if 1 / n == 0` does not match zero on Erlang, though it
should, and does on JavaScript. -/
theorem erlang_guard_wrong :
    Guard.runErlang (fun _ => 0) (.cmp .eq (.bin .div (.lit 1) (.var "n")) (.lit 0)) = false ∧
    Guard.spec unlimited (fun _ => 0) (.cmp .eq (.bin .div (.lit 1) (.var "n")) (.lit 0)) = some true := by
  refine ⟨by decide, by simp [Guard.spec, GExpr.spec, unlimited, gleamOp]⟩

/-! ### Equality and inequality -/

theorem numericallyEqual_iff (a b : Term) (ha : a.Normal) (hb : b.Normal) (hab : NumbersAlike a b) :
    a.numericallyEqual b = true ↔ a = b := by
  induction a generalizing b with
  | cons h t ih1 ih2 =>
    cases b with
    | cons h' t' =>
      simp only [Term.numericallyEqual, Bool.and_eq_true, Term.cons.injEq]
      rw [ih1 h' ha.1 hb.1 hab.1, ih2 t' ha.2 hb.2 hab.2]
    | _ => simp [Term.numericallyEqual, Term.number]
  | tuple e ih =>
    cases b with
    | tuple e' =>
      simp only [Term.numericallyEqual, Term.tuple.injEq]
      exact ih e' ha hb hab
    | _ => simp [Term.numericallyEqual, Term.number]
  | nil => cases b <;> simp [Term.numericallyEqual, Term.number]
  | bin x => cases b <;> simp [Term.numericallyEqual, Term.number]
  | int n =>
    cases b with
    | flt s m => exact absurd hab (by simp [NumbersAlike])
    | _ => simp [Term.numericallyEqual, Term.number]
  | flt s m =>
    cases b with
    | int n => exact absurd hab (by simp [NumbersAlike])
    | flt s' m' =>
      obtain ⟨h1, h2⟩ := ha
      obtain ⟨h3, h4⟩ := hb
      simp only [Term.numericallyEqual, Term.number, beq_iff_eq, Term.flt.injEq]
      constructor
      · intro h
        cases s <;> cases s' <;> simp_all
        · have : m = 0 := by linarith
          have : m' = 0 := by linarith
          simp_all
        · have : m = 0 := by linarith
          simp_all
      · rintro ⟨rfl, rfl⟩; rfl
    | _ => simp [Term.numericallyEqual, Term.number]

/-- **C54 (partial).** On Erlang `a != b` is the negation of `a == b`, for values of one type in which no float is `-0.0`. -/
theorem erlang_not_equal_partial (a b : Term) (ha : a.Normal) (hb : b.Normal) (hab : NumbersAlike a b) :
    erlangNotEq a b = !erlangEq a b := by
  unfold erlangNotEq erlangEq Term.exactlyEqual
  by_cases h : a = b
  · rw [(numericallyEqual_iff a b ha hb hab).mpr h]; simp [h]
  · have : a.numericallyEqual b = false := by
      rw [Bool.eq_false_iff]; exact fun hc => h ((numericallyEqual_iff a b ha hb hab).mp hc)
    simp [this, h]

example : (Term.cons (.flt true 2) .nil).Normal ∧ NumbersAlike (.cons (.flt true 2) .nil) (.cons (.flt false 2) .nil) := by
  simp [Term.Normal, NumbersAlike]

/-- **C54 (guards).** In guards `!=` is always the negation of `==`. -/
theorem erlang_guard_not_equal (a b : Term) : erlangGuardNotEq a b = !erlangEq a b := rfl

/-- `0.0 == -0.0` and `0.0 != -0.0` are both `False` on Erlang (OTP 27). -/
theorem erlang_not_equal_wrong : erlangEq (.flt false 0) (.flt true 0) = false ∧ erlangNotEq (.flt false 0) (.flt true 0) = false := by
  constructor
  · simp [erlangEq, Term.exactlyEqual]
  · simp [erlangNotEq, Term.numericallyEqual, Term.number]

end Verif.Numbers
