import Verif.Numbers.Spec
import Mathlib.Tactic.Linarith

/-
Lemmas about the Erlang code. The property theorems are in `Props.lean`.
-/
namespace Verif.Numbers
variable {σ : Type} {w : World σ} {ρ : String → Int}

theorem erlangOp_eq (op : Op) (a b : Int) (h : b ≠ 0 ∨ (op ≠ .div ∧ op ≠ .rem)) : erlangOp op a b = some (gleamOp op a b) := by
  cases op with
  | add => rfl
  | sub => rfl
  | mul => rfl
  | div =>
    have hb : b ≠ 0 := by simpa using h
    simp only [erlangOp, gleamOp, hb, if_false, Option.some.injEq]
    rcases lt_trichotomy a 0 with ha | ha | ha <;> rcases lt_or_gt_of_ne hb with hb' | hb'
    all_goals
      try subst ha
      try simp
    · obtain ⟨m, rfl⟩ : ∃ m : Nat, a = -m := ⟨a.natAbs, by omega⟩
      obtain ⟨n, rfl⟩ : ∃ n : Nat, b = -n := ⟨b.natAbs, by omega⟩
      rw [Int.sign_eq_neg_one_of_neg ha, Int.sign_eq_neg_one_of_neg hb']
      simp [Int.neg_tdiv, Int.tdiv_neg, Int.ofNat_tdiv]
    · obtain ⟨m, rfl⟩ : ∃ m : Nat, a = -m := ⟨a.natAbs, by omega⟩
      obtain ⟨n, rfl⟩ : ∃ n : Nat, b = n := ⟨b.natAbs, by omega⟩
      rw [Int.sign_eq_neg_one_of_neg ha, Int.sign_eq_one_of_pos hb']
      simp [Int.neg_tdiv, Int.ofNat_tdiv]
    · obtain ⟨m, rfl⟩ : ∃ m : Nat, a = m := ⟨a.natAbs, by omega⟩
      obtain ⟨n, rfl⟩ : ∃ n : Nat, b = -n := ⟨b.natAbs, by omega⟩
      rw [Int.sign_eq_one_of_pos ha, Int.sign_eq_neg_one_of_neg hb']
      simp [Int.tdiv_neg, Int.ofNat_tdiv]
    · obtain ⟨m, rfl⟩ : ∃ m : Nat, a = m := ⟨a.natAbs, by omega⟩
      obtain ⟨n, rfl⟩ : ∃ n : Nat, b = n := ⟨b.natAbs, by omega⟩
      rw [Int.sign_eq_one_of_pos ha, Int.sign_eq_one_of_pos hb']
      simp [Int.ofNat_tdiv]
  | rem =>
    have hb : b ≠ 0 := by simpa using h
    simp only [erlangOp, gleamOp, hb, if_false, Option.some.injEq]
    have hnb : (b.natAbs : Int) = b ∨ (b.natAbs : Int) = -b := by omega
    have e1 : a.tmod b = a.tmod b.natAbs := by
      rcases hnb with h | h <;> rw [h]
      rw [Int.tmod_neg]
    rw [e1]
    rcases lt_trichotomy a 0 with ha | ha | ha
    · obtain ⟨m, rfl⟩ : ∃ m : Nat, a = -m := ⟨a.natAbs, by omega⟩
      rw [Int.sign_eq_neg_one_of_neg ha, Int.neg_tmod, Int.natAbs_neg, Int.natAbs_natCast, ← Int.ofNat_tmod]
      simp
    · subst ha; simp
    · obtain ⟨m, rfl⟩ : ∃ m : Nat, a = m := ⟨a.natAbs, by omega⟩
      rw [Int.sign_eq_one_of_pos ha, Int.natAbs_natCast, ← Int.ofNat_tmod]
      simp

/-- A pure expression has one value in all states. -/
theorem pure_value {e : Expr} (hh : HonestCalls w e) (hp : CallsPureOnly e) : ∃ v, ∀ s, evalSpec unlimited w ρ e s = (.value v, s) := by
  induction e with
  | lit n => exact ⟨n, fun s => by simp [evalSpec, inRange, unlimited]⟩
  | var x => exact ⟨ρ x, fun s => by simp [evalSpec, inRange, unlimited]⟩
  | call f p a ih =>
    obtain ⟨v, hv⟩ := ih hh.1 hp.2
    obtain ⟨g, hg⟩ := hh.2 hp.1
    exact ⟨g v, fun s => by simp [evalSpec, hv, hg, inRange, unlimited]⟩
  | field i e ih =>
    obtain ⟨v, hv⟩ := ih hh hp
    exact ⟨w.field i v, fun s => by simp [evalSpec, hv, inRange, unlimited]⟩
  | neg e ih =>
    obtain ⟨v, hv⟩ := ih hh hp
    exact ⟨-v, fun s => by simp [evalSpec, hv, inRange, unlimited]⟩
  | block e ih =>
    obtain ⟨v, hv⟩ := ih hh hp
    exact ⟨v, fun s => by simp [evalSpec, hv]⟩
  | bin op l r ihl ihr =>
    obtain ⟨a, ha⟩ := ihl hh.1 hp.1
    obtain ⟨b, hb⟩ := ihr hh.2 hp.2
    exact ⟨gleamOp op a b, fun s => by simp [evalSpec, ha, hb, inRange, unlimited]⟩

/-- With no limit on integers there is always an outcome. -/
theorem spec_ne_outOfRange (e : Expr) (s : σ) : (evalSpec unlimited w ρ e s).1 ≠ .outOfRange := by
  induction e generalizing s with
  | lit n => simp [evalSpec, inRange, unlimited]
  | var x => simp [evalSpec, inRange, unlimited]
  | call f p a ih =>
    have := ih s
    simp only [evalSpec]
    generalize evalSpec unlimited w ρ a s = o at this ⊢
    obtain ⟨o, s'⟩ := o
    cases o <;> simp_all
    generalize w.call f _ s' = c
    obtain ⟨c, s''⟩ := c
    cases c <;> simp [inRange, unlimited]
  | field i a ih =>
    have := ih s
    simp only [evalSpec]
    generalize evalSpec unlimited w ρ a s = o at this ⊢
    obtain ⟨o, s'⟩ := o
    cases o <;> simp_all [inRange, unlimited]
  | neg a ih =>
    have := ih s
    simp only [evalSpec]
    generalize evalSpec unlimited w ρ a s = o at this ⊢
    obtain ⟨o, s'⟩ := o
    cases o <;> simp_all [inRange, unlimited]
  | block a ih => exact ih s
  | bin op l r ihl ihr =>
    have := ihl s
    simp only [evalSpec]
    generalize evalSpec unlimited w ρ l s = o at this ⊢
    obtain ⟨o, s'⟩ := o
    cases o <;> simp_all
    have := ihr s'
    generalize evalSpec unlimited w ρ r s' = o at this ⊢
    obtain ⟨o, s'⟩ := o
    cases o <;> simp_all [inRange, unlimited]

/-- Variables from `n` on are not bound. -/
def FreshFrom (env : Env) (n : Nat) : Prop := ∀ k, n ≤ k → env k = none

/-- The variables below `n` have kept their values. -/
def Keeps (env env' : Env) (n : Nat) : Prop := ∀ k, k < n → env' k = env k

theorem Keeps.refl (env : Env) (n : Nat) : Keeps env env n := fun _ _ => rfl

theorem Keeps.trans {a b c : Env} {m n : Nat} (h1 : Keeps a b m) (h2 : Keeps b c n) (hmn : m ≤ n) : Keeps a c m :=
  fun k hk => (h2 k (by omega)).trans (h1 k hk)

theorem FreshFrom.mono {env : Env} {m n : Nat} (h : FreshFrom env m) (hmn : m ≤ n) : FreshFrom env n := fun k hk => h k (by omega)

/-- What it means for Erlang code that uses the variables from `n` to `n'` to compute an expression. -/
def Computes (w : World σ) (ρ : String → Int) (code : EExpr) (e : Expr) (n n' : Nat) : Prop :=
  n ≤ n' ∧ ∀ env s, FreshFrom env n →
    match evalSpec unlimited w ρ e s with
    | (.value v, s') => ∃ env', code.eval w ρ env s = (some (v, env'), s') ∧ FreshFrom env' n' ∧ Keeps env env' n
    | (_, s') => code.eval w ρ env s = (none, s')

theorem Computes.value {code : EExpr} {e : Expr} {n n' : Nat} (h : Computes w ρ code e n n') {env : Env} {s s' : σ} {v : Int}
    (hf : FreshFrom env n) (he : evalSpec unlimited w ρ e s = (.value v, s')) :
    ∃ env', code.eval w ρ env s = (some (v, env'), s') ∧ FreshFrom env' n' ∧ Keeps env env' n := by
  have := h.2 env s hf
  rw [he] at this
  exact this

theorem Computes.crash {code : EExpr} {e : Expr} {n n' : Nat} (h : Computes w ρ code e n n') {env : Env} {s s' : σ}
    (hf : FreshFrom env n) (he : evalSpec unlimited w ρ e s = (.crash, s')) : code.eval w ρ env s = (none, s') := by
  have := h.2 env s hf
  rw [he] at this
  exact this

/-- Either an expression has a value, or it crashes. -/
theorem spec_cases (w : World σ) (ρ : String → Int) (e : Expr) (s : σ) :
    (∃ v s', evalSpec unlimited w ρ e s = (.value v, s')) ∨ ∃ s', evalSpec unlimited w ρ e s = (.crash, s') := by
  have := spec_ne_outOfRange (w := w) (ρ := ρ) e s
  generalize evalSpec unlimited w ρ e s = o at this ⊢
  obtain ⟨o, s'⟩ := o
  cases o <;> simp_all

theorem Computes.intro {code : EExpr} {e : Expr} {n n' : Nat} (hn : n ≤ n')
    (h : ∀ env s, FreshFrom env n →
      (∀ v s', evalSpec unlimited w ρ e s = (.value v, s') → ∃ env', code.eval w ρ env s = (some (v, env'), s') ∧ FreshFrom env' n' ∧ Keeps env env' n) ∧
      (∀ s', evalSpec unlimited w ρ e s = (.crash, s') → code.eval w ρ env s = (none, s'))) : Computes w ρ code e n n' := by
  refine ⟨hn, fun env s hf => ?_⟩
  rcases spec_cases w ρ e s with ⟨v, s', he⟩ | ⟨s', he⟩
  · rw [he]; exact (h env s hf).1 v s' he
  · rw [he]; exact (h env s hf).2 s' he

/-- Both operands of a strict operator. -/
theorem computes_bin {op : Op} {l r : Expr} {cl cr : EExpr} {n n1 n2 : Nat} (hl : Computes w ρ cl l n n1) (hr : Computes w ρ cr r n1 n2)
    (h : (op ≠ .div ∧ op ≠ .rem) ∨ ∃ b, b ≠ 0 ∧ ∀ s, evalSpec unlimited w ρ r s = (.value b, s)) :
    Computes w ρ (.bin op cl cr) (.bin op l r) n n2 := by
  have := hl.1
  have := hr.1
  apply Computes.intro (by omega)
  intro env s hf
  rcases spec_cases w ρ l s with ⟨a, s1, hs1⟩ | ⟨s1, hs1⟩
  · obtain ⟨env1, he1, hf1, hk1⟩ := hl.value hf hs1
    rcases spec_cases w ρ r s1 with ⟨b, s2, hs2⟩ | ⟨s2, hs2⟩
    · obtain ⟨env2, he2, hf2, hk2⟩ := hr.value hf1 hs2
      have hop : erlangOp op a b = some (gleamOp op a b) := by
        apply erlangOp_eq
        rcases h with h | ⟨b', hb', hs⟩
        · exact .inr h
        · rw [hs] at hs2
          simp only [Prod.mk.injEq, Out.value.injEq] at hs2
          exact .inl (hs2.1 ▸ hb')
      constructor
      · intro v s' he
        simp only [evalSpec, hs1, hs2, inRange, unlimited, if_true, Prod.mk.injEq, Out.value.injEq] at he
        obtain ⟨rfl, rfl⟩ := he
        exact ⟨env2, by simp [EExpr.eval, he1, he2, hop], hf2, hk1.trans hk2 (by omega)⟩
      · intro s' he
        simp [evalSpec, hs1, hs2, inRange, unlimited] at he
    · have he2 := hr.crash hf1 hs2
      constructor
      · intro v s' he
        simp [evalSpec, hs1, hs2] at he
      · intro s' he
        simp only [evalSpec, hs1, hs2, Prod.mk.injEq, true_and] at he
        subst he
        simp [EExpr.eval, he1, he2]
  · have he1 := hl.crash hf hs1
    constructor
    · intro v s' he
      simp [evalSpec, hs1] at he
    · intro s' he
      simp only [evalSpec, hs1, Prod.mk.injEq, true_and] at he
      subst he
      simp [EExpr.eval, he1]

theorem env_match_fresh {env : Env} {k : Nat} {v : Int} (h : env k = none) : env.match k v = some (env.set k v) := by
  simp [Env.match, h]

theorem fresh_set {env : Env} {n k : Nat} {v : Int} (h : FreshFrom env n) (hk : k < n) : FreshFrom (env.set k v) n := by
  intro j hj
  simp only [Env.set]
  rw [if_neg (by omega)]
  exact h j hj

theorem keeps_set {env : Env} {n k : Nat} {v : Int} (hk : n ≤ k) : Keeps env (env.set k v) n := by
  intro j hj
  simp only [Env.set]
  rw [if_neg (by omega)]

/-- The code of division when the dividend is pure. -/
theorem computes_match_pure {op : Op} (hop : op = .div ∨ op = .rem) {l r : Expr} {cl cr : EExpr} {n n1 n2 : Nat}
    (hr : Computes w ρ cr r n n1) (hl : Computes w ρ cl l (n1 + 1) n2) (a : Int) (ha : ∀ s, evalSpec unlimited w ρ l s = (.value a, s)) :
    Computes w ρ (.caseZero cr n1 (.bin op cl (.gen n1))) (.bin op l r) n n2 := by
  have := hr.1
  have := hl.1
  apply Computes.intro (by omega)
  intro env s hf
  rcases spec_cases w ρ r s with ⟨b, s1, hs1⟩ | ⟨s1, hs1⟩
  · obtain ⟨env1, he1, hf1, hk1⟩ := hr.value hf hs1
    constructor
    · intro v s' he
      simp only [evalSpec, ha, hs1, inRange, unlimited, if_true, Prod.mk.injEq, Out.value.injEq] at he
      obtain ⟨rfl, rfl⟩ := he
      by_cases hb : b = 0
      · refine ⟨env1, ?_, hf1.mono (by omega), hk1⟩
        rcases hop with rfl | rfl <;> simp [EExpr.eval, he1, hb, gleamOp]
      · have hf2 : FreshFrom (env1.set n1 b) (n1 + 1) := fresh_set (hf1.mono (by omega)) (by omega)
        obtain ⟨env3, he3, hf3, hk3⟩ := hl.value hf2 (ha s1)
        have hg : env3 n1 = some b := by
          rw [hk3 n1 (by omega)]; simp [Env.set]
        refine ⟨env3, ?_, hf3, (hk1.trans (keeps_set (k := n1) (v := b) (Nat.le_refl _)) (by omega)).trans hk3 (by omega)⟩
        simp [EExpr.eval, he1, hb, env_match_fresh (hf1 n1 (Nat.le_refl _)), he3, hg, erlangOp_eq op a b (.inl hb)]
    · intro s' he
      simp [evalSpec, ha, hs1, inRange, unlimited] at he
  · have he1 := hr.crash hf hs1
    constructor
    · intro v s' he
      simp [evalSpec, ha, hs1] at he
    · intro s' he
      simp only [evalSpec, ha, hs1, Prod.mk.injEq, true_and] at he
      subst he
      simp [EExpr.eval, he1]

/-- The code of division in general. -/
theorem computes_match {op : Op} (hop : op = .div ∨ op = .rem) {l r : Expr} {cl cr : EExpr} {n n1 n2 : Nat}
    (hl : Computes w ρ cl l (n + 1) n1) (hr : Computes w ρ cr r n1 n2) :
    Computes w ρ (.seq (.assign n cl) (.caseZero cr n2 (.bin op (.gen n) (.gen n2)))) (.bin op l r) n (n2 + 1) := by
  have := hr.1
  have := hl.1
  apply Computes.intro (by omega)
  intro env s hf
  rcases spec_cases w ρ l s with ⟨a, s1, hs1⟩ | ⟨s1, hs1⟩
  · obtain ⟨env1, he1, hf1, hk1⟩ := hl.value (hf.mono (by omega)) hs1
    have hm1 : env1.match n a = some (env1.set n a) := env_match_fresh (by rw [hk1 n (by omega)]; exact hf n (Nat.le_refl _))
    have hf1' : FreshFrom (env1.set n a) n1 := fresh_set hf1 (by omega)
    have hk1' : Keeps env (env1.set n a) n := fun k hk => by
      rw [keeps_set (env := env1) (v := a) (Nat.le_refl n) k hk]; exact hk1 k (by omega)
    rcases spec_cases w ρ r s1 with ⟨b, s2, hs2⟩ | ⟨s2, hs2⟩
    · obtain ⟨env2, he2, hf2, hk2⟩ := hr.value hf1' hs2
      have hg2 : env2 n = some a := by rw [hk2 n (by omega)]; simp [Env.set]
      constructor
      · intro v s' he
        simp only [evalSpec, hs1, hs2, inRange, unlimited, if_true, Prod.mk.injEq, Out.value.injEq] at he
        obtain ⟨rfl, rfl⟩ := he
        by_cases hb : b = 0
        · refine ⟨env2, ?_, hf2.mono (by omega), hk1'.trans hk2 (by omega)⟩
          rcases hop with rfl | rfl <;> simp [EExpr.eval, he1, hm1, he2, hb, gleamOp]
        · refine ⟨env2.set n2 b, ?_, fresh_set (hf2.mono (by omega)) (by omega), (hk1'.trans hk2 (by omega)).trans (keeps_set (n := n2) (Nat.le_refl _)) (by omega)⟩
          have hne : n ≠ n2 := by omega
          simp [EExpr.eval, he1, hm1, he2, hb, env_match_fresh (hf2 n2 (Nat.le_refl _)), Env.set, hne, hg2, erlangOp_eq op a b (.inl hb)]
      · intro s' he
        simp [evalSpec, hs1, hs2, inRange, unlimited] at he
    · have he2 := hr.crash hf1' hs2
      constructor
      · intro v s' he
        simp [evalSpec, hs1, hs2] at he
      · intro s' he
        simp only [evalSpec, hs1, hs2, Prod.mk.injEq, true_and] at he
        subst he
        simp [EExpr.eval, he1, hm1, he2]
  · have he1 := hl.crash (hf.mono (by omega)) hs1
    constructor
    · intro v s' he
      simp [evalSpec, hs1] at he
    · intro s' he
      simp only [evalSpec, hs1, Prod.mk.injEq, true_and] at he
      subst he
      simp [EExpr.eval, he1]

theorem computes_zero {op : Op} (hop : op = .div ∨ op = .rem) {l : Expr} {cl : EExpr} {n n1 : Nat} (hl : Computes w ρ cl l n n1) :
    Computes w ρ (.seq cl (.int 0)) (.bin op l (.lit 0)) n n1 := by
  apply Computes.intro hl.1
  intro env s hf
  have hz : ∀ a, gleamOp op a 0 = 0 := by rcases hop with rfl | rfl <;> simp [gleamOp]
  rcases spec_cases w ρ l s with ⟨a, s1, hs1⟩ | ⟨s1, hs1⟩
  · obtain ⟨env1, he1, hf1, hk1⟩ := hl.value hf hs1
    constructor
    · intro v s' he
      simp only [evalSpec, hs1, inRange, unlimited, if_true, Prod.mk.injEq, Out.value.injEq, hz] at he
      obtain ⟨rfl, rfl⟩ := he
      exact ⟨env1, by simp [EExpr.eval, he1], hf1, hk1⟩
    · intro s' he
      simp [evalSpec, hs1, inRange, unlimited] at he
  · have he1 := hl.crash hf hs1
    constructor
    · intro v s' he
      simp [evalSpec, hs1] at he
    · intro s' he
      simp only [evalSpec, hs1, Prod.mk.injEq, true_and] at he
      subst he
      simp [EExpr.eval, he1]

theorem isZero_lit {e : Expr} (h : e.isZeroNumber = true) : e = .lit 0 := by
  cases e <;> simp_all [Expr.isZeroNumber]

theorem isNonZero_lit {e : Expr} (h : e.isNonZeroNumber = true) : ∃ n, n ≠ 0 ∧ e = .lit n := by
  cases e <;> simp_all [Expr.isNonZeroNumber]

/-- What the compiler takes for pure is pure, unless there is an operator or field access at the head. -/
theorem pure_or_operator {e : Expr} (h : e.isPureValueConstructor = true) : OperatorAtHead e ∨ CallsPureOnly e := by
  induction e with
  | lit n => exact .inr trivial
  | var x => exact .inr trivial
  | call f p a ih =>
    simp only [Expr.isPureValueConstructor, Bool.and_eq_true] at h
    obtain ⟨rfl, h⟩ := h
    exact (ih h).imp (.call f) fun h => ⟨rfl, h⟩
  | field i a ih => exact .inl (.field i a)
  | neg a ih => exact (ih h).imp .neg id
  | block a ih => exact (ih h).imp .block id
  | bin op l r => exact .inl (.bin op l r)

/-- The code made for a division. -/
theorem computes_division {op : Op} (hop : op = .div ∨ op = .rem) {l r : Expr} (k : Nat)
    (hhl : HonestCalls w l) (hop' : OperatorAtHead l → CallsPureOnly l)
    (ihl : ∀ k, Computes w ρ (maybeBlock l (erl l k).1) l k (erl l k).2)
    (ihr : ∀ k, Computes w ρ (maybeBlock r (erl r k).1) r k (erl r k).2) :
    Computes w ρ (intDivision op l r (erl l) (erl r) k).1.block (.bin op l r) k (intDivision op l r (erl l) (erl r) k).2 := by
  have hpl : l.isPureValueConstructor = true → CallsPureOnly l := fun h => (pure_or_operator h).elim hop' id
  unfold intDivision howToDivide
  by_cases hnz : r.isNonZeroNumber = true
  · simp only [hnz, if_true]
    obtain ⟨b, hb, rfl⟩ := isNonZero_lit hnz
    exact computes_bin (ihl k) (ihr _) (.inr ⟨b, hb, fun s => by simp [evalSpec, inRange, unlimited]⟩)
  · simp only [hnz, if_false]
    by_cases hp : l.isPureValueConstructor = true
    · simp only [hp, if_true]
      obtain ⟨a, ha⟩ := pure_value (ρ := ρ) hhl (hpl hp)
      by_cases hz : r.isZeroNumber = true
      · simp only [hz, if_true, ESeq.block]
        have := isZero_lit hz
        subst this
        have hzero : gleamOp op a 0 = 0 := by rcases hop with rfl | rfl <;> simp [gleamOp]
        apply Computes.intro (Nat.le_refl _)
        intro env s hf
        constructor
        · intro v s' he
          simp only [evalSpec, ha, inRange, unlimited, if_true, hzero, Prod.mk.injEq, Out.value.injEq] at he
          obtain ⟨rfl, rfl⟩ := he
          exact ⟨env, rfl, hf, Keeps.refl _ _⟩
        · intro s' he
          simp [evalSpec, ha, inRange, unlimited] at he
      · simp only [hz, if_false]
        exact computes_match_pure hop (ihr k) (ihl _) a ha
    · simp only [hp, if_false]
      by_cases hz : r.isZeroNumber = true
      · simp only [hz, if_true]
        have := isZero_lit hz
        subst this
        exact computes_zero hop (ihl k)
      · simp only [hz, if_false]
        exact computes_match hop (ihl _) (ihr _)

theorem division_operand {op : Op} (hop : op = .div ∨ op = .rem) {l r : Expr} (k : Nat) :
    maybeBlock (.bin op l r) (intDivision op l r (erl l) (erl r) k).1 = (intDivision op l r (erl l) (erl r) k).1.block := by
  have hb : needsBlock (.bin op l r) = match howToDivide l r with
    | .matchOnRight false | .evaluateLeftAndReturnZero => true
    | _ => false := by rcases hop with rfl | rfl <;> rfl
  unfold maybeBlock intDivision
  rw [hb]
  cases howToDivide l r with
  | plainErlangDivision => simp [ESeq.operand, ESeq.block]
  | replaceWithZero => simp [ESeq.operand, ESeq.block]
  | evaluateLeftAndReturnZero => simp
  | matchOnRight p => cases p <;> simp [ESeq.operand, ESeq.block]

/-- The code of an expression, used as an operand, computes the expression, and so does the code as the body of a function. -/
theorem erl_computes (e : Expr) (hh : HonestCalls w e) (hd : DividendsPure e) (k : Nat) :
    Computes w ρ (maybeBlock e (erl e k).1) e k (erl e k).2 ∧ Computes w ρ (erl e k).1.block e k (erl e k).2 := by
  have unary : ∀ (e a : Expr) (code : EExpr) (f : EExpr → EExpr) (k k' : Nat), needsBlock e = false → Computes w ρ (f code) e k k' →
      Computes w ρ (maybeBlock e (.one (f code))) e k k' ∧ Computes w ρ (ESeq.one (f code)).block e k k' := by
    intro e a code f k k' hn h
    exact ⟨by simpa [maybeBlock, hn, ESeq.operand] using h, h⟩
  induction e generalizing k with
  | lit n =>
    refine unary _ (.lit n) (.int n) id k k rfl ?_
    apply Computes.intro (Nat.le_refl _)
    intro env s hf
    simp only [evalSpec, inRange, unlimited, if_true, Prod.mk.injEq, Out.value.injEq]
    constructor
    · rintro v s' ⟨rfl, rfl⟩; exact ⟨env, rfl, hf, Keeps.refl _ _⟩
    · rintro s' ⟨h, _⟩; exact absurd h (by simp)
  | var x =>
    refine unary _ (.lit 0) (.var x) id k k rfl ?_
    apply Computes.intro (Nat.le_refl _)
    intro env s hf
    simp only [evalSpec, inRange, unlimited, if_true, Prod.mk.injEq, Out.value.injEq]
    constructor
    · rintro v s' ⟨rfl, rfl⟩; exact ⟨env, rfl, hf, Keeps.refl _ _⟩
    · rintro s' ⟨h, _⟩; exact absurd h (by simp)
  | call f p a ih =>
    have h := (ih hh.1 hd k).1
    refine unary _ a _ (.call f) k _ rfl ?_
    apply Computes.intro h.1
    intro env s hf
    rcases spec_cases w ρ a s with ⟨v, s1, hs1⟩ | ⟨s1, hs1⟩
    · obtain ⟨env1, he1, hf1, hk1⟩ := h.value hf hs1
      constructor
      · intro u s' he
        simp only [evalSpec, hs1] at he
        generalize hc : w.call f v s1 = c at he
        obtain ⟨c, s2⟩ := c
        cases c with
        | none => simp at he
        | some x =>
          simp only [inRange, unlimited, if_true, Prod.mk.injEq, Out.value.injEq] at he
          obtain ⟨rfl, rfl⟩ := he
          exact ⟨env1, by simp [EExpr.eval, he1, hc], hf1, hk1⟩
      · intro s' he
        simp only [evalSpec, hs1] at he
        generalize hc : w.call f v s1 = c at he
        obtain ⟨c, s2⟩ := c
        cases c with
        | none =>
          simp only [Prod.mk.injEq, true_and] at he
          subst he
          simp [EExpr.eval, he1, hc]
        | some x => simp [inRange, unlimited] at he
    · have he1 := h.crash hf hs1
      constructor
      · intro u s' he
        simp [evalSpec, hs1] at he
      · intro s' he
        simp only [evalSpec, hs1, Prod.mk.injEq, true_and] at he
        subst he
        simp [EExpr.eval, he1]
  | field i a ih =>
    have h := (ih hh hd k).1
    refine unary _ a _ (.element i) k _ rfl ?_
    apply Computes.intro h.1
    intro env s hf
    rcases spec_cases w ρ a s with ⟨v, s1, hs1⟩ | ⟨s1, hs1⟩
    · obtain ⟨env1, he1, hf1, hk1⟩ := h.value hf hs1
      constructor
      · intro u s' he
        simp only [evalSpec, hs1, inRange, unlimited, if_true, Prod.mk.injEq, Out.value.injEq] at he
        obtain ⟨rfl, rfl⟩ := he
        exact ⟨env1, by simp [EExpr.eval, he1], hf1, hk1⟩
      · intro s' he
        simp [evalSpec, hs1, inRange, unlimited] at he
    · have he1 := h.crash hf hs1
      constructor
      · intro u s' he
        simp [evalSpec, hs1] at he
      · intro s' he
        simp only [evalSpec, hs1, Prod.mk.injEq, true_and] at he
        subst he
        simp [EExpr.eval, he1]
  | neg a ih =>
    have h := (ih hh hd k).1
    refine unary _ a _ .neg k _ rfl ?_
    apply Computes.intro h.1
    intro env s hf
    rcases spec_cases w ρ a s with ⟨v, s1, hs1⟩ | ⟨s1, hs1⟩
    · obtain ⟨env1, he1, hf1, hk1⟩ := h.value hf hs1
      constructor
      · intro u s' he
        simp only [evalSpec, hs1, inRange, unlimited, if_true, Prod.mk.injEq, Out.value.injEq] at he
        obtain ⟨rfl, rfl⟩ := he
        exact ⟨env1, by simp [EExpr.eval, he1], hf1, hk1⟩
      · intro s' he
        simp [evalSpec, hs1, inRange, unlimited] at he
    · have he1 := h.crash hf hs1
      constructor
      · intro u s' he
        simp [evalSpec, hs1] at he
      · intro s' he
        simp only [evalSpec, hs1, Prod.mk.injEq, true_and] at he
        subst he
        simp [EExpr.eval, he1]
  | block a ih =>
    have h := (ih hh hd k).1
    exact unary (.block a) a _ id k _ rfl h
  | bin op l r ihl ihr =>
    have hl := fun k => (ihl hh.1 hd.1 k).1
    have hr := fun k => (ihr hh.2 hd.2.1 k).1
    cases op with
    | add => exact unary _ l _ (.bin .add (maybeBlock l (erl l k).1)) k _ rfl (computes_bin (hl k) (hr _) (.inl ⟨by simp, by simp⟩))
    | sub => exact unary _ l _ (.bin .sub (maybeBlock l (erl l k).1)) k _ rfl (computes_bin (hl k) (hr _) (.inl ⟨by simp, by simp⟩))
    | mul => exact unary _ l _ (.bin .mul (maybeBlock l (erl l k).1)) k _ rfl (computes_bin (hl k) (hr _) (.inl ⟨by simp, by simp⟩))
    | div =>
      have h := computes_division (op := .div) (.inl rfl) k hh.1 (hd.2.2 (.inl rfl)) hl hr
      refine ⟨?_, h⟩
      have := division_operand (op := .div) (.inl rfl) (l := l) (r := r) k
      simp only [erl]
      rw [this]; exact h
    | rem =>
      have h := computes_division (op := .rem) (.inr rfl) k hh.1 (hd.2.2 (.inr rfl)) hl hr
      refine ⟨?_, h⟩
      have := division_operand (op := .rem) (.inr rfl) (l := l) (r := r) k
      simp only [erl]
      rw [this]; exact h

end Verif.Numbers
