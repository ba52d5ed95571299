import Verif.JsGen.Grow

/-!
# What the generator declares

By induction on expressions: the names that generated code declares are new, variables in scope keep their names, and
what is not lifted leaves nothing at the level of statements.
-/

namespace Verif.JsGen

open Verif.ErlGen (Pattern Expr Stmt Clause varsAll)

variable (single : Text → Bool) (g : List (Text × Nat))

/-- As a value. -/
structure StatL (e : Expr) (σ : Scope) (r : Res) : Prop where
  grow : Grow σ (declared r.state.level) r.state.scope
  same : keeps single e = true → Same σ r.state.scope
  level : pushes e = false → r.state.level = []

/-- As a statement. -/
structure StatS (e : Expr) (σ : Scope) (r : Res) : Prop where
  grow : Grow σ (declared (r.state.level ++ r.stms)) r.state.scope
  same : leaky single e = false → Same σ r.state.scope
  level : lifts e = false → r.state.level = []

def Stat (e : Expr) : Prop :=
  ∀ Γ, okE single g Γ e = true → ∀ c σ, c.single = single →
    StatL single e σ (gen c (.exp .loose) ⟨σ, []⟩ e) ∧ ∀ last pos, StatS single e σ (gen c (.stm last pos) ⟨σ, []⟩ e)

/-- Statements, with nothing left at their level. -/
structure StatB (σ : Scope) (r : Res) : Prop where
  grow : Grow σ (declared r.stms) r.state.scope
  level : r.state.level = []

def StatStmts (ss : List Stmt) : Prop :=
  ∀ Γ, okStmts single g Γ ss = true → ∀ c last pos σ, c.single = single → StatB σ (genStmts c last pos σ ss)

def StatStmt (s : Stmt) : Prop :=
  ∀ Γ ss, okStmts single g Γ (s :: ss) = true → ∀ c last pos σ, c.single = single →
    Grow σ (declared ((genStmt c last pos ⟨σ, []⟩ s).state.level ++ (genStmt c last pos ⟨σ, []⟩ s).stms))
      (genStmt c last pos ⟨σ, []⟩ s).state.scope

/-- The clauses leave nothing at the level of statements. -/
def StatClauses (cs : List Clause) : Prop :=
  ∀ Γ, okClauses single g Γ cs = true → ∀ c last pos names σ, c.single = single →
    (genClauses c last pos names σ [] cs).2.1 = [] ∧
    (tree single cs ≠ .switch → StatB σ (genFirst c last pos names ⟨σ, []⟩ cs))

variable {single g}

theorem stat_plain {e : Expr} (h : ∀ c m σ, ∃ e', gen c m ⟨σ, []⟩ e = plain m ⟨σ, []⟩ e') : Stat single g e := by
  intro Γ _ c σ _
  refine ⟨?_, fun last pos => ?_⟩
  · obtain ⟨e', he⟩ := h c (.exp .loose) σ
    rw [he]
    exact ⟨.refl σ, fun _ => .refl σ, fun _ => rfl⟩
  · obtain ⟨e', he⟩ := h c (.stm last pos) σ
    rw [he]
    refine ⟨?_, fun _ => .refl σ, fun _ => rfl⟩
    simp only [plain, List.nil_append, declared_give]
    exact .refl σ

theorem stat_inner {e a : Expr} (ha : Stat single g a) (hp : pushes e = pushes a) (hl : lifts e = pushes a)
    (hk : ∀ Γ, okE single g Γ e = true → okE single g Γ a = true ∧ keeps single a = true)
    (h : ∀ c m σ, ∃ e', gen c m ⟨σ, []⟩ e = plain m (gen c m.inner ⟨σ, []⟩ a).state e') : Stat single g e := by
  intro Γ hok c σ hc
  obtain ⟨hoka, hka⟩ := hk Γ hok
  obtain ⟨hg, hs, hv⟩ := (ha Γ hoka c σ hc).1
  refine ⟨?_, fun last pos => ?_⟩
  · obtain ⟨e', he⟩ := h c (.exp .loose) σ
    rw [he]
    exact ⟨hg, fun _ => hs hka, fun h => hv (hp ▸ h)⟩
  · obtain ⟨e', he⟩ := h c (.stm last pos) σ
    rw [he]
    refine ⟨?_, fun _ => hs hka, fun h => hv (hl ▸ h)⟩
    simp only [plain, declared_append, declared_give, List.append_nil]
    exact hg

theorem stat_place {e : Expr} (core : Context → Bool → Pos → State → Res) (hp : pushes e = true)
    (hk : keeps single e = true → leaky single e = false)
    (hs : ∀ Γ, okE single g Γ e = true → ∀ c last pos σ, c.single = single → StatS single e σ (core c last pos ⟨σ, []⟩))
    (h : ∀ c m σ, gen c m ⟨σ, []⟩ e = place m ⟨σ, []⟩ (core c)) : Stat single g e := by
  intro Γ hok c σ hc
  refine ⟨?_, fun last pos => ?_⟩
  · rw [h]
    obtain ⟨h1, h2, h3⟩ := hs Γ hok c false (.assign (.var blockText (σ.fresh blockText))) (σ.next blockText) hc
    refine ⟨?_, fun hks => (Same.next σ (by decide)).trans (h2 (hk hks)), fun h => by rw [hp] at h; cases h⟩
    simp only [place]
    refine ((Grow.next σ blockText).trans h1).perm ?_
    simp only [declared_append, declared, List.singleton_append]
    exact List.perm_middle.symm
  · rw [h]
    exact hs Γ hok c last pos σ hc

theorem grow_loose_next {σ : Scope} {e : Expr} {r : Res} (h : StatL single e σ r) (x : Text) :
    Grow σ (declared r.state.level ++ [.var x (r.state.scope.fresh x)]) (r.state.scope.next x) := h.grow.trans (.next _ x)

theorem stat_update {x : Text} {l : Nat} {record : Expr} {tag : Text} {es : List Expr} (hr : Stat single g record) :
    Stat single g (.update (some (x, l)) record tag es) := by
  apply stat_place (fun c _ pos st =>
    let r := gen c (.exp .loose) st record
    let n := Name.var x (r.state.scope.fresh x)
    let σ := r.state.scope.next x
    ⟨.undefined, .letInit n r.exp :: pos.give (.construct tag (genArgs c σ es)), ⟨σ, r.state.level⟩, false⟩)
  · rfl
  · intro _; rfl
  · intro Γ hok c last pos σ hc
    simp only [okE, Bool.and_eq_true] at hok
    have h := (hr Γ hok.1.1.1 c σ hc).1
    refine ⟨?_, fun _ => (h.same hok.1.1.2).trans (.next _ ?_), fun hl => h.level (by simpa [lifts] using hl)⟩
    · simp only [declared_append, declared, declared_give]
      exact grow_loose_next h x
    · have := hok.1.2
      simp only [temporary, Bool.and_eq_true] at this
      exact this.1.1
  · intro c m σ
    simp only [gen]

theorem stat_pipe {x : Text} {l : Nat} {value rest : Expr} (hv : Stat single g value) (hr : Stat single g rest) :
    Stat single g (.pipe x l value rest) := by
  apply stat_place (fun c last pos st =>
    let r := gen c (.exp .loose) st value
    let n := Name.var x (r.state.scope.fresh x)
    let s := gen c (.stm last pos) ⟨r.state.scope.next x, []⟩ rest
    ⟨.undefined, r.state.level ++ .letInit n r.exp :: (s.state.level ++ s.stms), ⟨s.state.scope, []⟩, s.looped⟩)
  · rfl
  · intro h
    simpa [keeps, leaky] using h
  · intro Γ hok c last pos σ hc
    simp only [okE, Bool.and_eq_true] at hok
    have h := (hv Γ hok.1.1.1 c σ hc).1
    have h' := (hr _ hok.2 c ((gen c (.exp .loose) ⟨σ, []⟩ value).state.scope.next x) hc).2 last pos
    refine ⟨?_, fun hl => ?_, fun _ => rfl⟩
    · simp only [declared_append, declared, List.nil_append]
      have := (grow_loose_next h x).trans h'.grow
      simpa [declared_append] using this
    · refine ((h.same hok.1.1.2).trans (.next _ ?_)).trans (h'.same (by simpa [leaky] using hl))
      have := hok.1.2
      simp only [temporary, Bool.and_eq_true] at this
      exact this.1.1
  · intro c m σ
    simp only [gen]

theorem stat_fail_none {kind : ErlGen.ErrorKind} {line : Nat} : Stat single g (.fail kind line none) := by
  apply stat_place (fun _ _ _ st => ⟨.undefined, [.throw kind line (.text (defaultMessage kind))], st, false⟩)
  · rfl
  · intro _; rfl
  · intro Γ hok c last pos σ hc
    refine ⟨?_, fun _ => .refl σ, fun _ => rfl⟩
    simp only [declared, List.nil_append]
    exact .refl σ
  · intro c m σ
    simp only [gen]

theorem stat_fail_some {kind : ErlGen.ErrorKind} {line : Nat} {e : Expr} (he : Stat single g e) : Stat single g (.fail kind line (some e)) := by
  apply stat_place (fun c _ _ st =>
    let r := gen c (.exp .loose) st e
    ⟨.undefined, [.throw kind line r.exp], r.state, false⟩)
  · rfl
  · intro _; rfl
  · intro Γ hok c last pos σ hc
    simp only [okE, Bool.and_eq_true] at hok
    have h := (he Γ hok.1 c σ hc).1
    refine ⟨?_, fun _ => h.same hok.2, fun hl => h.level (by simpa [lifts] using hl)⟩
    simp only [declared_append, declared, List.append_nil]
    exact h.grow
  · intro c m σ
    simp only [gen]

/-! ### Calls -/

theorem gen_call_exp {c : Context} {o : Ord} {st : State} {f : Expr} {es : List Expr} (h : ∀ tag a, f ≠ .ctor tag a) :
    gen c (.exp o) st (.call f es) =
      ⟨.call (gen c (.exp o) st f).exp (genArgs c st.scope es), [], (gen c (.exp o) st f).state, false⟩ := by
  rw [gen.eq_def]
  cases f <;> first | (exact absurd rfl (h _ _)) | rfl

theorem gen_call_self {c : Context} {last : Bool} {pos : Pos} {st : State} {f : Expr} {es : List Expr}
    {ps : List (Option (Text × Nat))} (h : selfCall c st.scope last f = some ps) :
    gen c (.stm last pos) st (.call f es) = ⟨.undefined, loopAssignments (genArgs c st.scope es) ps, st, true⟩ := by
  rw [gen.eq_def]
  cases f with
  | ctor tag a =>
    unfold selfCall at h
    cases hs : c.self <;> simp [hs] at h
  | _ => simp only [h]

theorem gen_call_stm {c : Context} {last : Bool} {pos : Pos} {st : State} {f : Expr} {es : List Expr}
    (hc : ∀ tag a, f ≠ .ctor tag a) (h : selfCall c st.scope last f = none) :
    gen c (.stm last pos) st (.call f es) =
      ⟨.undefined, pos.give (.call (gen c (.exp .loose) st f).exp (genArgs c st.scope es)), (gen c (.exp .loose) st f).state, false⟩ := by
  rw [gen.eq_def]
  cases f with
  | ctor tag a => exact absurd rfl (hc _ _)
  | _ => simp only [h]

theorem stat_call {f : Expr} {es : List Expr} (hf : Stat single g f) : Stat single g (.call f es) := by
  by_cases hctor : ∃ tag a, f = .ctor tag a
  · obtain ⟨tag, a, rfl⟩ := hctor
    exact stat_plain fun c m σ => ⟨_, by simp only [gen]; rfl⟩
  · have hne : ∀ tag a, f ≠ .ctor tag a := fun tag a h => hctor ⟨tag, a, h⟩
    intro Γ hok c σ hc
    simp only [okE, Bool.and_eq_true] at hok
    have h := (hf Γ hok.1.1.1 c σ hc).1
    refine ⟨?_, fun last pos => ?_⟩
    · rw [gen_call_exp hne]
      exact ⟨h.grow, fun _ => h.same hok.1.1.2, fun hp => h.level (by simpa [pushes] using hp)⟩
    · cases hs : selfCall c σ last f with
      | some ps =>
        rw [gen_call_self (st := ⟨σ, []⟩) hs]
        refine ⟨?_, fun _ => .refl σ, fun _ => rfl⟩
        simp only [declared_loopAssignments, List.nil_append]
        exact .refl σ
      | none =>
        rw [gen_call_stm (st := ⟨σ, []⟩) hne hs]
        refine ⟨?_, fun _ => h.same hok.1.1.2, fun hp => h.level (by simpa [lifts] using hp)⟩
        simp only [declared_append, declared_give, List.append_nil]
        exact h.grow

/-! ### Blocks -/

/-- Blocks around one expression or `let`. -/
def single1 : List Stmt → Option Expr
  | [.expr e] => some e
  | [.let_ _ e] => some e
  | _ => none

theorem gen_block_some {c : Context} {m : Mode} {st : State} {body : List Stmt} {e : Expr} (h : single1 body = some e) :
    gen c m st (.block body) = gen c m st e := by
  unfold single1 at h
  split at h <;> first | (cases h; simp only [gen]) | cases h

theorem gen_block_none {c : Context} {m : Mode} {st : State} {body : List Stmt} (h : single1 body = none) :
    gen c m st (.block body) = placeBlock m st fun last pos σ => genStmts c last pos σ body := by
  unfold single1 at h
  split at h
  · cases h
  · cases h
  · next h1 h2 =>
    rw [gen.eq_def]
    split <;> first | rfl | (next heq => cases heq; first | exact absurd rfl (h1 _) | exact absurd rfl (h2 _ _) | rfl) | (next heq => cases heq)

theorem block_some {body : List Stmt} {e : Expr} (h : single1 body = some e) :
    pushes (.block body) = pushes e ∧ lifts (.block body) = lifts e ∧ leaky single (.block body) = leaky single e ∧
      keeps single (.block body) = keeps single e ∧ ∀ Γ, okE single g Γ (.block body) = true → okE single g Γ e = true := by
  unfold single1 at h
  split at h
  · cases h
    refine ⟨by simp [pushes], by simp [lifts], by simp [leaky], by simp [keeps], fun Γ => ?_⟩
    simp only [okE, okStmts, Bool.and_eq_true]
    exact fun h => h.1.1
  · cases h
    refine ⟨by simp [pushes], by simp [lifts], by simp [leaky], by simp [keeps], fun Γ => ?_⟩
    simp only [okE, okStmts, Bool.and_eq_true]
    exact fun h => h.1.1.1
  · cases h

theorem block_none {body : List Stmt} (h : single1 body = none) :
    pushes (.block body) = true ∧ leaky single (.block body) = true := by
  unfold single1 at h
  split at h
  · cases h
  · cases h
  · next h1 h2 =>
    constructor
    · rw [pushes]
      · exact h1
      · exact h2
    · rw [leaky]
      · exact h1
      · exact h2

theorem stat_block_some {body : List Stmt} {e : Expr} (h : single1 body = some e) (he : Stat single g e) : Stat single g (.block body) := by
  intro Γ hok c σ hc
  obtain ⟨h1, h2, h3, h4, h5⟩ := block_some (single := single) (g := g) h
  obtain ⟨hl, hs⟩ := he Γ (h5 Γ hok) c σ hc
  refine ⟨?_, fun last pos => ?_⟩
  · rw [gen_block_some h]
    exact ⟨hl.grow, fun hk => hl.same (h4 ▸ hk), fun hp => hl.level (h1 ▸ hp)⟩
  · rw [gen_block_some h]
    exact ⟨(hs last pos).grow, fun hk => (hs last pos).same (h3 ▸ hk), fun hp => (hs last pos).level (h2 ▸ hp)⟩

theorem stat_block_none {body : List Stmt} (h : single1 body = none) (he : StatStmts single g body) : Stat single g (.block body) := by
  intro Γ hok c σ hc
  obtain ⟨h1, h3⟩ := block_none (single := single) h
  simp only [okE] at hok
  refine ⟨?_, fun last pos => ?_⟩
  · rw [gen_block_none h]
    refine ⟨?_, fun _ => .next σ (by decide), fun hp => (by rw [h1] at hp; cases hp)⟩
    simp only [placeBlock, List.nil_append, declared]
    exact .next σ blockText
  · rw [gen_block_none h]
    refine ⟨?_, fun hk => (by rw [h3] at hk; cases hk), fun _ => rfl⟩
    simp only [placeBlock, List.nil_append, declared]
    exact (he Γ hok c last pos σ hc).grow.forget

/-! ### Subjects -/

theorem genSubjects_cons {c : Context} {σ : Scope} {e : Expr} {es : List Expr} (h : ∀ x l, e ≠ .var x l) :
    genSubjects c σ (e :: es) =
      (.letInit (.var subjectText (σ.fresh subjectText)) (gen c (.exp .strict) ⟨σ.next subjectText, []⟩ e).exp ::
        (genSubjects c (σ.next subjectText) es).1,
        .var subjectText (σ.fresh subjectText) :: (genSubjects c (σ.next subjectText) es).2.1,
        (genSubjects c (σ.next subjectText) es).2.2) := by
  rw [genSubjects.eq_def]
  cases e <;> first | (exact absurd rfl (h _ _)) | rfl

theorem genSubjects_var {c : Context} {σ : Scope} {x : Text} {l : Nat} {es : List Expr} :
    genSubjects c σ (.var x l :: es) = ((genSubjects c σ es).1, σ.name x :: (genSubjects c σ es).2.1, (genSubjects c σ es).2.2) := by
  simp only [genSubjects]

theorem isVar_or (e : Expr) : (∃ x l, e = .var x l) ∨ ∀ x l, e ≠ .var x l := by
  cases e <;> first | exact .inl ⟨_, _, rfl⟩ | (right; intro x l h; cases h)

theorem stat_subjects (c : Context) (σ : Scope) (es : List Expr) :
    Grow σ (declared (genSubjects c σ es).1) (genSubjects c σ es).2.2 ∧
      ∀ x, x ≠ subjectText → (genSubjects c σ es).2.2.counter x = σ.counter x := by
  induction es generalizing σ with
  | nil =>
    simp only [genSubjects, declared]
    exact ⟨.refl σ, fun _ _ => trivial⟩
  | cons e es ih =>
    rcases isVar_or e with ⟨x, l, rfl⟩ | h
    · rw [genSubjects_var]
      exact ih σ
    · rw [genSubjects_cons h]
      refine ⟨?_, fun x hx => ?_⟩
      · simp only [declared]
        exact (Grow.next σ subjectText).trans (ih _).1
      · rw [(ih _).2 x hx, σ.counter_next_of_ne hx]

theorem same_subjects (c : Context) (σ : Scope) (es : List Expr) : Same σ (genSubjects c σ es).2.2 := by
  intro x hx _
  apply (stat_subjects c σ es).2
  rintro rfl
  revert hx
  decide

/-! ### Statements -/

theorem letSubject_var {st : State} {x : Text} {l : Nat} {f : State → Res} : letSubject st (.var x l) f = ([], st.scope.name x, st) := rfl

theorem letSubject_other {st : State} {e : Expr} {f : State → Res} (h : ∀ x l, e ≠ .var x l) :
    letSubject st e f = ([.letInit (.var subjectText (st.scope.fresh subjectText)) (f ⟨st.scope.next subjectText, st.level⟩).exp],
      .var subjectText (st.scope.fresh subjectText), (f ⟨st.scope.next subjectText, st.level⟩).state) := by
  unfold letSubject
  cases e <;> first | (exact absurd rfl (h _ _)) | rfl

theorem stat_letSubject {e : Expr} (he : Stat single g e) {Γ : List Text} (hok : okE single g Γ e = true) (c : Context) (σ : Scope)
    (hc : c.single = single) :
    Grow σ (declared ((letSubject ⟨σ, []⟩ e fun st => gen c (.exp .loose) st e).2.2.level ++
        (letSubject ⟨σ, []⟩ e fun st => gen c (.exp .loose) st e).1))
      (letSubject ⟨σ, []⟩ e fun st => gen c (.exp .loose) st e).2.2.scope ∧
    (keeps single e = true → Same σ (letSubject ⟨σ, []⟩ e fun st => gen c (.exp .loose) st e).2.2.scope) := by
  rcases isVar_or e with ⟨x, l, rfl⟩ | h
  · rw [letSubject_var]
    exact ⟨.refl σ, fun _ => .refl σ⟩
  · rw [letSubject_other h]
    have h1 := (he Γ hok c (σ.next subjectText) hc).1
    refine ⟨?_, fun hk => (Same.next σ (by decide)).trans (h1.same hk)⟩
    refine ((Grow.next σ subjectText).trans h1.grow).perm ?_
    simp only [declared_append, declared]
    exact List.perm_append_comm

theorem genStmt_let_var {c : Context} {last : Bool} {pos : Pos} {st : State} {x : Text} {l : Nat} {e : Expr} :
    genStmt c last pos st (.let_ (.var x l) e) =
      ⟨.undefined, .letInit (.var x ((gen c (.exp .loose) st e).state.scope.fresh x)) (gen c (.exp .loose) st e).exp ::
        pos.giveName (.var x ((gen c (.exp .loose) st e).state.scope.fresh x)),
        ⟨(gen c (.exp .loose) st e).state.scope.next x, (gen c (.exp .loose) st e).state.level⟩, false⟩ := by
  simp only [genStmt]

theorem genStmt_assert_var {c : Context} {last : Bool} {pos : Pos} {st : State} {x : Text} {l : Nat} {e : Expr}
    {info : ErlGen.AssertInfo} {message : Option Expr} :
    genStmt c last pos st (.letAssert (.var x l) e info message) = genStmt c last pos st (.let_ (.var x l) e) := by
  simp only [genStmt]

theorem genStmt_let {c : Context} {last : Bool} {pos : Pos} {st : State} {p : Pattern} {e : Expr} (h : ∀ x l, p ≠ .var x l) :
    genStmt c last pos st (.let_ p e) =
      let r := letSubject st e fun st => gen c (.exp .loose) st e
      let b := r.2.2.scope.binds p.vars
      ⟨.undefined, r.1 ++ .destructure [r.2.1] [p] b.1 :: pos.giveName r.2.1, ⟨b.2, r.2.2.level⟩, false⟩ := by
  rw [genStmt.eq_def]
  cases p <;> first | (exact absurd rfl (h _ _)) | rfl

/-- The message of a `let assert`. -/
def genMessage (c : Context) (σ : Scope) : Option Expr → Exp
  | none => .text (defaultMessage .letAssert)
  | some m => (gen c (.exp .strict) ⟨σ, []⟩ m).exp

theorem genStmt_assert {c : Context} {last : Bool} {pos : Pos} {st : State} {p : Pattern} {e : Expr} {info : ErlGen.AssertInfo}
    {message : Option Expr} (h : ∀ x l, p ≠ .var x l) :
    genStmt c last pos st (.letAssert p e info message) =
      let r := letSubject st e fun st => gen c (.exp .loose) st e
      let b := r.2.2.scope.binds p.vars
      ⟨.undefined, r.1 ++ b.1.map (fun v => .letUninit v.2) ++
        .assertMatch r.2.1 p b.1 info (genMessage c b.2 message) :: pos.giveName r.2.1, ⟨b.2, r.2.2.level⟩, false⟩ := by
  rw [genStmt.eq_def]
  cases message <;> cases p <;> first | (exact absurd rfl (h _ _)) | rfl

theorem isVarP_or (p : Pattern) : (∃ x l, p = .var x l) ∨ ∀ x l, p ≠ .var x l := by
  cases p <;> first | exact .inl ⟨_, _, rfl⟩ | (right; intro x l h; cases h)

theorem stat_let {p : Pattern} {e : Expr} (he : Stat single g e) {Γ : List Text} (hok : okE single g Γ e = true) (c : Context)
    (last : Bool) (pos : Pos) (σ : Scope) (hc : c.single = single) :
    Grow σ (declared ((genStmt c last pos ⟨σ, []⟩ (.let_ p e)).state.level ++ (genStmt c last pos ⟨σ, []⟩ (.let_ p e)).stms))
      (genStmt c last pos ⟨σ, []⟩ (.let_ p e)).state.scope := by
  rcases isVarP_or p with ⟨x, l, rfl⟩ | h
  · rw [genStmt_let_var]
    simp only [declared_append, declared, declared_giveName]
    exact grow_loose_next (he Γ hok c σ hc).1 x
  · rw [genStmt_let h]
    have h1 := (stat_letSubject he hok c σ hc).1
    have h2 := h1.trans (Grow.binds _ p.vars)
    simp only [declared_append, declared, declared_giveName, List.append_nil] at h2 ⊢
    rw [← List.append_assoc]
    exact h2

theorem stat_assert {p : Pattern} {e : Expr} {info : ErlGen.AssertInfo} {message : Option Expr} (he : Stat single g e)
    {Γ : List Text} (hok : okE single g Γ e = true) (c : Context)
    (last : Bool) (pos : Pos) (σ : Scope) (hc : c.single = single) :
    Grow σ (declared ((genStmt c last pos ⟨σ, []⟩ (.letAssert p e info message)).state.level ++
        (genStmt c last pos ⟨σ, []⟩ (.letAssert p e info message)).stms))
      (genStmt c last pos ⟨σ, []⟩ (.letAssert p e info message)).state.scope := by
  rcases isVarP_or p with ⟨x, l, rfl⟩ | h
  · rw [genStmt_assert_var]
    exact stat_let he hok c last pos σ hc
  · rw [genStmt_assert h]
    have h1 := (stat_letSubject he hok c σ hc).1
    have h2 := h1.trans (Grow.binds _ p.vars)
    simp only [declared_append, declared, declared_giveName, List.append_nil, declared_uninit] at h2 ⊢
    rw [← List.append_assoc]
    exact h2

theorem stat_expr_stmt {e : Expr} (he : Stat single g e) {Γ : List Text} (hok : okE single g Γ e = true) (c : Context)
    (last : Bool) (pos : Pos) (σ : Scope) (hc : c.single = single) :
    Grow σ (declared ((genStmt c last pos ⟨σ, []⟩ (.expr e)).state.level ++ (genStmt c last pos ⟨σ, []⟩ (.expr e)).stms))
      (genStmt c last pos ⟨σ, []⟩ (.expr e)).state.scope := by
  simp only [genStmt]
  exact ((he Γ hok c σ hc).2 last pos).grow

def Stmt.value : Stmt → Expr
  | .expr e => e
  | .let_ _ e => e
  | .letAssert _ e _ _ => e

theorem stat_stmt {s : Stmt} (he : Stat single g (Stmt.value s)) : StatStmt single g s := by
  intro Γ ss hok c last pos σ hc
  cases s with
  | expr e =>
    simp only [okStmts, Bool.and_eq_true] at hok
    exact stat_expr_stmt he hok.1.1 c last pos σ hc
  | let_ p e =>
    simp only [okStmts, Bool.and_eq_true] at hok
    exact stat_let he hok.1.1.1 c last pos σ hc
  | letAssert p e info message =>
    simp only [okStmts, Bool.and_eq_true] at hok
    exact stat_assert he hok.1.1.1.1 c last pos σ hc

theorem okStmts_tail {Γ : List Text} {s : Stmt} {ss : List Stmt} (h : okStmts single g Γ (s :: ss) = true) :
    ∃ Γ', okStmts single g Γ' ss = true := by
  cases s <;> (simp only [okStmts, Bool.and_eq_true] at h; exact ⟨_, h.2⟩)

theorem genStmts_one {c : Context} {last : Bool} {pos : Pos} {σ : Scope} {s : Stmt} :
    genStmts c last pos σ [s] = ⟨.undefined, (genStmt c last pos ⟨σ, []⟩ s).state.level ++ (genStmt c last pos ⟨σ, []⟩ s).stms,
      ⟨(genStmt c last pos ⟨σ, []⟩ s).state.scope, []⟩, (genStmt c last pos ⟨σ, []⟩ s).looped⟩ := by
  simp only [genStmts]

theorem genStmts_cons {c : Context} {last : Bool} {pos : Pos} {σ : Scope} {s t : Stmt} {ss : List Stmt} :
    genStmts c last pos σ (s :: t :: ss) =
      let r := genStmt c false .stmt ⟨σ, []⟩ s
      let rest := genStmts c last pos r.state.scope (t :: ss)
      ⟨.undefined, r.state.level ++ r.stms ++ rest.stms, rest.state, rest.looped⟩ := by
  rw [genStmts]
  simp

theorem stat_stmts {ss : List Stmt} (h : ∀ s ∈ ss, StatStmt single g s) : StatStmts single g ss := by
  induction ss with
  | nil =>
    intro Γ _ c last pos σ _
    simp only [genStmts]
    exact ⟨.refl σ, rfl⟩
  | cons s ss ih =>
    intro Γ hok c last pos σ hc
    cases ss with
    | nil =>
      rw [genStmts_one]
      exact ⟨h s (by simp) Γ [] hok c last pos σ hc, rfl⟩
    | cons t ss =>
      rw [genStmts_cons]
      obtain ⟨Γ', hok'⟩ := okStmts_tail hok
      have h1 := h s (by simp) Γ _ hok c false .stmt σ hc
      have h2 := ih (fun s hs => h s (by simp [hs])) Γ' hok' c last pos (genStmt c false .stmt ⟨σ, []⟩ s).state.scope hc
      refine ⟨?_, h2.level⟩
      simp only
      rw [declared_append]
      exact h1.trans h2.grow

/-! ### Clauses -/

/-- The body of a clause. -/
def genBody (c : Context) (last : Bool) (pos : Pos) (σ : Scope) : Expr → Res
  | .block ss => inBlock [] (genStmts c last pos σ ss)
  | body => gen c (.stm last pos) ⟨σ, []⟩ body

theorem genBody_block {c : Context} {last : Bool} {pos : Pos} {σ : Scope} {ss : List Stmt} :
    genBody c last pos σ (.block ss) = inBlock [] (genStmts c last pos σ ss) := rfl

theorem genBody_other {c : Context} {last : Bool} {pos : Pos} {σ : Scope} {e : Expr} (h : isBlock e = false) :
    genBody c last pos σ e = gen c (.stm last pos) ⟨σ, []⟩ e := by
  cases e <;> first | rfl | (simp [isBlock] at h)

theorem genFirst_cons {c : Context} {last : Bool} {pos : Pos} {names : List Name} {σ : Scope} {ps : List Pattern}
    {alternatives : List (List Pattern)} {guard : Option ErlGen.Guard} {body : Expr} {cs : List Clause} :
    genFirst c last pos names ⟨σ, []⟩ (.mk ps alternatives guard body :: cs) =
      match returned ps alternatives body names with
      | some x => ⟨.undefined, pos.give (.var x), ⟨(σ.binds (varsAll ps)).2, []⟩, false⟩
      | none =>
        ⟨.undefined, .destructure names ps (σ.binds (varsAll ps)).1 :: (genBody c last pos (σ.binds (varsAll ps)).2 body).stms,
          (genBody c last pos (σ.binds (varsAll ps)).2 body).state, (genBody c last pos (σ.binds (varsAll ps)).2 body).looped⟩ := by
  rw [genFirst.eq_def]
  cases body <;> rfl

theorem genClauses_cons {c : Context} {last : Bool} {pos : Pos} {names : List Name} {σ : Scope} {ps : List Pattern}
    {alternatives : List (List Pattern)} {body : Expr} {cs : List Clause} :
    genClauses c last pos names σ [] (.mk ps alternatives none body :: cs) =
      match returned ps alternatives body names with
      | some x => (.mk (ps :: alternatives) [] (pos.give (.var x)) :: (genClauses c last pos names σ [] cs).1,
          (genClauses c last pos names σ [] cs).2)
      | none =>
        let r := genBody c last pos (σ.binds (varsAll ps)).2 body
        (.mk (ps :: alternatives) (σ.binds (varsAll ps)).1 r.stms :: (genClauses c last pos names σ r.state.level cs).1,
          (genClauses c last pos names σ r.state.level cs).2.1, r.looped || (genClauses c last pos names σ r.state.level cs).2.2) := by
  rw [genClauses.eq_def]
  cases body <;> rfl

/-- The scope after the variables of a clause with a guard. -/
def Scope.guarded (σ : Scope) (gd : ErlGen.Guard) (vs : List (Text × Nat)) : Scope :=
  ((σ.binds (guardVars gd vs)).2.binds (otherVars gd vs)).2

theorem genClauses_guard {c : Context} {last : Bool} {pos : Pos} {names : List Name} {σ : Scope} {ps : List Pattern}
    {alternatives : List (List Pattern)} {gd : ErlGen.Guard} {body : Expr} {cs : List Clause} :
    genClauses c last pos names σ [] (.mk ps alternatives (some gd) body :: cs) =
      let a := σ.binds (guardVars gd (varsAll ps))
      match returned ps alternatives body names with
      | some x => (.guarded (ps :: alternatives) a.1 (genGuard a.2 gd) [] (pos.give (.var x)) ::
          (genClauses c last pos names σ [] cs).1, (genClauses c last pos names σ [] cs).2)
      | none =>
        let r := genBody c last pos (σ.guarded gd (varsAll ps)) body
        (.guarded (ps :: alternatives) a.1 (genGuard a.2 gd) (a.2.binds (otherVars gd (varsAll ps))).1 r.stms ::
          (genClauses c last pos names σ r.state.level cs).1,
          (genClauses c last pos names σ r.state.level cs).2.1, r.looped || (genClauses c last pos names σ r.state.level cs).2.2) := by
  rw [genClauses.eq_def]
  cases body <;> rfl

theorem stat_body_block {ss : List Stmt} (h : StatStmts single g ss) {Γ : List Text} (hok : okE single g Γ (.block ss) = true)
    (c : Context) (last : Bool) (pos : Pos) (σ : Scope) (hc : c.single = single) : StatB σ (genBody c last pos σ (.block ss)) := by
  simp only [okE] at hok
  exact ⟨(h Γ hok c last pos σ hc).grow, rfl⟩

theorem stat_body_other {e : Expr} (he : Stat single g e) (hb : isBlock e = false) (hl : lifts e = false) {Γ : List Text}
    (hok : okE single g Γ e = true) (c : Context) (last : Bool) (pos : Pos) (σ : Scope) (hc : c.single = single) :
    StatB σ (genBody c last pos σ e) := by
  rw [genBody_other hb]
  have h := (he Γ hok c σ hc).2 last pos
  have h0 := h.level hl
  refine ⟨?_, h0⟩
  have := h.grow
  rwa [h0, List.nil_append] at this

/-- What is known about the body of a clause. -/
def StatBody (single : Text → Bool) (g : List (Text × Nat)) (body : Expr) : Prop :=
  ∀ Γ, okE single g Γ body = true → (isBlock body || !lifts body) = true → ∀ c last pos σ, c.single = single →
    StatB σ (genBody c last pos σ body)

theorem stat_clauses {cs : List Clause} (h : ∀ cl ∈ cs, StatBody single g (Clause.body cl)) : StatClauses single g cs := by
  induction cs with
  | nil =>
    intro Γ _ c last pos names σ _
    refine ⟨by simp [genClauses], fun h => ?_⟩
    exact absurd rfl h
  | cons cl cs ih =>
    obtain ⟨ps, alternatives, guard, body⟩ := cl
    intro Γ hok c last pos names σ hc
    simp only [okClauses, Bool.and_eq_true] at hok
    obtain ⟨⟨⟨⟨⟨hguard, hvars⟩, halts⟩, hbody⟩, hlift⟩, hrest⟩ := hok
    have hb := h (.mk ps alternatives guard body) (by simp) _ hbody hlift c last pos (σ.binds (varsAll ps)).2 hc
    refine ⟨?_, fun _ => ?_⟩
    · cases guard with
      | none =>
        rw [genClauses_cons]
        cases returned ps alternatives body names with
        | some x => exact (ih (fun cl hcl => h cl (by simp [hcl])) Γ hrest c last pos names σ hc).1
        | none =>
          simp only
          have := hb.level
          simp only [Clause.body] at this
          rw [this]
          exact (ih (fun cl hcl => h cl (by simp [hcl])) Γ hrest c last pos names σ hc).1
      | some gd =>
        rw [genClauses_guard]
        cases returned ps alternatives body names with
        | some x => exact (ih (fun cl hcl => h cl (by simp [hcl])) Γ hrest c last pos names σ hc).1
        | none =>
          simp only
          have := (h (.mk ps alternatives (some gd) body) (by simp) _ hbody hlift c last pos (σ.guarded gd (varsAll ps)) hc).level
          simp only [Clause.body] at this
          rw [this]
          exact (ih (fun cl hcl => h cl (by simp [hcl])) Γ hrest c last pos names σ hc).1
    · rw [genFirst_cons]
      cases returned ps alternatives body names with
      | some x =>
        refine ⟨?_, rfl⟩
        simp only [declared_give]
        exact (Grow.binds σ _).forget
      | none =>
        refine ⟨?_, hb.level⟩
        simp only [declared]
        exact (Grow.binds σ _).trans hb.grow

theorem stat_case {subjects : List Expr} {cs : List Clause} (h : StatClauses single g cs) : Stat single g (.case_ subjects cs) := by
  apply stat_place (fun c last pos st =>
    let s := genSubjects c st.scope subjects
    match tree c.single cs with
    | .switch =>
      let r := genClauses c last pos s.2.1 s.2.2 st.level cs
      ⟨.undefined, s.1 ++ [.switch s.2.1 r.1], ⟨s.2.2, r.2.1⟩, r.2.2⟩
    | .direct =>
      let r := genFirst c last pos s.2.1 ⟨s.2.2, st.level⟩ cs
      ⟨.undefined, s.1 ++ r.stms, ⟨r.state.scope.restore s.2.2, r.state.level⟩, r.looped⟩
    | .run =>
      let r := genFirst c last pos s.2.1 ⟨s.2.2, st.level⟩ cs
      ⟨.undefined, s.1 ++ r.stms, r.state, r.looped⟩)
  · rfl
  · intro h
    simpa [keeps, leaky] using h
  · intro Γ hok c last pos σ hc
    simp only [okE, Bool.and_eq_true] at hok
    obtain ⟨h1, h2⟩ := h _ hok.2 c last pos (genSubjects c σ subjects).2.1 (genSubjects c σ subjects).2.2 hc
    have hs := (stat_subjects c σ subjects).1
    rw [hc]
    cases ht : tree single cs with
    | switch =>
      refine ⟨?_, fun _ => same_subjects c σ subjects, fun _ => h1⟩
      simp only [h1, List.nil_append, declared_append, declared, List.append_nil]
      exact hs
    | direct =>
      have h3 := h2 (by rw [ht]; exact fun h => by cases h)
      refine ⟨?_, fun _ => (same_subjects c σ subjects).trans (.restore _ _), fun _ => h3.level⟩
      simp only [h3.level, List.nil_append, declared_append]
      exact hs.trans h3.grow.restore
    | run =>
      have h3 := h2 (by rw [ht]; exact fun h => by cases h)
      refine ⟨?_, fun hl => (by simp [leaky, ht, isRun] at hl), fun _ => h3.level⟩
      simp only [h3.level, List.nil_append, declared_append]
      exact hs.trans h3.grow
  · intro c m σ
    simp only [gen]
    rfl

/-! ### All expressions -/

theorem stat_not {e : Expr} (he : Stat single g e) : Stat single g (.not e) :=
  stat_inner he (by simp [pushes]) (by simp [lifts]) (fun Γ h => by simpa [okE] using h) fun c m σ => ⟨_, by simp only [gen]; rfl⟩

theorem stat_neg {e : Expr} (he : Stat single g e) : Stat single g (.neg e) :=
  stat_inner he (by simp [pushes]) (by simp [lifts]) (fun Γ h => by simpa [okE] using h) fun c m σ => ⟨_, by simp only [gen]; rfl⟩

theorem stat_index {e : Expr} {i : Nat} (he : Stat single g e) : Stat single g (.index e i) :=
  stat_inner he (by simp [pushes]) (by simp [lifts]) (fun Γ h => by simpa [okE] using h) fun c m σ => ⟨_, by simp only [gen]; rfl⟩

theorem stat_field {e : Expr} {i : Nat} (he : Stat single g e) : Stat single g (.field e i) :=
  stat_inner he (by simp [pushes]) (by simp [lifts]) (fun Γ h => by simpa [okE] using h) fun c m σ => ⟨_, by simp only [gen]; rfl⟩

theorem stat_ctor {tag : Text} {a : Nat} : Stat single g (.ctor tag a) := by
  cases a with
  | zero => exact stat_plain fun c m σ => ⟨_, by simp only [gen]; rfl⟩
  | succ a => exact stat_plain fun c m σ => ⟨_, by simp only [gen]; rfl⟩

theorem stat_fnRef {mod : Option Text} {f : Text} {a : Nat} : Stat single g (.fnRef mod f a) := by
  cases mod with
  | none => exact stat_plain fun c m σ => ⟨_, by simp only [gen]; rfl⟩
  | some mod => exact stat_plain fun c m σ => ⟨_, by simp only [gen]; rfl⟩

mutual

theorem stat_all (single : Text → Bool) (g : List (Text × Nat)) : ∀ e : Expr, Stat single g e
  | .int _ => stat_plain fun c m σ => ⟨_, by simp only [gen]; rfl⟩
  | .string _ => stat_plain fun c m σ => ⟨_, by simp only [gen]; rfl⟩
  | .var _ _ => stat_plain fun c m σ => ⟨_, by simp only [gen]; rfl⟩
  | .ctor _ _ => stat_ctor
  | .fnRef _ _ _ => stat_fnRef
  | .const _ => stat_plain fun c m σ => ⟨_, by simp only [gen]; rfl⟩
  | .block [.expr e] => stat_block_some rfl (stat_all single g e)
  | .block [.let_ _ e] => stat_block_some rfl (stat_all single g e)
  | .block [] => stat_block_none rfl (stat_stmts (stat_allStmts single g []))
  | .block [.letAssert p e info m] => stat_block_none rfl (stat_stmts (stat_allStmts single g [.letAssert p e info m]))
  | .block (s :: t :: ss) => stat_block_none (by cases s <;> rfl) (stat_stmts (stat_allStmts single g (s :: t :: ss)))
  | .not e => stat_not (stat_all single g e)
  | .neg e => stat_neg (stat_all single g e)
  | .bin _ _ _ => stat_plain fun c m σ => ⟨_, by simp only [gen]; rfl⟩
  | .nil => stat_plain fun c m σ => ⟨_, by simp only [gen]; rfl⟩
  | .cons _ _ => stat_plain fun c m σ => ⟨_, by simp only [gen]; rfl⟩
  | .tuple _ => stat_plain fun c m σ => ⟨_, by simp only [gen]; rfl⟩
  | .index e _ => stat_index (stat_all single g e)
  | .field e _ => stat_field (stat_all single g e)
  | .update (some (_, _)) record _ _ => stat_update (stat_all single g record)
  | .update none _ _ _ => stat_plain fun c m σ => ⟨_, by simp only [gen]; rfl⟩
  | .fn _ _ => stat_plain fun c m σ => ⟨_, by simp only [gen]; rfl⟩
  | .call f _ => stat_call (stat_all single g f)
  | .pipe _ _ value rest => stat_pipe (stat_all single g value) (stat_all single g rest)
  | .fail _ _ none => stat_fail_none
  | .fail _ _ (some e) => stat_fail_some (stat_all single g e)
  | .case_ _ cs => stat_case (stat_clauses (stat_allClauses single g cs))

theorem stat_allStmts (single : Text → Bool) (g : List (Text × Nat)) : ∀ ss : List Stmt, ∀ s ∈ ss, StatStmt single g s
  | [], _, h => by simp at h
  | .expr e :: ss, s, h => by
    rcases List.mem_cons.1 h with rfl | h
    · exact stat_stmt (stat_all single g e)
    · exact stat_allStmts single g ss s h
  | .let_ p e :: ss, s, h => by
    rcases List.mem_cons.1 h with rfl | h
    · exact stat_stmt (s := .let_ p e) (stat_all single g e)
    · exact stat_allStmts single g ss s h
  | .letAssert p e info m :: ss, s, h => by
    rcases List.mem_cons.1 h with rfl | h
    · exact stat_stmt (s := .letAssert p e info m) (stat_all single g e)
    · exact stat_allStmts single g ss s h

theorem stat_allClauses (single : Text → Bool) (g : List (Text × Nat)) : ∀ cs : List Clause, ∀ cl ∈ cs, StatBody single g (Clause.body cl)
  | [], _, h => by simp at h
  | .mk ps alts gd (.block ss) :: cs, cl, h => by
    rcases List.mem_cons.1 h with rfl | h
    · intro Γ hok _ c last pos σ hc
      exact stat_body_block (stat_stmts (stat_allStmts single g ss)) hok c last pos σ hc
    · exact stat_allClauses single g cs cl h
  | .mk ps alts gd body :: cs, cl, h => by
    rcases List.mem_cons.1 h with rfl | h
    · intro Γ hok hl c last pos σ hc
      by_cases hb : isBlock body = true
      · cases body with
        | block ss => exact stat_body_block (stat_stmts (stat_allStmts single g ss)) hok c last pos σ hc
        | _ => simp [isBlock] at hb
      · simp only [Bool.not_eq_true] at hb
        simp only [Clause.body, hb, Bool.false_or, Bool.not_eq_true'] at hl
        exact stat_body_other (stat_all single g body) hb hl hok c last pos σ hc
    · exact stat_allClauses single g cs cl h

end

end Verif.JsGen
