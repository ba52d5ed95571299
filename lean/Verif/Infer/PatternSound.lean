import Verif.Infer.Instances

/-!
Patterns that are accepted are typed.
-/

namespace Verif.Infer

open Verif.Unify

/-! ### Variables -/

/-- What the types of variables stand for. -/
def readLocals (ρ : Cell → Tree) (ls : Locals) : TLocals := ls.map fun b => (b.1, b.2.sub ρ)

def CleanLocals (R : List Nat) (ρ : Cell → Tree) (ls : Locals) : Prop := ∀ b ∈ ls, Clean R (b.2.sub ρ)

theorem readLocals_append (ρ : Cell → Tree) (a b : Locals) : readLocals ρ (a ++ b) = readLocals ρ a ++ readLocals ρ b := by simp [readLocals]

theorem readLocals_lookup (ρ : Cell → Tree) (x : String) : ∀ ls : Locals, (readLocals ρ ls).lookup x = (ls.lookup x).map (·.sub ρ)
  | [] => rfl
  | (y, t) :: ls => by
    have ih := readLocals_lookup ρ x ls
    simp only [readLocals, List.map] at ih ⊢
    rw [List.lookup_cons, List.lookup_cons]
    cases x == y with
    | true => rfl
    | false => exact ih

theorem lookup_mem {α : Type} {x : String} {a : α} : ∀ {l : List (String × α)}, l.lookup x = some a → (x, a) ∈ l
  | [], h => by cases h
  | (y, b) :: l, h => by
    rw [List.lookup_cons] at h
    split at h
    · next he => cases h; have : x = y := by simpa using he
                 subst this; simp
    · simp [lookup_mem h]

theorem CleanLocals.lookup {R : List Nat} {ρ : Cell → Tree} {ls : Locals} (h : CleanLocals R ρ ls) {x : String} {t : Ty Cell} (hx : ls.lookup x = some t) :
    Clean R (t.sub ρ) := h _ (lookup_mem hx)

theorem CleanLocals.append {R : List Nat} {ρ : Cell → Tree} {a b : Locals} (ha : CleanLocals R ρ a) (hb : CleanLocals R ρ b) : CleanLocals R ρ (a ++ b) := by
  intro x hx
  rcases List.mem_append.1 hx with hx | hx
  · exact ha x hx
  · exact hb x hx

theorem CleanLocals.nil {R : List Nat} {ρ : Cell → Tree} : CleanLocals R ρ [] := fun b h => by cases h

theorem CleanLocals.step {R : List Nat} {ρ ρ' : Cell → Tree} {ls : Locals} (h : CleanLocals R ρ ls) (ht : To R ρ ρ') : CleanLocals R ρ' ls :=
  fun b hb => ht.clean (h b hb)

theorem readLocals_on (ρ : Cell → Tree) (σ : Assignment) (ls : Locals) : readLocals (fun c => σ.on (ρ c)) ls = (readLocals ρ ls).sub σ.leaf := by
  simp only [readLocals, TLocals.sub, List.map_map]
  refine List.map_congr_left fun b _ => ?_
  have := sub_on ρ σ b.2
  simp only [Function.comp, this]
  rfl

theorem PTyped.step {R : List Nat} {ρ ρ' : Cell → Tree} (ht : To R ρ ρ') {types : List CustomType} {p : Pattern} {t : Ty Cell} {B : Locals}
    (h : PTyped types p (t.sub ρ) (readLocals ρ B)) : PTyped types p (t.sub ρ') (readLocals ρ' B) := by
  obtain ⟨σ, _, rfl⟩ := ht
  rw [readLocals_on, sub_on]
  exact PTyped.sub types σ.leaf p _ _ h

theorem PTypedAll.step {R : List Nat} {ρ ρ' : Cell → Tree} (ht : To R ρ ρ') {types : List CustomType} {ps : List Pattern} {ts : Tys Cell} {B : Locals}
    (h : PTypedAll types ps (ts.sub ρ) (readLocals ρ B)) : PTypedAll types ps (ts.sub ρ') (readLocals ρ' B) := by
  obtain ⟨σ, _, rfl⟩ := ht
  rw [readLocals_on, subs_on]
  exact PTypedAll.sub types σ.leaf ps _ _ h

theorem PTypedAt.step {R : List Nat} {ρ ρ' : Cell → Tree} (ht : To R ρ ρ') {types : List CustomType} {ps : List Pattern} {t : Ty Cell} {B : Locals}
    (h : PTypedAt types ps (t.sub ρ) (readLocals ρ B)) : PTypedAt types ps (t.sub ρ') (readLocals ρ' B) := by
  obtain ⟨σ, _, rfl⟩ := ht
  rw [readLocals_on, sub_on]
  exact PTypedAt.sub types σ.leaf ps _ _ h

/-! ### Variables of patterns -/

def CleanMode (R : List Nat) (ρ : Cell → Tree) : PMode → Prop
  | .initial => True
  | .alternative vars => CleanLocals R ρ vars

theorem CleanMode.step {R : List Nat} {ρ ρ' : Cell → Tree} {mode : PMode} (h : CleanMode R ρ mode) (ht : To R ρ ρ') : CleanMode R ρ' mode := by
  cases mode with
  | initial => trivial
  | alternative vars => exact CleanLocals.step h ht

/-- Variables of an alternative have the types they have in the first one. -/
def AltOk (ρ : Cell → Tree) (B : Locals) : PMode → Prop
  | .initial => True
  | .alternative vars => ∀ b ∈ B, ∃ u, vars.lookup b.1 = some u ∧ u.sub ρ = b.2.sub ρ

theorem AltOk.step {R : List Nat} {ρ ρ' : Cell → Tree} {mode : PMode} {B : Locals} (h : AltOk ρ B mode) (ht : To R ρ ρ') : AltOk ρ' B mode := by
  cases mode with
  | initial => trivial
  | alternative vars =>
    intro b hb
    obtain ⟨u, h1, h2⟩ := h b hb
    exact ⟨u, h1, ht.eq h2⟩

theorem AltOk.append {ρ : Cell → Tree} {mode : PMode} {B C : Locals} (h : AltOk ρ B mode) (h' : AltOk ρ C mode) : AltOk ρ (B ++ C) mode := by
  cases mode with
  | initial => trivial
  | alternative vars =>
    intro b hb
    rcases List.mem_append.1 hb with hb | hb
    · exact h b hb
    · exact h' b hb

theorem AltOk.nil {ρ : Cell → Tree} {mode : PMode} : AltOk ρ [] mode := by
  cases mode with
  | initial => trivial
  | alternative vars => intro b hb; cases hb

/-- What a pattern adds to the variables. -/
structure Adds (R : List Nat) (mode : PMode) (s : St) (ρ : Cell → Tree) (vars : Locals) (s' : St) (ρ' : Cell → Tree) (vars' : Locals) (B : Locals) : Prop where
  after : After R s ρ s' ρ'
  adds : vars' = vars ++ B
  clean : CleanLocals R ρ' B
  alt : AltOk ρ' B mode
  nodup : (vars.map (·.1)).Nodup → (vars'.map (·.1)).Nodup

theorem Adds.refl {R : List Nat} {mode : PMode} {s : St} {ρ : Cell → Tree} {vars : Locals} (h : Ok s ρ) : Adds R mode s ρ vars s ρ vars [] :=
  ⟨.refl h, by simp, .nil, .nil, id⟩

theorem Adds.ofAfter {R : List Nat} {mode : PMode} {s s' : St} {ρ ρ' : Cell → Tree} {vars : Locals} (h : After R s ρ s' ρ') : Adds R mode s ρ vars s' ρ' vars [] :=
  ⟨h, by simp, .nil, .nil, id⟩

theorem Adds.trans {R : List Nat} {mode : PMode} {s s' s'' : St} {ρ ρ' ρ'' : Cell → Tree} {vars vars' vars'' B C : Locals}
    (h : Adds R mode s ρ vars s' ρ' vars' B) (h' : Adds R mode s' ρ' vars' s'' ρ'' vars'' C) : Adds R mode s ρ vars s'' ρ'' vars'' (B ++ C) where
  after := h.after.trans h'.after
  adds := by rw [h'.adds, h.adds, List.append_assoc]
  clean := (h.clean.step h'.after.step).append h'.clean
  alt := (h.alt.step h'.after.step).append h'.alt
  nodup := fun hn => h'.nodup (h.nodup hn)

theorem lookup_none_notMem {α : Type} {x : String} {l : List (String × α)} (h : ¬ (l.lookup x).isSome = true) : x ∉ l.map (·.1) := by
  intro hx
  obtain ⟨a, ha⟩ := lookup_of_mem hx
  rw [ha] at h
  exact h rfl

theorem insertVariable_right {R : List Nat} {n : Nat} {mode : PMode} {x : String} {t : Ty Cell} {vars vars' : Locals} {s s' : St} {ρ : Cell → Tree}
    (ho : Ok s ρ) (ht : Clean R (t.sub ρ)) (hm : CleanMode R ρ mode) (h : insertVariable n mode x t vars s = .ok (vars', s')) :
    ∃ ρ', Adds R mode s ρ vars s' ρ' vars' [(x, t)] := by
  unfold insertVariable at h
  by_cases hs : (vars.lookup x).isSome = true
  · rw [if_pos hs, reject_ok] at h; exact h.elim
  rw [if_neg hs] at h
  have hnd : (vars.map (·.1)).Nodup → ((vars ++ [(x, t)]).map (·.1)).Nodup := fun hn => by
    rw [List.map_append, List.nodup_append]
    refine ⟨hn, by simp, ?_⟩
    intro a ha b hb
    simp only [List.map, List.mem_singleton] at hb
    subst hb
    rintro rfl
    exact lookup_none_notMem hs ha
  cases mode with
  | initial =>
    simp only [pure_ok] at h
    obtain ⟨rfl, rfl⟩ := h
    exact ⟨ρ, .refl ho, rfl, fun b hb => by simp only [List.mem_singleton] at hb; subst hb; exact ht, trivial, hnd⟩
  | alternative initial =>
    simp only at h
    generalize hl : initial.lookup x = d at h
    rcases d with _ | u
    · simp only [reject_ok] at h
    · simp only [bind_ok, pure_ok] at h
      obtain ⟨_, s₁, h1, rfl, rfl⟩ := h
      obtain ⟨ρ', h2, h3⟩ := unifyI_right (R := R) ho (CleanLocals.lookup hm hl) ht h1
      refine ⟨ρ', h2, rfl, fun b hb => ?_, fun b hb => ?_, hnd⟩
      · simp only [List.mem_singleton] at hb; subst hb; exact h2.step.clean ht
      · simp only [List.mem_singleton] at hb; subst hb; exact ⟨u, hl, h3⟩

theorem insertOption_right {R : List Nat} {n : Nat} {mode : PMode} {x : Option String} {t : Ty Cell} {vars vars' : Locals} {s s' : St} {ρ : Cell → Tree}
    (ho : Ok s ρ) (ht : Clean R (t.sub ρ)) (hm : CleanMode R ρ mode) (h : insertOption n mode x t vars s = .ok (vars', s')) :
    ∃ ρ' B, Adds R mode s ρ vars s' ρ' vars' B ∧ ∀ ρ'', readLocals ρ'' B = optB x (t.sub ρ'') := by
  cases x with
  | none =>
    simp only [insertOption, pure_ok] at h
    obtain ⟨rfl, rfl⟩ := h
    exact ⟨ρ, [], .refl ho, fun _ => rfl⟩
  | some x =>
    obtain ⟨ρ', h1⟩ := insertVariable_right ho ht hm h
    exact ⟨ρ', _, h1, fun _ => rfl⟩

theorem listElement_right {R : List Nat} {n : Nat} {t a : Ty Cell} {s s' : St} {ρ : Cell → Tree} (ho : Ok s ρ)
    (h : listElement n t s = .ok (a, s')) : ∃ ρ', After R s ρ s' ρ' ∧ t.sub ρ' = tList (a.sub ρ') := by
  simp only [listElement, bind_ok] at h
  obtain ⟨u, s₁, h1, h2⟩ := h
  obtain ⟨rfl, h3, h4⟩ := collapseI_right ho h1
  generalize hl : listArgument u = d at h2
  rcases d with _ | b
  · cases u with
    | var c =>
      simp only [bind_ok, getHeap_ok] at h2
      obtain ⟨_, _, ⟨rfl, rfl⟩, h2⟩ := h2
      generalize hv : s₁.heap c = d at h2
      rcases d with v | id | id
      · simp only [reject_ok] at h2
      · simp only [bind_ok] at h2
        obtain ⟨b, s₂, h5, h6⟩ := h2
        obtain ⟨a1, c1, e1⟩ := fresh_right (R := R) ho h5
        generalize hoc : occurs n s₁.heap id b = d at h6
        rcases d with _ | d
        · simp only [outOfFuel_ok] at h6
        cases d with
        | true => simp only [outOfFuel_ok] at h6
        | false =>
          simp only [bind_ok, pure_ok] at h6
          obtain ⟨_, s₃, h7, rfl, rfl⟩ := h6
          have ho1 := occurs_right s₁.heap ρ ho.good.reading id n b false hoc
          obtain ⟨ρ', h8, h9⟩ := linkTo_right (R := R) a1.ok (t := tList b) trivial (fun i hi => by
            rw [e1, hv] at hi; cases hi
            simp only [tList, Ty.sub, Tys.sub, Ty.Has, Tys.Has, or_false]
            exact fun hh => by simpa using ho1.2 hh) (Clean.list.2 c1) h7
          refine ⟨ρ', a1.trans h8, ?_⟩
          rw [← h8.step.eq (t := .var c) (u := t) h3]
          exact h9
      · simp only [reject_ok] at h2
    | named | fn | tuple => simp only [reject_ok] at h2
  · simp only [pure_ok] at h2
    obtain ⟨rfl, rfl⟩ := h2
    refine ⟨ρ, .refl ho, ?_⟩
    unfold listArgument at hl
    split at hl
    · next m x a =>
      split at hl
      · next hm =>
        cases hl
        obtain ⟨rfl, rfl⟩ := hm
        exact h3.symm
      · cases hl
    · cases hl

theorem findConstructor_some {x : String} {r : Registered} {v : Variant} : ∀ {rs : List Registered}, findConstructor rs x = some (r, v) →
    r ∈ rs ∧ v ∈ r.type.variants ∧ v.name = x
  | [], h => by cases h
  | q :: rs, h => by
    unfold findConstructor at h
    split at h
    · next w hw =>
      cases h
      exact ⟨by simp, List.mem_of_find?_eq_some hw, by simpa using List.find?_some hw⟩
    · have := findConstructor_some h
      exact ⟨by simp [this.1], this.2⟩

theorem constructor_sub (r : Registered) (v : Variant) (θ : Nat → Tree) :
    (constructorType r.type v r.id).sub θ = constructorType r.type v fun i => θ (r.base + i) := constructorType_sub θ r.id r.type v

mutual

theorem inferPattern_right {R : List Nat} {n : Nat} {g : Globals} {mode : PMode} : ∀ (p : Pattern) (t : Ty Cell) (vars : Locals) (s : St) (u : Ty Cell)
    (vars' : Locals) (s' : St) (ρ : Cell → Tree), Ok s ρ → Clean R (t.sub ρ) → CleanMode R ρ mode → inferPattern n g mode p t vars s = .ok ((u, vars'), s') →
    ∃ ρ' B, Adds R mode s ρ vars s' ρ' vars' B ∧ u.sub ρ' = t.sub ρ' ∧ PTyped g.customTypes p (t.sub ρ') (readLocals ρ' B)
  | .discard, t, vars, s, u, vars', s', ρ, ho, ht, hm, h => by
    simp only [inferPattern, pure_ok, Prod.mk.injEq] at h
    obtain ⟨⟨rfl, rfl⟩, rfl⟩ := h
    exact ⟨ρ, [], .refl ho, rfl, by simp only [PTyped, readLocals, List.map]⟩
  | .var x, t, vars, s, u, vars', s', ρ, ho, ht, hm, h => by
    simp only [inferPattern, bind_ok, pure_ok, Prod.mk.injEq] at h
    obtain ⟨vs, s₁, h1, ⟨rfl, rfl⟩, rfl⟩ := h
    obtain ⟨ρ', h2⟩ := insertVariable_right ho ht hm h1
    exact ⟨ρ', _, h2, rfl, by simp only [PTyped, readLocals, List.map]⟩
  | .int _, t, vars, s, u, vars', s', ρ, ho, ht, hm, h => by
    simp only [inferPattern, bind_ok, pure_ok, Prod.mk.injEq] at h
    obtain ⟨_, s₁, h1, ⟨rfl, rfl⟩, rfl⟩ := h
    obtain ⟨ρ', h2, h3⟩ := unifyI_right (R := R) ho ht (by exact Clean.zero R _) h1
    exact ⟨ρ', [], .ofAfter h2, h3.symm, by simp only [PTyped, readLocals, List.map]; exact ⟨h3, trivial⟩⟩
  | .float _, t, vars, s, u, vars', s', ρ, ho, ht, hm, h => by
    simp only [inferPattern, bind_ok, pure_ok, Prod.mk.injEq] at h
    obtain ⟨_, s₁, h1, ⟨rfl, rfl⟩, rfl⟩ := h
    obtain ⟨ρ', h2, h3⟩ := unifyI_right (R := R) ho ht (by exact Clean.zero R _) h1
    exact ⟨ρ', [], .ofAfter h2, h3.symm, by simp only [PTyped, readLocals, List.map]; exact ⟨h3, trivial⟩⟩
  | .string _, t, vars, s, u, vars', s', ρ, ho, ht, hm, h => by
    simp only [inferPattern, bind_ok, pure_ok, Prod.mk.injEq] at h
    obtain ⟨_, s₁, h1, ⟨rfl, rfl⟩, rfl⟩ := h
    obtain ⟨ρ', h2, h3⟩ := unifyI_right (R := R) ho ht (by exact Clean.zero R _) h1
    exact ⟨ρ', [], .ofAfter h2, h3.symm, by simp only [PTyped, readLocals, List.map]; exact ⟨h3, trivial⟩⟩
  | .prefix _ left right, t, vars, s, u, vars', s', ρ, ho, ht, hm, h => by
    simp only [inferPattern, bind_ok, pure_ok, Prod.mk.injEq] at h
    obtain ⟨_, s₁, h1, vars₁, s₂, h2, vars₂, s₃, h3, ⟨rfl, rfl⟩, rfl⟩ := h
    obtain ⟨ρ₁, a1, e1⟩ := unifyI_right (R := R) ho ht (by exact Clean.zero R _) h1
    obtain ⟨ρ₂, B, a2, e2⟩ := insertOption_right (R := R) a1.ok (by exact Clean.zero R _) (hm.step a1.step) h2
    obtain ⟨ρ₃, C, a3, e3⟩ := insertOption_right (R := R) a2.after.ok (by exact Clean.zero R _) ((hm.step a1.step).step a2.after.step) h3
    have e4 : t.sub ρ₃ = tString := (a2.after.step.trans a3.after.step).eq e1
    refine ⟨ρ₃, [] ++ (B ++ C), (Adds.ofAfter a1).trans (a2.trans a3), e4.symm, ?_⟩
    simp only [PTyped, List.nil_append, readLocals_append, e2, e3]
    exact ⟨e4, rfl⟩
  | .assign p x, t, vars, s, u, vars', s', ρ, ho, ht, hm, h => by
    simp only [inferPattern, bind_ok, pure_ok, Prod.mk.injEq, Prod.exists] at h
    obtain ⟨v, vars₁, s₁, h1, vars₂, s₂, h2, ⟨rfl, rfl⟩, rfl⟩ := h
    obtain ⟨ρ₁, B, a1, e1, p1⟩ := inferPattern_right p t vars s v vars₁ s₁ ρ ho ht hm h1
    obtain ⟨ρ₂, a2⟩ := insertVariable_right (R := R) a1.after.ok (by rw [e1]; exact a1.after.step.clean ht) (hm.step a1.after.step) h2
    have e2 := a2.after.step.eq e1
    refine ⟨ρ₂, B ++ [(x, v)], a1.trans a2, e2, ?_⟩
    simp only [PTyped]
    refine ⟨readLocals ρ₂ B, p1.step a2.after.step, ?_⟩
    rw [readLocals_append, ← e2]
    rfl
  | .list ps none, t, vars, s, u, vars', s', ρ, ho, ht, hm, h => by
    simp only [inferPattern, bind_ok, pure_ok, Prod.mk.injEq] at h
    obtain ⟨a, s₁, h1, vars₁, s₂, h2, ⟨rfl, rfl⟩, rfl⟩ := h
    obtain ⟨ρ₁, a1, e1⟩ := listElement_right (R := R) ho h1
    have ha : Clean R (a.sub ρ₁) := Clean.list.1 (by rw [← e1]; exact a1.step.clean ht)
    obtain ⟨ρ₂, B, a2, p2⟩ := inferPatternsAt_right ps a vars s₁ vars₁ s₂ ρ₁ a1.ok ha (hm.step a1.step) h2
    have e2 : t.sub ρ₂ = tList (a.sub ρ₂) := a2.after.step.eq (u := tList a) e1
    refine ⟨ρ₂, [] ++ B, (Adds.ofAfter a1).trans a2, e2.symm, ?_⟩
    simp only [PTyped]
    exact ⟨_, e2, p2⟩
  | .list ps (some q), t, vars, s, u, vars', s', ρ, ho, ht, hm, h => by
    simp only [inferPattern, bind_ok, pure_ok, Prod.mk.injEq, Prod.exists] at h
    obtain ⟨a, s₁, h1, vars₁, s₂, h2, _, vars₂, s₃, h3, ⟨rfl, rfl⟩, rfl⟩ := h
    obtain ⟨ρ₁, a1, e1⟩ := listElement_right (R := R) ho h1
    have ha : Clean R (a.sub ρ₁) := Clean.list.1 (by rw [← e1]; exact a1.step.clean ht)
    obtain ⟨ρ₂, B, a2, p2⟩ := inferPatternsAt_right ps a vars s₁ vars₁ s₂ ρ₁ a1.ok ha (hm.step a1.step) h2
    obtain ⟨ρ₃, C, a3, e3, p3⟩ := inferPattern_right q (tList a) vars₁ s₂ _ vars₂ s₃ ρ₂ a2.after.ok (Clean.list.2 (a2.after.step.clean ha))
      ((hm.step a1.step).step a2.after.step) h3
    have e2 : t.sub ρ₃ = tList (a.sub ρ₃) := (a2.after.step.trans a3.after.step).eq (u := tList a) e1
    refine ⟨ρ₃, [] ++ (B ++ C), (Adds.ofAfter a1).trans (a2.trans a3), e2.symm, ?_⟩
    simp only [PTyped]
    exact ⟨_, readLocals ρ₃ B, readLocals ρ₃ C, e2, p2.step a3.after.step, p3, by rw [List.nil_append, readLocals_append]⟩
  | .tuple ps, t, vars, s, u, vars', s', ρ, ho, ht, hm, h => by
    simp only [inferPattern, bind_ok] at h
    obtain ⟨v, s₁, h1, h2⟩ := h
    obtain ⟨rfl, h3, h4⟩ := collapseI_right ho h1
    cases v with
    | tuple ts =>
      simp only at h2
      by_cases hl : ps.length = ts.length
      · rw [if_pos hl] at h2
        simp only [bind_ok, pure_ok, Prod.mk.injEq, Prod.exists] at h2
        obtain ⟨us, vars₁, s₂, h5, ⟨rfl, rfl⟩, rfl⟩ := h2
        obtain ⟨ρ₁, B, a1, e1, p1⟩ := inferPatterns_right ps ts vars s₁ us vars₁ s₂ ρ ho (Clean.tuple.1 (by rw [← h3] at ht; exact ht)) hm h5
        have e2 : t.sub ρ₁ = .tuple (ts.sub ρ₁) := (a1.after.step.eq (t := .tuple ts) h3).symm
        refine ⟨ρ₁, B, a1, ?_, ?_⟩
        · simp only [Ty.sub, e1, e2]
        · simp only [PTyped]
          exact ⟨_, e2, p1⟩
      · rw [if_neg hl, reject_ok] at h2
        exact h2.elim
    | var c =>
      simp only [bind_ok, pure_ok, Prod.mk.injEq, Prod.exists] at h2
      obtain ⟨ts, s₂, h5, _, s₃, h6, us, vars₁, s₄, h7, ⟨rfl, rfl⟩, rfl⟩ := h2
      obtain ⟨a1, c1, _, _⟩ := freshes_right (R := R) _ ho h5
      obtain ⟨ρ₂, a2, e2⟩ := unifyI_right (R := R) (t := .tuple ts) a1.ok (Clean.tuple.2 c1) ht h6
      obtain ⟨ρ₃, B, a3, e3, p3⟩ := inferPatterns_right ps ts vars s₃ us vars₁ s₄ ρ₂ a2.ok (a2.step.cleans c1) (hm.step a2.step) h7
      have e4 : t.sub ρ₃ = .tuple (ts.sub ρ₃) := (a3.after.step.eq (t := .tuple ts) e2).symm
      refine ⟨ρ₃, [] ++ B, (Adds.ofAfter (a1.trans a2)).trans a3, ?_, ?_⟩
      · simp only [Ty.sub, e3, e4]
      · simp only [PTyped]
        exact ⟨_, e4, p3⟩
    | named | fn => simp only [reject_ok] at h2
  | .ctor x ps, t, vars, s, u, vars', s', ρ, ho, ht, hm, h => by
    simp only [inferPattern] at h
    generalize hf : findConstructor g.types x = d at h
    rcases d with _ | ⟨r, v⟩
    · simp only [reject_ok] at h
    simp only [bind_ok, Prod.exists] at h
    obtain ⟨c, ids, s₁, h1, h2⟩ := h
    obtain ⟨hr, hv, rfl⟩ := findConstructor_some hf
    have hct : r.type ∈ g.customTypes := List.mem_map_of_mem hr
    obtain ⟨a1, c1, θ, e1⟩ := instScheme_nil (R := R) ho h1
    rw [constructor_sub] at e1
    cases c with
    | fn ts w =>
      have hne : v.fields ≠ [] := by
        intro hn
        simp [constructorType, hn, Ty.sub, CustomType.result] at e1
      have e1' : Ty.fn (ts.sub ρ) (w.sub ρ) = .fn (fieldTypes (fun i => θ (r.base + i)) v.fields) (r.type.result fun i => θ (r.base + i)) := by
        unfold constructorType at e1
        split at e1
        · next hn => exact absurd hn hne
        · exact e1
      simp only [Ty.fn.injEq] at e1'
      simp only [bind_ok, pure_ok, check_ok, Prod.mk.injEq, Prod.exists] at h2
      obtain ⟨_, s₂, h3, _, _, ⟨_, rfl⟩, _, vars₁, s₃, h4, ⟨rfl, rfl⟩, rfl⟩ := h2
      have c2 := Clean.fn.1 c1
      obtain ⟨ρ₂, a2, e2⟩ := unifyI_right (R := R) a1.ok ht c2.2 h3
      obtain ⟨ρ₃, B, a3, e3, p3⟩ := inferPatterns_right ps ts vars s₂ _ vars₁ s₃ ρ₂ a2.ok (a2.step.cleans c2.1) (hm.step a2.step) h4
      have e4 := a3.after.step.eq e2
      refine ⟨ρ₃, [] ++ B, (Adds.ofAfter (a1.trans a2)).trans a3, e4.symm, ?_⟩
      obtain ⟨σ, _, hσ⟩ := a2.step.trans a3.after.step
      have e5 : ts.sub ρ₃ = fieldTypes (fun i => (θ (r.base + i)).sub σ.leaf) v.fields := by
        rw [hσ, subs_on, e1'.1, fieldTypes_sub]
      have e6 : w.sub ρ₃ = r.type.result fun i => (θ (r.base + i)).sub σ.leaf := by
        rw [hσ, sub_on, e1'.2, Assignment.on, result_sub]
      simp only [PTyped]
      refine ⟨r.type, hct, v, hv, rfl, fun i => (θ (r.base + i)).sub σ.leaf, e4.trans e6, ?_⟩
      rw [← e5]
      exact p3
    | named m x as =>
      have hn : v.fields = [] := by
        by_contra hne
        unfold constructorType at e1
        split at e1
        · next hn => exact hne hn
        · cases e1
      have e1' : Ty.sub ρ (.named m x as) = r.type.result fun i => θ (r.base + i) := by
        rw [e1]; unfold constructorType; rw [hn]
      simp only [bind_ok, pure_ok, check_ok, Prod.mk.injEq] at h2
      obtain ⟨_, s₂, h3, _, _, ⟨hp, rfl⟩, ⟨rfl, rfl⟩, rfl⟩ := h2
      obtain ⟨ρ₂, a2, e2⟩ := unifyI_right (R := R) a1.ok ht c1 h3
      obtain ⟨σ, _, hσ⟩ := a2.step
      refine ⟨ρ₂, [], Adds.ofAfter (a1.trans a2), e2.symm, ?_⟩
      have e6 : Ty.sub ρ₂ (.named m x as) = r.type.result fun i => (θ (r.base + i)).sub σ.leaf := by
        rw [hσ, sub_on, e1', Assignment.on, result_sub]
      simp only [PTyped]
      refine ⟨r.type, hct, v, hv, rfl, fun i => (θ (r.base + i)).sub σ.leaf, e2.trans e6, ?_⟩
      rw [hn]
      cases ps with
      | nil => simp only [PTypedAll, fieldTypes, readLocals, List.map]; exact ⟨trivial, trivial⟩
      | cons => simp at hp
    | var | tuple => simp only [outOfFuel_ok] at h2

theorem inferPatterns_right {R : List Nat} {n : Nat} {g : Globals} {mode : PMode} : ∀ (ps : List Pattern) (ts : Tys Cell) (vars : Locals) (s : St) (us : Tys Cell)
    (vars' : Locals) (s' : St) (ρ : Cell → Tree), Ok s ρ → Cleans R (ts.sub ρ) → CleanMode R ρ mode → inferPatterns n g mode ps ts vars s = .ok ((us, vars'), s') →
    ∃ ρ' B, Adds R mode s ρ vars s' ρ' vars' B ∧ us.sub ρ' = ts.sub ρ' ∧ PTypedAll g.customTypes ps (ts.sub ρ') (readLocals ρ' B)
  | [], .nil, vars, s, us, vars', s', ρ, ho, ht, hm, h => by
    simp only [inferPatterns, pure_ok, Prod.mk.injEq] at h
    obtain ⟨⟨rfl, rfl⟩, rfl⟩ := h
    exact ⟨ρ, [], .refl ho, rfl, by simp only [PTypedAll, readLocals, List.map, Tys.sub]; exact ⟨trivial, trivial⟩⟩
  | [], .cons t ts, vars, s, us, vars', s', ρ, ho, ht, hm, h => by simp only [inferPatterns, reject_ok] at h
  | p :: ps, .nil, vars, s, us, vars', s', ρ, ho, ht, hm, h => by simp only [inferPatterns, reject_ok] at h
  | p :: ps, .cons t ts, vars, s, us, vars', s', ρ, ho, ht, hm, h => by
    simp only [inferPatterns, bind_ok, pure_ok, Prod.mk.injEq, Prod.exists] at h
    obtain ⟨u, vars₁, s₁, h1, vs, vars₂, s₂, h2, ⟨rfl, rfl⟩, rfl⟩ := h
    have hc := Cleans.cons.1 ht
    obtain ⟨ρ₁, B, a1, e1, p1⟩ := inferPattern_right p t vars s u vars₁ s₁ ρ ho hc.1 hm h1
    obtain ⟨ρ₂, C, a2, e2, p2⟩ := inferPatterns_right ps ts vars₁ s₁ vs vars₂ s₂ ρ₁ a1.after.ok (a1.after.step.cleans hc.2) (hm.step a1.after.step) h2
    refine ⟨ρ₂, B ++ C, a1.trans a2, ?_, ?_⟩
    · simp only [Tys.sub, a2.after.step.eq e1, e2]
    · simp only [PTypedAll, Tys.sub]
      exact ⟨_, _, readLocals ρ₂ B, readLocals ρ₂ C, rfl, p1.step a2.after.step, p2, readLocals_append _ _ _⟩

theorem inferPatternsAt_right {R : List Nat} {n : Nat} {g : Globals} {mode : PMode} : ∀ (ps : List Pattern) (t : Ty Cell) (vars : Locals) (s : St)
    (vars' : Locals) (s' : St) (ρ : Cell → Tree), Ok s ρ → Clean R (t.sub ρ) → CleanMode R ρ mode → inferPatternsAt n g mode ps t vars s = .ok (vars', s') →
    ∃ ρ' B, Adds R mode s ρ vars s' ρ' vars' B ∧ PTypedAt g.customTypes ps (t.sub ρ') (readLocals ρ' B)
  | [], t, vars, s, vars', s', ρ, ho, ht, hm, h => by
    simp only [inferPatternsAt, pure_ok] at h
    obtain ⟨rfl, rfl⟩ := h
    exact ⟨ρ, [], .refl ho, by simp only [PTypedAt, readLocals, List.map]⟩
  | p :: ps, t, vars, s, vars', s', ρ, ho, ht, hm, h => by
    simp only [inferPatternsAt, bind_ok, Prod.exists] at h
    obtain ⟨u, vars₁, s₁, h1, h2⟩ := h
    obtain ⟨ρ₁, B, a1, e1, p1⟩ := inferPattern_right p t vars s u vars₁ s₁ ρ ho ht hm h1
    obtain ⟨ρ₂, C, a2, p2⟩ := inferPatternsAt_right ps t vars₁ s₁ vars' s' ρ₁ a1.after.ok (a1.after.step.clean ht) (hm.step a1.after.step) h2
    refine ⟨ρ₂, B ++ C, a1.trans a2, ?_⟩
    simp only [PTypedAt]
    exact ⟨readLocals ρ₂ B, readLocals ρ₂ C, p1.step a2.after.step, p2, readLocals_append _ _ _⟩

end

end Verif.Infer
