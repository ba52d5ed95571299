import Verif.JsNames.Names
import Mathlib.Data.List.Nodup
import Mathlib.Order.Nat

namespace Verif.JsNames

/-- The counter the next variable of a name gets. -/
def next (s : Scope) (name : Name) : Nat := max (after (s.counter name)) (after (s.high name))

theorem lt_next {s : Scope} {name : Name} {n : Nat} (h : s.counter name = some n) : n < next s name := by
  unfold next
  rw [h]
  simp only [after]
  omega

theorem counter_advance (s : Scope) (a b : Name) :
    (s.advanceCounter a).counter b = if b = a then some (next s a) else s.counter b := by
  cases a <;> cases b <;> simp [Scope.advanceCounter, Scope.setCounter, Scope.counter, set, next]

theorem highWater_advance (s : Scope) (a : Name) (x : Ident) :
    (s.advanceCounter a).highWater x = if .user x = a then some (next s a) else s.highWater x := by
  cases a <;> simp [Scope.advanceCounter, Scope.setCounter, set, next]

theorem next_advance (s : Scope) (a b : Name) : next (s.advanceCounter a) b = if b = a then next s a + 1 else next s b := by
  have hh : (s.advanceCounter a).high b = match b with | .user x => if .user x = a then some (next s a) else s.highWater x | .synth _ => none := by
    cases b with
    | user x => exact highWater_advance s a x
    | synth k => rfl
  unfold next
  rw [counter_advance, hh]
  cases b with
  | user x =>
    by_cases h : Name.user x = a
    · simp [h, after, next]
    · simp [h, Scope.high]
  | synth k =>
    by_cases h : Name.synth k = a
    · subst h
      simp [after, next, Scope.high]
    · simp [h, Scope.high]

theorem nextLocalVar_eq (s : Scope) (a : Name) : s.nextLocalVar a = (localName a (next s a), s.advanceCounter a) := by
  unfold Scope.nextLocalVar Scope.localVar
  rw [counter_advance]
  simp

theorem localVar_eq {s : Scope} {a : Name} {n : Nat} (h : s.counter a = some n) : s.localVar a = (localName a n, s) := by
  unfold Scope.localVar
  rw [h]

/-- How the scope develops within one JavaScript scope. -/
structure Grow (s s' : Scope) : Prop where
  mono : ∀ a, next s a ≤ next s' a
  high : ∀ x, after (s.highWater x) ≤ after (s'.highWater x)
  user : ∀ x a, s.user x = some a → ∃ b, s'.user x = some b ∧ b + 1 ≤ max (a + 1) (after (s'.highWater x))

theorem Grow.refl (s : Scope) : Grow s s := ⟨fun _ => le_refl _, fun _ => le_refl _, fun x a h => ⟨a, h, by omega⟩⟩

theorem Grow.trans {a b c : Scope} (h : Grow a b) (h' : Grow b c) : Grow a c := by
  refine ⟨fun n => (h.mono n).trans (h'.mono n), fun x => (h.high x).trans (h'.high x), fun x n hn => ?_⟩
  obtain ⟨m, hm, h1⟩ := h.user x n hn
  obtain ⟨k, hk, h2⟩ := h'.user x m hm
  have := h'.high x
  exact ⟨k, hk, by omega⟩

theorem grow_advance (s : Scope) (a : Name) : Grow s (s.advanceCounter a) := by
  refine ⟨fun b => ?_, fun x => ?_, fun x n hn => ?_⟩
  · rw [next_advance]
    split
    · rename_i h
      rw [h]
      omega
    · exact le_refl _
  · rw [highWater_advance]
    split
    · rename_i h
      subst h
      simp only [next, Scope.high, after]
      omega
    · exact le_refl _
  · have hc := counter_advance s a (.user x)
    simp only [Scope.counter] at hc
    rw [hc, highWater_advance]
    by_cases h : Name.user x = a
    · simp only [h, if_true, after]
      exact ⟨_, rfl, by omega⟩
    · simp only [h, if_false]
      exact ⟨n, hn, by omega⟩

theorem grow_localVar (s : Scope) (a : Name) : Grow s (s.localVar a).2 := by
  unfold Scope.localVar
  cases h : s.counter a with
  | some n => exact Grow.refl s
  | none =>
    simp only
    refine ⟨fun b => ?_, fun x => ?_, fun x n hn => ?_⟩
    · have hc : next (s.setCounter a 0) b = if b = a then max 1 (after (s.high a)) else next s b := by
        cases a <;> cases b <;> simp only [next, Scope.setCounter, Scope.counter, Scope.high, set, Name.user.injEq, Name.synth.injEq,
          reduceCtorEq, if_false] <;> split <;> simp_all [after]
      rw [hc]
      split
      · rename_i hb
        rw [hb, next, h]
        simp only [after]
        omega
      · exact le_refl _
    · cases a <;> exact le_refl _
    · cases a with
      | synth k => exact ⟨n, hn, by omega⟩
      | user y =>
        simp only [Scope.counter] at h
        have : x ≠ y := by
          rintro rfl
          rw [h] at hn
          cases hn
        exact ⟨n, by simp [Scope.setCounter, set, this, hn], by omega⟩

theorem next_restore {s t : Scope} (h : Grow s t) (a : Name) : next t a ≤ next (t.restoreUser s.user) a := by
  cases a with
  | synth k => exact le_refl _
  | user x =>
    simp only [next, Scope.counter, Scope.high, Scope.restoreUser]
    cases hx : s.user x with
    | none => exact le_refl _
    | some n =>
      obtain ⟨m, hm, hle⟩ := h.user x n hx
      rw [hm]
      simp only [after] at hle ⊢
      omega

theorem grow_restore {s t : Scope} (h : Grow s t) : Grow s (t.restoreUser s.user) := by
  refine ⟨fun a => (h.mono a).trans (next_restore h a), h.high, fun x n hn => ?_⟩
  exact ⟨n, by simp [Scope.restoreUser, hn], by omega⟩

/-- What the generator's output declares.  `g`: variables of a guard may be among it. -/
structure Bound (g : Bool) (s : Scope) (js : Js) (s' : Scope) : Prop where
  grow : Grow s s'
  names : ∀ d ∈ js.names, ∃ a n, d = localName a n ∧ next s a ≤ n ∧ (g = false → n < next s' a)
  nodup : js.names.Nodup
  legal : js.Legal

theorem names_append (a b : Js) : (a.append b).names = a.names ++ b.names := by
  induction a with
  | done => rfl
  | use n rest ih => exact ih
  | decl id n rest ih => simp [Js.append, Js.names, ih]
  | block body rest _ ih => exact ih
  | function params body rest _ ih => exact ih

theorem legal_append {a b : Js} (ha : a.Legal) (hb : b.Legal) : (a.append b).Legal := by
  induction a with
  | done => exact hb
  | use n rest ih => exact ih ha
  | decl id n rest ih => exact ih ha
  | block body rest _ ih => exact ⟨ha.1, ha.2.1, ih ha.2.2⟩
  | function params body rest _ ih => exact ⟨ha.1, ha.2.1, ih ha.2.2⟩

theorem setParams_user (ps : List (Nat × Ident)) (s : Scope) (x : Ident) :
    (setParams s ps).user x = if x ∈ ps.map (·.2) then some 0 else s.user x := by
  induction ps generalizing s with
  | nil => simp [setParams]
  | cons p ps ih =>
    obtain ⟨id, y⟩ := p
    simp only [setParams, ih, List.map_cons, List.mem_cons]
    by_cases h : x ∈ ps.map (·.2)
    · simp [h]
    · by_cases hy : x = y
      · simp [hy, Scope.setCounter, set]
      · simp [h, hy, Scope.setCounter, set]

theorem setParams_other (ps : List (Nat × Ident)) (s : Scope) :
    (setParams s ps).highWater = s.highWater ∧ (setParams s ps).synth = s.synth := by
  induction ps generalizing s with
  | nil => exact ⟨rfl, rfl⟩
  | cons p ps ih => exact ih _

/-- Declaring one variable and going on. -/
theorem bound_decl {g : Bool} {s s' : Scope} {a : Name} {js : Js} (id : Nat) (h : Bound g (s.advanceCounter a) js s') :
    Bound g s (.decl id (localName a (next s a)) js) s' := by
  have hg := grow_advance s a
  refine ⟨hg.trans h.grow, fun d hd => ?_, ?_, h.legal⟩
  · simp only [Js.names, List.mem_cons] at hd
    rcases hd with rfl | hd
    · refine ⟨a, _, rfl, le_refl _, fun _ => ?_⟩
      have := h.grow.mono a
      rw [next_advance, if_pos rfl] at this
      omega
    · obtain ⟨b, n, he, h1, h2⟩ := h.names d hd
      exact ⟨b, n, he, (hg.mono b).trans h1, h2⟩
  · simp only [Js.names, List.nodup_cons]
    refine ⟨fun hd => ?_, h.nodup⟩
    obtain ⟨b, n, he, h1, _⟩ := h.names _ hd
    obtain ⟨rfl, rfl⟩ := localName_inj he
    rw [next_advance, if_pos rfl] at h1
    omega

theorem paramNames (ps : List (Nat × Ident)) :
    (ps.map fun p => (p.1, maybeEscape p.2.1)).map (·.2) = (ps.map (·.2)).map fun x => localName (.user x) 0 := by
  simp only [List.map_map]
  rfl

theorem compile_names_nil : ∀ (c : Code) (s : Scope) (st : Stored), c.declares = false → (compile s st c).1.names = []
  | .done, _, _, _ => rfl
  | .ref x rest, s, st, h => compile_names_nil rest (s.localVar (.user x)).2 st h
  | .bind _ _ _, _, _, h => by simp [Code.declares] at h
  | .store _ _ _, _, _, h => by simp [Code.declares] at h
  | .useStored _ rest, s, st, h => compile_names_nil rest s st h
  | .branch _ rest, s, st, h => compile_names_nil rest s st h
  | .function _ _ rest, s, st, h => compile_names_nil rest s st h
  | .direct body rest, s, st, h => by
    simp only [Code.declares, Bool.or_eq_false_iff] at h
    simp only [compile, names_append, compile_names_nil body s st h.1, compile_names_nil rest _ st h.2, List.append_nil]
  | .block body rest, s, st, h => compile_names_nil rest (compile s st body).2 st h
  | .scoped body rest, s, st, h => by
    simp only [Code.declares, Bool.or_eq_false_iff] at h
    simp only [compile, names_append, compile_names_nil body s st h.1, compile_names_nil rest _ st h.2, List.append_nil]
  | .assert [] _ rest, s, st, h => compile_names_nil rest s st h
  | .assert (_ :: _) _ _, _, _, h => by simp [Code.declares] at h

theorem bound_decls {g : Bool} {s' : Scope} {js : Js} : ∀ (vars : List (Nat × Ident)) (s : Scope), Bound g (nextVars s vars).2 js s' →
    Bound g s (.decls (nextVars s vars).1 js) s'
  | [], _, h => h
  | (id, x) :: vars, s, h => by
    simp only [nextVars, nextLocalVar_eq, Js.decls] at h ⊢
    exact bound_decl (a := .user x) id (bound_decls vars _ h)

theorem compile_bound : ∀ (c : Code) (s : Scope) (st : Stored), c.ParamsDistinct → c.GuardsLast →
    Bound c.guarded s (compile s st c).1 (compile s st c).2
  | .done, s, st, _, _ => ⟨Grow.refl s, by simp [compile, Js.names], by simp [compile, Js.names], trivial⟩
  | .ref x rest, s, st, hp, hl => by
    have h := compile_bound rest (s.localVar (.user x)).2 st hp hl
    have hg := grow_localVar s (.user x)
    exact ⟨hg.trans h.grow, fun d hd => by
      obtain ⟨a, n, he, h1, h2⟩ := h.names d hd
      exact ⟨a, n, he, (hg.mono a).trans h1, h2⟩, h.nodup, h.legal⟩
  | .bind id x rest, s, st, hp, hl => by
    have h := bound_decl (s := s) (a := .user x) id (compile_bound rest (s.advanceCounter (.user x)) st hp hl)
    simp only [compile, nextLocalVar_eq]
    exact h
  | .store id k rest, s, st, hp, hl => by
    have h := bound_decl (s := s) (a := .synth k) id
      (compile_bound rest (s.advanceCounter (.synth k)) (st.add id (localName (.synth k) (next s (.synth k)))) hp hl)
    simp only [compile, nextLocalVar_eq]
    exact h
  | .useStored id rest, s, st, hp, hl => by
    have h := compile_bound rest s st hp hl
    exact ⟨h.grow, h.names, h.nodup, h.legal⟩
  | .branch body rest, s, st, hp, hl => by
    have hb := compile_bound body s st hp.1 hl.1
    have h := compile_bound rest s st hp.2 hl.2
    exact ⟨h.grow, h.names, h.nodup, hb.nodup, hb.legal, h.legal⟩
  | .function ps body rest, s, st, hp, hl => by
    have hb := compile_bound body (setParams s ps) st hp.2.1 hl.1
    have h := compile_bound rest s st hp.2.2 hl.2
    refine ⟨h.grow, h.names, h.nodup, ?_, hb.legal, h.legal⟩
    rw [paramNames, List.nodup_append]
    refine ⟨hp.1.map fun x y hxy => ?_, hb.nodup, ?_⟩
    · have := (localName_inj hxy).1
      cases this
      rfl
    · intro d hd e he hde
      subst hde
      rw [List.mem_map] at hd
      obtain ⟨x, hx, rfl⟩ := hd
      obtain ⟨a, n, heq, h1, _⟩ := hb.names _ he
      obtain ⟨rfl, rfl⟩ := localName_inj heq
      have : (setParams s ps).counter (.user x) = some 0 := by
        simp only [Scope.counter, setParams_user, if_pos hx]
      have := lt_next this
      omega
  | .direct body rest, s, st, hp, hl => by
    have hb := compile_bound body s st hp.1 hl.1
    have h := compile_bound rest ((compile s st body).2.restoreUser s.user) st hp.2 hl.2.1
    have hg := grow_restore hb.grow
    have hr := next_restore hb.grow
    refine ⟨hg.trans h.grow, fun d hd => ?_, ?_, legal_append hb.legal h.legal⟩
    · simp only [compile, names_append, List.mem_append] at hd
      rcases hd with hd | hd
      · obtain ⟨a, n, he, h1, h2⟩ := hb.names d hd
        refine ⟨a, n, he, h1, fun hf => ?_⟩
        simp only [Code.guarded, Bool.or_eq_false_iff] at hf
        exact ((h2 hf.1).trans_le (hr a)).trans_le (h.grow.mono a)
      · obtain ⟨a, n, he, h1, h2⟩ := h.names d hd
        refine ⟨a, n, he, (hg.mono a).trans h1, fun hf => ?_⟩
        simp only [Code.guarded, Bool.or_eq_false_iff] at hf
        exact h2 hf.2
    · simp only [compile, names_append]
      rw [List.nodup_append]
      refine ⟨hb.nodup, h.nodup, ?_⟩
      intro d hd e he hde
      subst hde
      rcases hl.2.2 with hf | hf
      · obtain ⟨a, n, he1, h1, h2⟩ := hb.names d hd
        obtain ⟨b, m, he2, h3, _⟩ := h.names d he
        rw [he1] at he2
        obtain ⟨rfl, rfl⟩ := localName_inj he2
        have := hr a
        have := h2 hf
        omega
      · rw [compile_names_nil _ _ _ hf] at he
        cases he
  | .block body rest, s, st, hp, hl => by
    have hb := compile_bound body s st hp.1 hl.1
    have h := compile_bound rest (compile s st body).2 st hp.2 hl.2
    exact ⟨hb.grow.trans h.grow, fun d hd => by
      obtain ⟨a, n, he, h1, h2⟩ := h.names d hd
      exact ⟨a, n, he, (hb.grow.mono a).trans h1, h2⟩, h.nodup, hb.nodup, hb.legal, h.legal⟩
  | .scoped body rest, s, st, hp, hl => by
    have hb := compile_bound body s st hp.1 hl.1
    have h := compile_bound rest s st hp.2 hl.2.1
    refine ⟨h.grow, fun d hd => ?_, ?_, legal_append hb.legal h.legal⟩
    · simp only [compile, names_append, List.mem_append] at hd
      rcases hd with hd | hd
      · obtain ⟨a, n, he, h1, h2⟩ := hb.names d hd
        refine ⟨a, n, he, h1, fun hf => ?_⟩
        simp only [Code.guarded, Bool.or_eq_false_iff] at hf
        rw [compile_names_nil _ _ _ hf.1] at hd
        cases hd
      · obtain ⟨a, n, he, h1, h2⟩ := h.names d hd
        refine ⟨a, n, he, h1, fun hf => ?_⟩
        simp only [Code.guarded, Bool.or_eq_false_iff] at hf
        exact h2 hf.2
    · simp only [compile, names_append]
      rcases hl.2.2 with hf | hf
      · rw [compile_names_nil _ _ _ hf]
        exact h.nodup
      · rw [compile_names_nil rest _ _ hf, List.append_nil]
        exact hb.nodup
  | .assert vars message rest, s, st, hp, hl => by
    have hb := compile_bound message (nextVars s vars).2 st hp.1 hl.1
    have h := compile_bound rest (nextVars s vars).2 st hp.2 hl.2
    have hblock : Bound rest.guarded (nextVars s vars).2
        (.block (compile (nextVars s vars).2 st message).1 (compile (nextVars s vars).2 st rest).1)
        (compile (nextVars s vars).2 st rest).2 :=
      ⟨h.grow, h.names, h.nodup, hb.nodup, hb.legal, h.legal⟩
    exact bound_decls vars s hblock

/-! ### Resolution -/

theorem lookup_declare_self {id : Nat} {n : Text} {f : Frame} {fs : List Frame} (h : n ∈ f.names) :
    lookup n (declare id n (f :: fs)) = some id := by
  simp [lookup, declare, h]

theorem lookup_declare_other {id : Nat} {n m : Text} {F : List Frame} (h : m ≠ n) : lookup m (declare id n F) = lookup m F := by
  cases F with
  | nil => rfl
  | cons f fs => simp [lookup, declare, Ne.symm h]

/-- The scopes after a piece of code. -/
def passed : Js → List Frame → List Frame
  | .done, F => F
  | .use _ rest, F => passed rest F
  | .decl id n rest, F => passed rest (declare id n F)
  | .block _ rest, F => passed rest F
  | .function _ _ rest, F => passed rest F

theorem resolveJs_append (a b : Js) (F : List Frame) : resolveJs F (a.append b) = resolveJs F a ++ resolveJs (passed a F) b := by
  induction a generalizing F with
  | done => rfl
  | use n rest ih => simp [Js.append, resolveJs, passed, ih]
  | decl id n rest ih => simp [Js.append, resolveJs, passed, ih]
  | block body rest _ ih => simp [Js.append, resolveJs, passed, ih]
  | function params body rest _ ih => simp [Js.append, resolveJs, passed, ih]

theorem lookup_passed {m : Text} (js : Js) (F : List Frame) (h : m ∉ js.names) : lookup m (passed js F) = lookup m F := by
  induction js generalizing F with
  | done => rfl
  | use n rest ih => exact ih F h
  | decl id n rest ih =>
    simp only [Js.names, List.mem_cons, not_or] at h
    rw [passed, ih _ h.2, lookup_declare_other h.1]
  | block body rest _ ih => exact ih F h
  | function params body rest _ ih => exact ih F h

theorem passed_cons (js : Js) (f : Frame) (fs : List Frame) : ∃ f', passed js (f :: fs) = f' :: fs ∧ f'.names = f.names := by
  induction js generalizing f with
  | done => exact ⟨f, rfl, rfl⟩
  | use n rest ih => exact ih f
  | decl id n rest ih => exact ih { f with declared := (n, id) :: f.declared }
  | block body rest _ ih => exact ih f
  | function params body rest _ ih => exact ih f

/-- The names in use mean what they should. -/
structure Inv (G : Ident → Option Nat) (V : List Nat) (s : Scope) (st : Stored) (F : List Frame) : Prop where
  env : ∀ x id, G x = some id → ∃ n, s.user x = some n ∧ lookup (localName (.user x) n) F = some id
  stored : ∀ id ∈ V, ∃ k n, st id = localName (.synth k) n ∧ n < next s (.synth k) ∧ lookup (st id) F = some id

theorem not_mem_names {g : Bool} {s s' : Scope} {js : Js} (h : Bound g s js s') {a : Name} {n : Nat} (hn : n < next s a) : localName a n ∉ js.names := by
  intro hm
  obtain ⟨b, m, he, h1, _⟩ := h.names _ hm
  obtain ⟨rfl, rfl⟩ := localName_inj he
  omega

theorem inv_branch {G : Ident → Option Nat} {V : List Nat} {s s' : Scope} {st : Stored} {F : List Frame} {js : Js} {g : Bool} (hi : Inv G V s st F)
    (hb : Bound g s js s') : Inv G V s st (⟨js.names, []⟩ :: F) := by
  refine ⟨fun x id hx => ?_, fun id hv => ?_⟩
  · obtain ⟨n, hn, hl⟩ := hi.env x id hx
    refine ⟨n, hn, ?_⟩
    rw [lookup, if_neg (not_mem_names hb (lt_next (name := .user x) hn)), hl]
  · obtain ⟨k, n, hs, hn, hl⟩ := hi.stored id hv
    refine ⟨k, n, hs, hn, ?_⟩
    rw [lookup, if_neg (by rw [hs]; exact not_mem_names hb hn), hl]

theorem find_params (ps : List (Nat × Ident)) (x : Ident) :
    (((ps.map fun p => (p.1, maybeEscape p.2.1)).map fun p => (p.2, p.1)).find? (·.1 = localName (.user x) 0)).map (·.2) =
      (ps.find? (·.2 = x)).map (·.1) := by
  induction ps with
  | nil => rfl
  | cons p ps ih =>
    obtain ⟨id, y⟩ := p
    simp only [List.map_cons, List.find?_cons]
    by_cases h : y = x
    · subst h
      have : maybeEscape y.1 = localName (.user y) 0 := rfl
      simp [this]
    · have hne : ¬ maybeEscape y.1 = localName (.user x) 0 := by
        intro he
        have : localName (.user y) 0 = localName (.user x) 0 := he
        have := (localName_inj this).1
        cases this
        exact h rfl
      simp only [hne, h, decide_false]
      exact ih

theorem inv_function {G : Ident → Option Nat} {V : List Nat} {s s' : Scope} {st : Stored} {F : List Frame} {js : Js} {g : Bool} (hi : Inv G V s st F)
    (ps : List (Nat × Ident)) (hb : Bound g (setParams s ps) js s') :
    Inv (fun x => match ps.find? (·.2 = x) with | some p => some p.1 | none => G x) V (setParams s ps) st
      (⟨(ps.map fun p => (p.1, maybeEscape p.2.1)).map (·.2) ++ js.names,
        (ps.map fun p => (p.1, maybeEscape p.2.1)).map fun p => (p.2, p.1)⟩ :: F) := by
  have hnot : ∀ a n, (∀ x, a = .user x → x ∉ ps.map (·.2)) →
      localName a n ∉ (ps.map fun p => (p.1, maybeEscape p.2.1)).map (·.2) := by
    intro a n ha hm
    rw [paramNames, List.mem_map] at hm
    obtain ⟨x, hx, he⟩ := hm
    exact ha x (localName_inj he).1.symm hx
  refine ⟨fun x id hx => ?_, fun id hv => ?_⟩
  · cases hf : ps.find? (·.2 = x) with
    | some p =>
      rw [hf] at hx
      have hmem : x ∈ ps.map (·.2) := by
        have h1 := List.mem_of_find?_eq_some hf
        have h2 := List.find?_some hf
        simp only [decide_eq_true_eq] at h2
        rw [← h2]
        exact List.mem_map_of_mem h1
      refine ⟨0, by rw [setParams_user, if_pos hmem], ?_⟩
      have hn : localName (.user x) 0 ∈ (ps.map fun p => (p.1, maybeEscape p.2.1)).map (·.2) := by
        rw [paramNames]
        exact List.mem_map_of_mem (f := fun x => localName (.user x) 0) hmem
      rw [lookup, if_pos (List.mem_append_left _ hn), find_params, hf]
      exact hx
    | none =>
      rw [hf] at hx
      have hmem : x ∉ ps.map (·.2) := by
        intro hm
        rw [List.mem_map] at hm
        obtain ⟨p, hp, he⟩ := hm
        have := List.find?_eq_none.1 hf p hp
        simp [he] at this
      obtain ⟨n, hn, hl⟩ := hi.env x id hx
      have hu : (setParams s ps).user x = some n := by rw [setParams_user, if_neg hmem, hn]
      refine ⟨n, hu, ?_⟩
      rw [lookup, if_neg, hl]
      rw [List.mem_append, not_or]
      refine ⟨hnot _ n fun y hy => ?_, not_mem_names hb (lt_next (name := .user x) hu)⟩
      cases hy
      exact hmem
  · obtain ⟨k, n, hs, hn, hl⟩ := hi.stored id hv
    have hn' : n < next (setParams s ps) (.synth k) := by
      have := (setParams_other ps s).2
      simpa [next, Scope.counter, Scope.high, this] using hn
    refine ⟨k, n, hs, hn', ?_⟩
    rw [lookup, if_neg, hl]
    rw [List.mem_append, not_or, hs]
    exact ⟨hnot _ n (by simp), not_mem_names hb hn'⟩

theorem inv_bind {G : Ident → Option Nat} {V : List Nat} {s : Scope} {st : Stored} {f : Frame} {fs : List Frame} (hi : Inv G V s st (f :: fs))
    (id : Nat) (x : Ident) (hn : localName (.user x) (next s (.user x)) ∈ f.names) :
    Inv (set G x id) V (s.advanceCounter (.user x)) st (declare id (localName (.user x) (next s (.user x))) (f :: fs)) := by
  refine ⟨fun y i hy => ?_, fun i hv => ?_⟩
  · have hc := counter_advance s (.user x) (.user y)
    simp only [Scope.counter] at hc
    rw [hc]
    by_cases h : y = x
    · subst h
      simp only [set, if_true] at hy
      cases hy
      exact ⟨_, if_pos rfl, lookup_declare_self hn⟩
    · simp only [set, h, if_false] at hy
      obtain ⟨n, hn', hl⟩ := hi.env y i hy
      refine ⟨n, by simp [h, hn'], ?_⟩
      rw [lookup_declare_other, hl]
      intro he
      have := (localName_inj he).1
      cases this
      exact h rfl
  · obtain ⟨k, n, hs, hn', hl⟩ := hi.stored i hv
    refine ⟨k, n, hs, by rw [next_advance]; simpa using hn', ?_⟩
    rw [lookup_declare_other, hl]
    rw [hs]
    intro he
    have := (localName_inj he).1
    cases this

theorem inv_store {G : Ident → Option Nat} {V : List Nat} {s : Scope} {st : Stored} {f : Frame} {fs : List Frame} (hi : Inv G V s st (f :: fs))
    (id : Nat) (k : Synth) (hn : localName (.synth k) (next s (.synth k)) ∈ f.names) :
    Inv G (id :: V) (s.advanceCounter (.synth k)) (st.add id (localName (.synth k) (next s (.synth k))))
      (declare id (localName (.synth k) (next s (.synth k))) (f :: fs)) := by
  refine ⟨fun y i hy => ?_, fun i hv => ?_⟩
  · have hc := counter_advance s (.synth k) (.user y)
    simp only [Scope.counter] at hc
    rw [hc]
    obtain ⟨n, hn', hl⟩ := hi.env y i hy
    refine ⟨n, by simp [hn'], ?_⟩
    rw [lookup_declare_other, hl]
    intro he
    have := (localName_inj he).1
    cases this
  · by_cases h : i = id
    · subst h
      have he : (st.add i (localName (.synth k) (next s (.synth k)))) i = localName (.synth k) (next s (.synth k)) := by simp [Stored.add]
      refine ⟨k, _, he, by rw [next_advance]; simp, ?_⟩
      rw [he, lookup_declare_self hn]
    · simp only [List.mem_cons, h, false_or] at hv
      obtain ⟨k', n, hs, hn', hl⟩ := hi.stored i hv
      have he : (st.add id (localName (.synth k) (next s (.synth k)))) i = st i := by simp [Stored.add, h]
      refine ⟨k', n, he ▸ hs, ?_, ?_⟩
      · have := (grow_advance s (.synth k)).mono (.synth k')
        omega
      · rw [he, lookup_declare_other, hl]
        rw [hs]
        intro heq
        obtain ⟨h1, h2⟩ := localName_inj heq
        cases h1
        omega

theorem inv_direct {G : Ident → Option Nat} {V : List Nat} {s s' : Scope} {st : Stored} {F : List Frame} {js : Js} {g : Bool} (hi : Inv G V s st F)
    (hb : Bound g s js s') : Inv G V (s'.restoreUser s.user) st (passed js F) := by
  refine ⟨fun x id hx => ?_, fun id hv => ?_⟩
  · obtain ⟨n, hn, hl⟩ := hi.env x id hx
    refine ⟨n, by simp [Scope.restoreUser, hn], ?_⟩
    rw [lookup_passed _ _ (not_mem_names hb (lt_next (name := .user x) hn)), hl]
  · obtain ⟨k, n, hs, hn, hl⟩ := hi.stored id hv
    refine ⟨k, n, hs, hn.trans_le ((grow_restore hb.grow).mono _), ?_⟩
    rw [lookup_passed _ _ (by rw [hs]; exact not_mem_names hb hn), hl]

theorem inv_scoped {G : Ident → Option Nat} {V : List Nat} {s s' : Scope} {st : Stored} {F : List Frame} {js : Js} {g : Bool}
    (hi : Inv G V s st F) (hb : Bound g s js s') : Inv G V s st (passed js F) := by
  refine ⟨fun x id hx => ?_, fun id hv => ?_⟩
  · obtain ⟨n, hn, hl⟩ := hi.env x id hx
    exact ⟨n, hn, by rw [lookup_passed _ _ (not_mem_names hb (lt_next (name := .user x) hn)), hl]⟩
  · obtain ⟨k, n, hs, hn, hl⟩ := hi.stored id hv
    exact ⟨k, n, hs, hn, by rw [lookup_passed _ _ (by rw [hs]; exact not_mem_names hb hn), hl]⟩

/-- What is looked up depends only on the names that are used. -/
theorem resolve_congr : ∀ (c : Code) (G G' : Ident → Option Nat) (V : List Nat), (∀ x ∈ c.uses, G x = G' x) →
    resolve G V c = resolve G' V c
  | .done, _, _, _, _ => rfl
  | .ref x rest, G, G', V, h => by
    simp only [resolve]
    rw [h x (by simp [Code.uses]), resolve_congr rest G G' V fun y hy => h y (by simp [Code.uses, hy])]
  | .bind id x rest, G, G', V, h => by
    refine resolve_congr rest _ _ V fun y hy => ?_
    simp only [set]
    split
    · rfl
    · exact h y hy
  | .store id _ rest, G, G', V, h => resolve_congr rest G G' (id :: V) h
  | .useStored id rest, G, G', V, h => by
    simp only [resolve]
    rw [resolve_congr rest G G' V h]
  | .branch body rest, G, G', V, h => by
    simp only [resolve]
    rw [resolve_congr body G G' V fun y hy => h y (by simp [Code.uses, hy]),
      resolve_congr rest G G' V fun y hy => h y (by simp [Code.uses, hy])]
  | .function params body rest, G, G', V, h => by
    simp only [resolve]
    rw [resolve_congr rest G G' V fun y hy => h y (by simp [Code.uses, hy])]
    congr 1
    refine resolve_congr body _ _ V fun y hy => ?_
    cases params.find? (·.2 = y) with
    | some _ => rfl
    | none => exact h y (by simp [Code.uses, hy])
  | .direct body rest, G, G', V, h => by
    simp only [resolve]
    rw [resolve_congr body G G' V fun y hy => h y (by simp [Code.uses, hy]),
      resolve_congr rest G G' V fun y hy => h y (by simp [Code.uses, hy])]
  | .block body rest, G, G', V, h => by
    simp only [resolve]
    rw [resolve_congr body G G' V fun y hy => h y (by simp [Code.uses, hy]),
      resolve_congr rest G G' V fun y hy => h y (by simp [Code.uses, hy])]
  | .scoped body rest, G, G', V, h => by
    simp only [resolve]
    rw [resolve_congr body G G' V fun y hy => h y (by simp [Code.uses, hy]),
      resolve_congr rest G G' V fun y hy => h y (by simp [Code.uses, hy])]
  | .assert vars message rest, G, G', V, h => by
    simp only [resolve]
    rw [resolve_congr message G G' V fun y hy => h y (by simp [Code.uses, hy])]
    congr 1
    refine resolve_congr rest _ _ V fun y hy => ?_
    have hy' := h y (by simp [Code.uses, hy])
    clear h hy
    induction vars generalizing G G' with
    | nil => exact hy'
    | cons v vars ih =>
      refine ih _ _ ?_
      simp only [set]
      split
      · rfl
      · exact hy'

/-- Declaring the variables of the pattern of a `let assert`. -/
theorem inv_decls {js : Js} (fs : List Frame) {V : List Nat} {st : Stored} : ∀ (vars : List (Nat × Ident)) (G : Ident → Option Nat) (s : Scope)
    (f : Frame), Inv G V s st (f :: fs) → (∀ n ∈ (Js.decls (nextVars s vars).1 js).names, n ∈ f.names) →
    ∃ f', resolveJs (f :: fs) (.decls (nextVars s vars).1 js) = resolveJs (f' :: fs) js ∧ f'.names = f.names ∧
      Inv (vars.foldl (fun env v => set env v.2 v.1) G) V (nextVars s vars).2 st (f' :: fs)
  | [], _, _, f, hi, _ => ⟨f, rfl, rfl, hi⟩
  | (id, x) :: vars, G, s, f, hi, hn => by
    simp only [nextVars, nextLocalVar_eq, Js.decls, Js.names, List.mem_cons, forall_eq_or_imp, resolveJs, List.foldl_cons] at hn ⊢
    obtain ⟨f', h1, h2, h3⟩ := inv_decls fs vars _ _ _ (inv_bind hi id x hn.1) hn.2
    exact ⟨f', h1, h2, h3⟩

theorem decls_names (js : Js) : ∀ vars : List (Nat × Text), (Js.decls vars js).names = vars.map (·.2) ++ js.names
  | [] => rfl
  | (_, _) :: vars => by simp [Js.decls, Js.names, decls_names js vars]

theorem foldl_set_other {x : Ident} : ∀ (vars : List (Nat × Ident)) (G : Ident → Option Nat), (∀ v ∈ vars, v.2 ≠ x) →
    vars.foldl (fun env v => set env v.2 v.1) G x = G x
  | [], _, _ => rfl
  | v :: vars, G, h => by
    rw [List.foldl_cons, foldl_set_other vars _ fun w hw => h w (by simp [hw])]
    simp [set, (h v (by simp)).symm]

theorem resolveJs_compile : ∀ (c : Code) (G : Ident → Option Nat) (V : List Nat) (s : Scope) (st : Stored) (f : Frame) (fs : List Frame),
    c.ParamsDistinct → c.GuardsLast → c.MessagesPlain → c.BlocksLast → (∀ r ∈ resolve G V c, r ≠ none) → Inv G V s st (f :: fs) →
    (∀ n ∈ (compile s st c).1.names, n ∈ f.names) → resolveJs (f :: fs) (compile s st c).1 = resolve G V c
  | .done, _, _, _, _, _, _, _, _, _, _, _, _, _ => rfl
  | .ref x rest, G, V, s, st, f, fs, hp, hg, hm, hl, hw, hi, hn => by
    have hx := hw (G x) (by simp [resolve])
    obtain ⟨id, hid⟩ := Option.ne_none_iff_exists'.1 hx
    obtain ⟨n, hc, hlook⟩ := hi.env x id hid
    have hv := localVar_eq (a := .user x) hc
    simp only [compile, hv] at hn ⊢
    simp only [resolveJs, resolve, hlook, hid]
    rw [resolveJs_compile rest G V s st f fs hp hg hm hl (fun r hr => hw r (by simp [resolve, hr])) hi hn]
  | .bind id x rest, G, V, s, st, f, fs, hp, hg, hm, hl, hw, hi, hn => by
    simp only [compile, nextLocalVar_eq] at hn ⊢
    simp only [resolveJs, resolve]
    have hi' := inv_bind hi id x (hn _ (by simp [Js.names]))
    exact resolveJs_compile rest _ V _ st _ fs hp hg hm hl hw hi' fun n h => hn n (by simp [Js.names, h])
  | .store id k rest, G, V, s, st, f, fs, hp, hg, hm, hl, hw, hi, hn => by
    simp only [compile, nextLocalVar_eq] at hn ⊢
    simp only [resolveJs, resolve]
    have hi' := inv_store hi id k (hn _ (by simp [Js.names]))
    exact resolveJs_compile rest G _ _ _ _ fs hp hg hm hl hw hi' fun n h => hn n (by simp [Js.names, h])
  | .useStored id rest, G, V, s, st, f, fs, hp, hg, hm, hl, hw, hi, hn => by
    have hv : id ∈ V := by
      by_contra h
      exact hw none (by simp [resolve, h]) rfl
    obtain ⟨k, n, hs, _, hlook⟩ := hi.stored id hv
    simp only [compile] at hn ⊢
    simp only [resolveJs, resolve, hlook, hv, if_true]
    rw [resolveJs_compile rest G V s st f fs hp hg hm hl (fun r hr => hw r (by simp [resolve, hr])) hi hn]
  | .branch body rest, G, V, s, st, f, fs, hp, hg, hm, hl, hw, hi, hn => by
    simp only [compile] at hn ⊢
    simp only [resolveJs, resolve] at hw ⊢
    rw [resolveJs_compile rest G V s st f fs hp.2 hg.2 hm.2 hl.2 (fun r hr => hw r (by simp [hr])) hi hn,
      resolveJs_compile body G V s st _ (f :: fs) hp.1 hg.1 hm.1 hl.1 (fun r hr => hw r (by simp [hr])) (inv_branch hi (compile_bound body s st hp.1 hg.1))
        fun n h => h]
  | .function ps body rest, G, V, s, st, f, fs, hp, hg, hm, hl, hw, hi, hn => by
    simp only [compile] at hn ⊢
    simp only [resolveJs, resolve] at hw ⊢
    rw [resolveJs_compile rest G V s st f fs hp.2.2 hg.2 hm.2 hl.2 (fun r hr => hw r (by simp [hr])) hi hn]
    rw [resolveJs_compile body _ V (setParams s ps) st _ (f :: fs) hp.2.1 hg.1 hm.1 hl.1 (fun r hr => hw r (List.mem_append_left _ hr))
      (inv_function hi ps (compile_bound body (setParams s ps) st hp.2.1 hg.1)) fun n h => List.mem_append_right _ h]
  | .direct body rest, G, V, s, st, f, fs, hp, hg, hm, hl, hw, hi, hn => by
    simp only [compile] at hn ⊢
    simp only [resolve] at hw ⊢
    rw [resolveJs_append]
    have hb := compile_bound body s st hp.1 hg.1
    obtain ⟨f', hf, hnames⟩ := passed_cons (compile s st body).1 f fs
    have hi' := inv_direct hi hb
    rw [hf] at hi' ⊢
    rw [resolveJs_compile body G V s st f fs hp.1 hg.1 hm.1 hl.1 (fun r hr => hw r (by simp [hr])) hi fun n h => hn n (by simp [names_append, h]),
      resolveJs_compile rest G V _ st f' fs hp.2 hg.2.1 hm.2 hl.2 (fun r hr => hw r (by simp [hr])) hi' fun n h => by
        rw [hnames]
        exact hn n (by simp [names_append, h])]
  | .block body rest, G, V, s, st, f, fs, hp, hg, hm, hl, hw, hi, hn => by
    obtain ⟨hl, rfl⟩ := hl
    simp only [compile, resolveJs, resolve, List.append_nil] at hw ⊢
    exact resolveJs_compile body G V s st _ (f :: fs) hp.1 hg.1 hm.1 hl hw (inv_branch hi (compile_bound body s st hp.1 hg.1)) fun n h => h
  | .scoped body rest, G, V, s, st, f, fs, hp, hg, hm, hl, hw, hi, hn => by
    simp only [compile] at hn ⊢
    simp only [resolve] at hw ⊢
    rw [resolveJs_append]
    have hb := compile_bound body s st hp.1 hg.1
    obtain ⟨f', hf, hnames⟩ := passed_cons (compile s st body).1 f fs
    have hi' := inv_scoped hi hb
    rw [hf] at hi' ⊢
    rw [resolveJs_compile body G V s st f fs hp.1 hg.1 hm.1 hl.1 (fun r hr => hw r (by simp [hr])) hi fun n h => hn n (by simp [names_append, h]),
      resolveJs_compile rest G V _ st f' fs hp.2 hg.2.1 hm.2 hl.2 (fun r hr => hw r (by simp [hr])) hi' fun n h => by
        rw [hnames]
        exact hn n (by simp [names_append, h])]
  | .assert vars message rest, G, V, s, st, f, fs, hp, hg, hm, hl, hw, hi, hn => by
    simp only [compile] at hn ⊢
    simp only [resolve] at hw ⊢
    obtain ⟨f', h1, h2, hi'⟩ := inv_decls fs vars G s f hi hn
    have hb := compile_bound message (nextVars s vars).2 st hp.1 hg.1
    have hc : resolve (vars.foldl (fun env v => set env v.2 v.1) G) V message = resolve G V message :=
      resolve_congr message _ _ V fun x hx => foldl_set_other vars G fun v hv he => hm.1 v hv (he ▸ hx)
    rw [h1, resolveJs, resolveJs_compile message _ V _ st _ (f' :: fs) hp.1 hg.1 hm.2.1 hl.1
      (fun r hr => hw r (by rw [hc] at hr; simp [hr])) (inv_branch hi' hb) fun n h => h, hc]
    congr 1
    exact resolveJs_compile rest _ V _ st f' fs hp.2 hg.2 hm.2.2 hl.2 (fun r hr => hw r (by simp [hr])) hi' fun n h => by
      rw [h2]
      exact hn n (by simp [decls_names, Js.names, h])

end Verif.JsNames
