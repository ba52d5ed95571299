import Verif.Case.Tree
import Verif.Case.Orderly

/-!
# From orderly clauses to tidy branches
-/

namespace Verif.Case

variable {B : BitSys}

theorem foldr_cons_lits (q : Pat B) : ∀ ps : List (Pat B),
    (ps.foldr Pat.cons q).lits = Pat.litss ps ++ q.lits
  | [] => by simp [Pat.litss]
  | p :: ps => by simp [Pat.litss, Pat.lits, foldr_cons_lits q ps]

theorem foldr_cons_prefs (q : Pat B) : ∀ ps : List (Pat B),
    (ps.foldr Pat.cons q).prefs = Pat.prefss ps ++ q.prefs
  | [] => by simp [Pat.prefss]
  | p :: ps => by simp [Pat.prefss, Pat.prefs, foldr_cons_prefs q ps]

mutual
theorem register_lits : ∀ (p : SrcPat B) (n : Nat), (register n p).1.lits = p.strings
  | .discard, n => by simp only [register, Pat.lits, SrcPat.strings]
  | .var x, n => by simp only [register, Pat.lits, SrcPat.strings]
  | .assign x p, n => by simp only [register, Pat.lits, SrcPat.strings, register_lits p n]
  | .int i, n => by simp only [register, Pat.lits, SrcPat.strings]
  | .float f, n => by simp only [register, Pat.lits, SrcPat.strings]
  | .str s, n => by simp only [register, Pat.lits, SrcPat.strings]
  | .strPrefix s l r, n => by simp only [register, Pat.lits, SrcPat.strings]
  | .tuple ps, n => by simp only [register, Pat.lits, SrcPat.strings, registers_lits ps n]
  | .list es tail, n => by
    simp only [register, SrcPat.strings, foldr_cons_lits, registers_lits es, registerTail_lits tail]
  | .variant i ps, n => by simp only [register, Pat.lits, SrcPat.strings, registers_lits ps n]
  | .bits ts, n => by simp only [register, Pat.lits, SrcPat.strings]
theorem registers_lits : ∀ (ps : List (SrcPat B)) (n : Nat),
    Pat.litss (registers n ps).1 = SrcPat.stringss ps
  | [], n => by simp only [registers, Pat.litss, SrcPat.stringss]
  | p :: ps, n => by
    simp only [registers, Pat.litss, SrcPat.stringss, register_lits p, registers_lits ps]
theorem registerTail_lits : ∀ (p : Option (SrcPat B)) (n : Nat),
    (registerTail n p).1.lits = SrcPat.tailStrings p
  | none, n => by simp only [registerTail, Pat.lits, SrcPat.tailStrings]
  | some p, n => by simp only [registerTail, SrcPat.tailStrings, register_lits p n]
end

mutual
theorem register_prefs : ∀ (p : SrcPat B) (n : Nat), (register n p).1.prefs = p.prefixes
  | .discard, n => by simp only [register, Pat.prefs, SrcPat.prefixes]
  | .var x, n => by simp only [register, Pat.prefs, SrcPat.prefixes]
  | .assign x p, n => by simp only [register, Pat.prefs, SrcPat.prefixes, register_prefs p n]
  | .int i, n => by simp only [register, Pat.prefs, SrcPat.prefixes]
  | .float f, n => by simp only [register, Pat.prefs, SrcPat.prefixes]
  | .str s, n => by simp only [register, Pat.prefs, SrcPat.prefixes]
  | .strPrefix s l r, n => by simp only [register, Pat.prefs, SrcPat.prefixes]
  | .tuple ps, n => by simp only [register, Pat.prefs, SrcPat.prefixes, registers_prefs ps n]
  | .list es tail, n => by
    simp only [register, SrcPat.prefixes, foldr_cons_prefs, registers_prefs es,
      registerTail_prefs tail]
  | .variant i ps, n => by simp only [register, Pat.prefs, SrcPat.prefixes, registers_prefs ps n]
  | .bits ts, n => by simp only [register, Pat.prefs, SrcPat.prefixes]
theorem registers_prefs : ∀ (ps : List (SrcPat B)) (n : Nat),
    Pat.prefss (registers n ps).1 = SrcPat.prefixess ps
  | [], n => by simp only [registers, Pat.prefss, SrcPat.prefixess]
  | p :: ps, n => by
    simp only [registers, Pat.prefss, SrcPat.prefixess, register_prefs p, registers_prefs ps]
theorem registerTail_prefs : ∀ (p : Option (SrcPat B)) (n : Nat),
    (registerTail n p).1.prefs = SrcPat.tailPrefixes p
  | none, n => by simp only [registerTail, Pat.prefs, SrcPat.tailPrefixes]
  | some p, n => by simp only [registerTail, SrcPat.tailPrefixes, register_prefs p n]
end

mutual
theorem register_width : ∀ (p : SrcPat B) (n : Nat), (register n p).1.width = p.breadth
  | .discard, n => by simp only [register, Pat.width, SrcPat.breadth]
  | .var x, n => by simp only [register, Pat.width, SrcPat.breadth]
  | .assign x p, n => by simp only [register, Pat.width, SrcPat.breadth, register_width p n]
  | .int i, n => by simp only [register, Pat.width, SrcPat.breadth]
  | .float f, n => by simp only [register, Pat.width, SrcPat.breadth]
  | .str s, n => by simp only [register, Pat.width, SrcPat.breadth]
  | .strPrefix s l r, n => by simp only [register, Pat.width, SrcPat.breadth]
  | .tuple ps, n => by simp only [register, Pat.width, SrcPat.breadth, registers_width ps n]
  | .list es tail, n => by
    simp only [register, SrcPat.breadth]
    exact registers_listWidth es _ _ _ (registerTail_width tail n)
  | .variant i ps, n => by simp only [register, Pat.width, SrcPat.breadth, registers_width ps n]
  | .bits ts, n => by simp only [register, Pat.width, SrcPat.breadth]
theorem registers_width : ∀ (ps : List (SrcPat B)) (n : Nat),
    Pat.widths (registers n ps).1 = SrcPat.breadths ps
  | [], n => by simp only [registers, Pat.widths, SrcPat.breadths]
  | p :: ps, n => by
    simp only [registers, Pat.widths, SrcPat.breadths, register_width p, registers_width ps]
theorem registers_listWidth : ∀ (ps : List (SrcPat B)) (n : Nat) (q : Pat B) (k : Nat),
    q.width = k → ((registers n ps).1.foldr Pat.cons q).width = SrcPat.listBreadth ps k
  | [], n, q, k, h => by simpa only [registers, List.foldr_nil, SrcPat.listBreadth] using h
  | p :: ps, n, q, k, h => by
    simp only [registers, List.foldr_cons, Pat.width, SrcPat.listBreadth, register_width p,
      registers_listWidth ps _ q k h]
theorem registerTail_width : ∀ (p : Option (SrcPat B)) (n : Nat),
    (registerTail n p).1.width = SrcPat.tailBreadth p
  | none, n => by simp only [registerTail, Pat.width, SrcPat.tailBreadth]
  | some p, n => by simp only [registerTail, SrcPat.tailBreadth, register_width p n]
end

theorem stripTests_first (v : Var) : ∀ ts : List (BTest B), bindsFirst ts = false →
    (∀ t ∈ ts, t.simple) → (stripTests v ts).1 = []
  | [], _, _ => rfl
  | .bind x r :: ts, h, _ => by simp [bindsFirst] at h
  | .discard :: ts, h, hp => stripTests_first v ts h fun t ht => hp t (by simp [ht])
  | .check (some (x, c)) u :: ts, _, hp => by
    have := hp (.check (some (x, c)) u) (by simp)
    simp [BTest.simple] at this
  | .check none u :: ts, _, _ => rfl

theorem BTest.simple_plain {t : BTest B} (h : t.simple) : t.plain := by
  cases t <;> simpa [BTest.simple, BTest.plain] using h

theorem Pat.clean_mono (top : Bool) : ∀ p : Pat B, p.clean false → p.clean top
  | .assign x p, h => by
    simp only [Pat.clean] at h ⊢
    exact Pat.clean_mono top p h
  | .strPrefix s l r, h => by
    simp only [Pat.clean, Bool.false_eq_true, false_or] at h ⊢
    exact .inr h
  | .bits c ts, h => by
    simp only [Pat.clean, Bool.false_eq_true, false_or] at h ⊢
    exact ⟨.inr h.1, h.2⟩
  | .discard, _ => by simp only [Pat.clean]
  | .var _, _ => by simp only [Pat.clean]
  | .int _, _ => by simp only [Pat.clean]
  | .float _, _ => by simp only [Pat.clean]
  | .str _, _ => by simp only [Pat.clean]
  | .slice _ _ _, _ => by simp only [Pat.clean]
  | .tuple _, h => by simpa only [Pat.clean] using h
  | .variant _ _, h => by simpa only [Pat.clean] using h
  | .nil, _ => by simp only [Pat.clean]
  | .cons _ _, h => by simpa only [Pat.clean] using h

theorem foldr_cons_clean {top : Bool} {q : Pat B} (hq : q.clean false) : ∀ {ps : List (Pat B)},
    Pat.cleans ps → (ps.foldr Pat.cons q).clean top
  | [], _ => Pat.clean_mono top q hq
  | p :: ps, h => by
    simp only [Pat.cleans] at h
    simp only [List.foldr_cons, Pat.clean]
    exact ⟨h.1, foldr_cons_clean hq h.2⟩

mutual
theorem register_clean : ∀ (p : SrcPat B) (n : Nat) (top : Bool), p.orderly top →
    (register n p).1.clean top
  | .discard, n, top, _ => by simp only [register, Pat.clean]
  | .var x, n, top, _ => by simp only [register, Pat.clean]
  | .assign x p, n, top, h => by
    simp only [SrcPat.orderly] at h
    simp only [register, Pat.clean]
    exact register_clean p n top h
  | .int i, n, top, _ => by simp only [register, Pat.clean]
  | .float f, n, top, _ => by simp only [register, Pat.clean]
  | .str s, n, top, _ => by simp only [register, Pat.clean]
  | .strPrefix s l r, n, top, h => by
    simp only [SrcPat.orderly] at h
    simp only [register, Pat.clean, Option.map_eq_none_iff]
    exact h
  | .tuple ps, n, top, h => by
    simp only [SrcPat.orderly] at h
    simp only [register, Pat.clean]
    exact registers_clean ps n h
  | .list es tail, n, top, h => by
    simp only [SrcPat.orderly] at h
    simp only [register]
    exact foldr_cons_clean (registerTail_clean tail n h.2) (registers_clean es _ h.1)
  | .variant i ps, n, top, h => by
    simp only [SrcPat.orderly] at h
    simp only [register, Pat.clean]
    exact registers_clean ps n h
  | .bits ts, n, top, h => by
    simp only [SrcPat.orderly] at h
    simp only [register, Pat.clean]
    refine ⟨?_, fun t ht => BTest.simple_plain (h.2 t ht)⟩
    rcases h.1 with h1 | h1
    · exact .inl h1
    · exact .inr (.inr (stripTests_first _ ts h1 h.2))
theorem registers_clean : ∀ (ps : List (SrcPat B)) (n : Nat), SrcPat.orderlies ps →
    Pat.cleans (registers n ps).1
  | [], n, _ => by simp only [registers, Pat.cleans]
  | p :: ps, n, h => by
    simp only [SrcPat.orderlies] at h
    simp only [registers, Pat.cleans]
    exact ⟨register_clean p n false h.1, registers_clean ps _ h.2⟩
theorem registerTail_clean : ∀ (p : Option (SrcPat B)) (n : Nat), SrcPat.tailOrderly p →
    (registerTail n p).1.clean false
  | none, n, _ => by simp only [registerTail, Pat.clean]
  | some p, n, h => by
    simp only [SrcPat.tailOrderly] at h
    simp only [registerTail]
    exact register_clean p n false h
end

/-! ### Cells -/

mutual
theorem register_le : ∀ (p : SrcPat B) (n : Nat), n ≤ (register n p).2
  | .discard, n => by simp only [register]; omega
  | .var x, n => by simp only [register]; omega
  | .assign x p, n => by simp only [register]; exact register_le p n
  | .int i, n => by simp only [register]; omega
  | .float f, n => by simp only [register]; omega
  | .str s, n => by simp only [register]; omega
  | .strPrefix s l r, n => by simp only [register]; omega
  | .tuple ps, n => by simp only [register]; exact registers_le ps n
  | .list es tail, n => by
    simp only [register]
    exact Nat.le_trans (registerTail_le tail n) (registers_le es _)
  | .variant i ps, n => by simp only [register]; exact registers_le ps n
  | .bits ts, n => by simp only [register]; omega
theorem registers_le : ∀ (ps : List (SrcPat B)) (n : Nat), n ≤ (registers n ps).2
  | [], n => by simp only [registers]; omega
  | p :: ps, n => by
    simp only [registers]
    exact Nat.le_trans (register_le p n) (registers_le ps _)
theorem registerTail_le : ∀ (p : Option (SrcPat B)) (n : Nat), n ≤ (registerTail n p).2
  | none, n => by simp only [registerTail]; omega
  | some p, n => by simp only [registerTail]; exact register_le p n
end

mutual
theorem register_cells : ∀ (p : SrcPat B) (n : Nat),
    (register n p).1.cells = [] ∨ ∃ c, (register n p).1.cells = [c] ∧ n ≤ c ∧ c < (register n p).2
  | .discard, n => by simp only [register, Pat.cells]; exact .inl trivial
  | .var x, n => by simp only [register, Pat.cells]; exact .inl trivial
  | .assign x p, n => by simp only [register, Pat.cells]; exact register_cells p n
  | .int i, n => by simp only [register, Pat.cells]; exact .inl trivial
  | .float f, n => by simp only [register, Pat.cells]; exact .inl trivial
  | .str s, n => by simp only [register, Pat.cells]; exact .inl trivial
  | .strPrefix s l r, n => by
    cases l with
    | none => simp only [register, Option.map_none, Pat.cells]; exact .inl trivial
    | some x =>
      simp only [register, Option.map_some, Pat.cells]
      exact .inr ⟨n, rfl, by omega, by omega⟩
  | .tuple ps, n => by simp only [register, Pat.cells]; exact .inl trivial
  | .list es tail, n => by
    simp only [register]
    cases es with
    | nil =>
      simp only [registers, List.foldr_nil]
      exact registerTail_cells tail n
    | cons e es =>
      simp only [registers, List.foldr_cons, Pat.cells]
      exact .inl trivial
  | .variant i ps, n => by simp only [register, Pat.cells]; exact .inl trivial
  | .bits ts, n => by
    simp only [register, Pat.cells]
    split
    · exact .inl rfl
    · exact .inr ⟨n, rfl, by omega, by omega⟩
theorem registerTail_cells : ∀ (p : Option (SrcPat B)) (n : Nat),
    (registerTail n p).1.cells = [] ∨
      ∃ c, (registerTail n p).1.cells = [c] ∧ n ≤ c ∧ c < (registerTail n p).2
  | none, n => by simp only [registerTail, Pat.cells]; exact .inl trivial
  | some p, n => by simp only [registerTail]; exact register_cells p n
end

/-- Different numbers between two bounds. -/
structure Within (n m : Nat) (l : List Nat) : Prop where
  nodup : l.Nodup
  bounds : ∀ c ∈ l, n ≤ c ∧ c < m

theorem Within.append {n m k : Nat} {l l' : List Nat} (h : Within n m l) (h' : Within m k l')
    (hnm : n ≤ m) (hmk : m ≤ k) : Within n k (l ++ l') := by
  refine ⟨List.nodup_append.2 ⟨h.nodup, h'.nodup, ?_⟩, ?_⟩
  · intro a ha b hb hab
    have := h.bounds a ha
    have := h'.bounds b hb
    omega
  · intro c hc
    simp only [List.mem_append] at hc
    rcases hc with hc | hc
    · have := h.bounds c hc; omega
    · have := h'.bounds c hc; omega

theorem Within.nil {n m : Nat} : Within n m [] := ⟨List.nodup_nil, by simp⟩

theorem checksCells_within : ∀ (ps : List (SrcPat B)) (vars : List Var) (n : Nat),
    Within n (registers n ps).2 (checksCells (vars.zip (registers n ps).1))
  | [], vars, n => by simp only [registers, List.zip_nil_right]; exact Within.nil
  | p :: ps, [], n => by simp only [List.zip_nil_left]; exact Within.nil
  | p :: ps, v :: vars, n => by
    simp only [registers, List.zip_cons_cons, checksCells, List.flatMap_cons]
    refine Within.append (m := (register n p).2) ?_ (checksCells_within ps vars _)
      (register_le p n) (registers_le ps _)
    rcases register_cells p n with h | ⟨c, h, h1, h2⟩
    · rw [h]; exact Within.nil
    · rw [h]; exact ⟨by simp, by simp; omega⟩

theorem altBranches_within (vars : List Var) (ci : Nat) (g : Option (List Name)) :
    ∀ (alts : List (List (SrcPat B))) (ai n : Nat), n ≤ (altBranches vars ci g ai n alts).2 ∧
      Within n (altBranches vars ci g ai n alts).2
        (branchesCells (altBranches vars ci g ai n alts).1)
  | [], ai, n => by
    simp only [altBranches]
    exact ⟨Nat.le_refl _, Within.nil⟩
  | ps :: alts, ai, n => by
    simp only [altBranches, altBranch, branchesCells, List.flatMap_cons]
    obtain ⟨h1, h2⟩ := altBranches_within vars ci g alts (ai + 1) (registers n ps).2
    exact ⟨Nat.le_trans (registers_le ps n) h1,
      (checksCells_within ps vars n).append h2 (registers_le ps n) h1⟩

theorem clauseBranches_within (vars : List Var) : ∀ (cs : List (Clause B)) (ci n : Nat),
    ∃ m, n ≤ m ∧ Within n m (branchesCells (clauseBranches vars ci n cs))
  | [], ci, n => ⟨n, Nat.le_refl _, by simpa [clauseBranches, branchesCells] using Within.nil⟩
  | c :: cs, ci, n => by
    obtain ⟨h1, h2⟩ := altBranches_within vars ci c.guard c.alternatives 0 n
    obtain ⟨m, h3, h4⟩ := clauseBranches_within vars cs (ci + 1)
      (altBranches vars ci c.guard 0 n c.alternatives).2
    refine ⟨m, Nat.le_trans h1 h3, ?_⟩
    simp only [clauseBranches, branchesCells, List.flatMap_append]
    exact h2.append h4 h1 h3

/-! ### Names -/

theorem matchTests_names (b : B.Bits) : ∀ (ts : List (BTest B)) (l : Bindings B),
    matchTests b ts = some l → l.map Prod.fst = (SrcPat.bits ts).bound
  | [], l, h => by
    simp only [matchTests, Option.some.injEq] at h
    subst h
    simp [SrcPat.bound]
  | .bind x r :: ts, l, h => by
    simp only [matchTests, Option.map_eq_some_iff] at h
    obtain ⟨m, hm, rfl⟩ := h
    have := matchTests_names b ts m hm
    simp only [SrcPat.bound] at this
    simp [SrcPat.bound, this]
  | .discard :: ts, l, h => by
    simp only [matchTests] at h
    have := matchTests_names b ts l h
    simp only [SrcPat.bound] at this
    simp [SrcPat.bound, this]
  | .check as t :: ts, l, h => by
    simp only [matchTests] at h
    split at h
    · simp only [Option.map_eq_some_iff] at h
      obtain ⟨m, hm, rfl⟩ := h
      have := matchTests_names b ts m hm
      simp only [SrcPat.bound] at this
      cases as <;> simp [SrcPat.bound, this]
    · simp at h

mutual
theorem SrcPat.run_names : ∀ (p : SrcPat B) (v : Val B.Bits) (l : Bindings B), p.run v = some l →
    l.map Prod.fst = p.bound
  | .discard, v, l, h => by
    cases v <;> simp only [SrcPat.run, Option.some.injEq] at h <;> subst h <;> simp [SrcPat.bound]
  | .var x, v, l, h => by
    cases v <;> simp only [SrcPat.run, Option.some.injEq] at h <;> subst h <;> simp [SrcPat.bound]
  | .assign x p, v, l, h => by
    have h : (p.run v).map (fun l => (x, v) :: l) = some l := by
      cases v <;> simpa only [SrcPat.run] using h
    simp only [Option.map_eq_some_iff] at h
    obtain ⟨m, hm, rfl⟩ := h
    simp [SrcPat.bound, SrcPat.run_names p v m hm]
  | .int i, v, l, h => by
    cases v <;> simp only [SrcPat.run, reduceCtorEq] at h
    split at h <;> simp at h
    subst h; simp [SrcPat.bound]
  | .float f, v, l, h => by
    cases v <;> simp only [SrcPat.run, reduceCtorEq] at h
    split at h <;> simp at h
    subst h; simp [SrcPat.bound]
  | .str s, v, l, h => by
    cases v <;> simp only [SrcPat.run, reduceCtorEq] at h
    split at h <;> simp at h
    subst h; simp [SrcPat.bound]
  | .strPrefix s left right, v, l, h => by
    cases v <;> simp only [SrcPat.run, reduceCtorEq] at h
    split at h <;> simp only [Option.some.injEq, reduceCtorEq] at h
    subst h
    cases left <;> cases right <;> simp [SrcPat.bound]
  | .tuple ps, v, l, h => by
    cases v <;> simp only [SrcPat.run, reduceCtorEq] at h
    simp only [SrcPat.bound]
    exact SrcPat.runs_names ps _ l h
  | .variant i ps, v, l, h => by
    cases v <;> simp only [SrcPat.run, reduceCtorEq] at h
    split at h
    · simp only [SrcPat.bound]
      exact SrcPat.runs_names ps _ l h
    · simp at h
  | .list es tail, v, l, h => by
    have h : SrcPat.runList es (fun w => SrcPat.runTail tail w) v = some l := by
      cases v <;> simpa only [SrcPat.run] using h
    simp only [SrcPat.bound]
    exact SrcPat.runList_names es _ (SrcPat.boundTail tail)
      (fun w m hm => SrcPat.runTail_names tail w m hm) v l h
  | .bits ts, v, l, h => by
    cases v <;> simp only [SrcPat.run, reduceCtorEq] at h
    exact matchTests_names _ ts l h
theorem SrcPat.runs_names : ∀ (ps : List (SrcPat B)) (vs : List (Val B.Bits)) (l : Bindings B),
    SrcPat.runs ps vs = some l → l.map Prod.fst = SrcPat.bounds ps
  | [], vs, l, h => by
    cases vs <;> simp only [SrcPat.runs, Option.some.injEq, reduceCtorEq] at h
    subst h; simp [SrcPat.bounds]
  | p :: ps, vs, l, h => by
    cases vs <;> simp only [SrcPat.runs, Option.bind_eq_some_iff, Option.map_eq_some_iff,
      reduceCtorEq] at h
    obtain ⟨a, ha, b, hb, rfl⟩ := h
    simp [SrcPat.bounds, SrcPat.run_names p _ a ha, SrcPat.runs_names ps _ b hb]
theorem SrcPat.runList_names : ∀ (ps : List (SrcPat B)) (f : Val B.Bits → Option (Bindings B))
    (names : List Name), (∀ w m, f w = some m → m.map Prod.fst = names) → ∀ (v : Val B.Bits)
    (l : Bindings B), SrcPat.runList ps f v = some l → l.map Prod.fst = SrcPat.bounds ps ++ names
  | [], f, names, hf, v, l, h => by
    simp only [SrcPat.runList] at h
    simp [SrcPat.bounds, hf v l h]
  | p :: ps, f, names, hf, v, l, h => by
    cases v <;> simp only [SrcPat.runList, Option.bind_eq_some_iff, Option.map_eq_some_iff,
      reduceCtorEq] at h
    obtain ⟨a, ha, b, hb, rfl⟩ := h
    simp [SrcPat.bounds, SrcPat.run_names p _ a ha, SrcPat.runList_names ps f names hf _ b hb]
theorem SrcPat.runTail_names : ∀ (p : Option (SrcPat B)) (v : Val B.Bits) (l : Bindings B),
    SrcPat.runTail p v = some l → l.map Prod.fst = SrcPat.boundTail p
  | none, v, l, h => by
    cases v <;> simp only [SrcPat.runTail, Option.some.injEq, reduceCtorEq] at h
    subst h; simp [SrcPat.boundTail]
  | some p, v, l, h => by
    simp only [SrcPat.runTail] at h
    simp only [SrcPat.boundTail]
    exact SrcPat.run_names p v l h
end

/-! ### Selecting is picking -/

theorem altBranches_pick {ds : Decls} {subjects : List Ty} {vs : List (Val B.Bits)}
    (hv : Val.haveTys ds vs subjects) (guards : Guards B) (ci : Nat) (c : Clause B) :
    ∀ (alts : List (List (SrcPat B))) (ai n : Nat),
    (∀ ps ∈ alts, SrcPat.haveTys ds ps subjects) →
    pick guards (subjectEnv subjects vs)
        (altBranches (freshVars 0 subjects) ci c.guard ai n alts).1 =
      (selectAlt guards vs ci c.guard.isSome ai alts).map fun r => (r.1, r.2.2)
  | [], ai, n, _ => rfl
  | ps :: alts, ai, n, ht => by
    have ih := altBranches_pick hv guards ci c alts (ai + 1) (registers n ps).2
      fun ps hps => ht ps (by simp [hps])
    have hr := IsBranch.run (c := c) (b := (altBranch (freshVars 0 subjects) ci ai c.guard n ps).1)
      ⟨n, rfl⟩ (ht ps (by simp)) hv
    simp only [altBranches, selectAlt]
    have hc : ∀ (b : Branch B) l, b :: l = [b] ++ l := fun _ _ => rfl
    have h2 : (altBranch (freshVars 0 subjects) ci ai c.guard n ps).2 = (registers n ps).2 := rfl
    rw [hc, pick_append, pick_one, hr, h2, ih]
    cases hrun : SrcPat.runs ps vs with
    | none => rfl
    | some l =>
      simp only [altBranch, outcome, Option.bind_some]
      cases hg : c.guard with
      | none => simp
      | some g =>
        simp only [Option.map_some, Option.isNone_some, Option.isSome_some, Bool.not_true,
          Bool.false_or]
        split <;> simp

theorem clauseBranches_pick {ds : Decls} {subjects : List Ty} {vs : List (Val B.Bits)}
    (hv : Val.haveTys ds vs subjects) (guards : Guards B) : ∀ (cs : List (Clause B)) (ci n : Nat),
    ClausesTyped ds subjects cs →
    pick guards (subjectEnv subjects vs) (clauseBranches (freshVars 0 subjects) ci n cs) =
      (select guards vs ci cs).map fun r => (r.1, r.2.2)
  | [], ci, n, _ => rfl
  | c :: cs, ci, n, ht => by
    simp only [clauseBranches, select]
    rw [pick_append, altBranches_pick hv guards ci c _ 0 n (ht c (by simp)),
      clauseBranches_pick hv guards cs (ci + 1) _ fun c hc => ht c (by simp [hc])]
    cases selectAlt guards vs ci c.guard.isSome 0 c.alternatives <;> simp

/-! ### The root of the tree -/

/-- A branch made of an alternative. -/
def From (vars : List Var) (b : Branch B) (a : List (SrcPat B) × Option (List Name)) : Prop :=
  ∃ ci ai n, b = (altBranch vars ci ai a.2 n a.1).1

theorem altBranches_from (vars : List Var) (ci : Nat) (g : Option (List Name)) :
    ∀ (alts : List (List (SrcPat B))) (ai n : Nat),
    List.Forall₂ (From vars) (altBranches vars ci g ai n alts).1 (alts.map fun ps => (ps, g))
  | [], ai, n => .nil
  | ps :: alts, ai, n => .cons ⟨ci, ai, n, rfl⟩ (altBranches_from vars ci g alts _ _)

theorem forall₂_append {α β : Type} {R : α → β → Prop} {a b : List α} {c d : List β}
    (h : List.Forall₂ R a c) (h' : List.Forall₂ R b d) : List.Forall₂ R (a ++ b) (c ++ d) := by
  induction h with
  | nil => exact h'
  | cons h _ ih => exact .cons h ih

theorem clauseBranches_from (vars : List Var) : ∀ (cs : List (Clause B)) (ci n : Nat),
    List.Forall₂ (From vars) (clauseBranches vars ci n cs) (allAlternatives cs)
  | [], ci, n => .nil
  | c :: cs, ci, n => by
    simp only [clauseBranches, allAlternatives, List.flatMap_cons]
    exact forall₂_append (altBranches_from vars ci c.guard _ _ _) (clauseBranches_from vars cs _ _)

theorem zip_register {vars : List Var} : ∀ {ps : List (SrcPat B)} {n : Nat} {c : PCheck B},
    c ∈ vars.zip (registers n ps).1 → ∃ (i m : Nat) (p : SrcPat B), vars[i]? = some c.1 ∧
      ps[i]? = some p ∧ c.2 = (register m p).1
  | [], n, c, h => by simp [registers] at h
  | p :: ps, n, c, h => by
    cases vars with
    | nil => simp at h
    | cons v vars =>
      simp only [registers, List.zip_cons_cons, List.mem_cons] at h
      rcases h with rfl | h
      · exact ⟨0, n, p, rfl, rfl, rfl⟩
      · obtain ⟨i, m, q, h1, h2, h3⟩ := zip_register h
        exact ⟨i + 1, m, q, by simpa using h1, by simpa using h2, h3⟩

theorem checksWidth_zip : ∀ (vars : List Var) (ps : List (Pat B)),
    checksWidth (vars.zip ps) ≤ Pat.widths ps
  | [], ps => by simp [checksWidth]
  | _ :: _, [] => by simp [checksWidth]
  | v :: vars, p :: ps => by
    simp only [List.zip_cons_cons, checksWidth, Pat.widths]
    have := checksWidth_zip vars ps
    omega

theorem NotOverlooked.nc {vars : List Var} (hn : vars.Nodup) {b b' : Branch B}
    {a a' : List (SrcPat B) × Option (List Name)} (hb : From vars b a) (hb' : From vars b' a')
    (h : NotOverlooked a a') : NC b b' := by
  obtain ⟨ci, ai, n, rfl⟩ := hb
  obtain ⟨ci', ai', n', rfl⟩ := hb'
  have hset : Settled a.1 a.2 → (altBranch vars ci ai a.2 n a.1).1.width ≤ 1 ∧
      (altBranch vars ci ai a.2 n a.1).1.guard = none := by
    intro hs
    refine ⟨?_, by simp [altBranch, hs.1]⟩
    have := checksWidth_zip vars (registers n a.1).1
    rw [registers_width] at this
    exact Nat.le_trans this hs.2
  have hidx : ∀ v pe pl, (v, pe) ∈ (altBranch vars ci ai a.2 n a.1).1.checks →
      (v, pl) ∈ (altBranch vars ci' ai' a'.2 n' a'.1).1.checks →
      ∃ (i : Nat) (p q : SrcPat B), a.1[i]? = some p ∧ a'.1[i]? = some q ∧
        pe.lits = p.strings ∧ pe.prefs = p.prefixes ∧ pl.prefs = q.prefixes := by
    intro v pe pl h1 h2
    obtain ⟨i, m, p, hi, hp, he⟩ := zip_register h1
    obtain ⟨j, m', q, hj, hq, he'⟩ := zip_register h2
    have hij : i = j := by
      have h3 := (List.getElem?_eq_some_iff.1 hi)
      have h4 := (List.getElem?_eq_some_iff.1 hj)
      obtain ⟨l1, e1⟩ := h3
      obtain ⟨l2, e2⟩ := h4
      exact (List.Nodup.getElem_inj_iff hn).1 (e1.trans e2.symm)
    subst hij
    simp only at he he'
    exact ⟨i, p, q, hp, hq, by rw [he, register_lits], by rw [he, register_prefs],
      by rw [he', register_prefs]⟩
  constructor
  · intro v pe pl t s h1 h2 ht hs hst
    obtain ⟨i, p, q, hp, hq, e1, e2, e3⟩ := hidx v pe pl h1 h2
    exact hset ((h i p q hp hq s (e3 ▸ hs)).1 t (e1 ▸ ht) hst)
  · intro v pe pl t s h1 h2 ht hs hst hne
    obtain ⟨i, p, q, hp, hq, e1, e2, e3⟩ := hidx v pe pl h1 h2
    rcases (h i p q hp hq s (e3 ▸ hs)).2 t (e2 ▸ ht) hst hne with hs | ⟨names, hg, x, hx, hx'⟩
    · exact .inr (hset hs)
    · left
      simp only [altBranch, hg, Option.map_some, Option.some.injEq, List.any_eq_true,
        decide_eq_true_eq]
      exact ⟨x, hx, hx'⟩

theorem compileCase_exact {ds : Decls} {subjects : List Ty} {clauses : List (Clause B)}
    {r : Decision B × St} {vs : List (Val B.Bits)} (hs : B.Sound)
    (h : compileCase ds subjects clauses = some r) (ht : ClausesTyped ds subjects clauses)
    (hv : Val.haveTys ds vs subjects) (ho : Orderly clauses) (guards : Guards B) :
    r.1.eval guards (subjectEnv subjects vs) =
      (select guards vs 0 clauses).map fun r => (r.1, r.2.2) := by
  obtain ⟨sk, hsk⟩ := ho.spelling
  rw [← clauseBranches_pick hv guards clauses 0 0 ht]
  have hfrom := clauseBranches_from (B := B) (freshVars 0 subjects) clauses 0 0
  simp only [compileCase, freshVars_length] at h
  split at h
  · rename_i he
    have he : clauseBranches (freshVars 0 subjects) 0 0 clauses = [] := by simpa using he
    have hp := compileCase_promise (vs := vs) hs (r := r) (by
      simp only [compileCase, freshVars_length, he, List.isEmpty_nil, if_true]; exact h) ht hv
    rw [he] at hp ⊢
    rw [pick_nil]
    cases hev : r.1.eval guards (subjectEnv subjects vs) with
    | none => rfl
    | some q =>
      obtain ⟨b, hb, -⟩ := hp.sound guards q.1 q.2 hev
      simp at hb
  · obtain ⟨m, -, hcells⟩ := clauseBranches_within (B := B) (freshVars 0 subjects) clauses 0 0
    generalize hbs : clauseBranches (freshVars 0 subjects) 0 0 clauses = bs at *
    have hm := moveAll_same hs.unaliasLaw (subjectEnv subjects vs) bs
      (St.init subjects.length).taken hcells.nodup (by simp [St.init])
    have hb : ∀ b ∈ bs, BranchOk ds subjects.length (subjectEnv subjects vs) b ∧
        NodupRun (subjectEnv subjects vs) b ∧ b.body.clause = b.clause ∧
        ∀ d ∈ b.checks, d.2.clean true ∧ (∀ s ∈ d.2.lits, Lit.spelled sk s) ∧
          ∀ s ∈ d.2.prefs, Lit.spelled sk s := by
      intro b hb
      have hb0 := hb
      rw [← hbs] at hb0
      obtain ⟨i, c, j, ps, h1, h2, h3⟩ := clauseBranches_mem hb0
      have hmc := List.mem_of_getElem? h1
      have hmp := List.mem_of_getElem? h2
      have hall : (ps, c.guard) ∈ allAlternatives clauses := by
        simp only [allAlternatives, List.mem_flatMap, List.mem_map]
        exact ⟨c, hmc, ps, hmp, rfl⟩
      have hty := ht c hmc ps hmp
      refine ⟨h3.ok hty hv, ?_, ?_, ?_⟩
      · intro l hl
        rw [h3.run hty hv] at hl
        rw [SrcPat.runs_names ps vs l hl]
        exact ho.names _ hall
      · obtain ⟨n, rfl⟩ := h3.eq; rfl
      · obtain ⟨n, rfl⟩ := h3.eq
        intro d hd
        obtain ⟨i, m, p, -, hp, he⟩ := zip_register hd
        have hpm := List.mem_of_getElem? hp
        rw [he, register_lits, register_prefs]
        refine ⟨register_clean p m true (ho.patterns _ hall p hpm), ?_, ?_⟩
        · intro s hs
          exact hsk _ hall p hpm s (by simp [hs])
        · intro s hs
          exact hsk _ hall p hpm s (by simp [hs])
    rw [← moveAll_pick guards hm fun b hbm => (hb b hbm).2.1]
    refine compile_step hs (compile_exact sk guards hs _) h ?_ ?_
    · intro b' hb'
      obtain ⟨b, hbm, ⟨t, rfl⟩, hsm⟩ := forall₂_mem_right hm.flip b' hb'
      obtain ⟨h1, h2, h3, h4⟩ := hb b hbm
      refine ⟨moveBranch_ok t h1, ?_, h2.same hsm, h3⟩
      intro d hd
      obtain ⟨p, t', hmm, hl⟩ := moveChecks_mem _ _ _ hd
      obtain ⟨k1, k2, k3⟩ := h4 _ hmm
      obtain ⟨e1, e2⟩ := movePat_lits t' d.1 p d.2 hl
      exact ⟨movePat_left_hasTy ds t' d.1 _ p d.2 (h1.pat _ hmm) hl,
        movePat_clean t' d.1 p d.2 k1 hl, by rw [e1]; exact k2, by rw [e2]; exact k3⟩
    · refine forall₂_pairwise (R := fun b' a => ∃ b t, From (freshVars 0 subjects) b a ∧
        b' = (moveBranch t b).1) (S := NotOverlooked) ?_ ?_ ho.order
      · rintro _ a _ a' ⟨b, t, hba, rfl⟩ ⟨b2, u, hba', rfl⟩ hno
        exact (hno.nc (freshVars_nodup 0 subjects) hba hba').move t u
      · revert hm hfrom
        generalize (moveAll (St.init subjects.length).taken bs).1 = bs'
        generalize allAlternatives clauses = as
        clear * -
        intro hfrom hm
        induction hm generalizing as with
        | nil => cases hfrom; exact .nil
        | cons h1 _ ih =>
          cases hfrom with
          | cons h2 h3 =>
            obtain ⟨⟨t, rfl⟩, -⟩ := h1
            exact .cons ⟨_, t, h2, rfl⟩ (ih _ h3)

end Verif.Case
