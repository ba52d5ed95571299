import Verif.Case.Dead

/-!
# Patterns whose names and prefixes do not get in the way of each other

Lemmas: what is known of the patterns of tidy clauses stays true of all checks the compiler makes
of them.
-/

namespace Verif.Case

variable {B : BitSys}

/-! ### String literals of a pattern -/

mutual
def Pat.lits : Pat B → List Lit
  | .assign _ p => p.lits
  | .str s => [s]
  | .tuple ps => Pat.litss ps
  | .variant _ ps => Pat.litss ps
  | .cons h t => h.lits ++ t.lits
  | _ => []
def Pat.litss : List (Pat B) → List Lit
  | [] => []
  | p :: ps => p.lits ++ Pat.litss ps
end

mutual
def Pat.prefs : Pat B → List Lit
  | .assign _ p => p.prefs
  | .strPrefix s _ _ => [s]
  | .tuple ps => Pat.prefss ps
  | .variant _ ps => Pat.prefss ps
  | .cons h t => h.prefs ++ t.prefs
  | _ => []
def Pat.prefss : List (Pat B) → List Lit
  | [] => []
  | p :: ps => p.prefs ++ Pat.prefss ps
end

theorem Pat.litss_mem {ps : List (Pat B)} {p : Pat B} (hp : p ∈ ps) {s : Lit} (hs : s ∈ p.lits) :
    s ∈ Pat.litss ps := by
  induction ps with
  | nil => simp at hp
  | cons q ps ih =>
    simp only [List.mem_cons] at hp
    simp only [Pat.litss, List.mem_append]
    rcases hp with rfl | hp
    · exact .inl hs
    · exact .inr (ih hp)

theorem Pat.prefss_mem {ps : List (Pat B)} {p : Pat B} (hp : p ∈ ps) {s : Lit}
    (hs : s ∈ p.prefs) : s ∈ Pat.prefss ps := by
  induction ps with
  | nil => simp at hp
  | cons q ps ih =>
    simp only [List.mem_cons] at hp
    simp only [Pat.prefss, List.mem_append]
    rcases hp with rfl | hp
    · exact .inl hs
    · exact .inr (ih hp)

/-! ### Tests side by side -/

mutual
/-- How many checks a pattern can be at the same time. -/
def Pat.width : Pat B → Nat
  | .discard => 0
  | .var _ => 0
  | .slice _ _ _ => 0
  | .assign _ p => p.width
  | .int _ => 1
  | .float _ => 1
  | .str _ => 1
  | .strPrefix _ _ _ => 1
  | .nil => 1
  | .tuple ps => max 1 (Pat.widths ps)
  | .variant _ ps => max 1 (Pat.widths ps)
  | .cons h t => max 1 (h.width + t.width)
  | .bits _ ts => if ts.any fun t => t.test.isSome then 1 else 0
def Pat.widths : List (Pat B) → Nat
  | [] => 0
  | p :: ps => p.width + Pat.widths ps
end

def checksWidth : List (PCheck B) → Nat
  | [] => 0
  | c :: cs => c.2.width + checksWidth cs

theorem checksWidth_append : ∀ cs ds : List (PCheck B),
    checksWidth (cs ++ ds) = checksWidth cs + checksWidth ds
  | [], ds => by simp [checksWidth]
  | c :: cs, ds => by simp [checksWidth, checksWidth_append cs ds]; omega

def Branch.width (b : Branch B) : Nat := checksWidth b.checks

theorem Pat.stuck_width {p : Pat B} (h : p.stuck) : 1 ≤ p.width := by
  cases p <;> simp only [Pat.stuck] at h <;> simp only [Pat.width] <;> try omega
  obtain ⟨t, ts, rfl⟩ := h
  simp [BTest.test]

theorem stripTests_any (v : Var) : ∀ ts : List (BTest B),
    ((stripTests v ts).2.any fun t => t.test.isSome) = ts.any fun t => t.test.isSome
  | [] => rfl
  | .bind x r :: ts => by
    have := stripTests_any v ts
    simp only [stripTests, List.any_cons, this]
    simp [BTest.test]
  | .discard :: ts => by
    have := stripTests_any v ts
    simp only [stripTests, List.any_cons, this]
    simp [BTest.test]
  | .check (some (x, c)) t :: ts => by simp [stripTests, BTest.test]
  | .check none t :: ts => by simp [stripTests]

theorem movePat_width (taken : List Nat) (v : Var) : ∀ (p q : Pat B),
    (movePat taken v p).left = some q → q.width = p.width
  | .var x, q, h => by simp [movePat] at h
  | .discard, q, h => by simp [movePat] at h
  | .assign x p, q, h => by
    simp only [Pat.width]
    exact movePat_width taken v p q h
  | .strPrefix s none rest, q, h => by
    simp only [movePat, Option.some.injEq] at h; subst h; rfl
  | .strPrefix s (some (c, x)) rest, q, h => by
    simp only [movePat] at h
    split at h <;> (simp only [Option.some.injEq] at h; subst h; simp only [Pat.width])
  | .slice s name rest, q, h => by simp [movePat] at h
  | .bits cell ts, q, h => by
    simp only [movePat] at h
    split at h
    · simp at h
    · simp only [Option.some.injEq] at h
      subst h
      simp only [Pat.width, stripTests_any]
  | .int i, q, h => by simp only [movePat, Option.some.injEq] at h; subst h; rfl
  | .float f, q, h => by simp only [movePat, Option.some.injEq] at h; subst h; rfl
  | .str s, q, h => by simp only [movePat, Option.some.injEq] at h; subst h; rfl
  | .tuple ps, q, h => by simp only [movePat, Option.some.injEq] at h; subst h; rfl
  | .variant i ps, q, h => by simp only [movePat, Option.some.injEq] at h; subst h; rfl
  | .nil, q, h => by simp only [movePat, Option.some.injEq] at h; subst h; rfl
  | .cons a b, q, h => by simp only [movePat, Option.some.injEq] at h; subst h; rfl

theorem movePat_lits (taken : List Nat) (v : Var) : ∀ (p q : Pat B),
    (movePat taken v p).left = some q → q.lits = p.lits ∧ q.prefs = p.prefs
  | .var x, q, h => by simp [movePat] at h
  | .discard, q, h => by simp [movePat] at h
  | .assign x p, q, h => by
    simp only [Pat.lits, Pat.prefs]
    exact movePat_lits taken v p q h
  | .strPrefix s none rest, q, h => by
    simp only [movePat, Option.some.injEq] at h; subst h; exact ⟨rfl, rfl⟩
  | .strPrefix s (some (c, x)) rest, q, h => by
    simp only [movePat] at h
    split at h <;>
      (simp only [Option.some.injEq] at h; subst h; simp only [Pat.lits, Pat.prefs, and_self])
  | .slice s name rest, q, h => by simp [movePat] at h
  | .bits cell ts, q, h => by
    simp only [movePat] at h
    split at h
    · simp at h
    · simp only [Option.some.injEq] at h
      subst h
      simp only [Pat.lits, Pat.prefs, and_self]
  | .int i, q, h => by simp only [movePat, Option.some.injEq] at h; subst h; exact ⟨rfl, rfl⟩
  | .float f, q, h => by simp only [movePat, Option.some.injEq] at h; subst h; exact ⟨rfl, rfl⟩
  | .str s, q, h => by simp only [movePat, Option.some.injEq] at h; subst h; exact ⟨rfl, rfl⟩
  | .tuple ps, q, h => by simp only [movePat, Option.some.injEq] at h; subst h; exact ⟨rfl, rfl⟩
  | .variant i ps, q, h => by
    simp only [movePat, Option.some.injEq] at h; subst h; exact ⟨rfl, rfl⟩
  | .nil, q, h => by simp only [movePat, Option.some.injEq] at h; subst h; exact ⟨rfl, rfl⟩
  | .cons a b, q, h => by simp only [movePat, Option.some.injEq] at h; subst h; exact ⟨rfl, rfl⟩

theorem moveChecks_width : ∀ (cs : List (PCheck B)) (taken : List Nat),
    checksWidth (moveChecks taken cs).1 ≤ checksWidth cs
  | [], _ => Nat.le_refl _
  | (v, p) :: cs, taken => by
    have ih := moveChecks_width cs (movePat taken v p).taken
    simp only [moveChecks, checksWidth_append, checksWidth]
    cases hl : (movePat taken v p).left with
    | none => simp [checksWidth]; omega
    | some q =>
      have := movePat_width taken v p q hl
      simp [checksWidth]; omega

theorem popCheck_width {v : Var} : ∀ {cs : List (PCheck B)} {p : Pat B} {cs' : List (PCheck B)},
    popCheck v cs = some (p, cs') → checksWidth cs = p.width + checksWidth cs'
  | [], p, cs', h => by simp [popCheck] at h
  | (w, q) :: cs, p, cs', h => by
    simp only [popCheck] at h
    split at h
    · simp only [Option.some.injEq, Prod.mk.injEq] at h
      obtain ⟨rfl, rfl⟩ := h
      rfl
    · simp only [Option.map_eq_some_iff, Prod.mk.injEq] at h
      obtain ⟨⟨p', r⟩, hr, rfl, rfl⟩ := h
      have := popCheck_width hr
      simp only [checksWidth]
      omega

/-- A branch that is a single check. -/
theorem Branch.width_one {b : Branch B} (hs : b.stuck) (hw : b.width ≤ 1) {c : PCheck B}
    (hc : c ∈ b.checks) : b.checks = [c] := by
  have hpos : ∀ d ∈ b.checks, 1 ≤ d.2.width := fun d hd => Pat.stuck_width (hs d hd)
  unfold Branch.width at hw
  clear hs
  revert hw hc hpos
  generalize b.checks = cs
  intro hw hc hpos
  cases cs with
  | nil => simp at hc
  | cons d ds =>
    cases ds with
    | nil => simp only [List.mem_singleton] at hc; rw [hc]
    | cons e es =>
      have h1 := hpos d (by simp)
      have h2 := hpos e (by simp)
      simp only [checksWidth] at hw
      omega

theorem checksWidth_zip_le : ∀ (vs : List Var) (ps : List (Pat B)),
    checksWidth (vs.zip ps) ≤ Pat.widths ps
  | [], ps => by simp [checksWidth]
  | v :: vs, [] => by simp [checksWidth]
  | v :: vs, p :: ps => by
    have := checksWidth_zip_le vs ps
    simp only [List.zip_cons_cons, checksWidth, Pat.widths]
    omega

theorem restPat_width (rest : Option Name) : (restPat (B := B) rest).width = 0 := by
  cases rest <;> rfl

theorem newChecks_width {v : Var} {p : Pat B} {c : Check B} {new : List (PCheck B)}
    (h : newChecks v p c = some new) : checksWidth new ≤ p.width := by
  cases p <;> cases c <;>
    simp only [newChecks, Option.some.injEq, reduceCtorEq] at h <;> subst h <;>
    simp only [checksWidth, Pat.width] <;> try omega
  case strPrefix.strPrefix s name rest s0 r0 =>
    unfold newPrefixChecks
    split
    · split
      · simp [checksWidth, restPat_width]
      · simp [checksWidth, Pat.width]
    · split
      · simp [checksWidth]
      · simp [checksWidth, Pat.width]
  case tuple.tuple ps vs =>
    have := checksWidth_zip_le vs ps
    omega
  case variant.variant i ps e j vs =>
    have := checksWidth_zip_le vs ps
    omega

/-! ### What a check leaves of a literal -/

/-- What is left of a literal after a check. -/
def cut : Check B → Lit → Lit
  | .strPrefix s _, t => t.drop s.length
  | _, t => t

/-- The literals are what a check left of others. -/
def Cut (c : Check B) (l' l : List Lit) : Prop :=
  ∀ t' ∈ l', ∃ t ∈ l, t' = cut c t ∧ ∀ s, c.prefixText = some s → s <+: t

theorem Cut.nil (c : Check B) (l : List Lit) : Cut c [] l := by intro t h; simp at h

theorem Cut.plain {c : Check B} (h : c.prefixText = none) {l' l : List Lit}
    (hs : ∀ t ∈ l', t ∈ l) : Cut c l' l := by
  intro t ht
  refine ⟨t, hs t ht, ?_, by simp [h]⟩
  cases c <;> simp_all [cut, Check.prefixText]

theorem restPat_lits (rest : Option Name) :
    (restPat (B := B) rest).lits = [] ∧ (restPat (B := B) rest).prefs = [] := by
  cases rest <;> exact ⟨rfl, rfl⟩

theorem newChecks_cut {v : Var} {p : Pat B} {c : Check B} {new : List (PCheck B)}
    (hr : Related p c) (h : newChecks v p c = some new) : ∀ d ∈ new,
    Cut c d.2.lits p.lits ∧ Cut c d.2.prefs p.prefs ∧
      ((d.2.lits ≠ [] ∨ d.2.prefs ≠ []) → d.1 ∈ c.vars) := by
  cases p <;> cases c <;>
    simp only [newChecks, Option.some.injEq, reduceCtorEq] at h <;> subst h <;>
    try (intro d hd; simp at hd; done)
  case str.strPrefix s s0 r0 =>
    intro d hd
    simp only [List.mem_singleton] at hd
    subst hd
    simp only [Related] at hr
    simp only [isPrefixOf_eq, hr, if_true, Pat.lits, Pat.prefs]
    refine ⟨?_, Cut.nil _ _, by simp [Check.vars]⟩
    intro t ht
    simp only [List.mem_singleton] at ht
    subst ht
    exact ⟨s, by simp, rfl, by simpa [Check.prefixText] using hr⟩
  case strPrefix.strPrefix s name rest s0 r0 =>
    intro d hd
    simp only [newPrefixChecks] at hd
    split at hd
    · rename_i hp
      rw [isPrefixOf_eq] at hp
      split at hd
      · simp only [List.mem_singleton] at hd
        subst hd
        simp only [restPat_lits]
        exact ⟨Cut.nil _ _, Cut.nil _ _, by simp⟩
      · simp only [List.mem_singleton] at hd
        subst hd
        simp only [Pat.lits, Pat.prefs]
        refine ⟨Cut.nil _ _, ?_, by simp [Check.vars]⟩
        intro t ht
        simp only [List.mem_singleton] at ht
        subst ht
        exact ⟨s, by simp, rfl, by simpa [Check.prefixText] using hp⟩
    · split at hd
      · simp at hd
      · simp only [List.mem_singleton] at hd
        subst hd
        simp only [Pat.lits, Pat.prefs]
        exact ⟨Cut.nil _ _, Cut.nil _ _, by simp⟩
  case tuple.tuple ps vs =>
    intro d hd
    have := List.of_mem_zip hd
    simp only [Pat.lits, Pat.prefs]
    exact ⟨Cut.plain rfl fun t => Pat.litss_mem this.2, Cut.plain rfl fun t => Pat.prefss_mem this.2,
      fun _ => this.1⟩
  case variant.variant i ps e j vs =>
    intro d hd
    have := List.of_mem_zip hd
    simp only [Pat.lits, Pat.prefs]
    exact ⟨Cut.plain rfl fun t => Pat.litss_mem this.2, Cut.plain rfl fun t => Pat.prefss_mem this.2,
      fun _ => this.1⟩
  case cons.cons p q a b =>
    intro d hd
    simp only [List.mem_cons, List.not_mem_nil, or_false] at hd
    simp only [Pat.lits, Pat.prefs]
    rcases hd with rfl | rfl
    · exact ⟨Cut.plain rfl fun t h => by simp [h], Cut.plain rfl fun t h => by simp [h],
        fun _ => by simp [Check.vars]⟩
    · exact ⟨Cut.plain rfl fun t h => by simp [h], Cut.plain rfl fun t h => by simp [h],
        fun _ => by simp [Check.vars]⟩

theorem cut_prefix {c : Check B} {s t : Lit} (hs : ∀ s0, c.prefixText = some s0 → s0 <+: s)
    (ht : ∀ s0, c.prefixText = some s0 → s0 <+: t) (h : cut c s <+: cut c t) : s <+: t := by
  cases c <;> simp only [cut, Check.prefixText, Option.some.injEq, forall_eq'] at * <;>
    try exact h
  rw [prefix_drop hs, prefix_drop ht]
  exact (List.prefix_append_right_inj _).2 h

/-! ### Tidy patterns -/

/-- A test without an alias that can succeed. -/
def BTest.plain : BTest B → Prop
  | .check as t => as = none ∧ B.impossible t = false
  | _ => True

mutual
/-- No name is taken out of an arena cell below the top of the pattern. -/
def Pat.clean (top : Bool) : Pat B → Prop
  | .assign _ p => p.clean top
  | .strPrefix _ name _ => top = true ∨ name = none
  | .bits cell ts => (top = true ∨ cell = none ∨ (stripTests ⟨0, .int⟩ ts).1 = []) ∧
    ∀ t ∈ ts, t.plain
  | .tuple ps => Pat.cleans ps
  | .variant _ ps => Pat.cleans ps
  | .cons h t => h.clean false ∧ t.clean false
  | _ => True
def Pat.cleans : List (Pat B) → Prop
  | [] => True
  | p :: ps => p.clean false ∧ Pat.cleans ps
end

theorem Pat.cleans_mem {ps : List (Pat B)} (h : Pat.cleans ps) {p : Pat B} (hp : p ∈ ps) :
    p.clean false := by
  induction ps with
  | nil => simp at hp
  | cons q ps ih =>
    simp only [Pat.cleans] at h
    simp only [List.mem_cons] at hp
    rcases hp with rfl | hp
    · exact h.1
    · exact ih h.2 hp

theorem Pat.clean_cells : ∀ p : Pat B, p.clean false → p.cells = []
  | .assign _ p, h => by
    simp only [Pat.cells]
    exact Pat.clean_cells p (by simpa only [Pat.clean] using h)
  | .strPrefix _ none _, _ => rfl
  | .strPrefix _ (some _) _, h => by simp [Pat.clean] at h
  | .bits none ts, _ => rfl
  | .bits (some c) ts, h => by
    simp only [Pat.clean, Bool.false_eq_true, reduceCtorEq, false_or] at h
    simp [Pat.cells, h.1]
  | .discard, _ => rfl
  | .var _, _ => rfl
  | .int _, _ => rfl
  | .float _, _ => rfl
  | .str _, _ => rfl
  | .slice _ _ _, _ => rfl
  | .tuple _, _ => rfl
  | .variant _ _, _ => rfl
  | .nil, _ => rfl
  | .cons _ _, _ => rfl

theorem stripTests_plain (v : Var) : ∀ ts : List (BTest B), (∀ t ∈ ts, t.plain) →
    ∀ t ∈ (stripTests v ts).2, t.plain
  | [], _, t, h => by simp [stripTests] at h
  | .bind x r :: ts, hp, t, h => stripTests_plain v ts (fun t ht => hp t (by simp [ht])) t h
  | .discard :: ts, hp, t, h => stripTests_plain v ts (fun t ht => hp t (by simp [ht])) t h
  | .check (some (x, c)) u :: ts, hp, t, h => by
    have := hp (.check (some (x, c)) u) (by simp)
    simp [BTest.plain] at this
  | .check none u :: ts, hp, t, h => hp t h

theorem movePat_clean (taken : List Nat) (v : Var) {top : Bool} : ∀ (p q : Pat B), p.clean top →
    (movePat taken v p).left = some q → q.clean false
  | .var x, q, _, h => by simp [movePat] at h
  | .discard, q, _, h => by simp [movePat] at h
  | .assign x p, q, hp, h =>
    movePat_clean taken v p q (by simpa only [Pat.clean] using hp) h
  | .strPrefix s none rest, q, _, h => by
    simp only [movePat, Option.some.injEq] at h; subst h; simp [Pat.clean]
  | .strPrefix s (some (c, x)) rest, q, _, h => by
    simp only [movePat] at h
    split at h <;> (simp only [Option.some.injEq] at h; subst h; simp [Pat.clean])
  | .slice s name rest, q, _, h => by simp [movePat] at h
  | .bits cell ts, q, hp, h => by
    simp only [movePat] at h
    split at h
    · simp at h
    · simp only [Option.some.injEq] at h
      subst h
      simp only [Pat.clean] at hp ⊢
      exact ⟨.inr (.inl trivial), stripTests_plain v ts hp.2⟩
  | .int i, q, _, h => by simp only [movePat, Option.some.injEq] at h; subst h; trivial
  | .float f, q, _, h => by simp only [movePat, Option.some.injEq] at h; subst h; trivial
  | .str s, q, _, h => by simp only [movePat, Option.some.injEq] at h; subst h; trivial
  | .tuple ps, q, hp, h => by
    simp only [movePat, Option.some.injEq] at h; subst h; simpa only [Pat.clean] using hp
  | .variant i ps, q, hp, h => by
    simp only [movePat, Option.some.injEq] at h; subst h; simpa only [Pat.clean] using hp
  | .nil, q, _, h => by simp only [movePat, Option.some.injEq] at h; subst h; trivial
  | .cons a b, q, hp, h => by
    simp only [movePat, Option.some.injEq] at h; subst h; simpa only [Pat.clean] using hp

theorem newChecks_clean {v : Var} {p : Pat B} {c : Check B} {new : List (PCheck B)}
    (hp : p.clean false) (h : newChecks v p c = some new) : ∀ d ∈ new, d.2.clean false := by
  cases p <;> cases c <;>
    simp only [newChecks, Option.some.injEq, reduceCtorEq] at h <;> subst h <;>
    try (intro d hd; simp at hd; done)
  case str.strPrefix s s0 r0 =>
    intro d hd
    simp only [List.mem_singleton] at hd
    subst hd
    trivial
  case strPrefix.strPrefix s name rest s0 r0 =>
    intro d hd
    simp only [newPrefixChecks] at hd
    split at hd
    · split at hd
      · simp only [List.mem_singleton] at hd
        subst hd
        cases rest <;> trivial
      · simp only [List.mem_singleton] at hd
        subst hd
        simp [Pat.clean]
    · split at hd
      · simp at hd
      · simp only [List.mem_singleton] at hd
        subst hd
        trivial
  case tuple.tuple ps vs =>
    intro d hd
    simp only [Pat.clean] at hp
    exact Pat.cleans_mem hp (List.of_mem_zip hd).2
  case variant.variant i ps e j vs =>
    intro d hd
    simp only [Pat.clean] at hp
    exact Pat.cleans_mem hp (List.of_mem_zip hd).2
  case cons.cons p q a b =>
    intro d hd
    simp only [Pat.clean] at hp
    simp only [List.mem_cons, List.not_mem_nil, or_false] at hd
    rcases hd with rfl | rfl
    · exact hp.1
    · exact hp.2

/-- The characters of a literal are all written the way `k` says. -/
def Lit.spelled (k : Char → Nat) (s : Lit) : Prop := ∀ p ∈ s, p.spelling = k p.char

theorem spelled_eq {k : Char → Nat} : ∀ {s t : Lit}, Lit.spelled k s → Lit.spelled k t →
    Lit.decode s = Lit.decode t → s = t
  | [], [], _, _, _ => rfl
  | [], _ :: _, _, _, h => by simp [Lit.decode] at h
  | _ :: _, [], _, _, h => by simp [Lit.decode] at h
  | p :: s, q :: t, hs, ht, h => by
    simp only [Lit.decode, List.map_cons, List.cons.injEq] at h
    have h1 := hs p (by simp)
    have h2 := ht q (by simp)
    have hpq : p = q := by
      cases p; cases q; simp_all
    rw [hpq, spelled_eq (fun x hx => hs x (by simp [hx])) (fun x hx => ht x (by simp [hx])) h.2]

theorem spelled_prefix {k : Char → Nat} {s t : Lit} (hs : Lit.spelled k s) (ht : Lit.spelled k t)
    (h : Lit.decode s <+: Lit.decode t) : s <+: t := by
  have he : s = t.take s.length := by
    refine spelled_eq hs (fun x hx => ht x (List.mem_of_mem_take hx)) ?_
    have := List.prefix_iff_eq_take.1 h
    rw [this]
    simp [Lit.decode]
  rw [he]
  exact List.take_prefix _ _

/-- Typed, clean, and written in one way. -/
structure Tidy (ds : Decls) (k : Char → Nat) (c : PCheck B) : Prop where
  ty : c.2.hasTy ds c.1.ty
  clean : c.2.clean false
  lits : ∀ s ∈ c.2.lits, Lit.spelled k s
  prefs : ∀ s ∈ c.2.prefs, Lit.spelled k s

theorem Cut.spelled {k : Char → Nat} {c : Check B} {l' l : List Lit} (h : Cut c l' l)
    (hl : ∀ s ∈ l, Lit.spelled k s) : ∀ s ∈ l', Lit.spelled k s := by
  intro s hs
  obtain ⟨t, ht, rfl, -⟩ := h s hs
  intro x hx
  refine hl t ht x ?_
  cases c <;> simp only [cut] at hx <;> first | exact hx | exact List.mem_of_mem_drop hx

theorem tidy_kept (ds : Decls) (k : Char → Nat) : Kept (B := B) ds fun _ => Tidy ds k := by
  refine ⟨?_, ?_, ?_, fun _ _ h => h.ty⟩
  · intro x v p t q h hl
    obtain ⟨h1, h2⟩ := movePat_lits t v p q hl
    exact ⟨movePat_left_hasTy ds t v _ p q h.ty hl, movePat_clean t v p q h.clean hl,
      by simpa only [h1] using h.lits, by simpa only [h2] using h.prefs⟩
  · intro x v p c new c' h hst hc hr hn hc'
    obtain ⟨h1, -⟩ := newChecks_pat h.ty hst hc hr hn c' hc'
    obtain ⟨h2, h3, -⟩ := newChecks_cut hr hn c' hc'
    exact ⟨h1, newChecks_clean h.clean hn c' hc', h2.spelled h.lits, h3.spelled h.prefs⟩
  · intro x v cell ts pivot h
    refine ⟨?_, ?_, by simp [Pat.lits], by simp [Pat.prefs]⟩
    · have := h.ty
      revert this
      simp only
      generalize v.ty = t
      cases t <;> simp [Pat.hasTy]
    · have := h.clean
      simp only [Pat.clean] at this ⊢
      refine ⟨.inr (.inl trivial), fun t ht => this.2 t ?_⟩
      exact (List.mem_filter.1 ht).1

/-! ### Earlier and later branches -/

/-- The earlier branch is settled whenever the later one has a prefix that could be overlooked. -/
structure NC (e l : Branch B) : Prop where
  lit : ∀ v pe pl t s, (v, pe) ∈ e.checks → (v, pl) ∈ l.checks → t ∈ pe.lits → s ∈ pl.prefs →
    s <+: t → e.width ≤ 1 ∧ e.guard = none
  pre : ∀ v pe pl t s, (v, pe) ∈ e.checks → (v, pl) ∈ l.checks → t ∈ pe.prefs → s ∈ pl.prefs →
    s <+: t → s ≠ t → e.guard = some true ∨ e.width ≤ 1 ∧ e.guard = none

/-- A branch made of another one after a check. -/
structure Der (v : Var) (c : Check B) (b b' : Branch B) : Prop where
  tag : Tag b' b
  width : b'.width ≤ b.width
  checks : ∀ d ∈ b'.checks, d ∈ b.checks ∨ ∃ p, (v, p) ∈ b.checks ∧ Cut c d.2.lits p.lits ∧
    Cut c d.2.prefs p.prefs ∧ ((d.2.lits ≠ [] ∨ d.2.prefs ≠ []) → d.1 ∈ c.vars)

theorem Der.refl (v : Var) (c : Check B) (b : Branch B) : Der v c b b :=
  ⟨Tag.rfl', Nat.le_refl _, fun _ h => .inl h⟩

theorem NC.der {v : Var} {c : Check B} {e l e' l' : Branch B} {n : Nat} (h : NC e l)
    (he : Der v c e e') (hl : Der v c l l') (hbe : ∀ d ∈ e.checks, d.1.id < n)
    (hbl : ∀ d ∈ l.checks, d.1.id < n) (hc : ∀ w ∈ c.vars, n ≤ w.id) : NC e' l' := by
  have hold : ∀ {w : Var}, w.id < n → w ∉ c.vars := fun hw hm => absurd (hc _ hm) (by omega)
  have hg := he.tag.guard
  have hw := he.width
  constructor
  · intro w pe pl t s h1 h2 ht hs hst
    rw [hg]
    rcases he.checks _ h1 with h1 | ⟨p, hp, c1, c2, c3⟩ <;>
      rcases hl.checks _ h2 with h2 | ⟨q, hq, d1, d2, d3⟩
    · obtain ⟨a, b⟩ := h.lit w pe pl t s h1 h2 ht hs hst
      exact ⟨Nat.le_trans hw a, b⟩
    · exact absurd (d3 (.inr (List.ne_nil_of_mem hs))) (hold (w := w) (hbe (w, pe) h1))
    · exact absurd (c3 (.inl (List.ne_nil_of_mem ht))) (hold (w := w) (hbl (w, pl) h2))
    · obtain ⟨t0, ht0, rfl, ht1⟩ := c1 t ht
      obtain ⟨s0, hs0, rfl, hs1⟩ := d2 s hs
      obtain ⟨a, b⟩ := h.lit v p q t0 s0 hp hq ht0 hs0 (cut_prefix hs1 ht1 hst)
      exact ⟨Nat.le_trans hw a, b⟩
  · intro w pe pl t s h1 h2 ht hs hst hne
    rw [hg]
    rcases he.checks _ h1 with h1 | ⟨p, hp, c1, c2, c3⟩ <;>
      rcases hl.checks _ h2 with h2 | ⟨q, hq, d1, d2, d3⟩
    · rcases h.pre w pe pl t s h1 h2 ht hs hst hne with a | ⟨a, b⟩
      · exact .inl a
      · exact .inr ⟨Nat.le_trans hw a, b⟩
    · exact absurd (d3 (.inr (List.ne_nil_of_mem hs))) (hold (w := w) (hbe (w, pe) h1))
    · exact absurd (c3 (.inr (List.ne_nil_of_mem ht))) (hold (w := w) (hbl (w, pl) h2))
    · obtain ⟨t0, ht0, rfl, ht1⟩ := c2 t ht
      obtain ⟨s0, hs0, rfl, hs1⟩ := d2 s hs
      rcases h.pre v p q t0 s0 hp hq ht0 hs0 (cut_prefix hs1 ht1 hst)
        (fun e => hne (by rw [e])) with a | ⟨a, b⟩
      · exact .inl a
      · exact .inr ⟨Nat.le_trans hw a, b⟩

/-- A relation between earlier and later branches that lasts when both are split. -/
def Lasting (R : Branch B → Branch B → Prop) : Prop :=
  ∀ {v : Var} {c : Check B} {e l e' l' : Branch B} {n : Nat}, R e l → Der v c e e' → Der v c l l' →
    (∀ d ∈ e.checks, d.1.id < n) → (∀ d ∈ l.checks, d.1.id < n) → (∀ w ∈ c.vars, n ≤ w.id) → R e' l'

theorem NC.lasting : Lasting (NC (B := B)) := fun h he hl h1 h2 h3 => h.der he hl h1 h2 h3

theorem moveBranch_checks {taken : List Nat} {b : Branch B} {d : PCheck B}
    (h : d ∈ (moveBranch taken b).1.checks) :
    ∃ p, (d.1, p) ∈ b.checks ∧ d.2.lits = p.lits ∧ d.2.prefs = p.prefs := by
  obtain ⟨p, t, hp, hl⟩ := moveChecks_mem b.checks taken d h
  obtain ⟨h1, h2⟩ := movePat_lits t d.1 p d.2 hl
  exact ⟨p, hp, h1, h2⟩

theorem NC.move {e l : Branch B} (h : NC e l) (t u : List Nat) :
    NC (moveBranch t e).1 (moveBranch u l).1 := by
  have hw : (moveBranch t e).1.width ≤ e.width := moveChecks_width e.checks t
  constructor
  · intro v pe pl x s h1 h2 hx hs hst
    obtain ⟨p, hp, a1, a2⟩ := moveBranch_checks h1
    obtain ⟨q, hq, b1, b2⟩ := moveBranch_checks h2
    simp only at a1 b2
    obtain ⟨a, b⟩ := h.lit v p q x s hp hq (a1 ▸ hx) (b2 ▸ hs) hst
    exact ⟨Nat.le_trans hw a, b⟩
  · intro v pe pl x s h1 h2 hx hs hst hne
    obtain ⟨p, hp, a1, a2⟩ := moveBranch_checks h1
    obtain ⟨q, hq, b1, b2⟩ := moveBranch_checks h2
    simp only at a2 b2
    rcases h.pre v p q x s hp hq (a2 ▸ hx) (b2 ▸ hs) hst hne with a | ⟨a, b⟩
    · exact .inl a
    · exact .inr ⟨Nat.le_trans hw a, b⟩

end Verif.Case
