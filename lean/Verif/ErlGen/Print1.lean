import Verif.ErlGen.ApplySim
import Verif.ErlText.Ok

/-!
# The generated terms can be printed

The conditions of `ErlText/Ok.lean` hold for the generated terms. This file: names, patterns and guards.
-/

namespace Verif.ErlGen

open Verif.ErlText (Text Term OkAll OkClauses OkFields VarName AtomText wellQuoted Kind)
open Verif.ErlText.Read (isNameChar isCapital isSmall isDigit)
open Verif.Strings.Spec (Piece text UpperCamel Lower Upper Digit Word Snake)

/-! ### Names -/

theorem lower_name {c : Char} (h : Lower c) : isNameChar c = true := by
  unfold Lower at h
  have h1 : isSmall c = true := by
    unfold isSmall
    simpa using h
  simp [isNameChar, h1]

theorem upper_name {c : Char} (h : Upper c) : isNameChar c = true := by
  unfold Upper at h
  have h1 : isCapital c = true := by
    unfold isCapital
    simpa using h
  simp [isNameChar, h1]

theorem digit_name {c : Char} (h : Digit c) : isNameChar c = true := by
  unfold Digit at h
  have h1 : isDigit c = true := by
    unfold isDigit
    simpa using h
  simp [isNameChar, h1]

theorem word_name {cs : Text} (h : Word cs) : cs.all isNameChar = true := by
  rw [List.all_eq_true]
  intro c hc
  rcases h c hc with h | h | h | rfl
  · exact lower_name h
  · exact upper_name h
  · exact digit_name h
  · decide

theorem VarName.numbered {n : Text} (h : VarName n) (i : Nat) : VarName (numbered n i) := by
  cases i with
  | zero => exact h
  | succ i =>
    obtain ⟨c, cs, rfl, h1, h2⟩ := h
    refine ⟨c, cs ++ ("@".toList ++ Verif.Decimal.showNat (i + 1)), by simp [Verif.ErlGen.numbered], h1, ?_⟩
    rw [List.all_append, h2, List.all_append]
    have : (Verif.Decimal.showNat (i + 1)).all isNameChar = true := by
      rw [List.all_eq_true]
      intro d hd
      have h3 := Verif.Decimal.showNat_digits (i + 1) d hd
      have h4 : isDigit d = true := by
        simp only [Verif.Decimal.isDigit, Bool.and_eq_true, decide_eq_true_eq] at h3
        simp only [isDigit, Bool.and_eq_true, decide_eq_true_eq]
        exact h3
      simp [isNameChar, h4]
    simp [this]
    decide

theorem nameOf_var {x : Text} (h : NameText x) (i : Nat) : VarName (nameOf x i) := by
  obtain ⟨c, cs, rfl, h1, h2, -⟩ := h
  refine VarName.numbered (n := c.toUpper :: cs) ⟨c.toUpper, cs, rfl, ?_, word_name h2⟩ i
  rcases h1 with h1 | rfl
  · have := toUpper_lower h1
    unfold Lower at h1
    simp only [show ('a' : Char).toNat = 97 from rfl, show ('z' : Char).toNat = 122 from rfl] at h1
    have h3 : isCapital c.toUpper = true := by
      unfold isCapital
      rw [this]
      simp only [Bool.and_eq_true, decide_eq_true_eq]
      omega
    simp [h3]
  · decide

theorem generated_var (s : State) : VarName s.newGenerated.1 :=
  VarName.numbered ⟨'_', "value".toList, rfl, by decide, by decide⟩ s.generated

theorem snake_atom {tag : Text} (h : UpperCamel tag) : AtomText (snake tag) := by
  have hw : Word tag := by
    obtain ⟨c, t, rfl, h1, h2⟩ := h
    intro d hd
    rcases List.mem_cons.1 hd with rfl | hd
    · exact Or.inr (Or.inl h1)
    · rcases h2 d hd with h | h | h
      · exact Or.inl h
      · exact Or.inr (Or.inl h)
      · exact Or.inr (Or.inr (Or.inl h))
  have hs : Snake (snake tag) := by
    unfold snake
    rw [Verif.Strings.toSnake_eq]
    exact Verif.Strings.snakeOut_snake _ tag hw _ _
  constructor <;> intro hc <;> have := hs _ hc <;> revert this <;> unfold Lower Digit <;> decide

theorem quoted_plain {c : Char} (h1 : c ≠ '\\') (h2 : c ≠ '"') (r : Text) : wellQuoted (c :: r) = wellQuoted r := by
  cases r <;> simp [wellQuoted, h1, h2]

theorem quoted_plains {cs : Text} (h : ∀ c ∈ cs, c ≠ '\\' ∧ c ≠ '"') (r : Text) : wellQuoted (cs ++ r) = wellQuoted r := by
  induction cs with
  | nil => rfl
  | cons c cs ih =>
    rw [List.cons_append, quoted_plain (h c (by simp)).1 (h c (by simp)).2, ih fun d hd => h d (List.mem_cons_of_mem _ hd)]

theorem foldl_all {P : Char → Prop} {f : Option Nat → Char → Option Nat} (h0 : ∀ d, f none d = none)
    (h1 : ∀ a d, P d ∨ f a d = none) : ∀ (ds : Text) (a : Option Nat) {n : Nat}, ds.foldl f a = some n → ∀ c ∈ ds, P c := by
  have hnone : ∀ ds : Text, ds.foldl f none = none := by
    intro ds
    induction ds with
    | nil => rfl
    | cons d ds ih => rw [List.foldl_cons, h0, ih]
  intro ds
  induction ds with
  | nil => simp
  | cons d ds ih =>
    intro a n h c hc
    rw [List.foldl_cons] at h
    rcases List.mem_cons.1 hc with rfl | hc
    · rcases h1 a c with hp | hp
      · exact hp
      · rw [hp, hnone] at h; cases h
    · exact ih _ h c hc

theorem hex_plain {ds : Text} {n : Nat} (h : Verif.Strings.Spec.hexNumber? ds = some n) : ∀ c ∈ ds, c ≠ '\\' ∧ c ≠ '"' := by
  unfold Verif.Strings.Spec.hexNumber? at h
  refine foldl_all (fun d => ?_) (fun a d => ?_) ds _ h
  · rfl
  · by_cases hd : d = '\\' ∨ d = '"'
    · right
      rcases hd with rfl | rfl <;> cases a <;> rfl
    · left
      exact ⟨fun hx => hd (.inl hx), fun hx => hd (.inr hx)⟩

theorem quoted_piece {p : Piece} (h : p.value? ≠ none) (r : Text) : wellQuoted (p.text ++ r) = wellQuoted r := by
  cases p with
  | char c =>
    have hc : c ≠ '\\' ∧ c ≠ '"' := by
      constructor <;> rintro rfl <;> simp [Piece.value?] at h
    exact quoted_plain hc.1 hc.2 r
  | unicode ds =>
    have hn : ∃ n, Verif.Strings.Spec.hexNumber? ds = some n := by
      simp only [Piece.value?] at h
      cases hx : Verif.Strings.Spec.hexNumber? ds with
      | none => rw [hx] at h; simp at h
      | some n => exact ⟨n, rfl⟩
    obtain ⟨n, hn⟩ := hn
    have h1 : (Piece.unicode ds).text ++ r = '\\' :: 'u' :: ('{' :: (ds ++ ('}' :: r))) := by simp [Piece.text]
    rw [h1, wellQuoted, quoted_plain (by decide) (by decide), quoted_plains (hex_plain hn), quoted_plain (by decide) (by decide)]
  | _ => simp [Piece.text, wellQuoted]

theorem literal_quoted {ps : List Piece} (h : Literal ps) : wellQuoted (text ps) = true := by
  unfold text
  induction ps with
  | nil => rfl
  | cons p ps ih =>
    rw [List.flatMap_cons, quoted_piece (h p (by simp))]
    exact ih fun q hq => h q (List.mem_cons_of_mem _ hq)

/-! ### States -/

/-- All names are names of variables. -/
def Good (s : State) : Prop := ∀ l n, s.names l = some n → VarName n

/-- More variables have names. -/
structure Ext (s t : State) : Prop where
  good : Good s → Good t
  keep : ∀ l, s.names l ≠ none → t.names l ≠ none

theorem Ext.refl (s : State) : Ext s s := ⟨id, fun _ h => h⟩

theorem Ext.trans {s t u : State} (h : Ext s t) (h' : Ext t u) : Ext s u :=
  ⟨fun hg => h'.good (h.good hg), fun l hl => h'.keep l (h.keep l hl)⟩

theorem Ext.reset {s t : State} (h : Ext s t) (taken : Text → Option Nat) : Ext s { t with taken := taken } := ⟨h.good, h.keep⟩

theorem ext_reset (s : State) (taken : Text → Option Nat) : Ext s { s with taken := taken } := ⟨id, fun _ h => h⟩

theorem newVar_var (s : State) {x : Text} (hx : VariableName x) (l : Loc) : VarName (s.newVar x l).1 := nameOf_var hx.1 _

theorem newVar_ext (s : State) {x : Text} (hx : VariableName x) (l : Loc) : Ext s (s.newVar x l).2 := by
  refine ⟨?_, ?_⟩
  · intro hg k n hk
    by_cases h : k = l
    · simp only [State.newVar, h, if_true, Option.some.injEq] at hk
      rw [← hk]
      exact newVar_var s hx l
    · simp only [State.newVar, if_neg h] at hk
      exact hg k n hk
  · intro k hk
    by_cases h : k = l
    · simp [State.newVar, h]
    · simpa [State.newVar, h] using hk

theorem newVar_has (s : State) (x : Text) (l : Loc) : (s.newVar x l).2.names l ≠ none := by simp [State.newVar]

theorem newGenerated_ext (s : State) : Ext s s.newGenerated.2 := ⟨id, fun _ h => h⟩

theorem defineAll_ext (s : State) (vs : List (Text × Loc)) (h : ∀ x ∈ vs.map Prod.fst, VariableName x) :
    Ext s (defineAll s vs) ∧ ∀ v ∈ vs, (defineAll s vs).names v.2 ≠ none := by
  induction vs generalizing s with
  | nil => exact ⟨Ext.refl s, by simp⟩
  | cons v vs ih =>
    simp only [List.map_cons, List.mem_cons, forall_eq_or_imp] at h
    obtain ⟨h1, h2⟩ := ih (s.newVar v.1 v.2).2 h.2
    refine ⟨(newVar_ext s h.1 v.2).trans h1, ?_⟩
    intro w hw
    rcases List.mem_cons.1 hw with rfl | hw
    · exact h1.keep _ (newVar_has s _ _)
    · exact h2 w hw

/-- The variables that can be used have names. -/
structure Ready (Γ : Scope) (s : State) : Prop where
  good : Good s
  has : ∀ x l, (x, l) ∈ Γ → s.names l ≠ none

theorem Ready.ext {Γ : Scope} {s t : State} (h : Ready Γ s) (he : Ext s t) : Ready Γ t :=
  ⟨he.good h.good, fun x l hx => he.keep l (h.has x l hx)⟩

theorem Ready.append {Γ vs : Scope} {s : State} (h : Ready Γ s) (hv : ∀ v ∈ vs, s.names v.2 ≠ none) : Ready (vs ++ Γ) s :=
  ⟨h.good, fun x l hx => by
    rcases List.mem_append.1 hx with hx | hx
    · exact hv _ hx
    · exact h.has x l hx⟩

theorem Ready.var {Γ : Scope} {s : State} (h : Ready Γ s) {x : Text} {l : Loc} (hx : Γ.lookup x = some l) :
    VarName (s.localName l) := by
  have := h.has x l (mem_of_lookup hx)
  unfold State.localName
  cases hn : s.names l with
  | none => exact absurd hn this
  | some n => exact h.good l n hn

/-! ### Patterns -/

theorem okAll_append (k : Kind) (as bs : List Term) : OkAll k (as ++ bs) ↔ OkAll k as ∧ OkAll k bs := by
  induction as with
  | nil => simp [OkAll]
  | cons a as ih => simp [OkAll, ih, and_assoc]

mutual

theorem const_ok (k : Kind) : ∀ c : Const, c.Wf → (tConst c).Ok k
  | .int _, _ => by simp [tConst, Term.Ok]
  | .string ps, h => by simp only [Const.Wf] at h; simp [tConst, Term.Ok, literal_quoted h]
  | .tuple cs, h => by simp only [Const.Wf] at h; simp [tConst, Term.Ok, consts_ok k cs h]
  | .nil, _ => by simp [tConst, Term.Ok]
  | .cons c d, h => by simp only [Const.Wf] at h; simp [tConst, Term.Ok, const_ok k c h.1, const_ok k d h.2]
  | .record tag [], h => by simp only [Const.Wf] at h; simp [tConst, Term.Ok, snake_atom h.1]
  | .record tag (c :: cs), h => by
    simp only [Const.Wf, constsWf] at h
    simp [tConst, Term.Ok, OkAll, snake_atom h.1, const_ok k c h.2.1, consts_ok k cs h.2.2]

theorem consts_ok (k : Kind) : ∀ cs : List Const, constsWf cs → OkAll k (tConsts cs)
  | [], _ => by simp [tConsts, OkAll]
  | c :: cs, h => by simp only [constsWf] at h; simp [tConsts, OkAll, const_ok k c h.1, consts_ok k cs h.2]

end

theorem tRight_ok (s : State) {right : Option (Text × Loc)} (h : ∀ v ∈ right, VariableName v.1) :
    (tRight s right).1.Ok .pattern := by
  cases right with
  | none => simp [tRight, Term.Ok]
  | some v =>
    obtain ⟨x, l⟩ := v
    simp only [tRight, Term.Ok]
    exact newVar_var s (h (x, l) rfl) l

mutual

theorem pattern_ok (s : State) (later : Later) : ∀ p : Pattern, p.Parts → (∀ x ∈ p.vars.map Prod.fst, VariableName x) →
    (tPattern s later p).1.Ok .pattern
  | .discard, _, _ => by simp [tPattern, Term.Ok]
  | .int _, _, _ => by simp [tPattern, Term.Ok]
  | .string ps, h, _ => by simp only [Pattern.Parts] at h; simp [tPattern, Term.Ok, literal_quoted h]
  | .var x l, _, hv => by
    simp only [tPattern, Term.Ok]
    exact newVar_var s (hv x (by simp [Pattern.vars])) l
  | .assign p x l, h, hv => by
    simp only [Pattern.Parts] at h
    simp only [Pattern.vars, List.map_append, List.mem_append] at hv
    simp only [tPattern, Term.Ok]
    exact ⟨pattern_ok s later p h.2 fun y hy => hv y (Or.inl hy), newVar_var _ (hv x (Or.inr (by simp))) l⟩
  | .tuple ps, h, hv => by
    simp only [Pattern.Parts] at h
    simp only [Pattern.vars] at hv
    simp only [tPattern, Term.Ok]
    exact patterns_ok s later ps h hv
  | .nil, _, _ => by simp [tPattern, Term.Ok]
  | .cons p q, h, hv => by
    simp only [Pattern.Parts] at h
    simp only [Pattern.vars, List.map_append, List.mem_append] at hv
    simp only [tPattern, Term.Ok]
    exact ⟨pattern_ok s later p h.1 fun y hy => hv y (Or.inl hy), pattern_ok _ _ q h.2 fun y hy => hv y (Or.inr hy)⟩
  | .ctor tag [], h, _ => by simp only [Pattern.Parts] at h; simp [tPattern, Term.Ok, snake_atom h.1]
  | .ctor tag (p :: ps), h, hv => by
    simp only [Pattern.Parts, partsAll] at h
    simp only [Pattern.vars, varsAll, List.map_append, List.mem_append] at hv
    simp only [tPattern, Term.Ok, OkAll]
    exact ⟨snake_atom h.1, pattern_ok s later p h.2.1 fun y hy => hv y (Or.inl hy),
      patterns_ok _ _ ps h.2.2 fun y hy => hv y (Or.inr hy)⟩
  | .prefix ps left right, h, hv => by
    simp only [Pattern.Parts] at h
    simp only [tPattern, Term.Ok, ErlText.OkSegments]
    refine ⟨literal_quoted h, tRight_ok s ?_, trivial⟩
    intro v hv1
    apply hv
    simp only [Pattern.vars, List.map_append, List.mem_append]
    refine Or.inr (List.mem_map.2 ⟨v, ?_, rfl⟩)
    simpa using hv1

theorem patterns_ok (s : State) (later : Later) : ∀ ps : List Pattern, partsAll ps →
    (∀ x ∈ (varsAll ps).map Prod.fst, VariableName x) → OkAll .pattern (tPatterns s later ps).1
  | [], _, _ => by simp [tPatterns, OkAll]
  | p :: ps, h, hv => by
    simp only [partsAll] at h
    simp only [varsAll, List.map_append, List.mem_append] at hv
    simp only [tPatterns, OkAll]
    exact ⟨pattern_ok s later p h.1 fun y hy => hv y (Or.inl hy), patterns_ok _ _ ps h.2 fun y hy => hv y (Or.inr hy)⟩

end

theorem subject_ok (s : State) {ps : List Pattern} (h : PatternsWf ps) : (tSubjectPatterns s [] ps).1.Ok .pattern := by
  match ps, h with
  | [], _ => simp [tSubjectPatterns, tPatterns, Term.Ok, OkAll]
  | [p], h =>
    simp only [tSubjectPatterns]
    refine pattern_ok s [] p h.1.1 ?_
    have := h.2.2
    rwa [varsAll_one] at this
  | p :: q :: ps, h =>
    simp only [tSubjectPatterns, Term.Ok]
    exact patterns_ok s [] _ h.1 h.2.2

/-! ### Aliases -/

/-- The stored literals can be printed. -/
def LaterOk (later : Later) : Prop := ∀ e ∈ later, VariableName e.1 ∧ wellQuoted e.2.2 = true

theorem assignments_ok (s : State) {later : Later} (h : LaterOk later) : OkAll .expression (tAssignments s later).1 := by
  induction later generalizing s with
  | nil => simp [tAssignments, OkAll]
  | cons e later ih =>
    obtain ⟨x, l, content⟩ := e
    simp only [tAssignments, OkAll, Term.Ok]
    have h1 := h (x, l, content) (by simp)
    exact ⟨⟨newVar_var s h1.1 l, h1.2⟩, ih _ fun e he => h e (List.mem_cons_of_mem _ he)⟩

theorem stored_ok {ps : List Pattern} (h : PatternsWf ps) : LaterOk (storedAliases (aliasesAll ps)) := by
  intro e he
  obtain ⟨a, ha, rfl⟩ := List.mem_map.1 he
  refine ⟨?_, literal_quoted (aliasesAll_literal h.1 a ha)⟩
  apply h.2.2
  rw [((varsAll_perm ps).map Prod.fst).mem_iff, List.map_append, List.mem_append]
  right
  exact List.mem_map.2 ⟨(a.1, a.2.1), List.mem_map.2 ⟨a, ha, rfl⟩, rfl⟩

theorem sortLater_ok {later : Later} (h : LaterOk later) : LaterOk (sortLater later) := fun e he =>
  h e ((sortLater_perm later).mem_iff.1 he)

/-! ### Guards -/

theorem get_ok {later : Later} (h : LaterOk later) {x content : Text} (hg : later.get x = some content) :
    wellQuoted content = true := by
  unfold Later.get at hg
  rw [Option.map_eq_some_iff] at hg
  obtain ⟨e, h1, rfl⟩ := hg
  exact (h e (List.mem_of_find?_eq_some h1)).2

theorem const_operand (c : Const) : (tConst c).operandLike = true := by
  cases c with
  | record tag cs => cases cs <;> rfl
  | _ => rfl

theorem guard_operand (s : State) : ∀ (g : Guard) (later : Later), (tGuard s later g).operandLike = true
  | .const c, later => by rw [tGuard]; exact const_operand c
  | .block g, later => by rw [tGuard]; exact guard_operand s g later
  | .index _ _, _ => by rw [tGuard]; rfl
  | .field _ _, _ => by rw [tGuard]; rfl
  | .not _, _ => by rw [tGuard]; rfl
  | .bin op _ _, later => by
    cases op <;> rw [tGuard] <;> first | rfl | (intro h; cases h)
  | .var x l, later => by rw [tGuard]; cases later.get x <;> rfl

/-- What guards need: the variables that are not aliases have names. -/
structure GuardReady (as : List Text) (Γ : Scope) (s : State) : Prop where
  good : Good s
  has : ∀ x l, Γ.lookup x = some l → x ∉ as → s.names l ≠ none

theorem GuardReady.var {as : List Text} {Γ : Scope} {s : State} (h : GuardReady as Γ s) {x : Text} {l : Loc}
    (hx : Γ.lookup x = some l) (ha : x ∉ as) : VarName (s.localName l) := by
  have := h.has x l hx ha
  unfold State.localName
  cases hn : s.names l with
  | none => exact absurd hn this
  | some n => exact h.good l n hn

theorem path_ok {as : List Text} {Γ : Scope} {s : State} (hr : GuardReady as Γ s) : ∀ g : Guard, g.isPath = true →
    g.ofAlias as = false → g.Wf as Γ → (tGuard s [] g).Ok .expression
  | .const c, _, _, h => by rw [tGuard]; exact const_ok _ c h
  | .block g, hp, ha, h => by rw [tGuard]; exact path_ok hr g hp ha h
  | .index g i, hp, ha, h => by
    simp only [Guard.Wf] at h
    rw [tGuard]
    simp only [Term.Ok, OkAll]
    exact ⟨trivial, by unfold AtomText; decide, by unfold AtomText; decide, trivial, path_ok hr g h.1 h.2.2 h.2.1, trivial⟩
  | .field g i, hp, ha, h => by
    simp only [Guard.Wf] at h
    rw [tGuard]
    simp only [Term.Ok, OkAll]
    exact ⟨trivial, by unfold AtomText; decide, by unfold AtomText; decide, trivial, path_ok hr g h.1 h.2.2 h.2.1, trivial⟩
  | .not g, hp, _, _ => by simp [Guard.isPath] at hp
  | .bin op l r, hp, _, _ => by simp [Guard.isPath] at hp
  | .var x l, _, ha, h => by
    simp only [Guard.Wf] at h
    simp only [Guard.ofAlias, decide_eq_false_iff_not] at ha
    simp only [tGuard, Later.get, List.find?_nil, Option.map_none, Term.Ok]
    exact hr.var h ha

theorem guard_ok {as : List Text} {Γ : Scope} {s : State} (hr : GuardReady as Γ s) {later : Later} (hl : LaterOk later)
    (ha : ∀ x ∈ as, later.get x ≠ none) : ∀ g : Guard, g.Wf as Γ → (tGuard s later g).Ok .expression
  | .const c, h => by rw [tGuard]; exact const_ok _ c h
  | .block g, h => by rw [tGuard]; exact guard_ok hr hl ha g h
  | .index g i, h => by
    simp only [Guard.Wf] at h
    rw [tGuard]
    simp only [Term.Ok, OkAll]
    exact ⟨trivial, by unfold AtomText; decide, by unfold AtomText; decide, trivial, path_ok hr g h.1 h.2.2 h.2.1, trivial⟩
  | .field g i, h => by
    simp only [Guard.Wf] at h
    rw [tGuard]
    simp only [Term.Ok, OkAll]
    exact ⟨trivial, by unfold AtomText; decide, by unfold AtomText; decide, trivial, path_ok hr g h.1 h.2.2 h.2.1, trivial⟩
  | .not g, h => by
    simp only [Guard.Wf] at h
    rw [tGuard]
    simp only [Term.Ok]
    exact ⟨trivial, guard_operand s g later, guard_ok hr hl ha g h⟩
  | .bin op l r, h => by
    simp only [Guard.Wf] at h
    have h1 := guard_ok hr hl ha l h.1
    have h2 := guard_ok hr hl ha r h.2.1
    by_cases ho : op = .concat
    · subst ho
      rw [tGuard]
      simp only [Term.Ok, ErlText.OkSegments]
      exact ⟨h1, h2, trivial⟩
    · rw [tGuard]
      · simp only [Term.Ok]
        exact ⟨trivial, guard_operand s l later, guard_operand s r later, h1, h2⟩
      · exact ho
  | .var x l, h => by
    simp only [Guard.Wf] at h
    rw [tGuard]
    cases hg : later.get x with
    | some content => simp only [Term.Ok]; exact get_ok hl hg
    | none =>
      simp only [Term.Ok]
      exact hr.var h fun hx => ha x hx hg

end Verif.ErlGen
