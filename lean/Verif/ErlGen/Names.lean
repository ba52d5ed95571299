import Verif.ErlGen.Scope
import Verif.ErlText.Ok

/-!
# The names of the variables of the generated code
-/

namespace Verif.ErlGen

open Verif.ErlText (Text)
open Verif.Strings.Spec (Lower Upper Digit Word)

theorem char_eq_of_toNat {a b : Char} (h : a.toNat = b.toNat) : a = b := by
  apply Char.ext
  apply UInt32.toNat.inj
  exact h

theorem toUpper_lower {c : Char} (h : Lower c) : c.toUpper.toNat = c.toNat - 32 := by
  unfold Lower at h
  simp only [show ('a' : Char).toNat = 97 from rfl, show ('z' : Char).toNat = 122 from rfl] at h
  unfold Char.toUpper
  have h1 : c.val ≥ 'a'.val ∧ c.val ≤ 'z'.val := by
    constructor
    · show (97 : UInt32) ≤ c.val
      rw [UInt32.le_iff_toNat_le]
      exact h.1
    · show c.val ≤ (122 : UInt32)
      rw [UInt32.le_iff_toNat_le]
      exact h.2
  rw [dif_pos h1]
  show (c.val + ('A'.val - 'a'.val)).toNat = _
  have h2 : c.val.toNat = c.toNat := rfl
  rw [UInt32.toNat_add]
  have h3 : ('A'.val - 'a'.val : UInt32).toNat = 4294967264 := by decide
  rw [h3, h2]
  omega

theorem toUpper_underscore : ('_' : Char).toUpper = '_' := by decide

theorem name_chars {x : Text} (h : NameText x) : ∀ d ∈ variableName x, d ≠ '@' := by
  obtain ⟨c, cs, rfl, hc, hw, _⟩ := h
  intro d hd
  simp only [variableName, List.mem_cons] at hd
  rcases hd with rfl | hd
  · rcases hc with hc | rfl
    · intro he
      have := toUpper_lower hc
      rw [he] at this
      unfold Lower at hc
      simp only [show ('a' : Char).toNat = 97 from rfl, show ('z' : Char).toNat = 122 from rfl] at hc
      have h64 : ('@' : Char).toNat = 64 := rfl
      omega
    · rw [toUpper_underscore]; decide
  · rintro rfl
    have := hw '@' hd
    revert this
    unfold Lower Upper Digit
    decide

theorem variableName_inj {x y : Text} (hx : NameText x) (hy : NameText y) (h : variableName x = variableName y) :
    x = y := by
  obtain ⟨c, cs, rfl, hc, -, -⟩ := hx
  obtain ⟨d, ds, rfl, hd, -, -⟩ := hy
  simp only [variableName, List.cons.injEq] at h
  obtain ⟨h1, rfl⟩ := h
  have hU : ('_' : Char).toNat = 95 := rfl
  congr 1
  apply char_eq_of_toNat
  have h1' := congrArg Char.toNat h1
  rcases hc with hc | rfl <;> rcases hd with hd | rfl
  · rw [toUpper_lower hc, toUpper_lower hd] at h1'
    unfold Lower at hc hd
    simp only [show ('a' : Char).toNat = 97 from rfl, show ('z' : Char).toNat = 122 from rfl] at hc hd
    omega
  · rw [toUpper_lower hc, toUpper_underscore] at h1'
    unfold Lower at hc
    simp only [show ('a' : Char).toNat = 97 from rfl, show ('z' : Char).toNat = 122 from rfl] at hc
    omega
  · rw [toUpper_lower hd, toUpper_underscore] at h1'
    unfold Lower at hd
    simp only [show ('a' : Char).toNat = 97 from rfl, show ('z' : Char).toNat = 122 from rfl] at hd
    omega
  · rfl

theorem split_at {a b : Text} {r t : Text} (ha : ∀ d ∈ a, d ≠ '@') (hb : ∀ d ∈ b, d ≠ '@')
    (h : a ++ '@' :: r = b ++ '@' :: t) : a = b ∧ r = t := by
  induction a generalizing b with
  | nil =>
    cases b with
    | nil => simpa using h
    | cons d ds =>
      simp only [List.nil_append, List.cons_append, List.cons.injEq] at h
      exact absurd h.1.symm (by apply hb; simp)
  | cons c cs ih =>
    cases b with
    | nil =>
      simp only [List.nil_append, List.cons_append, List.cons.injEq] at h
      exact absurd h.1 (by apply ha; simp)
    | cons d ds =>
      simp only [List.cons_append, List.cons.injEq] at h
      obtain ⟨h1, h2⟩ := ih (fun e he => ha e (by simp [he])) (fun e he => hb e (by simp [he])) h.2
      exact ⟨by rw [h.1, h1], h2⟩

theorem numbered_inj {a b : Text} (ha : ∀ d ∈ a, d ≠ '@') (hb : ∀ d ∈ b, d ≠ '@') {i j : Nat}
    (h : numbered a i = numbered b j) : a = b ∧ i = j := by
  cases i with
  | zero =>
    cases j with
    | zero => exact ⟨h, rfl⟩
    | succ j =>
      simp only [numbered] at h
      subst h
      exact absurd rfl (by apply ha '@'; simp)
  | succ i =>
    cases j with
    | zero =>
      simp only [numbered] at h
      subst h
      exact absurd rfl (by apply hb '@'; simp)
    | succ j =>
      simp only [numbered, List.append_assoc] at h
      obtain ⟨h1, h2⟩ := split_at ha hb (r := Verif.Decimal.showNat (i + 1)) (t := Verif.Decimal.showNat (j + 1)) h
      exact ⟨h1, Verif.Decimal.showNat_inj h2⟩

/-- The name of the variable with a number. -/
def nameOf (x : Text) (i : Nat) : Text := numbered (variableName x) i

theorem nameOf_inj {x y : Text} (hx : NameText x) (hy : NameText y) {i j : Nat} (h : nameOf x i = nameOf y j) :
    x = y ∧ i = j := by
  obtain ⟨h1, h2⟩ := numbered_inj (name_chars hx) (name_chars hy) h
  exact ⟨variableName_inj hx hy h1, h2⟩

theorem nameOf_underscore {x : Text} (hx : NameText x) (i : Nat) : nameOf x i ≠ ['_'] := by
  intro h
  have hu : ['_'] = numbered ['_'] 0 := rfl
  unfold nameOf at h
  rw [hu] at h
  obtain ⟨h1, -⟩ := numbered_inj (name_chars hx) (by simp) h
  obtain ⟨c, cs, rfl, hc, _, hne⟩ := hx
  simp only [variableName, List.cons.injEq] at h1
  obtain ⟨h1, rfl⟩ := h1
  apply hne
  congr 1
  rcases hc with hc | rfl
  · have := toUpper_lower hc
    rw [h1] at this
    unfold Lower at hc
    have hU : ('_' : Char).toNat = 95 := rfl
    simp only [show ('a' : Char).toNat = 97 from rfl, show ('z' : Char).toNat = 122 from rfl] at hc
    omega
  · rfl

theorem nameOf_VarName {x : Text} (hx : NameText x) (i : Nat) : ErlText.VarName (nameOf x i) := by
  obtain ⟨c, cs, rfl, hc, hw, _⟩ := hx
  have hhead : (ErlText.Read.isCapital c.toUpper || c.toUpper = '_') = true := by
    rcases hc with hc | rfl
    · have h := toUpper_lower hc
      unfold Lower at hc
      simp only [show ('a' : Char).toNat = 97 from rfl, show ('z' : Char).toNat = 122 from rfl] at hc
      simp only [ErlText.Read.isCapital, Bool.or_eq_true, Bool.and_eq_true, decide_eq_true_eq]
      left
      omega
    · decide
  have htail : ∀ d ∈ cs, ErlText.Read.isNameChar d = true := by
    intro d hd
    have := hw d hd
    unfold Lower Upper Digit at this
    simp only [ErlText.Read.isNameChar, ErlText.Read.isSmall, ErlText.Read.isCapital, ErlText.Read.isDigit, Bool.or_eq_true,
      Bool.and_eq_true, decide_eq_true_eq]
    rcases this with h | h | h | h
    · left; left; left; left; exact h
    · left; left; left; right; exact h
    · left; left; right; exact h
    · left; right; exact h
  cases i with
  | zero => exact ⟨c.toUpper, cs, rfl, hhead, by simpa using htail⟩
  | succ i =>
    refine ⟨c.toUpper, cs ++ "@".toList ++ Verif.Decimal.showNat (i + 1), by simp [nameOf, numbered, variableName], hhead, ?_⟩
    have hd := Verif.Decimal.showNat_digits (i + 1)
    rw [List.all_eq_true]
    intro d hmem
    simp only [List.mem_append] at hmem
    rcases hmem with (hmem | hmem) | hmem
    · exact htail d hmem
    · rw [show "@".toList = ['@'] from rfl, List.mem_singleton] at hmem
      subst hmem
      decide
    · have := hd d hmem
      simp only [Verif.Decimal.isDigit, Bool.and_eq_true, decide_eq_true_eq] at this
      simp only [ErlText.Read.isNameChar, ErlText.Read.isDigit, Bool.or_eq_true, Bool.and_eq_true, decide_eq_true_eq]
      left; left; right
      first | exact this | (simpa using this)

/-- The name the code generator keeps for itself. -/
def reserved : Text := "_value".toList

theorem reserved_name : NameText reserved :=
  ⟨'_', "value".toList, rfl, Or.inr rfl, by unfold Word Lower Upper Digit; decide, by decide⟩

theorem variableName_reserved : variableName reserved = reserved := by decide

/-- How many names have been made from a name. -/
def State.count (s : State) (x : Text) : Nat := if x = reserved then s.generated else nextIndex (s.taken x)

/-- The names that have been used. -/
def State.Taken (s : State) (n : Text) : Prop := ∃ x i, NameText x ∧ n = nameOf x i ∧ i < s.count x

theorem State.not_taken {s : State} {x : Text} (hx : NameText x) {i : Nat} (h : s.count x ≤ i) : ¬s.Taken (nameOf x i) := by
  rintro ⟨y, j, hy, hn, hj⟩
  obtain ⟨rfl, rfl⟩ := nameOf_inj hx hy hn
  omega

theorem State.taken_of {s : State} {x : Text} (hx : NameText x) {i : Nat} (h : i < s.count x) : s.Taken (nameOf x i) :=
  ⟨x, i, hx, rfl, h⟩

theorem State.taken_mono {s t : State} (h : ∀ x, NameText x → s.count x ≤ t.count x) {n : Text} (hn : s.Taken n) :
    t.Taken n := by
  obtain ⟨x, i, hx, hn, hi⟩ := hn
  exact ⟨x, i, hx, hn, Nat.lt_of_lt_of_le hi (h x hx)⟩

theorem State.taken_underscore (s : State) : ¬s.Taken ['_'] := by
  rintro ⟨x, i, hx, hn, -⟩
  exact nameOf_underscore hx i hn.symm

/-- What generating something does to the state: the names it defines, and the places of the definitions. -/
structure Step (s t : State) (bs : List Text) (ls : List Loc) : Prop where
  taken : ∀ x, nextIndex (t.taken x) = nextIndex (s.taken x) + bs.count x
  generated : s.generated ≤ t.generated
  names : ∀ l, l ∉ ls → t.names l = s.names l

theorem Step.refl (s : State) : Step s s [] [] := ⟨fun _ => by simp, Nat.le_refl _, fun _ _ => rfl⟩

theorem Step.trans {s t u : State} {bs cs : List Text} {ls ms : List Loc} (h : Step s t bs ls) (h' : Step t u cs ms) :
    Step s u (bs ++ cs) (ls ++ ms) where
  taken x := by rw [h'.taken, h.taken, List.count_append]; omega
  generated := Nat.le_trans h.generated h'.generated
  names l hl := by
    simp only [List.mem_append, not_or] at hl
    rw [h'.names l hl.2, h.names l hl.1]

theorem Step.perm {s t : State} {bs cs : List Text} {ls ms : List Loc} (h : Step s t bs ls) (hb : bs.Perm cs)
    (hl : ∀ l ∈ ls, l ∈ ms) : Step s t cs ms where
  taken x := by rw [h.taken, hb.count_eq]
  generated := h.generated
  names l hn := h.names l fun hc => hn (hl l hc)

theorem Step.count {s t : State} {bs : List Text} {ls : List Loc} (h : Step s t bs ls) (x : Text) :
    s.count x ≤ t.count x := by
  unfold State.count
  split
  · exact h.generated
  · rw [h.taken]; omega

theorem Step.mono {s t : State} {bs : List Text} {ls : List Loc} (h : Step s t bs ls) {n : Text} (hn : s.Taken n) :
    t.Taken n := State.taken_mono (fun x _ => h.count x) hn

theorem nextIndex_take (taken : Text → Option Nat) (x y : Text) :
    nextIndex (take taken x y) = nextIndex (taken y) + (if y = x then 1 else 0) := by
  unfold take
  split
  · rename_i h
    subst h
    simp [nextIndex]
  · simp

theorem newVar_step (s : State) (x : Text) (l : Loc) : Step s (s.newVar x l).2 [x] [l] where
  taken y := by
    simp only [State.newVar, nextIndex_take, List.count_singleton, beq_iff_eq]
    by_cases h : x = y
    · simp [h]
    · simp [h, Ne.symm h]
  generated := Nat.le_refl _
  names k hk := by
    simp only [State.newVar]
    simp only [List.mem_singleton] at hk
    rw [if_neg hk]

theorem newVar_name (s : State) {x : Text} (hx : VariableName x) (l : Loc) :
    (s.newVar x l).1 = nameOf x (s.count x) := by
  have hr : x ≠ reserved := hx.2
  simp only [State.newVar, nameOf, State.count, if_neg hr]

theorem newVar_names (s : State) (x : Text) (l : Loc) : (s.newVar x l).2.names l = some (s.newVar x l).1 := by
  simp [State.newVar]

theorem newGenerated_step (s : State) : Step s s.newGenerated.2 [] [] where
  taken y := by simp [State.newGenerated]
  generated := by simp [State.newGenerated]
  names l _ := rfl

theorem newGenerated_name (s : State) : s.newGenerated.1 = nameOf reserved (s.count reserved) := by
  unfold nameOf
  rw [variableName_reserved]
  simp only [State.newGenerated, State.count, if_true]
  rfl

theorem newGenerated_count (s : State) : s.newGenerated.2.count reserved = s.count reserved + 1 := by
  simp [State.newGenerated, State.count]

/-- Keys between two states. -/
def Between (s t : State) (ns : List Text) : Prop := ∀ n ∈ ns, ¬s.Taken n ∧ t.Taken n

theorem newVar_between (s : State) {x : Text} (hx : VariableName x) (l : Loc) :
    Between s (s.newVar x l).2 [(s.newVar x l).1] := by
  intro n hn
  rw [List.mem_singleton] at hn
  subst hn
  rw [newVar_name s hx l]
  refine ⟨State.not_taken hx.1 (Nat.le_refl _), State.taken_of hx.1 ?_⟩
  have := (newVar_step s x l).taken x
  have hr : x ≠ reserved := hx.2
  simp only [State.count, if_neg hr, this]
  simp

theorem newGenerated_between (s : State) : Between s s.newGenerated.2 [s.newGenerated.1] := by
  intro n hn
  rw [List.mem_singleton] at hn
  subst hn
  rw [newGenerated_name s]
  refine ⟨State.not_taken reserved_name (Nat.le_refl _), State.taken_of reserved_name ?_⟩
  rw [newGenerated_count]
  omega

theorem Between.nil (s t : State) : Between s t [] := by intro n hn; simp at hn

theorem Between.append {s t u : State} {as bs : List Text} (ha : Between s t as) (hb : Between t u bs)
    (hst : ∀ n, s.Taken n → t.Taken n) (htu : ∀ n, t.Taken n → u.Taken n) : Between s u (as ++ bs) := by
  intro n hn
  simp only [List.mem_append] at hn
  rcases hn with hn | hn
  · exact ⟨(ha n hn).1, htu n (ha n hn).2⟩
  · exact ⟨fun h => (hb n hn).1 (hst n h), (hb n hn).2⟩

theorem Between.append' {s t u : State} {as bs : List Text} (ha : Between s t as) (hb : Between t u bs)
    (hst : ∀ n, s.Taken n → t.Taken n) (htu : ∀ n, t.Taken n → u.Taken n) : Between s u (bs ++ as) := by
  intro n hn
  apply Between.append ha hb hst htu
  simp only [List.mem_append] at hn ⊢
  exact hn.symm

theorem Between.disjoint {s t u : State} {as bs : List Text} (ha : Between s t as) (hb : Between t u bs) :
    ∀ n ∈ as, n ∉ bs := fun n hn hc => (hb n hc).1 (ha n hn).2

end Verif.ErlGen
