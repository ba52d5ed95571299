import Verif.Segments.Spec
import Verif.Segments.Ints

/-!
# The relations between tests are right
-/

namespace Verif.Segments

open Verif.BitArrays (readInt writeInt)

/-! ### Sizes -/

def Variables.erase : Variables → VariableUsage → Variables
  | .nil, _ => .nil
  | .cons w n rest, v => if w = v then rest else .cons w n (rest.erase v)

theorem Variables.eval_erase (w : World) (b : List Bool) {v : VariableUsage} {n : Nat} : ∀ {vs : Variables},
    vs.get v = some n → vs.eval w b = v.eval w b * n + (vs.erase v).eval w b
  | .nil, h => by simp [Variables.get] at h
  | .cons u m rest, h => by
    rw [Variables.get] at h
    rw [Variables.erase]
    split at h
    · rename_i e
      simp only [Option.some.injEq] at h
      rw [if_pos e, Variables.eval, e, h]
    · rename_i e
      rw [if_neg e, Variables.eval, Variables.eval, Variables.eval_erase w b h]
      ring

theorem Variables.get_erase {v u : VariableUsage} (h : v ≠ u) : ∀ vs : Variables, (vs.erase v).get u = vs.get u
  | .nil => rfl
  | .cons x m rest => by
    rw [Variables.erase]
    split
    · rename_i e
      rw [Variables.get, if_neg (by rw [e]; exact h)]
    · rw [Variables.get, Variables.get, Variables.get_erase h rest]

theorem Variables.superset_erase {v : VariableUsage} {one : Variables} : ∀ {other : Variables},
    one.superset other = true → other.get v = none → (one.erase v).superset other = true
  | .nil, _, _ => rfl
  | .cons u m rest, h, hv => by
    rw [Variables.get] at hv
    split at hv
    · simp at hv
    · rename_i e
      rw [Variables.superset, Bool.and_eq_true] at h ⊢
      refine ⟨?_, Variables.superset_erase h.2 hv⟩
      rw [Variables.get_erase (Ne.symm e)]
      exact h.1

theorem Variables.unsigned_erase (v : VariableUsage) : ∀ {vs : Variables}, vs.unsigned = true → (vs.erase v).unsigned = true
  | .nil, _ => rfl
  | .cons u m rest, h => by
    rw [Variables.unsigned, Bool.and_eq_true] at h
    rw [Variables.erase]
    split
    · exact h.2
    · rw [Variables.unsigned, Bool.and_eq_true]
      exact ⟨h.1, Variables.unsigned_erase v h.2⟩

theorem Variables.unsigned_get {v : VariableUsage} {n : Nat} : ∀ {vs : Variables}, vs.unsigned = true → vs.get v = some n →
    v.unsigned = true
  | .nil, _, h => by simp [Variables.get] at h
  | .cons u k r, h1, h2 => by
    rw [Variables.unsigned, Bool.and_eq_true] at h1
    rw [Variables.get] at h2
    split at h2
    · rename_i e; rw [← e]; exact h1.1
    · exact Variables.unsigned_get h1.2 h2

theorem intOf_unsigned (big : Bool) (bits : Option (List Bool)) : 0 ≤ intOf big false bits := by
  unfold intOf readInt
  split
  · simp
  · exact le_refl _

theorem VariableUsage.eval_nonneg {w : World} (hw : ∀ x, 0 ≤ w.vars x) (b : List Bool) {v : VariableUsage} (h : v.unsigned = true) :
    0 ≤ v.eval w b := by
  cases v with
  | patternSegment name a =>
    obtain ⟨start, size, type, big, signed⟩ := a
    simp only [VariableUsage.unsigned, ReadAction.signed, Bool.not_eq_true'] at h
    rw [VariableUsage.eval, ReadAction.int, h]
    exact intOf_unsigned _ _
  | outsideVariable name =>
    rw [VariableUsage.eval]
    exact hw name

theorem Variables.eval_nonneg {w : World} (hw : ∀ x, 0 ≤ w.vars x) (b : List Bool) : ∀ {vs : Variables}, vs.unsigned = true →
    0 ≤ vs.eval w b
  | .nil, _ => by rw [Variables.eval]
  | .cons v n rest, h => by
    rw [Variables.unsigned, Bool.and_eq_true] at h
    have h1 := VariableUsage.eval_nonneg hw b h.1
    have h2 := Variables.eval_nonneg hw b h.2
    have h3 : 0 ≤ v.eval w b * n := Int.mul_nonneg h1 (by omega)
    rw [Variables.eval]
    omega

/-- The larger bag of variables has the larger sum. -/
theorem Variables.superset_le {w : World} (hw : ∀ x, 0 ≤ w.vars x) (b : List Bool) : ∀ {other one : Variables},
    one.superset other = true → one.unsigned = true → other.distinct = true → other.eval w b ≤ one.eval w b
  | .nil, one, _, hu, _ => by rw [Variables.eval.eq_1]; exact Variables.eval_nonneg hw b hu
  | .cons v m rest, one, hs, hu, hd => by
    rw [Variables.superset, Bool.and_eq_true, decide_eq_true_eq] at hs
    rw [Variables.distinct, Bool.and_eq_true] at hd
    obtain ⟨⟨hle, hsome⟩, hrest⟩ := hs
    obtain ⟨n, hn⟩ := Option.isSome_iff_exists.1 hsome
    rw [hn, Option.getD_some] at hle
    have hv : 0 ≤ v.eval w b := by
      exact VariableUsage.eval_nonneg hw b (Variables.unsigned_get hu hn)
    have hr : rest.get v = none := by simpa using hd.1
    have ih := Variables.superset_le hw b (Variables.superset_erase hrest hr) (Variables.unsigned_erase v hu) hd.2
    rw [Variables.eval_erase w b hn, Variables.eval]
    have : v.eval w b * (m : Int) ≤ v.eval w b * n := Int.mul_le_mul_of_nonneg_left (by exact_mod_cast hle) hv
    omega

theorem Offset.greater_eval {w : World} (hw : ∀ x, 0 ≤ w.vars x) (b : List Bool) {o o' : Offset} (h : o.greater o' = true)
    (hu : o.vars.unsigned = true) (hd : o'.vars.distinct = true) : o'.eval w b < o.eval w b := by
  obtain ⟨c, vs, cs⟩ := o
  obtain ⟨c', vs', cs'⟩ := o'
  simp only [Offset.greater, Bool.and_eq_true, decide_eq_true_eq] at h
  obtain ⟨⟨⟨h1, h2⟩, h3⟩, h4⟩ := h
  have := Variables.superset_le hw b h4 hu hd
  subst h2 h3
  rw [Offset.eval, Offset.eval]
  omega

theorem Offset.greaterEqual_eval {w : World} (hw : ∀ x, 0 ≤ w.vars x) (b : List Bool) {o o' : Offset} (h : o.greaterEqual o' = true)
    (hu : o.vars.unsigned = true) (hd : o'.vars.distinct = true) : o'.eval w b ≤ o.eval w b := by
  obtain ⟨c, vs, cs⟩ := o
  obtain ⟨c', vs', cs'⟩ := o'
  simp only [Offset.greaterEqual, Bool.or_eq_true, Bool.and_eq_true, decide_eq_true_eq] at h
  rcases h with h | ⟨⟨⟨h1, h2⟩, h3⟩, h4⟩
  · rw [h]
  · have := Variables.superset_le hw b h4 hu hd
    subst h2 h3
    rw [Offset.eval, Offset.eval]
    omega

/-! ### Literals -/

theorem MatchedValue.sameValue_holds (w : World) (a : ReadAction) (bits : List Bool) : ∀ {v v' : MatchedValue},
    v.checkingSameValue v' = true → v.holds w a bits = v'.holds w a bits
  | .literalInt _, .literalInt _, h => by rw [MatchedValue.checkingSameValue, decide_eq_true_eq] at h; rw [h]
  | .literalFloat _, .literalFloat _, h => by rw [MatchedValue.checkingSameValue, decide_eq_true_eq] at h; rw [h]
  | .literalString _, .literalString _, h => by rw [MatchedValue.checkingSameValue, decide_eq_true_eq] at h; rw [h]
  | .assign _ v, .assign _ v', h => by
    rw [MatchedValue.checkingSameValue] at h
    rw [MatchedValue.holds, MatchedValue.holds, MatchedValue.sameValue_holds w a bits h]
  | .literalInt _, .literalFloat _, h => by simp [MatchedValue.checkingSameValue] at h
  | .literalInt _, .literalString _, h => by simp [MatchedValue.checkingSameValue] at h
  | .literalInt _, .assign _ _, h => by simp [MatchedValue.checkingSameValue] at h
  | .literalFloat _, .literalInt _, h => by simp [MatchedValue.checkingSameValue] at h
  | .literalFloat _, .literalString _, h => by simp [MatchedValue.checkingSameValue] at h
  | .literalFloat _, .assign _ _, h => by simp [MatchedValue.checkingSameValue] at h
  | .literalString _, .literalInt _, h => by simp [MatchedValue.checkingSameValue] at h
  | .literalString _, .literalFloat _, h => by simp [MatchedValue.checkingSameValue] at h
  | .literalString _, .assign _ _, h => by simp [MatchedValue.checkingSameValue] at h
  | .assign _ _, .literalInt _, h => by simp [MatchedValue.checkingSameValue] at h
  | .assign _ _, .literalFloat _, h => by simp [MatchedValue.checkingSameValue] at h
  | .assign _ _, .literalString _, h => by simp [MatchedValue.checkingSameValue] at h

theorem BitTest.equivalent_holds (w : World) (b : List Bool) {t t' : BitTest} (h : t.equivalentTo t' = true) :
    t.holds w b = t'.holds w b := by
  cases t <;> cases t' <;> simp only [BitTest.equivalentTo, Bool.and_eq_true, decide_eq_true_eq, Bool.false_eq_true] at h
  · rw [h.1, h.2]
  · rw [h.2, BitTest.holds, BitTest.holds]
    congr 1
    funext bits
    exact MatchedValue.sameValue_holds w _ bits h.1
  all_goals rw [h]

/-- What `intToBits` answers. -/
theorem intToBits_ok {v : Int} {size : ReadSize} {big signed : Bool} {bits : List Bool}
    (h : intToBits v size big signed = .ok bits) : ∃ n : Nat, size = .constantBits n ∧ Fits v n signed ∧ bits = writeInt big v n := by
  unfold intToBits at h
  split at h
  · cases h
  rename_i k hk
  split at h
  · cases h
  rename_i n hn
  split at h
  · cases h
  rename_i hr
  split at h
  · cases h
  have hr' : representableWithBits v n signed = true := by simpa using hr
  refine ⟨n, ?_, ((representable_iff v n signed).1 hr').2, ?_⟩
  · cases size <;> simp only [ReadSize.knownBits, Option.some.injEq, reduceCtorEq] at hk
    unfold toU32 at hn
    split at hn
    · simp only [Option.some.injEq] at hn
      congr 1
      omega
    · cases hn
  · rw [← adjustBits_eq big hr']
    cases h
    rfl

theorem intToBits_unrepresentable {v : Int} {size : ReadSize} {big signed : Bool} {m : Nat}
    (h : intToBits v size big signed = .error (.unrepresentable m)) :
    size = .constantBits m ∧ representableWithBits v m signed = false := by
  unfold intToBits at h
  split at h
  · cases h
  rename_i k hk
  split at h
  · cases h
  rename_i n hn
  split at h
  · rename_i hr
    cases h
    refine ⟨?_, hr⟩
    cases size <;> simp only [ReadSize.knownBits, Option.some.injEq, reduceCtorEq] at hk
    unfold toU32 at hn
    split at hn
    · simp only [Option.some.injEq] at hn
      congr 1
      omega
    · cases hn
  split at h
  · cases h
  · cases h

/-- A literal with known bits is matched by exactly these bits. -/
theorem MatchedValue.constantBits_holds (w : World) {a : ReadAction} : ∀ {v : MatchedValue} {bits : List Bool} {n : Nat},
    v.constantBits a = some bits → v.fits a = true → a.size = .constantBits n →
    bits.length = n ∧ ∀ l : List Bool, l.length = n → (v.holds w a l = true ↔ l = bits)
  | .literalFloat _, _, _, h, _, _ => by cases h
  | .literalInt v, bits, n, h, _, hn => by
    rw [MatchedValue.constantBits] at h
    cases hb : intToBits v a.size a.big a.signed with
    | error e => rw [hb] at h; cases h
    | ok bits' =>
      rw [hb] at h
      cases h
      obtain ⟨m, hm, hfit, rfl⟩ := intToBits_ok hb
      rw [hm] at hn
      injection hn with hn
      have : m = n := by exact_mod_cast hn
      subst this
      refine ⟨BitArrays.writeInt_length _ _ _, fun l hl => ?_⟩
      rw [MatchedValue.holds, decide_eq_true_eq]
      exact readInt_iff hfit hl
  | .literalString utf, bits, n, h, hf, hn => by
    rw [MatchedValue.constantBits] at h
    cases h
    rw [MatchedValue.fits, decide_eq_true_eq, hn] at hf
    injection hf with hf
    have : n = 8 * utf.length := by exact_mod_cast hf
    refine ⟨by rw [flatMap_length, this], fun l _ => ?_⟩
    rw [MatchedValue.holds, decide_eq_true_eq]
  | .assign _ v, bits, n, h, hf, hn => by
    rw [MatchedValue.constantBits] at h
    rw [MatchedValue.fits] at hf
    have := MatchedValue.constantBits_holds w h hf hn
    simpa only [MatchedValue.holds] using this

theorem MatchedValue.impossible_holds (w : World) {a : ReadAction} (b : List Bool) : ∀ {v : MatchedValue},
    v.impossible a = true → v.fits a = true → ((a.bits w b).elim false fun bits => v.holds w a bits) = false
  | .literalFloat _, h, _ => by cases h
  | .literalString _, h, _ => by cases h
  | .assign _ v, h, hf => by
    rw [MatchedValue.impossible] at h
    rw [MatchedValue.fits] at hf
    have := MatchedValue.impossible_holds w b h hf
    simpa only [MatchedValue.holds] using this
  | .literalInt v, h, hf => by
    rw [MatchedValue.impossible] at h
    split at h
    · rename_i m hm
      obtain ⟨hs, hr⟩ := intToBits_unrepresentable hm
      rw [MatchedValue.fits, hs] at hf
      simp only [ReadSize.knownBits, Option.all_some, decide_eq_true_eq] at hf
      rw [ReadAction.bits, hs]
      simp only [ReadSize.eval]
      unfold slice
      split
      · rename_i hin
        simp only [Option.elim_some, MatchedValue.holds, decide_eq_false_iff_not]
        intro hv
        have hlen : ((b.drop (a.start.eval w b).toNat).take (m : Int).toNat).length = m := by
          rw [List.length_take, List.length_drop]
          omega
        have := readInt_fits a.big a.signed ((b.drop (a.start.eval w b).toNat).take (m : Int).toNat) (by omega)
        rw [hv, hlen] at this
        have := (representable_iff v m a.signed).2 ⟨by omega, this⟩
        rw [hr] at this
        cases this
      · rfl
    · cases h

/-! ### Interference -/

theorem toUsize_some {n : Int} {m : Nat} (h : toUsize n = some m) : n = m := by
  unfold toUsize at h
  split at h
  · simp only [Option.some.injEq] at h; omega
  · cases h

theorem Offset.knownBits_eval (w : World) (b : List Bool) {o : Offset} {n : Int} (h : o.knownBits = some n) : o.eval w b = n := by
  obtain ⟨c, vs, cs⟩ := o
  cases vs <;> cases cs <;> simp only [Offset.knownBits, Option.some.injEq, reduceCtorEq] at h
  rw [Offset.eval, Variables.eval, Calculations.eval, h]
  omega

theorem ReadSize.knownBits_eq {s : ReadSize} {n : Int} (h : s.knownBits = some n) : s = .constantBits n := by
  cases s <;> simp only [ReadSize.knownBits, Option.some.injEq, reduceCtorEq] at h
  rw [h]

/-- What two interfering tests look like. -/
theorem interferingBits_some {v1 v2 : MatchedValue} {a1 a2 : ReadAction} {i : Interference} (h : interferingBits v1 a1 v2 a2 = some i) :
    ∃ o1 o2 s1 s2 bits1 bits2, a1.start.knownBits = some ((o1 : Nat) : Int) ∧ a2.start.knownBits = some ((o2 : Nat) : Int) ∧
      a1.size = .constantBits (s1 : Nat) ∧ a2.size = .constantBits (s2 : Nat) ∧ o1 ≤ o2 ∧ o2 < o1 + s1 ∧
      v1.constantBits a1 = some bits1 ∧ v2.constantBits a2 = some bits2 ∧ i = interferenceAt o1 s1 o2 s2 bits1 bits2 := by
  unfold interferingBits at h
  simp only [Option.bind_eq_bind, Option.bind_eq_some_iff] at h
  obtain ⟨x1, hx1, o1, ho1, x2, hx2, o2, ho2, h⟩ := h
  split at h
  · cases h
  rename_i hle
  simp only [Option.bind_eq_some_iff] at h
  obtain ⟨y1, hy1, s1, hs1, y2, hy2, s2, hs2, h⟩ := h
  split at h
  · cases h
  rename_i hlt
  simp only [Option.bind_eq_some_iff] at h
  obtain ⟨bits1, hb1, bits2, hb2, h⟩ := h
  cases h
  refine ⟨o1, o2, s1, s2, bits1, bits2, ?_, ?_, ?_, ?_, by omega, by omega, hb1, hb2, rfl⟩
  · rw [hx1, toUsize_some ho1]
  · rw [hx2, toUsize_some ho2]
  · rw [ReadSize.knownBits_eq hy1, toUsize_some hs1]
  · rw [ReadSize.knownBits_eq hy2, toUsize_some hs2]

/-- A literal test with known place and bits. -/
theorem matches_holds (w : World) (b : List Bool) {v : MatchedValue} {a : ReadAction} {o s : Nat} {bits : List Bool}
    (ho : a.start.knownBits = some ((o : Nat) : Int)) (hs : a.size = .constantBits (s : Nat)) (hb : v.constantBits a = some bits)
    (hf : v.fits a = true) : bits.length = s ∧
      ((BitTest.matches v a).holds w b = true ↔ o + s ≤ b.length ∧ (b.drop o).take s = bits) := by
  obtain ⟨h1, h2⟩ := MatchedValue.constantBits_holds w hb hf hs
  refine ⟨h1, ?_⟩
  rw [BitTest.holds, ReadAction.bits, hs]
  simp only [ReadSize.eval, Offset.knownBits_eval w b ho]
  unfold slice
  split
  · rename_i hin
    rw [Option.elim_some, h2 _ (by simp only [Int.toNat_natCast, List.length_take, List.length_drop]; omega)]
    simp only [Int.toNat_natCast]
    constructor
    · intro h; exact ⟨by omega, h⟩
    · intro h; exact h.2
  · rename_i hout
    simp only [Option.elim_none, Bool.false_eq_true, false_iff]
    intro h
    exact hout ⟨by omega, by omega, by omega⟩

theorem take_drop_take (l : List Bool) (d n m : Nat) (h : d + n ≤ m) : ((l.take m).drop d).take n = (l.drop d).take n := by
  rw [List.drop_take, List.take_take, Nat.min_eq_left (by omega)]

theorem interference_succeeds (w : World) (b : List Bool) {v1 v2 : MatchedValue} {a1 a2 : ReadAction} {i : Interference}
    (h : interferingBits v1 a1 v2 a2 = some i) (h1 : i.bitsEqual = true) (h2 : i.firstEnclosesSecond = true)
    (hf1 : v1.fits a1 = true) (hf2 : v2.fits a2 = true) (hh : (BitTest.matches v1 a1).holds w b = true) :
    (BitTest.matches v2 a2).holds w b = true := by
  obtain ⟨o1, o2, s1, s2, bits1, bits2, ho1, ho2, hs1, hs2, hle, hlt, hb1, hb2, rfl⟩ := interferingBits_some h
  obtain ⟨l1, e1⟩ := matches_holds w b ho1 hs1 hb1 hf1
  obtain ⟨l2, e2⟩ := matches_holds w b ho2 hs2 hb2 hf2
  rw [e1] at hh
  rw [e2]
  simp only [interferenceAt, rangeContains, Bool.and_eq_true, decide_eq_true_eq] at h1 h2
  rw [Nat.min_eq_left (by omega), show o2 + s2 - o2 = s2 by omega, List.take_of_length_le (l := bits2) (by omega)] at h1
  refine ⟨by omega, ?_⟩
  rw [← h1, ← hh.2, take_drop_take _ _ _ _ (by omega), List.drop_drop, show o1 + (o2 - o1) = o2 by omega]

theorem interference_failsFailing (w : World) (b : List Bool) {v1 v2 : MatchedValue} {a1 a2 : ReadAction} {i : Interference}
    (h : interferingBits v1 a1 v2 a2 = some i) (h1 : i.bitsEqual = true) (h2 : i.secondEnclosesFirst = true)
    (hf1 : v1.fits a1 = true) (hf2 : v2.fits a2 = true) (hh : (BitTest.matches v1 a1).holds w b = false) :
    (BitTest.matches v2 a2).holds w b = false := by
  obtain ⟨o1, o2, s1, s2, bits1, bits2, ho1, ho2, hs1, hs2, hle, hlt, hb1, hb2, rfl⟩ := interferingBits_some h
  obtain ⟨l1, e1⟩ := matches_holds w b ho1 hs1 hb1 hf1
  obtain ⟨l2, e2⟩ := matches_holds w b ho2 hs2 hb2 hf2
  rw [← Bool.not_eq_true] at hh ⊢
  rw [e1] at hh
  rw [e2]
  intro hc
  apply hh
  simp only [interferenceAt, rangeContains, Bool.and_eq_true, decide_eq_true_eq] at h1 h2
  have ho : o1 = o2 := by omega
  subst ho
  rw [Nat.min_eq_right (by omega), Nat.sub_self, List.drop_zero, show o1 + s1 - o1 = s1 by omega,
    List.take_of_length_le (l := bits1) (by omega)] at h1
  refine ⟨by omega, ?_⟩
  rw [h1, ← hc.2, List.take_take, Nat.min_eq_left (by omega)]

theorem interference_failsSucceeding (w : World) (b : List Bool) {v1 v2 : MatchedValue} {a1 a2 : ReadAction} {i : Interference}
    (h : interferingBits v1 a1 v2 a2 = some i) (h1 : i.bitsEqual = false)
    (hf1 : v1.fits a1 = true) (hf2 : v2.fits a2 = true) (hh : (BitTest.matches v1 a1).holds w b = true) :
    (BitTest.matches v2 a2).holds w b = false := by
  obtain ⟨o1, o2, s1, s2, bits1, bits2, ho1, ho2, hs1, hs2, hle, hlt, hb1, hb2, rfl⟩ := interferingBits_some h
  obtain ⟨l1, e1⟩ := matches_holds w b ho1 hs1 hb1 hf1
  obtain ⟨l2, e2⟩ := matches_holds w b ho2 hs2 hb2 hf2
  rw [e1] at hh
  rw [← Bool.not_eq_true, e2]
  intro hc
  simp only [interferenceAt, decide_eq_false_iff_not] at h1
  apply h1
  rw [← hh.2, ← hc.2]
  generalize hm : min (o2 + s2) (o1 + s1) - o2 = m
  rw [take_drop_take _ _ _ _ (by omega), List.drop_drop, show o1 + (o2 - o1) = o2 by omega, List.take_take, Nat.min_eq_left (by omega)]

/-! ### All the relations -/

theorem BitTest.unalias_holds (w : World) (b : List Bool) (t : BitTest) : t.unalias.holds w b = t.holds w b := by
  cases t with
  | «matches» v a => cases v <;> rfl
  | _ => rfl

theorem BitTest.plain_size {o : SizeOperator} {s : Offset} (h : (BitTest.size o s).plain = true) :
    s.vars.distinct = true ∧ s.vars.unsigned = true := by
  simpa only [BitTest.plain, Bool.and_eq_true] using h

theorem BitTest.succeeds_holds {w : World} (hw : ∀ x, 0 ≤ w.vars x) (b : List Bool) {t p : BitTest} (ht : t.plain = true)
    (hp : p.plain = true) (h : t.succeedsIfSucceeding p = true) (hh : p.holds w b = true) : t.holds w b = true := by
  unfold BitTest.succeedsIfSucceeding at h
  rw [Bool.or_eq_true] at h
  rcases h with h | h
  · rw [← BitTest.equivalent_holds w b h]; exact hh
  cases p <;> cases t <;> simp only [Bool.false_eq_true] at h
  · rename_i o' s' o s
    have hs := BitTest.plain_size ht
    have hs' := BitTest.plain_size hp
    cases o <;> cases o' <;> simp only [sizeSucceedsIfSucceeding, Bool.false_eq_true, decide_eq_true_eq, BitTest.holds] at h hh ⊢
    · exact le_trans (Offset.greaterEqual_eval hw b h hs'.2 hs.1) hh
    · exact le_trans (Offset.greaterEqual_eval hw b h hs'.2 hs.1) (le_of_eq hh)
    · rw [← h]; exact hh
  · rename_i v' a' v a
    split at h
    · rename_i i hi
      rw [Bool.and_eq_true] at h
      exact interference_succeeds w b hi h.1 h.2 hp ht hh
    · cases h

theorem BitTest.failsFailing_holds {w : World} (hw : ∀ x, 0 ≤ w.vars x) (b : List Bool) {t p : BitTest} (ht : t.plain = true)
    (hp : p.plain = true) (h : t.failsIfFailing p = true) (hh : p.holds w b = false) : t.holds w b = false := by
  unfold BitTest.failsIfFailing at h
  rw [Bool.or_eq_true] at h
  rcases h with h | h
  · rw [← BitTest.equivalent_holds w b h]; exact hh
  cases p <;> cases t <;> simp only [Bool.false_eq_true] at h
  · rename_i o' s' o s
    have hs := BitTest.plain_size ht
    have hs' := BitTest.plain_size hp
    cases o' with
    | greaterEqual =>
      cases o <;> simp only [sizeFailsIfFailing, BitTest.holds, decide_eq_false_iff_not] at h hh ⊢ <;>
        have := Offset.greaterEqual_eval hw b h hs.2 hs'.1 <;> omega
    | equal =>
      simp only [sizeFailsIfFailing, decide_eq_true_eq] at h
      rw [h.1, h.2]
      exact hh
  · rename_i v' a' v a
    split at h
    · rename_i i hi
      rw [Bool.and_eq_true] at h
      exact interference_failsFailing w b hi h.1 h.2 hp ht hh
    · cases h

theorem BitTest.failsSucceeding_holds {w : World} (hw : ∀ x, 0 ≤ w.vars x) (b : List Bool) {t p : BitTest} (ht : t.plain = true)
    (hp : p.plain = true) (h : t.failsIfSucceeding p = true) (hh : p.holds w b = true) : t.holds w b = false := by
  unfold BitTest.failsIfSucceeding at h
  cases p <;> cases t <;> simp only [Bool.false_eq_true] at h
  · rename_i o' s' o s
    have hs := BitTest.plain_size ht
    have hs' := BitTest.plain_size hp
    cases o <;> cases o' <;> simp only [sizeFailsIfSucceeding, Bool.false_eq_true, BitTest.holds, decide_eq_false_iff_not,
      decide_eq_true_eq] at h hh ⊢
    · have := Offset.greater_eval hw b h hs.2 hs'.1; omega
    · have := Offset.greater_eval hw b h hs'.2 hs.1; omega
    · rw [Offset.different, Bool.or_eq_true] at h
      rcases h with h | h
      · have := Offset.greater_eval hw b h hs'.2 hs.1; omega
      · have := Offset.greater_eval hw b h hs.2 hs'.1; omega
  · rename_i v' a' v a
    split at h
    · rename_i i hi
      rw [Bool.not_eq_true'] at h
      exact interference_failsSucceeding w b hi h hp ht hh
    · cases h

end Verif.Segments
