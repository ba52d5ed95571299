import Verif.ErlGen.Spec
import Verif.ErlGen.ApplySim

/-!
# The relations of the proofs and the specification
-/

namespace Verif.ErlGen


open Verif.Strings.Spec (UpperCamel Upper Lower Digit)
open Verif.Strings (snakeOut toSnake_eq isUpperChar isUpperChar_iff)
open Spec

theorem upper_iff (c : Char) : ('A' ≤ c ∧ c ≤ 'Z') ↔ Upper c := by
  unfold Upper
  simp only [Char.le_def, UInt32.le_iff_toNat_le]
  exact Iff.rfl

theorem lower_iff (c : Char) : ('a' ≤ c ∧ c ≤ 'z') ↔ Lower c := by
  unfold Lower
  simp only [Char.le_def, UInt32.le_iff_toNat_le]
  exact Iff.rfl

theorem digit_iff (c : Char) : ('0' ≤ c ∧ c ≤ '9') ↔ Digit c := by
  unfold Digit
  simp only [Char.le_def, UInt32.le_iff_toNat_le]
  exact Iff.rfl

theorem char_toLower {c : Char} (h : Upper c) : c.toLower = Verif.Strings.toLower c := by
  have h1 := Verif.Strings.toLower_ascii c h
  have h2 : 65 ≤ c.toNat ∧ c.toNat ≤ 90 := h
  have h3 : c.toLower.toNat = c.toNat + 32 := by
    have hv : c.val ≥ 'A'.val ∧ c.val ≤ 'Z'.val := by
      simp only [ge_iff_le, UInt32.le_iff_toNat_le]
      exact h2
    unfold Char.toLower
    rw [dif_pos hv]
    show (c.val + ('a'.val - 'A'.val)).toNat = c.val.toNat + 32
    have : c.val.toNat = c.toNat := rfl
    rw [UInt32.toNat_add]
    have h4 : ('a'.val - 'A'.val).toNat = 32 := by decide
    rw [h4]
    omega
  exact Verif.Strings.char_ext (by omega)

theorem not_upper_same {c : Char} (h : ¬Upper c) : Verif.Strings.toLower c = c := Verif.Strings.toLower_other c h

theorem tagRest_eq (cs : Text) (h : ∀ d ∈ cs, Lower d ∨ Upper d ∨ Digit d) : tagRest cs = snakeOut isUpperChar true false cs := by
  induction cs with
  | nil => rfl
  | cons c cs ih =>
    have ih := ih fun d hd => h d (List.mem_cons_of_mem _ hd)
    have hc := h c (by simp)
    have hsep : ¬(c = '_' ∨ c = ' ') := by
      rintro (rfl | rfl) <;> revert hc <;> unfold Lower Upper Digit <;> decide
    rw [tagRest, snakeOut, if_neg hsep, ih]
    by_cases hu : Upper c
    · have h1 : isUpperChar c = true := (isUpperChar_iff c).2 hu
      rw [if_pos ((upper_iff c).2 hu), h1, char_toLower hu]
      rfl
    · have h1 : isUpperChar c = false := by
        rw [← Bool.not_eq_true, isUpperChar_iff]
        exact hu
      rw [if_neg (fun hx => hu ((upper_iff c).1 hx)), h1, not_upper_same hu]
      rfl

/-- The atom of a constructor. -/
theorem tagAtom_eq {tag : Text} (h : UpperCamel tag) : tagAtom tag = snake tag := by
  obtain ⟨c, cs, rfl, hc, hcs⟩ := h
  have hsep : ¬(c = '_' ∨ c = ' ') := by
    rintro (rfl | rfl) <;> revert hc <;> unfold Upper <;> decide
  unfold snake
  rw [toSnake_eq, snakeOut, if_neg hsep, tagAtom, tagRest_eq cs hcs, char_toLower hc]
  rfl

theorem tagName_camel {tag : Text} (h : tagName tag = true) : UpperCamel tag := by
  cases tag with
  | nil => simp [tagName] at h
  | cons c cs =>
    simp only [tagName, Bool.and_eq_true, decide_eq_true_eq, List.all_eq_true] at h
    refine ⟨c, cs, rfl, (upper_iff c).1 h.1, ?_⟩
    intro d hd
    have := h.2 d hd
    rw [lower_iff, upper_iff, digit_iff] at this
    exact this

mutual

theorem encode_rel : ∀ (v : Gleam.Value) (v' : Erlang.Value), isData v = true → encode v = some v' → VRel v v'
  | .int n, v', _, h => by simp only [encode, Option.some.injEq] at h; subst h; exact VRel.int n
  | .str s, v', _, h => by simp only [encode, Option.some.injEq] at h; subst h; exact VRel.str s
  | .tuple vs, v', hd, h => by
    simp only [encode, Option.map_eq_some_iff] at h
    obtain ⟨vs', h1, rfl⟩ := h
    exact VRel.tuple (encodeAll_rel vs vs' (by simpa [isData] using hd) h1)
  | .nil, v', _, h => by simp only [encode, Option.some.injEq] at h; subst h; exact VRel.nil
  | .cons v w, v', hd, h => by
    simp only [isData, Bool.and_eq_true] at hd
    simp only [encode] at h
    cases h1 : encode v with
    | none => rw [h1] at h; simp at h
    | some a =>
      cases h2 : encode w with
      | none => rw [h1, h2] at h; simp at h
      | some b =>
        rw [h1, h2] at h
        simp only [Option.some.injEq] at h
        subst h
        exact VRel.cons (encode_rel v a hd.1 h1) (encode_rel w b hd.2 h2)
  | .record tag [], v', hd, h => by
    simp only [isData, Bool.and_eq_true] at hd
    simp only [encode, Option.some.injEq] at h
    subst h
    rw [tagAtom_eq (tagName_camel hd.1)]
    exact VRel.enum (tagName_camel hd.1)
  | .record tag (v :: vs), v', hd, h => by
    simp only [isData, areData, Bool.and_eq_true] at hd
    simp only [encode] at h
    cases h1 : encode v with
    | none => rw [h1] at h; simp at h
    | some a =>
      cases h2 : encodeAll vs with
      | none => rw [h1, h2] at h; simp at h
      | some b =>
        rw [h1, h2] at h
        simp only [Option.some.injEq] at h
        subst h
        rw [tagAtom_eq (tagName_camel hd.1)]
        exact VRel.record (tagName_camel hd.1) (encode_rel v a hd.2.1 h1) (encodeAll_rel vs b hd.2.2 h2)
  | .closure _ _ _, v', hd, h => by simp [isData] at hd
  | .ctor _ _, v', hd, h => by simp [isData] at hd
  | .fn _ _ _, v', hd, h => by simp [isData] at hd

theorem encodeAll_rel : ∀ (vs : List Gleam.Value) (vs' : List Erlang.Value), areData vs = true → encodeAll vs = some vs' → VsRel vs vs'
  | [], vs', _, h => by simp only [encodeAll, Option.some.injEq] at h; subst h; exact VsRel.nil
  | v :: vs, vs', hd, h => by
    simp only [areData, Bool.and_eq_true] at hd
    simp only [encodeAll] at h
    cases h1 : encode v with
    | none => rw [h1] at h; simp at h
    | some a =>
      cases h2 : encodeAll vs with
      | none => rw [h1, h2] at h; simp at h
      | some b =>
        rw [h1, h2] at h
        simp only [Option.some.injEq] at h
        subst h
        exact VsRel.cons (encode_rel v a hd.1 h1) (encodeAll_rel vs b hd.2 h2)

end

mutual

theorem rel_encode : ∀ (v : Gleam.Value) (v' : Erlang.Value), isData v = true → VRel v v' → encode v = some v'
  | .int n, v', _, h => by cases h; rfl
  | .str s, v', _, h => by cases h; rfl
  | .tuple vs, v', hd, h => by
    cases h with
    | tuple h1 => rw [encode, rel_encodeAll vs _ (by simpa [isData] using hd) h1]; rfl
  | .nil, v', _, h => by cases h; rfl
  | .cons v w, v', hd, h => by
    simp only [isData, Bool.and_eq_true] at hd
    cases h with
    | cons h1 h2 => rw [encode, rel_encode v _ hd.1 h1, rel_encode w _ hd.2 h2]
  | .record tag [], v', hd, h => by
    cases h with
    | enum h1 => rw [encode, tagAtom_eq h1]
  | .record tag (v :: vs), v', hd, h => by
    simp only [isData, areData, Bool.and_eq_true] at hd
    cases h with
    | record h1 h2 h3 => rw [encode, rel_encode v _ hd.2.1 h2, rel_encodeAll vs _ hd.2.2 h3, tagAtom_eq h1]
  | .closure _ _ _, v', hd, h => by simp [isData] at hd
  | .ctor _ _, v', hd, h => by simp [isData] at hd
  | .fn _ _ _, v', hd, h => by simp [isData] at hd

theorem rel_encodeAll : ∀ (vs : List Gleam.Value) (vs' : List Erlang.Value), areData vs = true → VsRel vs vs' → encodeAll vs = some vs'
  | [], vs', _, h => by cases h; rfl
  | v :: vs, vs', hd, h => by
    simp only [areData, Bool.and_eq_true] at hd
    cases h with
    | cons h1 h2 => rw [encodeAll, rel_encode v _ hd.1 h1, rel_encodeAll vs _ hd.2 h2]

end

mutual

theorem encode_data : ∀ v : Gleam.Value, isData v = true → encode v ≠ none
  | .int n, _ => by simp [encode]
  | .str s, _ => by simp [encode]
  | .tuple vs, hd => by simpa [encode] using encodeAll_data vs (by simpa [isData] using hd)
  | .nil, _ => by simp [encode]
  | .cons v w, hd => by
    simp only [isData, Bool.and_eq_true] at hd
    obtain ⟨a, ha⟩ := Option.ne_none_iff_exists'.1 (encode_data v hd.1)
    obtain ⟨b, hb⟩ := Option.ne_none_iff_exists'.1 (encode_data w hd.2)
    simp [encode, ha, hb]
  | .record tag [], hd => by simp [encode]
  | .record tag (v :: vs), hd => by
    simp only [isData, areData, Bool.and_eq_true] at hd
    obtain ⟨a, ha⟩ := Option.ne_none_iff_exists'.1 (encode_data v hd.2.1)
    obtain ⟨b, hb⟩ := Option.ne_none_iff_exists'.1 (encodeAll_data vs hd.2.2)
    simp [encode, ha, hb]
  | .closure _ _ _, hd => by simp [isData] at hd
  | .ctor _ _, hd => by simp [isData] at hd
  | .fn _ _ _, hd => by simp [isData] at hd

theorem encodeAll_data : ∀ vs : List Gleam.Value, areData vs = true → encodeAll vs ≠ none
  | [], _ => by simp [encodeAll]
  | v :: vs, hd => by
    simp only [areData, Bool.and_eq_true] at hd
    obtain ⟨a, ha⟩ := Option.ne_none_iff_exists'.1 (encode_data v hd.1)
    obtain ⟨b, hb⟩ := Option.ne_none_iff_exists'.1 (encodeAll_data vs hd.2)
    simp [encodeAll, ha, hb]

end

theorem history_append {h : List Event} {h' : List ErlangEvent} (hh : SameHistory h h') {e : Event} {e' : ErlangEvent}
    (he : SameEvent e e') : SameHistory (h ++ [e]) (h' ++ [e']) := by
  unfold SameHistory at hh ⊢
  induction hh with
  | nil => exact List.Forall₂.cons he List.Forall₂.nil
  | cons h1 _ ih => exact List.Forall₂.cons h1 ih

/-- Agreeing functions of other modules are related. -/
theorem agree_outside {answers : Answers} {answers' : ErlangAnswers} (h : Agree answers answers') :
    Outside SameHistory (gleamWorld answers) (erlangWorld answers') := by
  intro ap ap' _ m f vs vs' hv w w' hw
  unfold gleamWorld
  cases ha : answers w ⟨m, f, vs⟩ with
  | none => exact trivial
  | some v =>
    obtain ⟨h1, h2, h3⟩ := h w ⟨m, f, vs⟩ v ha
    have he : SameEvent ⟨m, f, vs⟩ ⟨ErlText.erlangModuleName m, escapeName f, vs'⟩ := ⟨rfl, rfl, rel_encodeAll vs vs' h1 hv⟩
    have h4 := h3 w' _ hw he
    cases hv' : encode v with
    | none => exact absurd hv' (encode_data v h2)
    | some v' =>
      rw [hv'] at h4
      unfold erlangWorld
      rw [h4]
      exact ⟨encode_rel v v' h2 hv', history_append hw he⟩

theorem same_error {p : Gleam.Panic} {e : Erlang.Value} (h : ErrRel p e) : SameError p e := by
  obtain ⟨fs, h1, h2, h3, h4, h5⟩ := h
  refine ⟨fs, h1, ?_, h3, h4, ?_⟩
  · rw [h2]
    cases p.kind <;> rfl
  · intro v i hi
    rw [hi] at h5
    obtain ⟨⟨v', h6, h7⟩, h8⟩ := h5
    refine ⟨fun hd => ?_, h8⟩
    rw [h7, rel_encode _ _ hd h6]

theorem same_outcome {o : Out Gleam.Panic Gleam.Value × List Event} {o' : Out Erlang.Value Erlang.Value × List ErlangEvent}
    (h : OutRel SameHistory VRel o o') : SameOutcome o o' := by
  obtain ⟨a, w⟩ := o
  obtain ⟨b, w'⟩ := o'
  cases a with
  | stuck => trivial
  | val v =>
    cases b <;> first | exact h.elim | skip
    exact ⟨_, _, rfl, fun hd => rel_encode _ _ hd h.1, h.2⟩
  | error p =>
    cases b <;> first | exact h.elim | skip
    exact ⟨_, _, rfl, same_error h.1, h.2⟩
  | timeout =>
    cases b <;> first | exact h.elim | skip
    exact ⟨_, rfl, h⟩

end Verif.ErlGen
