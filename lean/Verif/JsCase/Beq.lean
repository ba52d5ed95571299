import Verif.JsCase.Model

/-! # Decisions that are found equal are equal -/

set_option linter.unusedSectionVars false

namespace Verif.JsCase

open Verif.Case

mutual
theorem valBeq_eq {β : Type} [DecidableEq β] : ∀ (a b : Val β), valBeq a b = true → a = b
  | .int i, b, h => by cases b <;> simp_all [valBeq]
  | .float i, b, h => by cases b <;> simp_all [valBeq]
  | .str i, b, h => by cases b <;> simp_all [valBeq]
  | .bits i, b, h => by cases b <;> simp_all [valBeq]
  | .opaque i, b, h => by cases b <;> simp_all [valBeq]
  | .nil, b, h => by cases b <;> simp_all [valBeq]
  | .tuple vs, b, h => by
    cases b <;> simp only [valBeq, Bool.false_eq_true] at h
    rw [valsBeq_eq _ _ h]
  | .variant i vs, b, h => by
    cases b <;> simp only [valBeq, Bool.false_eq_true, Bool.and_eq_true, beq_iff_eq] at h
    rw [h.1, valsBeq_eq _ _ h.2]
  | .cons x t, b, h => by
    cases b <;> simp only [valBeq, Bool.false_eq_true, Bool.and_eq_true] at h
    rw [valBeq_eq _ _ h.1, valBeq_eq _ _ h.2]
theorem valsBeq_eq {β : Type} [DecidableEq β] : ∀ (a b : List (Val β)), valsBeq a b = true → a = b
  | [], b, h => by cases b <;> simp_all [valsBeq]
  | x :: l, b, h => by
    cases b <;> simp only [valsBeq, Bool.false_eq_true, Bool.and_eq_true] at h
    rw [valBeq_eq _ _ h.1, valsBeq_eq _ _ h.2]
end

section
variable {B : BitSys} [DecidableEq B.Bits] [DecidableEq B.Test] [DecidableEq B.Read]

theorem boundBeq_eq (a b : Bound B) (h : boundBeq a b = true) : a = b := by
  cases a <;> cases b <;> simp_all [boundBeq]
  exact valBeq_eq _ _ h

theorem bindingsBeq_eq : ∀ (a b : List (Name × Bound B)), bindingsBeq a b = true → a = b
  | [], b, h => by cases b <;> simp_all [bindingsBeq]
  | (x, e) :: l, b, h => by
    match b with
    | [] => simp [bindingsBeq] at h
    | (y, e') :: m =>
      simp only [bindingsBeq, Bool.and_eq_true, beq_iff_eq] at h
      rw [h.1.1, boundBeq_eq _ _ h.1.2, bindingsBeq_eq _ _ h.2]

theorem bodyBeq_eq (a b : Body B) (h : bodyBeq a b = true) : a = b := by
  simp only [bodyBeq, Bool.and_eq_true, beq_iff_eq] at h
  obtain ⟨la, ca⟩ := a
  obtain ⟨lb, cb⟩ := b
  have h2 := bindingsBeq_eq _ _ h.2
  simp_all

theorem checkBeq_eq (a b : Check B) (h : checkBeq a b = true) : a = b := by
  cases a <;> cases b <;> simp_all [checkBeq]

theorem checksBeq_eq : ∀ (a b : List (Check B)), checksBeq a b = true → a = b
  | [], b, h => by cases b <;> simp_all [checksBeq]
  | x :: l, b, h => by
    cases b <;> simp only [checksBeq, Bool.false_eq_true, Bool.and_eq_true] at h
    rw [checkBeq_eq _ _ h.1, checksBeq_eq _ _ h.2]

theorem fallbackBeq_eq (a b : Fallback B) (h : fallbackBeq a b = true) : a = b := by
  cases a <;> cases b <;> simp only [fallbackBeq, Bool.false_eq_true] at h
  · rfl
  · rw [checkBeq_eq _ _ h]
  · rw [checksBeq_eq _ _ h]

mutual
theorem decisionBeq_eq : ∀ (a b : Decision B), decisionBeq a b = true → a = b
  | .run x, b, h => by
    cases b <;> simp only [decisionBeq, Bool.false_eq_true] at h
    rw [bodyBeq_eq _ _ h]
  | .guard g x d, b, h => by
    cases b <;> simp only [decisionBeq, Bool.false_eq_true, Bool.and_eq_true, beq_iff_eq] at h
    rw [h.1.1, bodyBeq_eq _ _ h.1.2, decisionBeq_eq _ _ h.2]
  | .switch v cs d f, b, h => by
    cases b <;> simp only [decisionBeq, Bool.false_eq_true, Bool.and_eq_true, beq_iff_eq] at h
    rw [h.1.1.1, choicesBeq_eq _ _ h.1.1.2, decisionBeq_eq _ _ h.1.2, fallbackBeq_eq _ _ h.2]
  | .fail, b, h => by cases b <;> simp_all [decisionBeq]
theorem choicesBeq_eq : ∀ (a b : Choices B), choicesBeq a b = true → a = b
  | .nil, b, h => by cases b <;> simp_all [choicesBeq]
  | .cons c d cs, b, h => by
    cases b <;> simp only [choicesBeq, Bool.false_eq_true, Bool.and_eq_true] at h
    rw [checkBeq_eq _ _ h.1.1, decisionBeq_eq _ _ h.1.2, choicesBeq_eq _ _ h.2]
end

end

end Verif.JsCase
