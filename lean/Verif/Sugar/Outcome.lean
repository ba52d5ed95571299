import Verif.Sugar.Sim
import Verif.Sugar.Spec

/-! # Data, and functions of other modules -/

namespace Verif.Sugar

open Verif.ErlText (Text)
open Verif.ErlGen (Loc Pattern Op M Match Out)
open Verif.ErlGen.Gleam (Panic)
open Verif.ErlGen.Spec (Answers Event gleamWorld)
open Spec

mutual

theorem data_same : ∀ (v : Value) {v' : GValue}, Same v v' → ∀ {d}, data v = some d → v' = d
  | .int n, _, h, _, hd => by cases h; cases hd; rfl
  | .str s, _, h, _, hd => by cases h; cases hd; rfl
  | .tuple vs, _, h, d, hd => by
    cases h with
    | tuple hs =>
      simp only [data] at hd
      obtain ⟨ds, h1, rfl⟩ := Option.map_eq_some_iff.1 hd
      rw [dataAll_same vs hs h1]
  | .nil, _, h, _, hd => by cases h; cases hd; rfl
  | .cons v w, _, h, d, hd => by
    cases h with
    | cons h1 h2 =>
      simp only [data] at hd
      split at hd
      · next v1 w1 e1 e2 =>
        cases hd
        rw [data_same v h1 e1, data_same w h2 e2]
      · cases hd
  | .record tag vs, _, h, d, hd => by
    cases h with
    | record _ hs =>
      simp only [data] at hd
      obtain ⟨ds, h1, rfl⟩ := Option.map_eq_some_iff.1 hd
      rw [dataAll_same vs hs h1]
  | .ctor _ _, _, _, _, hd => by cases hd
  | .fn _ _ _, _, _, _, hd => by cases hd
  | .closure _ _ _, _, _, _, hd => by cases hd
  | .capture _ _ _, _, _, _, hd => by cases hd
  | .callback _ _ _ _, _, _, _, hd => by cases hd

theorem dataAll_same : ∀ (vs : List Value) {vs' : List GValue}, SameAll vs vs' → ∀ {ds}, dataAll vs = some ds → vs' = ds
  | [], _, h, _, hd => by cases h; cases hd; rfl
  | v :: vs, _, h, _, hd => by
    cases h with
    | cons h1 h2 =>
      simp only [dataAll] at hd
      split at hd
      · next v1 w1 e1 e2 =>
        cases hd
        rw [data_same v h1 e1, dataAll_same vs h2 e2]
      · cases hd

end

mutual

theorem same_data : ∀ (v : Value) {d}, data v = some d → Same v d
  | .int n, _, hd => by cases hd; exact .int n
  | .str s, _, hd => by cases hd; exact .str s
  | .tuple vs, d, hd => by
    simp only [data] at hd
    obtain ⟨ds, h1, rfl⟩ := Option.map_eq_some_iff.1 hd
    exact .tuple (sameAll_data vs h1)
  | .nil, _, hd => by cases hd; exact .nil
  | .cons v w, d, hd => by
    simp only [data] at hd
    split at hd
    · next v1 w1 e1 e2 =>
      cases hd
      exact .cons (same_data v e1) (same_data w e2)
    · cases hd
  | .record tag vs, d, hd => by
    simp only [data] at hd
    obtain ⟨ds, h1, rfl⟩ := Option.map_eq_some_iff.1 hd
    exact .record tag (sameAll_data vs h1)
  | .ctor _ _, _, hd => by cases hd
  | .fn _ _ _, _, hd => by cases hd
  | .closure _ _ _, _, hd => by cases hd
  | .capture _ _ _, _, hd => by cases hd
  | .callback _ _ _ _, _, hd => by cases hd

theorem sameAll_data : ∀ (vs : List Value) {ds}, dataAll vs = some ds → SameAll vs ds
  | [], _, hd => by cases hd; exact .nil
  | v :: vs, _, hd => by
    simp only [dataAll] at hd
    split at hd
    · next v1 w1 e1 e2 =>
      cases hd
      exact .cons (same_data v e1) (sameAll_data vs e2)
    · cases hd

end

mutual

theorem written_same : ∀ (d : GValue) {v}, written d = some v → Same v d
  | .int n, _, hd => by cases hd; exact .int n
  | .str s, _, hd => by cases hd; exact .str s
  | .tuple vs, d, hd => by
    simp only [written] at hd
    obtain ⟨ds, h1, rfl⟩ := Option.map_eq_some_iff.1 hd
    exact .tuple (writtenAll_same vs h1)
  | .nil, _, hd => by cases hd; exact .nil
  | .cons v w, d, hd => by
    simp only [written] at hd
    split at hd
    · next v1 w1 e1 e2 =>
      cases hd
      exact .cons (written_same v e1) (written_same w e2)
    · cases hd
  | .record tag vs, d, hd => by
    simp only [written] at hd
    obtain ⟨ds, h1, rfl⟩ := Option.map_eq_some_iff.1 hd
    exact .record tag (writtenAll_same vs h1)
  | .ctor _ _, _, hd => by cases hd
  | .fn _ _ _, _, hd => by cases hd
  | .closure _ _ _, _, hd => by cases hd

theorem writtenAll_same : ∀ (vs : List GValue) {ds}, writtenAll vs = some ds → SameAll ds vs
  | [], _, hd => by cases hd; exact .nil
  | v :: vs, _, hd => by
    simp only [writtenAll] at hd
    split at hd
    · next v1 w1 e1 e2 =>
      cases hd
      exact .cons (written_same v e1) (writtenAll_same vs e2)
    · cases hd

end

/-- Functions of other modules that get and return data. -/
theorem world_same (answers : Answers) : SameOutside (world answers) (gleamWorld answers) := by
  intro ap ap' _ m f vs vs' hvs h
  unfold world gleamWorld
  cases hd : dataAll vs with
  | none => trivial
  | some ds =>
    cases dataAll_same vs hvs hd
    dsimp only
    cases ha : answers h ⟨m, f, vs'⟩ with
    | none => trivial
    | some d =>
      rw [Option.bind_some]
      cases hw : written d with
      | none => trivial
      | some v => exact ⟨written_same d hw, rfl⟩

theorem same_result {o : Out Panic Value × List Event} {o' : Out Panic GValue × List Event} (h : SameOut Same o o') :
    SameResult o o' := by
  obtain ⟨o, w⟩ := o
  obtain ⟨o', w'⟩ := o'
  cases o <;> cases o' <;> simp only [SameOut] at h <;> simp only [SameResult] <;> first | trivial | skip
  · obtain ⟨h, rfl⟩ := h
    exact ⟨_, rfl, fun d hd => data_same _ h hd⟩
  · obtain ⟨rfl, rfl⟩ := h; rfl
  · rw [h]

end Verif.Sugar
