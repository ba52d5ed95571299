import Verif.JsCase.Main

/-! # The code for a whole `case` expression -/

set_option linter.unusedSectionVars false

namespace Verif.JsCase

open Verif.Case

variable {B : BitSys}

theorem subjectVars_lookup (vs : List (Val B.Bits)) (i : Nat) :
    (subjectVars vs).lookup (.subject i) = vs[i]? := by
  have h : ∀ (vs : List (Val B.Bits)) (k : Nat),
      ((vs.zipIdx k).map fun p => ((JName.subject p.2, p.1) : JName × Val B.Bits)).lookup
        (.subject (k + i)) = vs[i]? := by
    induction i with
    | zero =>
      intro vs k
      cases vs with
      | nil => rfl
      | cons v vs => simp [List.zipIdx_cons]
    | succ i ih =>
      intro vs k
      cases vs with
      | nil => rfl
      | cons v vs =>
        have hne : ((JName.subject (k + (i + 1)) : JName) == .subject k) = false := by
          rw [beq_eq_false_iff_ne]; intro e; injection e; omega
        simp only [List.zipIdx_cons, List.map_cons, List.lookup_cons, hne,
          List.getElem?_cons_succ]
        rw [← ih vs (k + 1)]
        congr 2; omega
  simpa [subjectVars] using h vs 0

theorem subjectVars_made (vs : List (Val B.Bits)) (n : Nat) :
    (subjectVars vs).lookup (.made n) = none := by
  rw [List.lookup_eq_none_iff]
  intro p hp
  simp only [subjectVars, List.mem_map] at hp
  obtain ⟨q, -, rfl⟩ := hp
  simp

theorem subjects_names : ∀ (l : List Var) (k : Nat) (i : Nat) (v : Var), (l.map Var.id).Nodup →
    l[i]? = some v → (S.subjects (B := B) k l).names.lookup v.id = some (.subject (k + i))
  | [], _, _, _, _, h => by simp at h
  | w :: l, k, 0, v, _, h => by
    simp only [List.getElem?_cons_zero, Option.some.injEq] at h
    subst h
    simp [S.subjects]
  | w :: l, k, i + 1, v, hn, h => by
    simp only [List.map_cons, List.nodup_cons] at hn
    simp only [List.getElem?_cons_succ] at h
    have hne : (v.id == w.id) = false := by
      rw [beq_eq_false_iff_ne]
      intro e
      exact hn.1 (e ▸ List.mem_map_of_mem (List.mem_of_getElem? h))
    simp only [S.subjects, List.lookup_cons, hne]
    rw [subjects_names l (k + 1) i v hn.2 h]
    congr 2; omega

theorem subjects_known : ∀ (l : List Var) (k : Nat) (id : Nat),
    (S.subjects (B := B) k l).names.lookup id ≠ none → id ∈ l.map Var.id
  | [], _, _, h => by simp [S.subjects] at h
  | w :: l, k, id, h => by
    simp only [S.subjects, List.lookup_cons] at h
    split at h
    · rename_i he
      simp only [beq_iff_eq] at he
      simp [he]
    · exact List.mem_cons_of_mem _ (subjects_known l (k + 1) id h)

theorem subjects_st {subjects : List Var} {vs : List (Val B.Bits)} {env : Env B}
    (hn : (subjects.map Var.id).Nodup)
    (henv : ∀ (i : Nat) v, subjects[i]? = some v → vs[i]? = some (env v)) :
    St (S.subjects 0 subjects) env (subjectVars vs) subjects vs where
  val := fun v hv => by
    obtain ⟨i, hi⟩ := List.getElem?_of_mem hv
    simp only [S.getValue, subjects_names subjects 0 i v hn hi, JExpr.eval, Nat.zero_add,
      subjectVars_lookup]
    exact henv i v hi
  fresh := fun n _ => subjectVars_made vs n
  names := fun id hi => subjects_known subjects 0 id hi
  subj := fun i => subjectVars_lookup vs i

variable [DecidableEq B.Bits] [DecidableEq B.Test] [DecidableEq B.Read]

theorem genCase_works {ctx : Ctx} {guards : Guards B} {subjects : List Var} {vs : List (Val B.Bits)}
    {env : Env B} {d : Decision B} (hg : GuardsLocal ctx guards) (hb : BoolsNamed ctx)
    (henv : ∀ (i : Nat) v, subjects[i]? = some v → vs[i]? = some (env v)) (hs : Scoped subjects d)
    (hn : ((varsOf d ++ subjects).map Var.id).Nodup) (hp : Proper ctx guards false env d) :
    (genCase ctx subjects d).exec guards (subjectVars vs) [] =
      expected ctx vs (d.eval guards env) := by
  have hn' : (subjects.map Var.id).Nodup := by
    rw [List.map_append, List.nodup_append] at hn; exact hn.2.1
  exact (gen_works hg hb d _ env _ subjects false (subjects_st hn' henv) hs hn hp).exec

end Verif.JsCase
