import Verif.ErlGen.Props

/-!
# Programs for which the generated Erlang does not do what the Gleam program does

The conditions in `Scope.lean` exclude these.
-/

namespace Verif.ErlGen

open Verif.ErlText (printModule FormsOk)
open Verif.ErlText.Read (Reads)
open Spec

/-- No function of another module is called. -/
def noAnswers : Answers := fun _ _ => none
def noErlangAnswers : ErlangAnswers := fun _ _ => none

/-- A module with one function. -/
def single (f : Fun) : Module where
  name := "one".toList
  path := "src/one.gleam".toList
  purity := fun _ => false
  definitions := [⟨f, true, 1⟩]

/-- ```gleam
pub fn join(b) {
  { "a" } <> b
}
``` -/
def joinFunction : Fun where
  name := "join".toList
  parameters := [some ("b".toList, 0)]
  body := [.expr (.bin .concat (.block [.expr (.string (chars "a"))]) (.var "b".toList 0))]

/-- ```gleam
pub fn starts(text) {
  case text {
    "a" as first <> rest if first <> rest == "ab" -> 1
    _ -> 2
  }
}
``` -/
def startsFunction : Fun where
  name := "starts".toList
  parameters := [some ("text".toList, 0)]
  body := [.expr (.case_ [.var "text".toList 0]
    [.mk [.prefix (chars "a") (some ("first".toList, 1)) (some ("rest".toList, 2))] []
      (some (.bin .eq (.bin .concat (.var "first".toList 1) (.var "rest".toList 2)) (.const (.string (chars "ab"))))) (.int 1),
     .mk [.discard] [] none (.int 2)])]

def isString (t : Text) : Out Gleam.Panic Gleam.Value × List Event → Bool
  | (.val (.str s), []) => decide (s = t)
  | _ => false

def isInt (n : Int) : Out Gleam.Panic Gleam.Value × List Event → Bool
  | (.val (.int k), []) => decide (k = n)
  | _ => false

def isErlangInt (n : Int) : Out Erlang.Value Erlang.Value × List ErlangEvent → Bool
  | (.val (.int k), []) => decide (k = n)
  | _ => false

def isErlangError : Out Erlang.Value Erlang.Value × List ErlangEvent → Bool
  | (.error _, []) => true
  | _ => false

theorem isString_eq {t : Text} {o} (h : isString t o = true) : o = (.val (.str t), []) := by
  unfold isString at h
  split at h
  · rw [of_decide_eq_true h]
  · cases h

theorem isInt_eq {n : Int} {o} (h : isInt n o = true) : o = (.val (.int n), []) := by
  unfold isInt at h
  split at h
  · rw [of_decide_eq_true h]
  · cases h

theorem isErlangInt_eq {n : Int} {o} (h : isErlangInt n o = true) : o = (.val (.int n), []) := by
  unfold isErlangInt at h
  split at h
  · rw [of_decide_eq_true h]
  · cases h

theorem isErlangError_eq {o} (h : isErlangError o = true) : ∃ e, o = (.error e, []) := by
  unfold isErlangError at h
  split at h
  · exact ⟨_, rfl⟩
  · cases h

theorem varName_of {x : Text}
    (h : (match x with | [] => false | c :: cs => (ErlText.Read.isCapital c || c = '_') && cs.all ErlText.Read.isNameChar) = true) :
    ErlText.VarName x := by
  cases x with
  | nil => cases h
  | cons c cs =>
    rw [Bool.and_eq_true] at h
    exact ⟨c, cs, rfl, h.1, h.2⟩

theorem single_ok {f : Fun} (h1 : ErlText.AtomText (escapeName f.name))
    (h2 : (tFunction ((single f).context f) f).Ok) : FormsOk (tModule (single f)) := by
  refine ⟨?_, by simp [ErlText.Form.unfinished], ?_, by simp [ErlText.Form.unfinished], ?_, by simp [ErlText.Form.unfinished], ?_, ?_, h2⟩
  · simp only [ErlText.Form.Ok]
    decide
  · simp only [ErlText.Form.Ok, exports, single]
    intro n hn
    simp only [List.filter_cons, List.filter_nil, if_true, List.map_cons, List.map_nil, List.mem_cons, List.not_mem_nil, or_false] at hn
    rw [hn]
    exact h1
  · simp [ErlText.Form.Ok]
  · simp only [ErlText.Form.Ok, single]
    decide
  · intro _
    rfl

theorem join_ok : FormsOk (tModule (single joinFunction)) := by
  refine single_ok (by unfold ErlText.AtomText; decide) ?_
  have : tFunction ((single joinFunction).context joinFunction) joinFunction =
      .function "join".toList ["B".toList] [.bits [.mk (.string "a".toList) none [.binary], .mk (.var "B".toList) none [.binary]]] := by
    rfl
  rw [this]
  simp only [ErlText.Form.Ok, ErlText.OkAll, ErlText.Term.Ok, ErlText.OkSegments]
  refine ⟨by unfold ErlText.AtomText; decide, ?_, by simp, ⟨by decide, varName_of (by decide), trivial⟩, trivial⟩
  intro p hp
  obtain rfl : p = "B".toList := by simpa using hp
  exact varName_of (by decide)

theorem starts_ok : FormsOk (tModule (single startsFunction)) := by
  refine single_ok (by unfold ErlText.AtomText; decide) ?_
  have : tFunction ((single startsFunction).context startsFunction) startsFunction =
      .function "starts".toList ["Text".toList] [.case_ (.var "Text".toList)
        [.mk (.bits [.mk (.string "a".toList) none [.utf8], .mk (.var "Rest".toList) none [.binary]])
          (some (.binary .eq (.bits [.mk (.string "a".toList) none [.binary], .mk (.var "Rest".toList) none [.binary]])
            (.string "ab".toList)))
          [.bind (.var "First".toList) (.string "a".toList), .int 1],
         .mk .discard none [.int 2]]] := by
    with_unfolding_all rfl
  rw [this]
  simp only [ErlText.Form.Ok, ErlText.OkAll, ErlText.Term.Ok, ErlText.OkSegments, ErlText.OkClauses]
  refine ⟨by unfold ErlText.AtomText; decide, ?_, by simp, ⟨trivial, varName_of (by decide), by simp,
    ⟨by decide, varName_of (by decide), trivial⟩,
    ⟨trivial, by decide, by decide, ⟨by decide, varName_of (by decide), trivial⟩, by decide⟩, by simp,
    ⟨⟨varName_of (by decide), by decide⟩, trivial, trivial⟩, by simp⟩, trivial⟩
  intro p hp
  obtain rfl : p = "Text".toList := by simpa using hp
  exact varName_of (by decide)

theorem single_reads {f : Fun} (h : FormsOk (tModule (single f))) :
    ∃ code, printModule (moduleAtom "one".toList) (genModule (single f)) = some code ∧
      Reads code (ErlText.moduleAst (moduleAtom "one".toList) (tModule (single f))) := by
  rw [genModule_eq]
  exact ErlText.reads_module _ _ (by unfold ErlText.AtomText; decide) h

/-- A literal string in braces: the generated code raises an error where the program returns a string. (The Erlang
compiler may already reject the code: a literal string with the type `binary` is never useful.) -/
theorem braces_around_literal_fail :
    ∃ code forms, printModule (moduleAtom "one".toList) (genModule (single joinFunction)) = some code ∧ Reads code forms ∧
      runGleam [joinFunction] noAnswers 1 "join".toList [.str "b".toList] [] = (.val (.str "ab".toList), []) ∧
      ∃ e, runErlang forms noErlangAnswers 1 "join".toList [.str "b".toList] [] = (.error e, []) := by
  obtain ⟨code, h1, h2⟩ := single_reads join_ok
  exact ⟨code, _, h1, h2, isString_eq (by decide +kernel), isErlangError_eq (by decide +kernel)⟩

/-- A name for the literal of a prefix that is concatenated in a guard: the guard fails where it should hold. -/
theorem alias_in_guard_fails :
    ∃ code forms, printModule (moduleAtom "one".toList) (genModule (single startsFunction)) = some code ∧ Reads code forms ∧
      runGleam [startsFunction] noAnswers 1 "starts".toList [.str "ab".toList] [] = (.val (.int 1), []) ∧
      runErlang forms noErlangAnswers 1 "starts".toList [.str "ab".toList] [] = (.val (.int 2), []) := by
  obtain ⟨code, h1, h2⟩ := single_reads starts_ok
  exact ⟨code, _, h1, h2, isInt_eq (by decide +kernel), isErlangInt_eq (by decide +kernel)⟩

end Verif.ErlGen
