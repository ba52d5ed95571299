import Verif.ErlGen.Print3
import Verif.ErlGen.Data
import Verif.ErlText.Props

/-! # C63: running the generated Erlang gives the same as evaluating the Gleam program -/

namespace Verif.ErlGen

open Verif.ErlText (printModule)
open Verif.ErlText.Read (Reads)
open Spec

theorem name_atom {m : Module} (hm : m.Wf) : ErlText.AtomText (moduleAtom m.name) :=
  moduleName_atom (m := m.name) ⟨fun hc => (hm.name _ hc).2.2 rfl, fun hc => (hm.name _ hc).1 rfl⟩

/-- The source code generated for a module can be read by the grammar of Erlang, and what is read does the same as the
module: whichever function is called, with whichever values, to whichever depth of calls, whatever the functions of
other modules return, it returns the value that stands for Gleam's value, or raises the error that stands for Gleam's
panic, and it calls the functions of other modules with the same values in the same order. -/
theorem compiled_module_runs_partial (m : Module) (hm : m.Wf) :
    ∃ code forms, printModule (moduleAtom m.name) (genModule m) = some code ∧ Reads code forms ∧
      ∀ answers answers', Agree answers answers' →
        ∀ (depth : Nat) (f : Text) (vs : List Gleam.Value) (vs' : List Erlang.Value), areData vs = true → encodeAll vs = some vs' →
          ∀ h h', SameHistory h h' →
            SameOutcome (runGleam (m.definitions.map Definition.function) answers depth f vs h)
              (runErlang forms answers' depth f vs' h') := by
  obtain ⟨code, h1, h2⟩ := ErlText.reads_module (moduleAtom m.name) (tModule m) (name_atom hm) (module_ok hm)
  rw [← genModule_eq] at h1
  refine ⟨code, _, h1, h2, ?_⟩
  intro answers answers' ha depth f vs vs' hd he h h' hh
  apply same_outcome
  have hv := encodeAll_rel vs vs' hd he
  exact (calls_sim hm (agree_outside ha) depth).name none f vs.length vs vs' hv h h' hh

/-- The same for values that are functions or have functions inside, and for functions of other modules that call the
functions they are given: related functions with related arguments have related outcomes. -/
theorem compiled_functions_related_partial (m : Module) (hm : m.Wf) :
    ∃ code forms, printModule (moduleAtom m.name) (genModule m) = some code ∧ Reads code forms ∧
      ∀ {W W' : Type} (RW : W → W' → Prop) outside outside', Outside RW outside outside' →
        ∀ (depth : Nat) v v' vs vs', VRel v v' → VsRel vs vs' →
          MRel RW VRel (Gleam.apply (m.definitions.map Definition.function) outside depth v vs)
            (Erlang.apply forms outside' depth v' vs') := by
  obtain ⟨code, h1, h2⟩ := ErlText.reads_module (moduleAtom m.name) (tModule m) (name_atom hm) (module_ok hm)
  rw [← genModule_eq] at h1
  refine ⟨code, _, h1, h2, ?_⟩
  intro W W' RW outside outside' ho depth v v' vs vs' hv hvs
  exact (calls_sim hm ho depth).value v v' vs vs' hv hvs

/-- All the source code for a module stands for the same program: what it is read as does not depend on anything else. -/
theorem compiled_module_runs_all_partial (m : Module) (hm : m.Wf) {code : List Char} {forms : List ErlText.Read.AstForm}
    (hp : printModule (moduleAtom m.name) (genModule m) = some code) (hr : Reads code forms) {answers answers'}
    (ha : Agree answers answers') (depth : Nat) (f : Text) {vs : List Gleam.Value} {vs' : List Erlang.Value}
    (hd : areData vs = true) (he : encodeAll vs = some vs') :
    SameOutcome (runGleam (m.definitions.map Definition.function) answers depth f vs [])
      (runErlang forms answers' depth f vs' []) := by
  obtain ⟨code', forms', h1, h2, h3⟩ := compiled_module_runs_partial m hm
  rw [hp] at h1
  cases h1
  rw [ErlText.reads_unique hr h2]
  exact h3 answers answers' ha depth f vs vs' hd he [] [] List.Forall₂.nil

theorem namesAndArities_list (ns : List (Text × Nat)) :
    namesAndArities (ErlText.listAst (ns.map ErlText.nameAndArity)) = ns := by
  induction ns with
  | nil => rfl
  | cons n ns ih => simp [ErlText.listAst, ErlText.nameAndArity, namesAndArities, ih]

theorem exported_definitions (m : Module) (ds : List Definition) :
    exported ((ds.flatMap (tDefinition m)).flatMap ErlText.Form.ast) = [] := by
  induction ds with
  | nil => rfl
  | cons d ds ih =>
    simp only [List.flatMap_cons, List.flatMap_append, tDefinition, tFunction, ErlText.Form.ast, List.flatMap_nil, List.append_nil,
      List.cons_append, List.nil_append, exported]
    exact ih

/-- The module has the name of the Gleam module, and exports exactly the functions that other modules can import, with
their numbers of parameters. -/
theorem compiled_module_exports_partial (m : Module) (hm : m.Wf) :
    ∃ code forms, printModule (moduleAtom m.name) (genModule m) = some code ∧ Reads code forms ∧
      moduleNamed forms = some (moduleAtom m.name) ∧
      exported forms = (m.definitions.filter Definition.exported).map
        fun d => (functionAtom d.function.name, d.function.parameters.length) := by
  obtain ⟨code, h1, h2⟩ := ErlText.reads_module (moduleAtom m.name) (tModule m) (name_atom hm) (module_ok hm)
  rw [← genModule_eq] at h1
  refine ⟨code, _, h1, h2, rfl, ?_⟩
  have he : ∀ fs, exported (ErlText.Form.ast (.export_ (exports m.definitions)) ++ fs) = exports m.definitions ++ exported fs := by
    intro fs
    cases h : exports m.definitions with
    | nil => rfl
    | cons n ns =>
      simp only [ErlText.Form.ast, List.cons_append, List.nil_append, exported, if_true, namesAndArities_list]
  have hc : ∀ fs, exported (ErlText.Form.ast (.compile compileOptions) ++ fs) = exported fs := by
    intro fs
    rfl
  show exported (.attribute "module".toList [.atom _] :: _) = _
  simp only [tModule, List.cons_append, List.nil_append, List.flatMap_cons, exported]
  rw [if_neg (by decide), List.nil_append, hc, he]
  simp only [ErlText.Form.ast, List.nil_append]
  rw [exported_definitions, List.append_nil]
  rfl

/-! ### An example

```gleam
pub fn sum(list) {
  let add = fn(a, b) { a + b }
  case list {
    [] -> 0
    [x, ..rest] if x > 0 -> add(x, sum(rest))
    [_, ..rest] -> sum(rest)
  }
}

pub fn greet(name) {
  let assert "Hello " as hi <> who = name
  io.print(hi <> who)
  Some(who)
}
```
-/

def chars (s : String) : List Strings.Spec.Piece := s.toList.map Strings.Spec.Piece.char

def sumFunction : Fun where
  name := "sum".toList
  parameters := [some ("list".toList, 0)]
  body :=
    [.let_ (.var "add".toList 1) (.fn [some ("a".toList, 2), some ("b".toList, 3)]
      [.expr (.bin .add (.var "a".toList 2) (.var "b".toList 3))]),
     .expr (.case_ [.var "list".toList 0]
      [.mk [.nil] [] none (.int 0),
       .mk [.cons (.var "x".toList 4) (.var "rest".toList 5)] [] (some (.bin .gt (.var "x".toList 4) (.const (.int 0))))
        (.call (.var "add".toList 1) [.var "x".toList 4, .call (.fnRef none "sum".toList 1) [.var "rest".toList 5]]),
       .mk [.cons .discard (.var "rest".toList 6)] [] none (.call (.fnRef none "sum".toList 1) [.var "rest".toList 6])])]

def greetFunction : Fun where
  name := "greet".toList
  parameters := [some ("name".toList, 7)]
  body :=
    [.letAssert (.prefix (chars "Hello ") (some ("hi".toList, 8)) (some ("who".toList, 9))) (.var "name".toList 7)
      ⟨12, 200, 239, 211, 232⟩ none,
     .expr (.call (.fnRef (some "io".toList) "print".toList 1) [.bin .concat (.var "hi".toList 8) (.var "who".toList 9)]),
     .expr (.call (.ctor "Some".toList 1) [.var "who".toList 9])]

def exampleModule : Module where
  name := "one/two".toList
  path := "src/one/two.gleam".toList
  purity := fun _ => false
  definitions := [⟨sumFunction, true, 1⟩, ⟨greetFunction, false, 11⟩]

/-- A test for the names of variables. -/
def isVariable : Text → Bool
  | [] => false
  | c :: cs => (Strings.isLowerChar c || c = '_') && cs.all (fun d => Strings.isLowerChar d || Strings.isUpperChar d || Strings.isDigitChar d || d = '_') &&
    decide (c :: cs ≠ ['_']) && decide (c :: cs ≠ "_value".toList)

theorem isVariable_name {x : Text} (h : isVariable x = true) : VariableName x := by
  cases x with
  | nil => simp [isVariable] at h
  | cons c cs =>
    simp only [isVariable, Bool.and_eq_true, Bool.or_eq_true, decide_eq_true_eq, List.all_eq_true] at h
    obtain ⟨⟨⟨h1, h2⟩, h3⟩, h4⟩ := h
    refine ⟨⟨c, cs, rfl, ?_, ?_, h3⟩, h4⟩
    · rcases h1 with h1 | h1
      · exact Or.inl ((Strings.isLowerChar_iff c).1 h1)
      · exact Or.inr h1
    · intro d hd
      rcases h2 d hd with ((h | h) | h) | h
      · exact Or.inl ((Strings.isLowerChar_iff d).1 h)
      · exact Or.inr (Or.inl ((Strings.isUpperChar_iff d).1 h))
      · exact Or.inr (Or.inr (Or.inl ((Strings.isDigitChar_iff d).1 h)))
      · exact Or.inr (Or.inr (Or.inr h))

theorem chars_literal {s : String} (h : s.toList.all (fun c => c ≠ '\\' && c ≠ '"') = true) : Literal (chars s) := by
  intro p hp
  obtain ⟨c, hc, rfl⟩ := List.mem_map.1 hp
  rw [List.all_eq_true] at h
  have := h c hc
  simp only [Bool.and_eq_true, decide_eq_true_eq] at this
  simp [Strings.Spec.Piece.value?, this.1, this.2]

theorem functionName_of {x : Text} (h : isVariable x = true) (h' : x.all (fun d => Strings.isLowerChar d || d = '_') = true)
    (h'' : x.head? ≠ some '_') : FunctionName x := by
  cases x with
  | nil => simp [isVariable] at h
  | cons c cs =>
    rw [List.all_eq_true] at h'
    have key : ∀ d ∈ c :: cs, Strings.Spec.Lower d ∨ d = '_' := by
      intro d hd
      have := h' d hd
      simp only [Bool.or_eq_true, decide_eq_true_eq] at this
      rcases this with h1 | h1
      · exact Or.inl ((Strings.isLowerChar_iff d).1 h1)
      · exact Or.inr h1
    refine ⟨c, cs, rfl, ?_, ?_⟩
    · rcases key c (by simp) with h1 | h1
      · exact h1
      · simp [h1] at h''
    · intro d hd
      rcases key d (List.mem_cons_of_mem _ hd) with h1 | h1
      · exact Or.inl h1
      · exact Or.inr (Or.inr h1)

theorem names_of {xs : List Text} (h : xs.all isVariable = true) : ∀ x ∈ xs, VariableName x :=
  fun x hx => isVariable_name (List.all_eq_true.1 h x hx)

theorem sum_wf : sumFunction.Wf fun _ => false := by
  refine ⟨functionName_of (by decide +kernel) (by decide +kernel) (by decide +kernel), ⟨by decide +kernel, names_of (by decide +kernel)⟩, List.cons_ne_nil _ _, ?_,
    by decide +kernel⟩
  have hf : FunctionName "sum".toList := functionName_of (by decide +kernel) (by decide +kernel) (by decide +kernel)
  refine ⟨⟨⟨trivial, trivial⟩, by decide +kernel, names_of (by decide +kernel)⟩, by rfl, ⟨⟨by decide +kernel, names_of (by decide +kernel)⟩, by simp, ?_, trivial⟩, ?_, trivial⟩
  · refine ⟨rfl, rfl, by simp, by simp⟩
  · refine ⟨⟨rfl, trivial⟩, by simp, ?_⟩
    refine ⟨?_, trivial, ?_, ?_, ?_, ?_, trivial⟩
    · intro qs hq
      obtain rfl : qs = [.nil] := by simpa using hq
      exact ⟨⟨⟨trivial, trivial⟩, by decide +kernel, names_of (by decide +kernel)⟩, List.Perm.refl _, by simp⟩
    · intro qs hq
      obtain rfl : qs = _ := by simpa using hq
      refine ⟨⟨⟨⟨trivial, trivial⟩, trivial⟩, by decide +kernel, names_of (by decide +kernel)⟩, List.Perm.refl _, ?_⟩
      intro g hg
      cases hg
      exact ⟨rfl, trivial, by simp, by simp⟩
    · exact ⟨rfl, rfl, rfl, ⟨rfl, hf, rfl, trivial⟩, trivial⟩
    · intro qs hq
      obtain rfl : qs = _ := by simpa using hq
      exact ⟨⟨⟨⟨trivial, trivial⟩, trivial⟩, by decide +kernel, names_of (by decide +kernel)⟩, List.Perm.refl _, by simp⟩
    · exact ⟨rfl, hf, rfl, trivial⟩

theorem plain_of {x : Text} (h : x.all (fun c => c ≠ '\'' && c ≠ '\\') = true) : PlainText x := by
  rw [List.all_eq_true] at h
  constructor
  · intro hc
    have := h _ hc
    simp at this
  · intro hc
    have := h _ hc
    simp at this

theorem greet_wf : greetFunction.Wf fun _ => false := by
  refine ⟨functionName_of (by decide +kernel) (by decide +kernel) (by decide +kernel), ⟨by decide +kernel, names_of (by decide +kernel)⟩, List.cons_ne_nil _ _, ?_,
    by decide +kernel⟩
  refine ⟨⟨⟨chars_literal (by decide +kernel), trivial⟩, by decide +kernel, names_of (by decide +kernel)⟩, rfl, ?_, ?_, trivial⟩
  · refine ⟨rfl, ⟨plain_of (by decide +kernel), plain_of (by decide +kernel), by decide +kernel⟩, ⟨rfl, rfl, ?_, by simp⟩, trivial⟩
    intro _
    exact ⟨rfl, rfl⟩
  · exact ⟨rfl, (ErlGen.tagName_camel (by decide +kernel)), rfl, trivial⟩

theorem example_wf : exampleModule.Wf where
  name := by unfold ModuleName exampleModule; decide +kernel
  path := ⟨chars "src/one/two.gleam", chars_literal (by decide +kernel), by decide +kernel⟩
  functions := by
    intro d hd
    simp only [exampleModule, List.mem_cons, List.not_mem_nil, or_false] at hd
    rcases hd with rfl | rfl
    · exact sum_wf
    · exact greet_wf
  different := by decide +kernel

/-! The code for this module, as the model prints it:

```erlang
-module(one@two).
-compile([no_auto_import, nowarn_ignored, nowarn_unused_vars, nowarn_unused_function, nowarn_nomatch, inline]).
-export([sum/1]).

-file("src/one/two.gleam", 1).
sum(List) ->
    Add = fun(A, B) ->
        A + B
    end,
    case List of
        [] ->
            0;

        [X | Rest] when X > 0 ->
            Add(X, sum(Rest));

        [_ | Rest@1] ->
            sum(Rest@1)
    end.

-file("src/one/two.gleam", 11).
greet(Name) ->
    case Name of
        <<"Hello "/utf8, Who/binary>> ->
            Hi = ~"Hello ",
            io:print(<<Hi/binary, Who/binary>>),
            {some, Who};

        _value ->
            erlang:error(#{
                gleam_error => let_assert,
                message => ~"Pattern match failed, no pattern matched the value.",
                file => ~"src/one/two.gleam",
                module => ~"one/two",
                function => ~"greet",
                line => 12,
                value => _value,
                start => 200,
                'end' => 239,
                pattern_start => 211,
                pattern_end => 232
            })
    end.
```
-/

example : (exampleModule.definitions.filter Definition.exported).map
    (fun d => (functionAtom d.function.name, d.function.parameters.length)) = [("sum".toList, 1)] := by
  decide +kernel

/-- Functions of other modules that return `Nil`. -/
def nilAnswers : Answers := fun _ e => if areData e.arguments = true then some (.record "Nil".toList []) else none
def nilErlangAnswers : ErlangAnswers := fun _ _ => some (.atom "nil".toList)

theorem nil_agree : Agree nilAnswers nilErlangAnswers := by
  intro h e v hv
  unfold nilAnswers at hv
  split at hv
  · next hd =>
    cases hv
    exact ⟨hd, by decide +kernel, fun _ _ _ _ => rfl⟩
  · cases hv

/-- The outcome of `sum([3, -4, 5])`. -/
def sumOk : Out Gleam.Panic Gleam.Value × List Event → Bool
  | (.val (.int n), []) => decide (n = 8)
  | _ => false

example : sumOk (runGleam (exampleModule.definitions.map Definition.function) nilAnswers 5 "sum".toList
    [.cons (.int 3) (.cons (.int (-4)) (.cons (.int 5) .nil))] []) = true := by
  decide +kernel

/-- The outcome of `greet("Hello Joe")`. -/
def greetOk : Out Gleam.Panic Gleam.Value × List Event → Bool
  | (.val (.record tag [.str s]), [⟨m, f, [.str t]⟩]) =>
    decide (tag = "Some".toList ∧ s = "Joe".toList ∧ m = "io".toList ∧ f = "print".toList ∧ t = "Hello Joe".toList)
  | _ => false

example : greetOk (runGleam (exampleModule.definitions.map Definition.function) nilAnswers 2 "greet".toList
    [.str "Hello Joe".toList] []) = true := by
  decide +kernel

/-- The outcome of `greet("Bye")`. -/
def greetFails : Out Gleam.Panic Gleam.Value × List Event → Bool
  | (.error ⟨.letAssert, _, 12, some (.str s, _)⟩, []) => decide (s = "Bye".toList)
  | _ => false

example : greetFails (runGleam (exampleModule.definitions.map Definition.function) nilAnswers 2 "greet".toList
    [.str "Bye".toList] []) = true := by
  decide +kernel

theorem hello_outcome (m : Module) (hm : m.Wf) :
    ∃ code forms, printModule (moduleAtom m.name) (genModule m) = some code ∧ Reads code forms ∧
      SameOutcome
        (runGleam (m.definitions.map Definition.function) nilAnswers 2 "greet".toList [.str "Hello Joe".toList] [])
        (runErlang forms nilErlangAnswers 2 "greet".toList [.str "Hello Joe".toList] []) := by
  obtain ⟨code, forms, h1, h2, h3⟩ := compiled_module_runs_partial m hm
  exact ⟨code, forms, h1, h2,
    h3 nilAnswers nilErlangAnswers nil_agree 2 "greet".toList _ _ rfl rfl [] [] List.Forall₂.nil⟩

example : ∃ code forms, printModule (moduleAtom exampleModule.name) (genModule exampleModule) = some code ∧ Reads code forms ∧
    SameOutcome
      (runGleam (exampleModule.definitions.map Definition.function) nilAnswers 2 "greet".toList [.str "Hello Joe".toList] [])
      (runErlang forms nilErlangAnswers 2 "greet".toList [.str "Hello Joe".toList] []) :=
  hello_outcome exampleModule example_wf

end Verif.ErlGen
