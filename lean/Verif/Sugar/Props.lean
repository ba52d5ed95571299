import Verif.Sugar.Outcome
import Verif.ErlGen.Props

/-!
# C73: pipelines, `use`, captures and record updates mean what the language says

`Syntax.lean` has programs as they are written, `Meaning.lean` what they mean, `Model.lean` how the compiler takes them
apart, and `Spec.lean` what it means that this does the same.
-/

namespace Verif.Sugar

open Verif.ErlText (Text printModule)
open Verif.ErlText.Read (Reads)
open Verif.ErlGen (Loc Pattern Op M Match Out Module Definition genModule)
open Verif.ErlGen.Gleam (Panic)
open Verif.ErlGen.Spec (moduleAtom Answers Event gleamWorld runGleam runErlang Agree SameOutcome isData areData encodeAll)
open Spec

/-- Whichever function of a module is called, with whichever values, to whichever depth of calls, whatever the functions of
other modules return: what the type checker makes of the module returns the same value or fails in the same way as the module
as it is written, and calls the functions of other modules with the same values in the same order. -/
theorem notations_keep_meaning_partial (funs : List Fun) (hok : ∀ f ∈ funs, f.ok = true) (answers : Answers) (depth : Nat)
    (f : Text) (vs : List Value) (ds : List ErlGen.Gleam.Value) (hd : dataAll vs = some ds) (h : List Event) :
    SameResult (runWritten funs answers depth f vs h) (runGleam (funs.map typedFun) answers depth f ds h) := by
  apply same_result
  have hs := sameAll_data vs hd
  unfold runWritten runGleam
  rw [hs.length]
  exact apply_sim hok (world_same answers) depth _ _ _ _ (.fn none f _) hs h

/-- The same for values that are functions or have functions inside, and for functions of other modules that call the
functions they are given: the same functions with the same arguments have the same outcomes. -/
theorem notations_keep_functions_partial {W : Type} (funs : List Fun) (hok : ∀ f ∈ funs, f.ok = true) outside outside'
    (ho : SameOutside (W := W) outside outside') (depth : Nat) (v v' vs vs') (hv : Same v v') (hvs : SameAll vs vs') (w : W) :
    SameOut Same (apply funs outside depth v vs w) (ErlGen.Gleam.apply (funs.map typedFun) outside' depth v' vs' w) :=
  apply_sim hok ho depth v v' vs vs' hv hvs w

/-- From the source code to Erlang: the Erlang code for a module with notations can be read by the grammar of Erlang, and what
is read does the same as the module as it is written. -/
theorem notations_compiled_to_erlang_partial (funs : List Fun) (hok : ∀ f ∈ funs, f.ok = true) (m : Module) (hm : m.Wf)
    (hf : m.definitions.map Definition.function = funs.map typedFun) :
    ∃ code forms, printModule (moduleAtom m.name) (genModule m) = some code ∧ Reads code forms ∧
      ∀ answers answers', Agree answers answers' →
        ∀ (depth : Nat) (f : Text) (vs : List Value) (ds : List ErlGen.Gleam.Value) (vs' : List ErlGen.Erlang.Value),
          dataAll vs = some ds → areData ds = true → encodeAll ds = some vs' →
          SameErlang (runWritten funs answers depth f vs []) (runErlang forms answers' depth f vs' []) := by
  obtain ⟨code, forms, h1, h2, h3⟩ := ErlGen.compiled_module_runs_partial m hm
  refine ⟨code, forms, h1, h2, ?_⟩
  intro answers answers' ha depth f vs ds vs' hd hds he
  have h4 := notations_keep_meaning_partial funs hok answers depth f vs ds hd []
  have h5 := h3 answers answers' ha depth f ds vs' hds he [] [] List.Forall₂.nil
  rw [hf] at h5
  revert h4 h5
  rcases runWritten funs answers depth f vs [] with ⟨o, w⟩
  cases o with
  | val v =>
    rintro ⟨v', e, h⟩
    rw [e]
    rintro ⟨v2, w2, e2, h5, h6⟩
    refine ⟨v2, w2, e2, ?_, h6⟩
    intro d hd hi
    cases h d hd
    exact h5 hi
  | error p => intro e; rw [SameResult] at e; rw [e]; exact id
  | timeout => intro e; rw [SameResult] at e; rw [e]; exact id
  | stuck => intros; trivial

/-! ### Laws

That `Meaning.lean` says what the tour of the language says. -/

variable {W : Type} (ap : Value → List Value → Run W Value)

theorem holes_cons_expr (e : Expr) (es : List Arg) : holes (.expr e :: es) = holes es := by
  simp [holes, Arg.isHole]

/-- `a |> f(b, c)` is `f(a, b, c)`, where `f` is the name of a function, unless `f` takes two arguments only. -/
theorem pipe_is_first_argument (env : Env) (loc here : Loc) (a : Expr) (m : Option Text) (f : Text) (arity : Nat)
    (es : List Arg) (hh : holes es = 0) (hn : arity ≠ es.length) :
    expr ap env (.pipeline loc a [.mk (some arity) here (.call (.fnRef m f arity) es)]) =
      expr ap env (.call (.fnRef m f arity) (.expr a :: es)) := by
  simp only [expr, steps, hh, holes_cons_expr, if_true, args, calling, pure_bind, bind_assoc, bind_pure]
  have hk : ¬ some arity = some es.length := by simpa using hn
  simp only [if_neg hk]

/-- `a |> f(b)` is `f(b)(a)` if `f` takes one argument. `f(b)` is evaluated after `a`. -/
theorem pipe_into_result (env : Env) (loc here : Loc) (a : Expr) (m : Option Text) (f : Text) (es : List Arg)
    (hh : holes es = 0) :
    expr ap env (.pipeline loc a [.mk (some es.length) here (.call (.fnRef m f es.length) es)]) =
      (expr ap env a).bind fun v => (expr ap env (.call (.fnRef m f es.length) es)).bind fun g => ap g [v] := by
  simp only [expr, steps, hh, if_true, calling, pure_bind, bind_assoc, bind_pure]

/-- `a |> f` is `f(a)`, where `f` is the name of a function. -/
theorem pipe_into_function (env : Env) (loc here : Loc) (a : Expr) (known : Option Nat) (m : Option Text) (f : Text) (arity : Nat) :
    expr ap env (.pipeline loc a [.mk known here (.fnRef m f arity)]) = expr ap env (.call (.fnRef m f arity) [.expr a]) := by
  simp only [expr, steps, show holes [Arg.expr a] = 0 from rfl, if_true, args, calling, pure_bind, bind_assoc, bind_pure]

/-- `a |> s1 |> s2` is `(a |> s1) |> s2`. -/
theorem pipe_assoc (env : Env) (loc loc' : Loc) (a : Expr) (s : Step) (ss : List Step) :
    expr ap env (.pipeline loc a (s :: ss)) = expr ap env (.pipeline loc' (.pipeline loc a [s]) ss) := by
  simp only [expr, bind_assoc]
  congr 1
  funext v
  by_cases hc : ∃ known here f es, s = .mk known here (.call f es)
  · obtain ⟨known, here, f, es, rfl⟩ := hc
    simp only [steps, bind_assoc, pure_bind]
  · obtain ⟨known, here, e⟩ := s
    have key : ∀ ss, steps ap env v (.mk known here e :: ss) =
        (calling ap e (expr ap env e) (M.pure [v])).bind fun w => steps ap env w ss := by
      intro ss
      cases e <;> first | (simp only [steps]; done) | exact absurd ⟨_, _, _, _, rfl⟩ hc
    rw [key, key, bind_assoc]
    simp only [steps, pure_bind]

/-- `use x, y <- f(a)` followed by statements is, for the rest of the compiler, `f(a, fn(x, y) { … })`. -/
theorem use_is_last_argument (ps : List (Text × Loc)) (f : Expr) (es : List Arg) (line : Nat) (s : Stmt) (ss : List Stmt)
    (hh : holes es = 0) :
    typedStmts (.use_ (ps.map fun p => (.var p.1 p.2, p.2)) (.call f es) line :: s :: ss) =
      typedStmts [.expr (.call f (es ++ [.expr (.fn (ps.map some) (s :: ss))]))] := by
  have h1 : ∀ i, useParameters i (ps.map fun p => (Pattern.var p.1 p.2, p.2)) = ps.map some := by
    induction ps with
    | nil => intro i; rfl
    | cons p ps ih => intro i; simp only [List.map_cons, useParameters, ih]
  have h2 : ∀ i, useAssignments i (ps.map fun p => (Pattern.var p.1 p.2, p.2)) = [] := by
    clear h1
    induction ps with
    | nil => intro i; rfl
    | cons p ps ih => intro i; simp only [List.map_cons, useAssignments, ih]
  have h3 : ∀ es', typedArgs (es ++ es') = typedArgs es ++ typedArgs es' := by
    clear hh
    intro es'
    induction es with
    | nil => rfl
    | cons e es ih => cases e <;> simp only [List.cons_append, typedArgs, ih]
  have h4 : holes (es ++ [.expr (.fn (ps.map some) (s :: ss))]) = 0 := by
    simp only [holes, List.filter_append, List.length_append] at hh ⊢
    rw [hh]
    rfl
  obtain ⟨t, ts, ht⟩ := typedStmts_cons s ss
  have h5 : typedStmts [.expr (.call f (es ++ [.expr (.fn (ps.map some) (s :: ss))]))] =
      [.expr (makeCall (es ++ [.expr (.fn (ps.map some) (s :: ss))]) (typed f)
        (typedArgs (es ++ [.expr (.fn (ps.map some) (s :: ss))])))] := by
    simp only [typedStmts, typed]
  rw [h5, makeCall, if_pos h4, h3]
  simp only [typedArgs, typed]
  rw [typedStmts, if_pos hh, useCallback, h1, h2, ht]
  rfl

/-! ### An example

```gleam
type User { User(name: String, age: Int) }

fn each(start, k) { k(start, #(2, 3)) }

fn add(a, b) { a + b }

fn adder(a) { fn(b) { a + b } }

pub fn older(user) {
  use x, #(y, _) <- each(1)
  User(..user, age: x |> add(y) |> adder(10) |> add(_, 100))
}
```
-/

def name (s : String) : Text := s.toList

def eachFunction : Fun where
  name := name "each"
  parameters := [some (name "start", 0), some (name "k", 1)]
  body := [.expr (.call (.var (name "k") 1) [.expr (.var (name "start") 0), .expr (.tuple [.int 2, .int 3])])]

def addFunction : Fun where
  name := name "add"
  parameters := [some (name "a", 2), some (name "b", 3)]
  body := [.expr (.bin .add (.var (name "a") 2) (.var (name "b") 3))]

def adderFunction : Fun where
  name := name "adder"
  parameters := [some (name "a", 4)]
  body := [.expr (.fn [some (name "b", 5)] [.expr (.bin .add (.var (name "a") 4) (.var (name "b") 5))])]

def olderFunction : Fun where
  name := name "older"
  parameters := [some (name "user", 6)]
  body :=
    [.use_ [(.var (name "x") 7, 7), (.tuple [.var (name "y") 8, .discard], 9)] (.call (.fnRef none (name "each") 2) [.expr (.int 1)]) 10,
     .expr (.update 11 (.var (name "user") 6) (name "User") [some (name "name"), some (name "age")]
      [.mk (name "age") (.pipeline 12 (.var (name "x") 7)
        [.mk (some 2) 13 (.call (.fnRef none (name "add") 2) [.expr (.var (name "y") 8)]),
         .mk (some 1) 14 (.call (.fnRef none (name "adder") 1) [.expr (.int 10)]),
         .mk (some 2) 15 (.call (.fnRef none (name "add") 2) [.hole 16, .expr (.int 100)])])])]

def exampleFunctions : List Fun := [eachFunction, addFunction, adderFunction, olderFunction]

theorem example_ok : ∀ f ∈ exampleFunctions, f.ok = true := by decide +kernel

def lucy (age : Int) : Value := .record (name "User") [.str (name "Lucy"), .int age]

/-- The result of `older(User("Lucy", 8))`. -/
def isLucy113 : Out Panic Value × List Event → Bool
  | (.val (.record tag [.str s, .int n]), []) => decide (tag = name "User" ∧ s = name "Lucy" ∧ n = 113)
  | _ => false

def noAnswers : Answers := fun _ _ => none

example : isLucy113 (runWritten exampleFunctions noAnswers 6 (name "older") [lucy 8] []) = true := by decide +kernel

/-- The same for the typed program. -/
def isTypedLucy113 : Out Panic ErlGen.Gleam.Value × List Event → Bool
  | (.val (.record tag [.str s, .int n]), []) => decide (tag = name "User" ∧ s = name "Lucy" ∧ n = 113)
  | _ => false

example : isTypedLucy113 (runGleam (exampleFunctions.map typedFun) noAnswers 6 (name "older")
    [.record (name "User") [.str (name "Lucy"), .int 8]] []) = true := by decide +kernel

example : SameResult (runWritten exampleFunctions noAnswers 6 (name "older") [lucy 8] [])
    (runGleam (exampleFunctions.map typedFun) noAnswers 6 (name "older")
      [.record (name "User") [.str (name "Lucy"), .int 8]] []) :=
  notations_keep_meaning_partial exampleFunctions example_ok noAnswers 6 (name "older") [lucy 8] _ rfl []

/-- A function of another module that calls the function it is given. -/
example : SameOutside (W := Unit) (fun ap _ _ vs => match vs with | [f, v] => ap f [v] | _ => M.stuck)
    (fun ap _ _ vs => match vs with | [f, v] => ap f [v] | _ => M.stuck) := by
  intro ap ap' hap m f vs vs' hvs
  match vs, vs', hvs with
  | [_, _], _, .cons h1 (.cons h2 .nil) => exact hap _ _ _ _ h1 (.cons h2 .nil)
  | [], _, .nil => exact Sim.stuck
  | [_], _, .cons _ .nil => exact Sim.stuck
  | _ :: _ :: _ :: _, _, _ => exact Sim.stuck

/-- `older` is a function that both programs have. -/
example : SameOut Same
    (apply exampleFunctions (fun _ _ _ _ => (M.stuck : Run Unit Value)) 6 (.fn none (name "older") 1) [lucy 8] ())
    (ErlGen.Gleam.apply (exampleFunctions.map typedFun) (fun _ _ _ _ => M.stuck) 6 (.fn none (name "older") 1)
      [.record (name "User") [.str (name "Lucy"), .int 8]] ()) :=
  notations_keep_functions_partial exampleFunctions example_ok _ _ (fun _ _ _ _ _ _ _ _ => Sim.stuck) 6 _ _ _ _
    (.fn none (name "older") 1) (.cons (.record _ (.cons (.str _) (.cons (.int _) .nil))) .nil) ()

/-! The same module compiled to Erlang. -/

def exampleModule : Module where
  name := name "users"
  path := name "src/users.gleam"
  purity := fun _ => false
  definitions := exampleFunctions.map fun f => ⟨typedFun f, true, 1⟩

theorem example_functions : exampleModule.definitions.map Definition.function = exampleFunctions.map typedFun := by
  rw [exampleModule, List.map_map]
  rfl

macro "wf_leaf" : tactic => `(tactic| first
  | trivial
  | rfl
  | exact ErlGen.functionName_of (by decide +kernel) (by decide +kernel) (by decide +kernel)
  | exact ErlGen.isVariable_name (by decide +kernel)
  | exact ErlGen.names_of (by decide +kernel)
  | exact ErlGen.tagName_camel (by decide +kernel)
  | exact List.cons_ne_nil _ _
  | decide +kernel
  | (intro h; rcases h with h | h <;> cases h)
  | (intro h; cases h))

theorem each_wf : (typedFun eachFunction).Wf fun _ => false := by
  refine ⟨?_, ⟨?_, ?_⟩, ?_, ⟨⟨?_, ?_, ?_, ⟨?_, ?_, ?_⟩, ?_⟩, ?_⟩, ?_⟩ <;> wf_leaf

theorem add_wf : (typedFun addFunction).Wf fun _ => false := by
  refine ⟨?_, ⟨?_, ?_⟩, ?_, ⟨⟨?_, ?_, ?_, ?_⟩, ?_⟩, ?_⟩ <;> wf_leaf

theorem adder_wf : (typedFun adderFunction).Wf fun _ => false := by
  refine ⟨?_, ⟨?_, ?_⟩, ?_, ⟨⟨⟨?_, ?_⟩, ?_, ⟨⟨?_, ?_, ?_, ?_⟩, ?_⟩⟩, ?_⟩, ?_⟩ <;> wf_leaf

theorem older_wf : (typedFun olderFunction).Wf fun _ => false := by
  refine ⟨?_, ⟨?_, ?_⟩, ?_, ⟨⟨?_, ?_, ?_, ⟨⟨?_, ?_⟩, ?_, ⟨⟨⟨?_, ?_⟩, ?_, ?_⟩, ?_, ?_, ⟨?_, ⟨?_, ?_, ?_⟩⟩, ?_⟩⟩, ?_⟩, ?_⟩, ?_⟩
  rotate_left 18
  · -- the pipeline
    refine ⟨?_, ?_, ?_, ⟨?_, ?_, ?_, ?_, ?_⟩, ?_, ⟨?_, ⟨?_, ?_, ?_, ?_⟩, ?_, ?_⟩, ?_, ⟨⟨?_, ?_⟩, ?_, ⟨?_, ?_, ?_, ?_, ?_⟩, ?_⟩, ?_, ?_⟩ <;>
      wf_leaf
  all_goals wf_leaf

theorem example_wf : exampleModule.Wf where
  name := by unfold ErlGen.ModuleName exampleModule; decide +kernel
  path := ⟨ErlGen.chars "src/users.gleam", ErlGen.chars_literal (by decide +kernel), by decide +kernel⟩
  functions := by
    intro d hd
    simp only [exampleModule, exampleFunctions, List.map_cons, List.map_nil, List.mem_cons, List.not_mem_nil, or_false] at hd
    rcases hd with rfl | rfl | rfl | rfl
    · exact each_wf
    · exact add_wf
    · exact adder_wf
    · exact older_wf
  different := by decide +kernel

example : ∃ code forms, printModule (moduleAtom exampleModule.name) (genModule exampleModule) = some code ∧ Reads code forms ∧
    SameErlang (runWritten exampleFunctions ErlGen.nilAnswers 6 (name "older") [lucy 8] [])
      (runErlang forms ErlGen.nilErlangAnswers 6 (name "older")
        [.tuple [.atom (name "user"), .str (name "Lucy"), .int 8]] []) := by
  obtain ⟨code, forms, h1, h2, h3⟩ :=
    notations_compiled_to_erlang_partial exampleFunctions example_ok exampleModule example_wf example_functions
  exact ⟨code, forms, h1, h2, h3 _ _ ErlGen.nil_agree 6 _ _ _ _ rfl (by decide +kernel) (by rfl)⟩

end Verif.Sugar
