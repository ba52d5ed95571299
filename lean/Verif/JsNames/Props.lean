import Verif.JsNames.Lemmas

/-
C40: the names of variables in generated JavaScript.
-/
namespace Verif.JsNames

/-- **C40**, words: every name given to a variable is an identifier and no reserved word. -/
theorem names_legal (name : Name) (n : Nat) : isIdentifierName (localName name n) = true ∧ localName name n ∉ reserved :=
  ⟨localName_legal name n, localName_not_reserved name n⟩

/-- **C40**, distinctness: two variables, or two bindings of one variable that are counted differently, never get the same name. -/
theorem names_distinct {a b : Name} {m n : Nat} (h : localName a m = localName b n) : a = b ∧ m = n := localName_inj h

/-- A module: the numbers and names of its definitions and imports, and one of its functions. `javascript.rs:1246-1262`,
`1201-1215`. -/
structure Module where
  definitions : List (Nat × Ident)
  params : List (Nat × Ident)
  body : Code

/-- `register_module_definitions_in_scope`, `Generator::new` and `function_body`. -/
def Module.generate (m : Module) : Js :=
  (compile (Scope.new fun x => if x ∈ m.definitions.map (·.2) then some 0 else none) (fun _ => [])
    (.function m.params m.body .done)).1

/-- The scope of a module in JavaScript. -/
def Module.frame (m : Module) : Frame :=
  ⟨m.definitions.map fun d => maybeEscape d.2.1, m.definitions.map fun d => (maybeEscape d.2.1, d.1)⟩

/-- What the uses in the function mean in Gleam. -/
def Module.meaning (m : Module) : List (Option Nat) :=
  resolve (fun x => (m.definitions.find? (·.2 = x)).map (·.1)) [] (.function m.params m.body .done)

/-- A module that the type checker lets through: every use means something, parameters are distinct. -/
structure Module.Valid (m : Module) : Prop where
  uses : ∀ r ∈ m.meaning, r ≠ none
  params : (Code.function m.params m.body .done).ParamsDistinct

theorem module_inv (m : Module) : Inv (fun x => (m.definitions.find? (·.2 = x)).map (·.1)) []
    (Scope.new fun x => if x ∈ m.definitions.map (·.2) then some 0 else none) (fun _ => []) [m.frame] := by
  refine ⟨fun x id hx => ?_, by simp⟩
  have hmem : x ∈ m.definitions.map (·.2) := by
    cases hf : m.definitions.find? (·.2 = x) with
    | none =>
      rw [hf] at hx
      cases hx
    | some p =>
      have h1 := List.mem_of_find?_eq_some hf
      have h2 := List.find?_some hf
      simp only [decide_eq_true_eq] at h2
      rw [← h2]
      exact List.mem_map_of_mem h1
  refine ⟨0, by simp only [Scope.new, if_pos hmem], ?_⟩
  have hn : localName (.user x) 0 ∈ m.frame.names := by
    have := List.mem_map_of_mem (f := fun y : Ident => localName (.user y) 0) hmem
    rw [List.map_map] at this
    exact this
  rw [lookup, if_pos hn]
  have := find_params m.definitions x
  rw [List.map_map] at this
  exact this.trans hx

/-- **C40**, redeclaration. Missing for the full property: guards whose variables are printed with more declarations after them, see
`guard_variable_redeclared`. No scope of the generated code declares a name twice. -/
theorem no_redeclaration_partial (m : Module) (params : (Code.function m.params m.body .done).ParamsDistinct)
    (guards : m.body.GuardsLast) : m.generate.Legal :=
  (compile_bound _ _ _ params ⟨guards, trivial⟩).legal

/-- **C40**, meaning. Missing for the full property: blocks that are statements with more statements after them, variables of guards as
above, and messages of a `let assert` that use a name its pattern binds; see the witnesses. Every use of a variable in the generated code
means the variable that it means in the source. -/
theorem uses_keep_meaning_partial (m : Module) (valid : m.Valid) (blocks : m.body.BlocksLast) (guards : m.body.GuardsLast)
    (messages : m.body.MessagesPlain) : resolveJs [m.frame] m.generate = m.meaning :=
  resolveJs_compile _ _ [] _ _ m.frame [] valid.params ⟨guards, trivial⟩ ⟨messages, trivial⟩ ⟨blocks, trivial⟩ valid.uses (module_inv m)
    (by simp [compile, Js.names])

def x : Ident := ⟨"x".toList, by decide⟩
def class_ : Ident := ⟨"class".toList, by decide⟩

/-- `fn(x) { let class = x  case f { class -> { let x = class  x } }  let assert Ok(class) = x as x  let x = x
case x { #(class) if class -> x  _ -> class } }` for a module with a definition `class`. -/
def exampleModule : Module :=
  ⟨[(0, class_)], [(1, x)],
    .ref x <| .bind 2 class_ <| .store 3 .assignment <|
      .direct (.useStored 3 <| .bind 4 class_ <| .ref class_ <| .bind 5 x <| .ref x .done) <|
      .ref x <| .assert [(6, class_)] (.ref x .done) <| .ref x <| .bind 7 x <| .ref x <|
      .direct (.scoped (.bind 8 class_ <| .ref class_ .done) <| .branch (.bind 9 class_ <| .ref x .done) <| .branch (.ref class_ .done) .done)
      .done⟩

example : exampleModule.Valid ∧ exampleModule.body.BlocksLast ∧ exampleModule.body.GuardsLast ∧ exampleModule.body.MessagesPlain ∧
    exampleModule.meaning = [some 1, some 3, some 4, some 5, some 1, some 1, some 1, some 7, some 8, some 7, some 6] := by
  refine ⟨⟨by decide, ?_⟩, ?_, ?_, ?_, by decide⟩
  · simp [exampleModule, Code.ParamsDistinct]
  · simp [exampleModule, Code.BlocksLast]
  · simp [exampleModule, Code.GuardsLast, Code.declares, Code.guarded]
  · simp [exampleModule, Code.MessagesPlain, Code.uses, x, class_]

/-- **C40** is false of the code: after a block that is a statement the generator still has the names of the block's variables. For
`fn() { let x = 1  { let x = 2  x }  x }` the last use is printed as `x$1`, which was declared inside the braces: it means nothing there. -/
theorem block_names_leak : ∃ m : Module, m.Valid ∧ m.meaning = [some 2, some 1] ∧ resolveJs [m.frame] m.generate = [some 2, none] := by
  refine ⟨⟨[], [], .bind 1 x <| .block (.bind 2 x <| .ref x .done) <| .ref x .done⟩, ⟨by decide, ?_⟩, by decide, by decide⟩
  simp [Code.ParamsDistinct]

/-- **C40** is false of the code: `fn(x) { let class = case x { #(class) if class -> x  _ -> x }  let class = class }`. The variable that
the guard uses is declared in the block of the function, and the scope is restored after it, so the last two declarations are
`let class$ = $[0]` and `let class$ = …`, which is a syntax error. (Only a guard at the root of a decision tree is put into a block,
`decision.rs:77-84`; here a switch without choices is at the root.) -/
theorem guard_variable_redeclared : ∃ m : Module, m.Valid ∧ m.body.BlocksLast ∧ m.body.MessagesPlain ∧ ¬m.generate.Legal := by
  refine ⟨⟨[], [(1, x)], .store 2 .assignment <| .ref x <| .direct (.scoped (.useStored 2 <| .bind 3 class_ <| .ref class_ .done) <|
    .branch (.ref x .done) <| .branch (.ref x .done) .done) <| .bind 4 class_ .done⟩, ⟨by decide, ?_⟩, ?_, ?_, ?_⟩
  · simp [Code.ParamsDistinct]
  · simp [Code.BlocksLast]
  · simp [Code.MessagesPlain]
  · intro h
    exact absurd h.1 (by decide)

/-- **C40** is false of the code: `fn(x) { let assert Ok(x) = x as x }`. In the source the message is the parameter, in the generated code
it is the variable of the pattern. -/
theorem assert_message_captured : ∃ m : Module, m.Valid ∧ m.body.BlocksLast ∧ m.body.GuardsLast ∧ m.meaning = [some 1, some 1] ∧
    resolveJs [m.frame] m.generate = [some 1, some 2] := by
  refine ⟨⟨[], [(1, x)], .ref x <| .assert [(2, x)] (.ref x .done) .done⟩, ⟨by decide, ?_⟩, ?_, ?_, by decide, by decide⟩
  · simp [Code.ParamsDistinct]
  · simp [Code.BlocksLast]
  · simp [Code.GuardsLast]

end Verif.JsNames
