import Verif.ErlText.Forms

/-! # C62: the generated Erlang source is read as the program that was built -/

namespace Verif.ErlText

open Read

/-- The text printed for a module, whatever its functions, attributes, expressions and patterns, is read by the
grammar of Erlang, and it is read as the syntax trees that the calls stand for: every operator has its operands,
every pattern its match, every clause its guard and its body. -/
theorem printed_module_reads_partial (name : Text) (fs : List Form) (hn : AtomText name) (h : FormsOk fs) :
    ∃ code, printModule name (formCalls fs) = some code ∧ Reads code (moduleAst name fs) :=
  reads_module name fs hn h

/-- What a text is read as is unique. -/
theorem reads_unique {code : List Char} {fs gs : List AstForm} (hf : Reads code fs) (hg : Reads code gs) : fs = gs := by
  obtain ⟨ts, h1, n1, h2⟩ := hf
  obtain ⟨us, h3, n2, h4⟩ := hg
  rw [h1] at h3
  cases h3
  have a := h2 (n1 + n2) (by omega)
  have b := h4 (n1 + n2) (by omega)
  rw [a] at b
  exact Option.some.inj b

/-- Modules that mean different things are printed differently. -/
theorem printed_module_injective_partial (name name' : Text) (fs fs' : List Form) (hn : AtomText name) (hn' : AtomText name')
    (h : FormsOk fs) (h' : FormsOk fs') (he : printModule name (formCalls fs) = printModule name' (formCalls fs')) :
    moduleAst name fs = moduleAst name' fs' := by
  obtain ⟨code, h1, h2⟩ := reads_module name fs hn h
  obtain ⟨code', h3, h4⟩ := reads_module name' fs' hn' h'
  rw [h1, h3] at he
  cases he
  exact reads_unique h2 h4

/-- The name of a module, of any number of parts, needs no escapes. -/
theorem moduleName_text (name : Text) (h : ∀ c ∈ name, c ≠ '\'' ∧ c ≠ '\\') : AtomText (erlangModuleName name) := by
  have key : ∀ d : Char, d ≠ '@' → (∀ c ∈ name, c ≠ d) → d ∉ erlangModuleName name := by
    intro d hd hc hm
    obtain ⟨c, hcm, he⟩ := List.mem_map.mp hm
    split at he
    · exact hd he.symm
    · exact hc c hcm he
  exact ⟨key _ (by decide) fun c hc => (h c hc).1, key _ (by decide) fun c hc => (h c hc).2⟩

/-! ### An example

`main` of a module `one/two`, with operators inside operators, a call of a call, a segment with a size, a list with a
tail, a guard and an alias pattern. -/

def exampleForms : List Form :=
  [.compile ["no_auto_import".toList, "nowarn_unused_vars".toList],
   .moduledoc .hidden,
   .export_ [("main".toList, 2), ("end".toList, 0)],
   .file "src/one/two.gleam".toList 3,
   .doc (.text "Says \"hi\\n\".".toList),
   .function "main".toList ["A".toList, "B@1".toList]
    [.bind (.bind (.var "X".toList) (.cons (.int (-1)) (.var "_rest".toList))) (.cons (.int (-1)) (.cons (.var "A".toList) .nil)),
     .binary .mul (.binary .add (.var "A".toList) (.int (-2))) (.unary .neg (.binary .sub (.int 1) (.var "A".toList))),
     .call (.call (.var "B@1".toList) []) [.bits [.mk (.string "a\\u{41}".toList) none [.utf8],
        .mk (.binary .add (.var "A".toList) (.int 1)) (some (.int 8)) [.unit 2, .little, .integer]]],
     .case_ (.tuple [.var "A".toList, .atom "ok".toList])
      [.mk (.tuple [.discard, .atom "Strange atom".toList]) (some (.binary .andalso (.binary .gt (.var "A".toList) (.float .plus "0".toList "0".toList)) (.atom "true".toList)))
          [.block [.int 1, .int 2]],
       .mk .discard none [.remote "gleam@list".toList "map".toList [.reference none "main".toList 2, .function [] [.map [.mk (.atom "k".toList) (.int 1)]]]]]],
   .function "end".toList [] [.nil]]

example : FormsOk exampleForms := by
  simp only [exampleForms, FormsOk, Form.Ok, OkAll, Term.Ok, OkSegments, OkFields, OkClauses, VarName, AtomText, Digits]
  simp [Form.unfinished, Form.startsLine, Term.operandLike, Term.callable, Term.sizeLike, wellQuoted, atomName, isLower, isAtomTail,
    Read.isCapital, Read.isNameChar, Read.isSmall, Read.isDigit]
  decide

end Verif.ErlText
