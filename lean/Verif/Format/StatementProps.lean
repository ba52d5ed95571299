import Verif.Format.StatementRead

/-!
# C82: a formatted function does the same
-/
namespace Verif.Format
open Verif.Lexer Verif.Lexer.Spec Verif.Format.Spec Verif.TypeText

/-- Bodies of statements are kept. -/
theorem statement_bodies_are_kept (width : List Char → Nat) (blanks : Nat → Bool) :
    KeepsBodies (statementBody width blanks) BodyOk normalBody where
  reads b ok eof i br out hl := by
    obtain ⟨kss, h1, h2⟩ := body_seen (eof := eof) ok hl
    exact ⟨kss.flatten, fun rest => reads_sequence ok h1 rest, h2⟩
  ok _ _ _ h e := parseSequence_ok h e
  again _ ok := bodyDoc_normal ok

/-- **C82 (partial).** A file that is read from a text, formatted, is a text that is read as a file that imports and declares the
same, and whose functions have the same statements in the same order, whatever the length of a line, the width of characters and
the empty lines; and it is formatted as it is. Missing: statements with other expressions than integers, strings, names,
constructors, fields and nested calls of those, other patterns than names, messages, `use` and comments. -/
theorem formatted_statements_are_same_partial {width : List Char → Nat} {lines : Nat → Bool} {source : List Char} {f : File Body}
    (h : readFile (statementBody width lines) source = some f) (limit : Int) (blanks : Nat → Nat → Bool) :
    ∃ g norm, readFile (statementBody width lines) (formatFile (statementBody width lines) width limit blanks f) = some g ∧
      SameFile norm f g ∧ (∀ b, SameBody b (norm b)) ∧
      formatFile (statementBody width lines) width limit blanks g = formatFile (statementBody width lines) width limit blanks f := by
  obtain ⟨g, h1, h2⟩ := formatted_file_declares_the_same (statement_bodies_are_kept width lines) h width limit blanks
  obtain ⟨g', h3, h4⟩ := formatting_a_file_again_is_same (statement_bodies_are_kept width lines) h width limit blanks
  rw [h1] at h3
  cases h3
  refine ⟨g, normalBody, h1, h2, fun b => ?_, h4⟩
  unfold SameBody normalBody
  exact forall₂_map sameStatement_normal (b.first :: b.more)

/-! ### A case that meets the hypotheses -/

/-- A function with statements of each kind on one line. -/
def exampleBody : List Char :=
  "pub fn main(){let x:Int=12345 let assert _y=io.f(x,Ok(1 ,)) a -1 assert option.None m.g(f(\"long\",string.join(b)))}fn f(){x}".toList

example :
    (readFile (statementBody List.length fun n => n = 2) exampleBody).map
        (formatFile (statementBody List.length fun n => n = 2) List.length 30 fun _ _ => false) =
      some (("pub fn main() {\n  let x: Int = 12_345\n  let assert _y =\n    io.f(x, Ok(1))\n\n  a\n  -1\n  assert option.None\n" ++
        "  m.g(f(\n    \"long\",\n    string.join(b),\n  ))\n}\n\nfn f() {\n  x\n}\n").toList) ∧
    (readFile (statementBody List.length fun _ => false) "fn f() { let x = }".toList).isNone ∧
    (readFile (statementBody List.length fun _ => false) "fn f() { f(1 2) }".toList).isNone ∧
    (readFile (statementBody List.length fun _ => false) "fn f() { x = 1 }".toList).isNone := by
  decide +kernel

end Verif.Format
