import Mathlib.Data.List.Infix
import Verif.Lexer.Props

/-!
Where the properties of `Props.lean` fail.
-/
namespace Verif.Lexer
open Spec

/-- A comment at the end of the text: `// é`. -/
def commentAtEnd : List Char := "// é".toList

/-- **C26, negation.** The span of a comment at the end of the text ends inside a character: after four bytes of five.
`Comment::from` (`parse/extra.rs:111-127`) takes the text between these offsets, which panics. -/
theorem comment_span_ends_inside_a_character :
    ∃ t ∈ (tokens commentAtEnd).1, ¬Boundary commentAtEnd t.stop := by
  refine ⟨⟨2, .commentNormal, 4⟩, by decide +kernel, ?_⟩
  rintro ⟨before, after, h1, h2⟩
  have h3 : before <+: commentAtEnd := ⟨after, h1.symm⟩
  have h4 : before ∈ commentAtEnd.inits := (List.mem_inits _ _).2 h3
  have h5 : ∀ b ∈ commentAtEnd.inits, bytes b ≠ 4 := by decide +kernel
  exact h5 before h4 h2

/-- **C26, negation.** The span of a line ending `\r\n` at the end of the text is one byte long. -/
theorem last_line_ending_is_cut :
    ∃ t ∈ (tokens "x\r\n".toList).1, t.token = .newLine ∧ TextAt "x\r\n".toList t.start t.stop ['\r'] ∧
      (tokens "x\r\ny".toList).1.any (fun u => u.token == .newLine && u.start == t.start && u.stop == t.stop + 1) := by
  refine ⟨⟨1, .newLine, 2⟩, by decide +kernel, rfl, ⟨['x'], ['\n'], rfl, by decide, by decide⟩, by decide +kernel⟩

/-- **C60, negation.** After a constructor, after a call and after an index into a tuple the minus sign belongs to the
number, and so the expression ends before it. -/
theorem minus_belongs_to_number :
    (tokens "X-1".toList).1.map (·.token) = [.upName ['X'], .int ['-', '1'] (-1)] ∧
    (tokens "f(x)-1".toList).1.map (·.token) =
      [.name ['f'], .symbol .leftParen, .name ['x'], .symbol .rightParen, .int ['-', '1'] (-1)] ∧
    (tokens "x.1-1".toList).1.map (·.token) = [.name ['x'], .symbol .dot, .int ['1'] 1, .int ['-', '1'] (-1)] := by
  decide +kernel

/-- The text of a number is not kept: the letter for its base is written in lower case. -/
theorem base_letter_is_changed : (tokens "0X1F".toList).1 = [⟨0, .int "0x1F".toList 31, 4⟩] := by decide +kernel

end Verif.Lexer
