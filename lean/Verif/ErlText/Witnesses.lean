import Verif.ErlText.Props

/-! # Programs for which the printed Erlang is not read -/

namespace Verif.ErlText

open Read

/-- `pub const n = -1` and `pub fn f(a) { <<a:size(n)>> }`: the constant is inlined as the size of the segment. -/
def negativeSize : List Form :=
  [.function "f".toList ["A".toList] [.bits [.mk (.var "A".toList) (some (.int (-1))) []]]]

def negativeSizeText : Text := "-module(m).\n\nf(A) ->\n    <<A:-1>>.\n\n".toList

theorem negativeSize_printed : printModule "m".toList (formCalls negativeSize) = some negativeSizeText := by
  decide +kernel

/-- `<<A:-1>>` is a syntax error: a size is a primary expression. -/
theorem negative_size_rejected : Rejected negativeSizeText := by
  refine Or.inr ⟨[.op .minus, .atom "module".toList, .lparen, .atom ['m'], .rparen, .dot, .atom ['f'], .lparen, .var ['A'],
    .rparen, .arrow, .ltlt, .var ['A'], .colon, .op .minus, .int 1, .gtgt, .dot], by decide +kernel, fun n => ?_⟩
  rcases Nat.lt_or_ge n 12 with h | h
  · match n, h with
    | 0, _ | 1, _ | 2, _ | 3, _ | 4, _ | 5, _ | 6, _ | 7, _ | 8, _ | 9, _ | 10, _ | 11, _ => decide +kernel
  · obtain ⟨m, rfl⟩ : ∃ m, n = m + 12 := ⟨n - 12, by omega⟩
    rfl

/-- `@external(erlang, "a'b", "f") pub fn f() -> Nil`: the name of the module is put between quotes as it is. -/
def quoteInAtom : List Form := [.function "f".toList [] [.remote "a'b".toList "f".toList []]]

def quoteInAtomText : Text := "-module(m).\n\nf() ->\n    'a'b':f().\n\n".toList

theorem quoteInAtom_printed : printModule "m".toList (formCalls quoteInAtom) = some quoteInAtomText := by
  decide +kernel

theorem quote_in_atom_rejected : Rejected quoteInAtomText := Or.inl (by decide +kernel)

end Verif.ErlText
