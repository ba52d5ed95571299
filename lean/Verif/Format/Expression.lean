import Verif.Format.File

/-!
# Model: how the formatter writes calls and simple expressions, and how the parser reads them

`format/src/lib.rs` `expr`, `call`, `append_inlinable_wrapped_arguments` and `wrap_function_call_arguments`, and
`compiler-core/src/parse.rs` `parse_expression` and `parse_expression_unit`.

Expressions are integers, strings, names, constructors, fields of names (which is also how names of other modules are written), and
calls of those with expressions as arguments. Not modelled: other expressions, calls of what a call gives, labels, captures,
comments, source locations, and errors other than as a failure.
-/
namespace Verif.Format
open Verif.Pretty (Doc)
open Verif.Lexer (Token Symbol Keyword)

/-- A name or a constructor, or one after a name and a dot. `ast/untyped.rs` `UntypedExpr::Var` and `UntypedExpr::FieldAccess`. -/
structure Callee where
  record : Option Name
  isUpper : Bool
  name : Name

/-- `ast/untyped.rs` `UntypedExpr`: the expressions that are modelled. An integer is its text and its value. -/
inductive Expr where
  | int (value : List Char) (number : Int)
  | string (value : List Char)
  | callee (callee : Callee)
  | call (function : Callee) (arguments : List Expr)

/-! ### The formatter -/

section
variable (width : List Char → Nat)

/-- `format/src/lib.rs:1369-1378`: names and fields in `expr`. -/
def calleeDoc (c : Callee) : Doc :=
  match c.record with
  | none => text width c.name
  | some r => ((text width r).append (text width ['.'])).append (text width c.name)

/-- `EMPTY_BREAK_DOCUMENT`. -/
def noBreak : Doc := .brk [] [] .strict

/-- `format/src/lib.rs:3674-3713` `wrap_function_call_arguments`, without comments. -/
def callArguments : List Doc → Doc
  | [] => text width ['(', ')']
  | d :: ds =>
    (((text width ['(']).append (Doc.nest 2 .increase .ifBroken (noBreak.append (Pretty.joinWith commaBreak (d :: ds))))).append
      (Pretty.concat [trailingCommaBreak, text width [')']])).grouped

/-- `format/src/lib.rs:4192-4218` `is_breakable_argument` of the last argument: a call that is the only one. -/
def onlyCall : List Expr → Bool
  | [.call _ _] => true
  | _ => false

mutual
/-- `format/src/lib.rs:1269-1470` `expr`, `:1590-1631` `call` and `:1675-1724` `append_inlinable_wrapped_arguments`. -/
def exprDoc : Expr → Doc
  | .int value _ => text width (int value)
  | .string value => stringDoc width value
  | .callee c => calleeDoc width c
  | .call c arguments =>
    let docs := exprDocs arguments
    if onlyCall arguments then
      (Doc.nextBreakFits ((calleeDoc width c).append
        (callArguments width (docs.map fun d => .nextBreakFits d.grouped .enabled))) .disabled).grouped
    else ((calleeDoc width c).append (callArguments width docs)).grouped

def exprDocs : List Expr → List Doc
  | [] => []
  | e :: es => exprDoc e :: exprDocs es
end

end

/-! ### The parser -/

/-- `parse.rs:539-546` and `:885-925`: a name and a field of it. -/
def parseCallee (tokens : List Token) : Option (Callee × List Token) :=
  match tokens with
  | .name record :: .symbol .dot :: .name name :: rest => some (⟨some record, false, name⟩, rest)
  | .name record :: .symbol .dot :: .upName name :: rest => some (⟨some record, true, name⟩, rest)
  | .name name :: rest => some (⟨none, false, name⟩, rest)
  | .upName name :: rest => some (⟨none, true, name⟩, rest)
  | _ => none

mutual
/-- `parse.rs:517-1044` `parse_expression_unit`, for the expressions that are modelled. What may not follow is for the caller to
see: operators, and fields and calls of what is read. `fuel` bounds the calls: each uses one. -/
def parseExpr : Nat → List Token → Option (Expr × List Token)
  | 0, _ => none
  | fuel + 1, tokens =>
    match tokens with
    | .int value number :: rest => some (.int value number, rest)
    | .string value :: rest => some (.string value, rest)
    | _ =>
      match parseCallee tokens with
      | none => none
      | some (c, rest) =>
        match rest with
        | .symbol .leftParen :: rest =>
          match parseExprs fuel rest with
          | some (arguments, .symbol .rightParen :: rest) => some (.call c arguments, rest)
          | _ => none
        | _ => some (.callee c, rest)

/-- `parse.rs:2490-2492` `parse_fn_arguments` and `:4518-4560` `series_of`: arguments up to the parenthesis, with commas. -/
def parseExprs : Nat → List Token → Option (List Expr × List Token)
  | 0, _ => none
  | fuel + 1, tokens =>
    match tokens with
    | .symbol .rightParen :: _ => some ([], tokens)
    | _ =>
      match parseExpr fuel tokens with
      | none => none
      | some (e, rest) =>
        match rest with
        | .symbol .comma :: rest => (parseExprs fuel rest).map fun r => (e :: r.1, r.2)
        | _ => some ([e], rest)
end

end Verif.Format
