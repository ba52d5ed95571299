import Verif.Format.Expression

/-!
# Model: how the formatter writes the statements of a function, and how the parser reads them

`format/src/lib.rs` `statements`, `statement`, `assignment`, `assert` and `assigned_value`, and `compiler-core/src/parse.rs`
`parse_statement_sequence`, `parse_statement`, `parse_assignment` and `parse_assert`.

Statements are expressions, `let`, `let assert` and `assert` of the expressions of `Format/Expression.lean`: integers, strings, names,
constructors, fields and nested calls. A `let` gives the value a name or ignores it. Not modelled: other patterns of `let`,
messages, `use`, bodies with no statement (which are read as `todo`), comments, source locations, and errors other than as a failure.
-/
namespace Verif.Format
open Verif.Pretty (Doc)
open Verif.Lexer (Token Symbol Keyword)
open Verif.TypeText (TypeAst)

/-- `ast.rs` `Statement`, `Assignment` and `Assert`. -/
inductive Statement where
  | expression (value : Expr)
  | assignment (isAssert : Bool) (target : AssignName) (annotation : Option TypeAst) (value : Expr)
  | assert_ (value : Expr)

/-- `ast.rs` `Function::body`, which is not empty. -/
structure Body where
  first : Statement
  more : List Statement

/-! ### The formatter -/

section
variable (width : List Char → Nat)

/-- `format/src/lib.rs:2581-2611` `assigned_value` and `:2528-2579` `case_clause_value`, for the expressions that are modelled. -/
def assignedDoc (value : Expr) : Doc :=
  (Doc.nextBreakFits (Doc.nest 2 .increase .always (breakableSpace.append (exprDoc width value).grouped)) .disabled).grouped

/-- `format/src/lib.rs:1249-1254` and `:1258`: the target of a `let` and its annotation. -/
def targetDoc (target : AssignName) (annotation : Option TypeAst) : Doc :=
  ((assignNameDoc width target).append (match annotation with
    | none => .empty
    | some t => (text width ": ".toList).append (typeDoc width t))).grouped

/-- `format/src/lib.rs:3619-3630` `statement`, `:1228-1267` `assignment` and `:3502-3522` `assert`. -/
def statementDoc : Statement → Doc
  | .expression value => exprDoc width value
  | .assignment isAssert target annotation value =>
    (((text width (if isAssert then "let assert ".toList else "let ".toList)).append (targetDoc width target annotation)).append
      (text width " =".toList)).append (assignedDoc width value)
  | .assert_ value => Pretty.concat [text width "assert ".toList, exprDoc width value]

/-- `format/src/lib.rs:1199-1215`: statements that follow another. `blanks` tells before which there is an empty line. -/
def moreDocs (blanks : Nat → Bool) : Nat → List Statement → List Doc
  | _, [] => []
  | n, s :: more => .line (if blanks n then 2 else 1) :: (statementDoc width s).grouped :: moreDocs blanks (n + 1) more

/-- `format/src/lib.rs:1190-1226` `statements`. -/
def bodyDoc (blanks : Nat → Bool) (b : Body) : Doc :=
  let doc := Pretty.concat ((statementDoc width b.first).grouped :: moreDocs width blanks 1 b.more)
  match b with
  | ⟨.expression _, []⟩ => doc
  | _ => .forceBroken doc

end

/-! ### The parser -/

/-- What follows a value that is a whole statement: the next statement or the end of the body. -/
def endsStatement : List Token → Bool
  | .symbol .rightBrace :: _ => true
  | .keyword .let_ :: _ => true
  | .keyword .assert_ :: _ => true
  | .int _ _ :: _ => true
  | .string _ :: _ => true
  | .name _ :: _ => true
  | .upName _ :: _ => true
  | _ => false

/-- `parse.rs:424-491` `parse_expression_inner`, for an expression that no operator or other part of an expression follows. -/
def parseValue (tokens : List Token) : Option (Expr × List Token) :=
  match parseExpr (2 * tokens.length) tokens with
  | none => none
  | some (value, rest) => if endsStatement rest then some (value, rest) else none

/-- `parse.rs:1148-1216` `parse_assignment`, after the keywords. -/
def parseAssignment (isAssert : Bool) (tokens : List Token) : Option (Statement × List Token) :=
  let target := match tokens with
    | .name name :: rest => some (AssignName.variable_ name, rest)
    | .discardName name :: rest => some (.discard name, rest)
    | _ => none
  match target with
  | none => none
  | some (target, rest) =>
    match parseTypeAnnotation .colon rest with
    | none => none
    | some (annotation, rest) =>
      match rest with
      | .symbol .equal :: rest => (parseValue rest).map fun r => (.assignment isAssert target annotation r.1, r.2)
      | _ => none

/-- `parse.rs:1267-1297` `parse_statement` and `:1219-1236` `parse_assert`. -/
def parseStatement (tokens : List Token) : Option (Statement × List Token) :=
  match tokens with
  | .keyword .let_ :: .keyword .assert_ :: rest => parseAssignment true rest
  | .keyword .let_ :: rest => parseAssignment false rest
  | .keyword .assert_ :: rest => (parseValue rest).map fun r => (.assert_ r.1, r.2)
  | _ => (parseValue tokens).map fun r => (.expression r.1, r.2)

/-- `parse.rs:1245-1265` `parse_statement_sequence`: the statements up to the brace. `fuel` bounds the loop. -/
def parseMore : Nat → List Token → Option (List Statement × List Token)
  | 0, _ => none
  | fuel + 1, tokens =>
    match tokens with
    | .symbol .rightBrace :: _ => some ([], tokens)
    | _ =>
      match parseStatement tokens with
      | none => none
      | some (s, rest) => (parseMore fuel rest).map fun r => (s :: r.1, r.2)

/-- `parse.rs:1245-1265` `parse_statement_sequence`. -/
def parseSequence (tokens : List Token) : Option (Body × List Token) :=
  match parseMore (tokens.length + 1) tokens with
  | some (s :: more, rest) => some (⟨s, more⟩, rest)
  | _ => none

/-- How bodies of statements are written and read. Simplified: in each function there are empty lines before the same statements. -/
def statementBody (width : List Char → Nat) (blanks : Nat → Bool) : BodyFormat Body := ⟨bodyDoc width blanks, parseSequence⟩

end Verif.Format
