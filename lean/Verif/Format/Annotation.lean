import Verif.Format.Pattern
import Verif.TypeText.Model

/-!
# Model: how the formatter writes type annotations

`format/src/lib.rs` `type_ast`. The parser is that of `TypeText/Model.lean`.

Not modelled: comments between the parts of an annotation.
-/
namespace Verif.Format
open Verif.Pretty (Doc)
open Verif.Lexer (Token Symbol Keyword)
open Verif.TypeText (TypeAst parseType)

/-- `pretty-arena/src/lib.rs:961`. -/
def breakableSpace : Doc := .brk [] [' '] .strict

section
variable (width : List Char → Nat)

/-- `format/src/lib.rs:884-893`: the name of a type. -/
def typeName (module : Option Name) (name : Option Name) : Doc :=
  match module with
  | none => text width (name.getD [])
  | some m =>
    ((text width m).append (text width ['.'])).append
      (match name with
        | some n => text width n
        | none => .empty)

mutual
/-- `format/src/lib.rs:877-943` `type_ast_constructor` and `type_ast`, without comments. -/
def typeDoc : TypeAst → Doc
  | .hole name => (text width name).grouped
  | .constructor module name arguments _ =>
    (match arguments with
      | [] => typeName width module name
      | a :: as => (typeName width module name).append (wrapArguments width (typeDoc a :: typeDocs as))).grouped
  | .fn arguments ret =>
    (((((text width "fn".toList).append (wrapArguments width (typeDocs arguments))).grouped).append
      (text width " ->".toList)).append
        (.nest 2 .increase .always ((breakableSpace.append (typeDoc ret)).grouped))).grouped
  | .var name => (text width name).grouped
  | .tuple elements => ((text width ['#']).append (wrapArguments width (typeDocs elements))).grouped

/-- `format/src/lib.rs:945-956` `type_arguments`. -/
def typeDocs : List TypeAst → List Doc
  | [] => []
  | t :: ts => typeDoc t :: typeDocs ts
end

/-- A formatted type annotation, with lines of the given length. -/
def formatType (limit : Int) (t : TypeAst) : List Char := Pretty.toPrettyString limit (typeDoc width t)

end

/-- A text read as a type annotation, with the tokens that are left. `parse.rs:2946-3035` `parse_type` after `lexer.rs`. There
is fuel for every text that the formatter writes (`AnnotationRead.lean`). -/
def readAnnotation (source : List Char) : Option (TypeAst × List Token) :=
  match Lexer.tokens source with
  | (spanned, none) =>
    let tokens := visible (spanned.map (·.token))
    match parseType (2 * tokens.length + 2) tokens with
    | some (some t, rest) => some (t, rest)
    | _ => none
  | _ => none

end Verif.Format
