import Verif.Format.Import
import Verif.Format.Definition
import Verif.Format.Constant

/-!
# Model: how the formatter writes a file of imports, types, constants and functions, and how the parser reads it

`format/src/lib.rs` `module` and `compiler-core/src/parse.rs` `parse_module`.

The file has a group of imports, and after it definitions of types, constants and functions. How bodies of functions are written
and read is a parameter (`BodyFormat`); `simpleBody` is the part of it for bodies that are one simple value. Not modelled: imports
after other definitions, imports in many groups or with attributes, comments, documentation, source locations, and errors other
than as a failure.
-/
namespace Verif.Format
open Verif.Pretty (Doc)
open Verif.Lexer (Token Symbol Keyword)

/-- How bodies of functions are written and read. `format/src/lib.rs` `statements` and `parse.rs` `parse_statement_sequence`. -/
structure BodyFormat (β : Type) where
  doc : β → Doc
  parse : List Token → Option (β × List Token)

/-- A definition of a file other than an import. `ast.rs` `TargetedDefinition`. -/
inductive Declaration (β : Type) where
  | type_ (definition : Definition)
  | function (signature : Signature) (body : Option β)
  | constant (constant : ModuleConstant)

/-- `ast.rs` `Module`. -/
structure File (β : Type) where
  imports : List Import
  declarations : List (Declaration β)

/-! ### The formatter -/

section
variable {β : Type} (F : BodyFormat β) (width : List Char → Nat)

/-- `format/src/lib.rs:206-232` `targeted_definition`. -/
def declarationDoc (blank : Nat → Bool) : Declaration β → Doc
  | .type_ d => definitionDoc width blank d
  | .function s body => functionDoc width s (body.map F.doc)
  | .constant c => constantDoc width c

/-- `format/src/lib.rs:256-261`: the documents of definitions, with an empty line before each, but for that which is the first
of the file. `blanks` tells for each definition before which constructors there is an empty line. -/
def declarationDocs (blanks : Nat → Nat → Bool) : Bool → Nat → List (Declaration β) → List Doc
  | _, _, [] => []
  | first, n, d :: ds =>
    (if first then [] else [.line 2]) ++ declarationDoc F width (blanks n) d :: declarationDocs blanks false (n + 1) ds

/-- `format/src/lib.rs:234-306` `module`. The join of one document is that document; the join of none is empty. -/
def fileDoc (blanks : Nat → Nat → Bool) (f : File β) : Doc :=
  (Pretty.concat ((if f.imports.isEmpty then [] else [importsDoc width f.imports]) ++
    declarationDocs F width blanks f.imports.isEmpty 0 f.declarations)).append (.line 1)

/-- A formatted file, with lines of the given length. -/
def formatFile (limit : Int) (blanks : Nat → Nat → Bool) (f : File β) : List Char :=
  Pretty.toPrettyString limit (fileDoc F width blanks f)

end

/-! ### The parser -/

section
variable {β : Type} (F : BodyFormat β)

/-- `parse.rs:321-408` `parse_definition`. After the attributes functions, constants and types begin with other keywords
than each other. The body is that of `:2286-2315`. -/
def parseDeclaration (tokens : List Token) : Option (Declaration β × List Token) :=
  match parseFunction tokens with
  | some (s, rest) =>
    match rest with
    | .symbol .leftBrace :: rest =>
      match F.parse rest with
      | some (body, .symbol .rightBrace :: rest) => some (.function s (some body), rest)
      | _ => none
    | _ => some (.function s none, rest)
  | none =>
    match parseConstant tokens with
    | some (c, rest) => some (.constant c, rest)
    | none => (parseDefinition tokens).map fun r => (.type_ r.1, r.2)

/-- `parse.rs:257-298` `parse_module` and `ensure_no_errors_or_remaining_input`: the definitions up to the end of the text. `fuel`
bounds the loop. -/
def parseDeclarations : Nat → List Token → Option (List (Declaration β))
  | 0, _ => none
  | fuel + 1, tokens =>
    match tokens with
    | [] => some []
    | _ =>
      match parseDeclaration F tokens with
      | none => none
      | some (d, rest) => (parseDeclarations fuel rest).map (d :: ·)

/-- `parse.rs:257-298` `parse_module`, for the files that are modelled. -/
def parseFile (tokens : List Token) : Option (File β) :=
  match parseImports (tokens.length + 1) tokens with
  | none => none
  | some (imports, rest) => (parseDeclarations F (rest.length + 1) rest).map fun ds => ⟨imports, ds⟩

/-- `parse.rs:163-191` `parse_module`: the file that a text is. -/
def readFile (source : List Char) : Option (File β) :=
  match Lexer.tokens source with
  | (spanned, none) => parseFile F (visible (spanned.map (·.token)))
  | _ => none

end

/-! ### Bodies that are one simple value -/

/-- `parse.rs` `parse_statement_sequence`, for a body that is an integer, a string, a name or a constructor without arguments. -/
def parseSimpleBody (tokens : List Token) : Option (ConstValue × List Token) :=
  match parseConstUnit tokens with
  | some (value, .symbol .rightBrace :: rest) => some (value, .symbol .rightBrace :: rest)
  | _ => none

/-- `format/src/lib.rs` `expr` for such values, which are written as in `const_expr`, and `parse_statement_sequence`. -/
def simpleBody (width : List Char → Nat) : BodyFormat ConstValue := ⟨constValueDoc width, parseSimpleBody⟩

end Verif.Format
