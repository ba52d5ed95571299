import Verif.Format.TypeDef

/-!
# Model: how the formatter writes definitions of types with their attributes, and how the parser reads them

`format/src/lib.rs` `targeted_definition` and `compiler-core/src/parse.rs` `parse_definition`.

Not modelled: comments, documentation, source locations, and errors other than as a failure.
-/
namespace Verif.Format
open Verif.Pretty (Doc)
open Verif.Lexer (Token Symbol Keyword)

/-- A definition of a type with its attributes. `ast.rs` `TargetedDefinition`, `CustomType` and `TypeAlias`. -/
structure Definition where
  attributes : Attributes
  definition : TypeDef

/-- The definition is an alias. -/
def TypeDef.isAlias : TypeDef → Bool
  | .alias_ .. => true
  | .custom .. => false

/-- The definition has `pub`. -/
def TypeDef.isPub : TypeDef → Bool
  | .alias_ isPublic .. => isPublic
  | .custom isPublic .. => isPublic

/-! ### The formatter -/

section
variable (width : List Char → Nat)

/-- `format/src/lib.rs:206-232` `targeted_definition`, for the document of a definition. -/
def targetedDoc (target : Option Target) (document : Doc) : Doc :=
  (match target with
    | none => document
    | some .erlang => Pretty.concat [text width "@target(erlang)".toList, .line 1, document]
    | some .javascript => Pretty.concat [text width "@target(javascript)".toList, .line 1, document]).grouped

/-- `format/src/lib.rs:206-232` `targeted_definition`, with the attributes of `type_alias` (`:975-978`) and of `custom_type`
(`:2320-2325`). In the code the attributes are the first part of a longer chain of `append`; here the rest of the chain is one
document, which has the same parts in the same order. -/
def definitionDoc (blank : Nat → Bool) (d : Definition) : Doc :=
  let a := d.attributes
  let docs := if d.definition.isAlias then attributeDocs width a.deprecated none none a.internal
    else attributeDocs width a.deprecated a.erlang a.javascript a.internal
  targetedDoc width a.target ((attributesDoc docs).append (typeDefDoc width blank d.definition))

/-- A formatted definition of a type with its attributes, with lines of the given length. -/
def formatDefinition (limit : Int) (blank : Nat → Bool) (d : Definition) : List Char :=
  Pretty.toPrettyString limit (definitionDoc width blank d)

end

/-! ### The parser -/

/-- `parse.rs:321-408` `parse_definition`, for definitions of types, with `:2351-2367` `publicity`. -/
def parseDefinition (tokens : List Token) : Option (Definition × List Token) :=
  match parseAttributes (tokens.length + 1) .default tokens with
  | none => none
  | some (a, rest) =>
    match parseTypeDef rest with
    | none => none
    | some (d, rest) =>
      if a.internal && !d.isPub then none
      else if d.isAlias && (a.erlang.isSome || a.javascript.isSome) then none
      else some (⟨a, d⟩, rest)

/-- The definition of a type at the start of a text, with its attributes, and the tokens that are left. -/
def readDefinition (source : List Char) : Option (Definition × List Token) :=
  match Lexer.tokens source with
  | (spanned, none) => parseDefinition (visible (spanned.map (·.token)))
  | _ => none

end Verif.Format
