import Verif.Format.Attribute

/-!
# Model: how the formatter writes definitions of types, and how the parser reads them

`format/src/lib.rs` `custom_type`, `type_alias` and `record_constructor`, and `compiler-core/src/parse.rs`
`parse_custom_type`.

Not modelled here: comments, documentation, attributes before the definition (those are in `Definition.lean`), source
locations, and errors other than as a failure.
-/
namespace Verif.Format
open Verif.Pretty (Doc)
open Verif.Lexer (Token Symbol Keyword)
open Verif.TypeText (TypeAst parseType)

/-- `ast.rs` `RecordConstructorArg`. -/
structure Field where
  label : Option Name
  type : TypeAst

/-- `ast.rs` `RecordConstructor`. -/
structure Variant where
  deprecated : Option (List Char)
  name : Name
  fields : List Field

/-- `ast.rs` `CustomType` and `TypeAlias`. -/
inductive TypeDef where
  | custom (isPublic isOpaque : Bool) (name : Name) (parameters : List Name) (variants : List Variant)
  | alias_ (isPublic : Bool) (name : Name) (parameters : List Name) (type : TypeAst)

/-! ### The formatter -/

section
variable (width : List Char → Nat)

/-- `format/src/lib.rs:4559-4564` `pub_`. -/
def pubDoc (isPublic : Bool) : Doc := if isPublic then text width "pub ".toList else .empty

/-- `format/src/lib.rs:2252-2279`: an argument of a constructor. -/
def fieldDoc (f : Field) : Doc :=
  (match f.label with
    | some label => ((text width label).append (text width ": ".toList)).append (typeDoc width f.type)
    | none => typeDoc width f.type).grouped

/-- `format/src/lib.rs:2228-2296` `record_constructor`. -/
def variantDoc (v : Variant) : Doc :=
  let attributes := attributesDoc (attributeDocs width v.deprecated none none false)
  (match v.fields with
    | [] => attributes.append (text width v.name)
    | f :: fs => (attributes.append (text width v.name)).append (wrapArguments width ((f :: fs).map (fieldDoc width))).grouped).grouped

/-- `format/src/lib.rs:2357-2364`: the constructors. `blank` says if there is an empty line before one. -/
def variantDocs (blank : Nat → Bool) : Nat → List Variant → List Doc
  | _, [] => []
  | n, v :: vs => ((if blank n then Doc.line 2 else .line 1).append (variantDoc width v)) :: variantDocs blank (n + 1) vs

/-- `format/src/lib.rs:2298-2379` `custom_type` and `:958-1006` `type_alias`. -/
def typeDefDoc (blank : Nat → Bool) : TypeDef → Doc
  | .custom isPublic isOpaque name parameters variants =>
    let doc := ((pubDoc width isPublic).append
      (if isOpaque then text width "opaque type ".toList else text width "type ".toList)).append
        (if parameters.isEmpty then text width name
        else ((text width name).append (wrapArguments width (parameters.map (text width)))).grouped)
    if variants.isEmpty then doc
    else
      let inner := (Doc.nest 2 .increase .always (Pretty.concat (variantDocs width blank 0 variants))).grouped
      (((doc.append (text width " {".toList)).append inner).append (.line 1)).append (text width ['}'])
  | .alias_ isPublic name parameters type =>
    let head := Pretty.concat [.empty, pubDoc width isPublic, text width "type ".toList, text width name]
    let head := if parameters.isEmpty then head
      else head.append (wrapArguments width (parameters.map (text width))).grouped
    (head.append (text width " =".toList)).append (.nest 2 .increase .always ((Doc.line 1).append (typeDoc width type)).grouped)

/-- A formatted definition of a type, with lines of the given length. -/
def formatTypeDef (limit : Int) (blank : Nat → Bool) (d : TypeDef) : List Char :=
  Pretty.toPrettyString limit (typeDefDoc width blank d)

end

/-! ### The parser -/

/-- `parse.rs:2878`: names, with commas between them. -/
def parseNames : List Token → Option (List Name × List Token)
  | .name _ :: .symbol .comma :: .symbol .comma :: _ => none
  | .name n :: .symbol .comma :: rest => (parseNames rest).map fun r => (n :: r.1, r.2)
  | .name n :: rest => some ([n], rest)
  | tokens => some ([], tokens)

/-- `parse.rs:2873-2922` `expect_type_name`. -/
def parseTypeName (tokens : List Token) : Option (Name × List Name × List Token) :=
  match tokens with
  | .upName n :: rest =>
    match rest with
    | .symbol .leftParen :: rest =>
      match parseNames rest with
      | some (parameters, .symbol .rightParen :: rest) =>
        if parameters.isEmpty then none else some (n, parameters, rest)
      | _ => none
    | .symbol .less :: _ => none
    | _ => some (n, [], rest)
  | _ => none

/-- `parse.rs:2824-2864` `parse_record_constructor_field`. -/
def parseField (tokens : List Token) : Option (Option Field × List Token) :=
  match tokens with
  | .name label :: .symbol .colon :: rest =>
    match parseType (2 * rest.length + 2) rest with
    | some (some t, rest) => some (some ⟨some label, t⟩, rest)
    | _ => none
  | _ =>
    match parseType (2 * tokens.length + 2) tokens with
    | some (some t, rest) => some (some ⟨none, t⟩, rest)
    | some (none, rest) => some (none, rest)
    | none => none

/-- `parse.rs:4518-4560` `series_of` with commas. `fuel` bounds the loop. -/
def parseFields : Nat → List Token → Option (List Field × List Token)
  | 0, _ => none
  | fuel + 1, tokens =>
    match parseField tokens with
    | none => none
    | some (none, rest) => some ([], rest)
    | some (some f, rest) =>
      match rest with
      | .symbol .comma :: rest =>
        match rest with
        | .symbol .comma :: _ => none
        | _ => (parseFields fuel rest).map fun r => (f :: r.1, r.2)
      | _ => some ([f], rest)

/-- `parse.rs:2688-2726` `parse_record_constructor` and `:2808-2822` `parse_record_constructor_arguments`. -/
def parseVariant (tokens : List Token) : Option (Option Variant × List Token) :=
  match parseAttributes (tokens.length + 1) .default tokens with
  | none => none
  | some (a, rest) =>
    if a.erlang.isSome || a.javascript.isSome || a.target.isSome || a.internal then none
    else
      match rest with
      | .upName name :: rest =>
        match rest with
        | .symbol .leftParen :: rest =>
          match parseFields (rest.length + 1) rest with
          | some (fields, .symbol .rightParen :: rest) => some (some ⟨a.deprecated, name, fields⟩, rest)
          | _ => none
        | _ => some (some ⟨a.deprecated, name, []⟩, rest)
      | _ => some (none, rest)

/-- `parse.rs:4518-4560` `series_of` without separators. `fuel` bounds the loop. -/
def parseVariants : Nat → List Token → Option (List Variant × List Token)
  | 0, _ => none
  | fuel + 1, tokens =>
    match parseVariant tokens with
    | none => none
    | some (none, rest) => some ([], rest)
    | some (some v, rest) => (parseVariants fuel rest).map fun r => (v :: r.1, r.2)

/-- `parse.rs:2613-2634`: the constructors, after the brace. -/
def parseBody (tokens : List Token) : Option (List Variant × List Token) :=
  match tokens with
  | .name _ :: _ => none
  | _ =>
    match parseVariants (tokens.length + 1) tokens with
    | some (variants, .symbol .rightBrace :: rest) => some (variants, rest)
    | _ => none

/-- `parse.rs:2599-2686` `parse_custom_type`. -/
def parseCustomType (isPublic isOpaque : Bool) (tokens : List Token) : Option (TypeDef × List Token) :=
  match parseTypeName tokens with
  | none => none
  | some (name, parameters, rest) =>
    match rest with
    | .symbol .leftBrace :: rest =>
      (parseBody rest).map fun r => (.custom isPublic isOpaque name parameters r.1, r.2)
    | .symbol .equal :: rest =>
      if isOpaque then none
      else
        match parseType (2 * rest.length + 2) rest with
        | some (some t, rest) => some (.alias_ isPublic name parameters t, rest)
        | _ => none
    | _ => some (.custom isPublic isOpaque name parameters [], rest)

/-- `parse.rs:321-375` `parse_definition`, for definitions of types. -/
def parseTypeDef (tokens : List Token) : Option (TypeDef × List Token) :=
  match tokens with
  | .keyword .type_ :: rest => parseCustomType false false rest
  | .keyword .pub_ :: .keyword .opaque_ :: .keyword .type_ :: rest => parseCustomType true true rest
  | .keyword .pub_ :: .keyword .type_ :: rest => parseCustomType true false rest
  | .keyword .opaque_ :: .keyword .type_ :: rest => parseCustomType false true rest
  | _ => none

/-- The definition of a type at the start of a text, with the tokens that are left. -/
def readTypeDef (source : List Char) : Option (TypeDef × List Token) :=
  match Lexer.tokens source with
  | (spanned, none) => parseTypeDef (visible (spanned.map (·.token)))
  | _ => none

end Verif.Format
