import Verif.Format.Annotation

/-!
# Model: how the formatter writes attributes, and how the parser reads them

`format/src/lib.rs` `AttributesPrinter`, and `compiler-core/src/parse.rs` `parse_attributes`.

Not modelled: comments, source locations, the warning for the short names of targets, and errors other than as a failure.
-/
namespace Verif.Format
open Verif.Pretty (Doc)
open Verif.Lexer (Token Symbol Keyword)

/-- `build.rs:63` `Target`. -/
inductive Target where
  | erlang
  | javascript
  deriving DecidableEq

/-- `parse.rs:128-135` `Attributes`. A string is its text in the source, between the quotes. -/
structure Attributes where
  target : Option Target
  deprecated : Option (List Char)
  erlang : Option (List Char × List Char)
  javascript : Option (List Char × List Char)
  internal : Bool
  deriving DecidableEq

/-- `parse.rs:128` `Attributes::default`. -/
def Attributes.default : Attributes := ⟨none, none, none, none, false⟩

/-! ### The formatter -/

section
variable (width : List Char → Nat)

/-- `format/src/lib.rs:4357-4392`: the attributes that are pushed, in order. -/
def attributeDocs (deprecated : Option (List Char)) (erlang javascript : Option (List Char × List Char)) (internal : Bool) :
    List Doc :=
  (match deprecated with
    | some message =>
      [Pretty.concat [text width "@deprecated(\"".toList, text width message, text width "\")".toList]]
    | none => []) ++
  ((match erlang with
    | some (module, function) =>
      [Pretty.concat [text width "@external(erlang, \"".toList, text width module, text width "\", \"".toList,
        text width function, text width "\")".toList]]
    | none => []) ++
  ((match javascript with
    | some (module, function) =>
      [Pretty.concat [text width "@external(javascript, \"".toList, text width module, text width "\", \"".toList,
        text width function, text width "\")".toList]]
    | none => []) ++
  (if internal then [text width "@internal".toList] else [])))

/-- `format/src/lib.rs:4352-4400` `AttributesPrinter::to_doc`. -/
def attributesDoc (docs : List Doc) : Doc :=
  if docs.isEmpty then .empty else (Pretty.joinWith (.line 1) docs).append (.line 1)

end

/-! ### The parser -/

/-- `parse.rs:4816-4820`: the target of an external. -/
def externalTarget (n : Name) : Option Target :=
  if n = "erlang".toList then some .erlang else if n = "javascript".toList then some .javascript else none

/-- `parse.rs:4450-4483` `expect_target`. -/
def expectTarget (n : Name) : Option Target :=
  if n = "javascript".toList then some .javascript
  else if n = "erlang".toList then some .erlang
  else if n = "js".toList then some .javascript
  else if n = "erl".toList then some .erlang
  else none

/-- `parse.rs:4826`: a comma, if there is one. -/
def skipComma : List Token → List Token
  | .symbol .comma :: rest => rest
  | tokens => tokens

/-- `parse.rs:4808-4835` `parse_external_attribute`, with the parenthesis before it. -/
def parseExternal (a : Attributes) (tokens : List Token) : Option (Attributes × List Token) :=
  match tokens with
  | .symbol .leftParen :: .name n :: .symbol .comma :: .string module :: .symbol .comma :: .string function :: rest =>
    match skipComma rest with
    | .symbol .rightParen :: rest =>
      match externalTarget n with
      | some .erlang => if a.erlang.isSome then none else some ({ a with erlang := some (module, function) }, rest)
      | some .javascript => if a.javascript.isSome then none else some ({ a with javascript := some (module, function) }, rest)
      | none => none
    | _ => none
  | _ => none

/-- `parse.rs:4789-4806` `parse_target_attribute`. -/
def parseTargetAttribute (a : Attributes) (tokens : List Token) : Option (Attributes × List Token) :=
  match tokens with
  | .symbol .leftParen :: .name n :: rest =>
    match expectTarget n with
    | none => none
    | some target =>
      if a.target.isSome then none
      else
        match rest with
        | .symbol .rightParen :: rest => some ({ a with target := some target }, rest)
        | _ => none
  | _ => none

/-- `parse.rs:4837-4857` `parse_deprecated_attribute`. -/
def parseDeprecated (a : Attributes) (tokens : List Token) : Option (Attributes × List Token) :=
  match tokens with
  | .symbol .leftParen :: rest =>
    if a.deprecated.isSome then none
    else
      match rest with
      | .string message :: .symbol .rightParen :: rest => some ({ a with deprecated := some message }, rest)
      | _ => none
  | _ => none

/-- `parse.rs:4763-4787` `parse_attribute` and `:4859-4877` `parse_internal_attribute`. -/
def parseAttribute (a : Attributes) (tokens : List Token) : Option (Attributes × List Token) :=
  match tokens with
  | .name n :: rest =>
    if n = "external".toList then parseExternal a rest
    else if n = "target".toList then parseTargetAttribute a rest
    else if n = "deprecated".toList then parseDeprecated a rest
    else if n = "internal".toList then if a.internal then none else some ({ a with internal := true }, rest)
    else none
  | _ => none

/-- `parse.rs:4742-4761` `parse_attributes`. `fuel` bounds the loop. -/
def parseAttributes : Nat → Attributes → List Token → Option (Attributes × List Token)
  | 0, _, _ => none
  | fuel + 1, a, tokens =>
    match tokens with
    | .symbol .at_ :: rest =>
      match parseAttribute a rest with
      | some (a, rest) => parseAttributes fuel a rest
      | none => none
    | _ => some (a, tokens)

end Verif.Format
