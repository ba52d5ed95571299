import Verif.Format.Definition

/-!
# Model: how the formatter writes the signatures of functions, and how the parser reads them

`format/src/lib.rs` `statement_fn`, `fn_arg` and `argument_names`, and `compiler-core/src/parse.rs` `parse_function` and
`parse_fn_param`.

The body of a function is a document that is not looked into, and the parser stops before it. Not modelled: comments,
documentation, source locations, and errors other than as a failure.
-/
namespace Verif.Format
open Verif.Pretty (Doc)
open Verif.Lexer (Token Symbol Keyword)
open Verif.TypeText (TypeAst parseType)

/-- `ast.rs` `ArgNames`. -/
inductive ArgNames where
  | named (name : Name)
  | discard (name : Name)
  | namedLabelled (label name : Name)
  | labelledDiscard (label name : Name)

/-- `ast.rs` `Arg`. -/
structure Arg where
  names : ArgNames
  annotation : Option TypeAst

/-- `ast.rs` `Function`, without the body, and the target of `TargetedDefinition`. -/
structure Signature where
  attributes : Attributes
  isPublic : Bool
  name : Name
  arguments : List Arg
  returns : Option TypeAst

/-! ### The formatter -/

section
variable (width : List Char → Nat)

/-- `format/src/lib.rs:1006-1019` `argument_names`. -/
def argNamesDoc : ArgNames → Doc
  | .named name => text width name
  | .discard name => text width name
  | .labelledDiscard label name => Pretty.concat [text width label, text width [' '], text width name]
  | .namedLabelled label name => Pretty.concat [text width label, text width [' '], text width name]

/-- `format/src/lib.rs:1021-1036` `fn_arg`. -/
def argDoc (a : Arg) : Doc :=
  (match a.annotation with
    | none => argNamesDoc width a.names
    | some t => ((argNamesDoc width a.names).append (text width ": ".toList)).append (typeDoc width t)).grouped

/-- `format/src/lib.rs:1068-1101`: a signature without attributes. -/
def signatureDoc (s : Signature) : Doc :=
  let signature := (((pubDoc width s.isPublic).append (text width "fn ".toList)).append (text width s.name)).append
    (wrapArguments width (s.arguments.map (argDoc width)))
  match s.returns with
  | some t => (signature.append (text width " -> ".toList)).append (typeDoc width t)
  | none => signature

/-- `format/src/lib.rs:1038-1130` `statement_fn`, with the target of `:206-232`. A function that is external may have no
body. -/
def functionDoc (s : Signature) (body : Option Doc) : Doc :=
  let a := s.attributes
  let attributes := attributesDoc (attributeDocs width a.deprecated a.erlang a.javascript a.internal)
  targetedDoc width a.target (match body with
    | none => Pretty.concat [attributes, (signatureDoc width s).grouped]
    | some body =>
      let function := (((((signatureDoc width s).append (text width " {".toList)).grouped).append
        (Doc.nest 2 .increase .always ((Doc.line 1).append body)).grouped).append (.line 1)).append (text width ['}'])
      Pretty.concat [attributes, function])

/-- A formatted function, with lines of the given length. -/
def formatFunction (limit : Int) (s : Signature) (body : Option Doc) : List Char :=
  Pretty.toPrettyString limit (functionDoc width s body)

end

/-! ### The parser -/

/-- `parse.rs:2933-2942` `parse_type_annotation`. -/
def parseTypeAnnotation (start : Symbol) (tokens : List Token) : Option (Option TypeAst × List Token) :=
  match tokens with
  | .symbol s :: rest =>
    if s = start then
      match parseType (2 * rest.length + 2) rest with
      | some (some t, rest) => some (some t, rest)
      | _ => none
    else some (none, tokens)
  | _ => some (none, tokens)

/-- `parse.rs:2378-2467`: the names of a parameter of a function that is not anonymous. -/
def parseArgNames (tokens : List Token) : Option ArgNames × List Token :=
  match tokens with
  | .name label :: .discardName name :: rest => (some (.labelledDiscard label name), rest)
  | .discardName name :: rest => (some (.discard name), rest)
  | .name label :: .name name :: rest => (some (.namedLabelled label name), rest)
  | .name name :: rest => (some (.named name), rest)
  | _ => (none, tokens)

/-- `parse.rs:2378-2481` `parse_fn_param`. -/
def parseArg (tokens : List Token) : Option (Option Arg × List Token) :=
  match parseArgNames tokens with
  | (none, rest) => some (none, rest)
  | (some names, rest) =>
    match parseTypeAnnotation .colon rest with
    | none => none
    | some (annotation, rest) => some (some ⟨names, annotation⟩, rest)

/-- `parse.rs:4518-4560` `series_of` with commas. `fuel` bounds the loop. -/
def parseArgs : Nat → List Token → Option (List Arg × List Token)
  | 0, _ => none
  | fuel + 1, tokens =>
    match parseArg tokens with
    | none => none
    | some (none, rest) => some ([], rest)
    | some (some a, rest) =>
      match rest with
      | .symbol .comma :: rest =>
        match rest with
        | .symbol .comma :: _ => none
        | _ => (parseArgs fuel rest).map fun r => (a :: r.1, r.2)
      | _ => some ([a], rest)

/-- `parse.rs:2229-2284`: the part of `parse_function` before the body, with `:2319` the check of publicity. -/
def parseSignature (a : Attributes) (isPublic : Bool) (tokens : List Token) : Option (Signature × List Token) :=
  match tokens with
  | .name name :: .symbol .leftParen :: rest =>
    match parseArgs (rest.length + 1) rest with
    | some (arguments, .symbol .rightParen :: rest) =>
      match rest with
      | .symbol .colon :: _ => none
      | _ =>
        match parseTypeAnnotation .rArrow rest with
        | none => none
        | some (returns, rest) =>
          if a.internal && !isPublic then none else some (⟨a, isPublic, name, arguments, returns⟩, rest)
    | _ => none
  | _ => none

/-- `parse.rs:321-351` `parse_definition`, for functions. -/
def parseFunction (tokens : List Token) : Option (Signature × List Token) :=
  match parseAttributes (tokens.length + 1) .default tokens with
  | none => none
  | some (a, rest) =>
    match rest with
    | .keyword .fn_ :: rest => parseSignature a false rest
    | .keyword .pub_ :: .keyword .fn_ :: rest => parseSignature a true rest
    | _ => none

/-- The signature of the function at the start of a text, and the tokens that are left: those of the body and after it. -/
def readFunction (source : List Char) : Option (Signature × List Token) :=
  match Lexer.tokens source with
  | (spanned, none) => parseFunction (visible (spanned.map (·.token)))
  | _ => none

end Verif.Format
