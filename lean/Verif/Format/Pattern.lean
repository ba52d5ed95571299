import Verif.Format.Model
import Verif.Pretty.Model
import Verif.Lexer.Iter

/-!
# Model: how the formatter writes patterns, and how the parser reads them

`format/src/lib.rs` `pattern`, and `compiler-core/src/parse.rs` `parse_pattern`.

Not modelled: comments between the parts of a pattern, bit array patterns, source locations, warnings, and errors other
than as a failure.
-/
namespace Verif.Format
open Verif.Pretty (Doc)
open Verif.Lexer (Token Symbol Keyword)

abbrev Name := List Char

/-- `ast.rs` `AssignName`. -/
inductive AssignName where
  | variable_ (name : Name)
  | discard (name : Name)
  deriving DecidableEq, Repr

mutual
/-- `ast.rs` `Pattern`, without bit arrays, invalid patterns, types and locations. The tail of a list is a variable or a
discard: the parser makes no other (`parse.rs:1627-1646`). -/
inductive Pat where
  | int (value : List Char) (n : Int)
  | float (value : List Char)
  | string (value : List Char)
  | var (name : Name)
  | discard (name : Name)
  | assign (name : Name) (pattern : Pat)
  | stringPrefix (left : List Char) (leftName : Option Name) (right : AssignName)
  | tuple (elements : Pats)
  | list (elements : Pats) (tail : Option AssignName)
  | ctor (module : Option Name) (name : Name) (arguments : Args) (spread : Bool)

/-- `Vec<UntypedPattern>`. -/
inductive Pats where
  | nil
  | cons (pattern : Pat) (rest : Pats)

/-- `Vec<CallArg<UntypedPattern>>`. An argument uses the label shorthand if its location is that of its value
(`ast.rs:2010-2012`), which is so for those that are written like that only. -/
inductive Args where
  | nil
  | plain (pattern : Pat) (rest : Args)
  | labelled (label : Name) (pattern : Pat) (rest : Args)
  | shorthand (label : Name) (rest : Args)
end

deriving instance DecidableEq for Pat, Pats, Args

/-! ### The formatter -/

/-- `pretty-arena/src/lib.rs` `to_doc` for strings. The width of a text is given by `width`. -/
abbrev text (width : List Char → Nat) (t : List Char) : Doc := .str t (width t)

/-- `pretty-arena/src/lib.rs:960-967`. -/
def emptyBreak : Doc := .brk [] [] .strict
def commaBreak : Doc := .brk [','] [',', ' '] .strict
def trailingCommaBreak : Doc := .brk [','] [] .strict
def openSquareBreak : Doc := .brk ['['] ['['] .strict
def openParenBreak : Doc := .brk ['('] ['('] .strict

/-- `ast.rs:3103-3105` `is_discard`. -/
def Pat.isDiscard : Pat → Bool
  | .discard _ => true
  | _ => false

def Args.isEmpty : Args → Bool
  | .nil => true
  | _ => false

/-- `format/src/lib.rs:1532-1547` `is_breakable`. -/
def isBreakable : Pat → Bool
  | .tuple _ => true
  | .list _ _ => true
  | .ctor _ _ arguments _ => !arguments.isEmpty
  | _ => false

/-- `format/src/lib.rs:1571-1572`: a single argument that is breakable. With a label it is the value that counts. The
value of an argument that uses the label shorthand is a variable. -/
def singleBreakable : Args → Bool
  | .plain p .nil => isBreakable p
  | .labelled _ p .nil => isBreakable p
  | _ => false

section
variable (width : List Char → Nat)

/-- `format/src/lib.rs:1414-1429` `string`. -/
def stringDoc (value : List Char) : Doc :=
  let doc := (text width value).surround (text width ['"']) (text width ['"'])
  if '\n' ∈ value then .forceBroken doc else doc

/-- `AssignName` as a document: `format/src/lib.rs:3131-3134`. -/
def assignNameDoc : AssignName → Doc
  | .variable_ name => text width name
  | .discard name => text width name

/-- `format/src/lib.rs:3716-3758` `wrap_arguments`, without comments. -/
def wrapArguments : List Doc → Doc
  | [] => text width ['(', ')']
  | d :: ds =>
    ((Doc.nest 2 .increase .ifBroken (openParenBreak.append (Pretty.joinWith commaBreak (d :: ds)))).append
      trailingCommaBreak).append (text width [')'])

/-- `format/src/lib.rs:3760-3800` `wrap_arguments_with_spread`, without comments. -/
def wrapArgumentsWithSpread : List Doc → Doc
  | [] => wrapArguments width []
  | d :: ds =>
    ((Doc.nest 2 .increase .ifBroken
      (((openParenBreak.append (Pretty.joinWith commaBreak (d :: ds))).append commaBreak).append
        (text width ['.', '.']))).append trailingCommaBreak).append (text width [')'])

/-- `format/src/lib.rs:1550-1556`: the name of a constructor. -/
def constructorName (module : Option Name) (name : Name) : Doc :=
  match module with
  | some m => ((text width m).append (text width ['.'])).append (text width name)
  | none => text width name

mutual
/-- `format/src/lib.rs:3066-3160` `pattern`, without comments. -/
def patternDoc : Pat → Doc
  | .int value _ => text width (int value)
  | .float value => text width (float value)
  | .string value => stringDoc width value
  | .var name => text width name
  | .assign name p =>
    if p.isDiscard then text width name
    else ((patternDoc p).append (text width " as ".toList)).append (text width name)
  | .discard name => text width name
  | .list elements tail =>
    -- `format/src/lib.rs:3199-3238` `list_pattern`
    match elements with
    | .nil =>
      match tail with
      | some tail => assignNameDoc width tail
      | none => text width ['[', ']']
    | .cons p rest =>
      let doc := openSquareBreak.append (Pretty.joinWith commaBreak (patternDoc p :: patternDocs rest))
      ((match tail with
        | none => (Doc.nest 2 .increase .always doc).append trailingCommaBreak
        | some tail =>
          let tail :=
            match tail with
            | .discard _ => text width ['.', '.']
            | .variable_ name => (text width ['.', '.']).append (text width name)
          (Doc.nest 2 .increase .always ((doc.append commaBreak).append tail)).append emptyBreak).append
        (text width [']'])).grouped
  | .ctor module name arguments spread =>
    -- `format/src/lib.rs:1523-1588` `pattern_constructor`
    let head := constructorName width module name
    if arguments.isEmpty && spread then head.append (text width "(..)".toList)
    else if arguments.isEmpty then head
    else if spread then (head.append (wrapArgumentsWithSpread width (argumentDocs arguments))).grouped
    else if singleBreakable arguments then
      (((head.append (text width ['('])).append (Pretty.joinWith commaBreak (argumentDocs arguments))).append
        (text width [')'])).grouped
    else (head.append (wrapArguments width (argumentDocs arguments))).grouped
  | .tuple elements => ((text width ['#']).append (wrapArguments width (patternDocs elements))).grouped
  | .stringPrefix left leftName right =>
    let left := stringDoc width left
    match leftName with
    | some name =>
      Pretty.concat [left, text width " as ".toList, text width name, text width " <> ".toList, assignNameDoc width right]
    | none => Pretty.concat [left, text width " <> ".toList, assignNameDoc width right]

/-- The documents of several patterns. -/
def patternDocs : Pats → List Doc
  | .nil => []
  | .cons p rest => patternDoc p :: patternDocs rest

/-- `format/src/lib.rs:3240-3251` `pattern_call_arg`, `format/src/lib.rs:2395-2423` `format_call_arg`,
`format/src/lib.rs:4263-4284` `pattern_call_arg_formatting`, without comments. -/
def argumentDocs : Args → List Doc
  | .nil => []
  | .plain p rest => patternDoc p :: argumentDocs rest
  | .labelled label p rest =>
    (((text width label).append (text width [':', ' '])).append (patternDoc p)) :: argumentDocs rest
  | .shorthand label rest => (text width label).append (text width [':']) :: argumentDocs rest
end

/-- A formatted pattern, with lines of the given length. -/
def formatPattern (limit : Int) (p : Pat) : List Char := Pretty.toPrettyString limit (patternDoc width p)

end

/-! ### The parser -/

/-- `parse.rs:1692-1703`: a pattern may be given a name. -/
def finishAs (p : Pat) : List Token → Option (Option Pat × List Token)
  | .keyword .as_ :: rest =>
    match rest with
    | .name name :: rest => some (some (.assign name p), rest)
    | _ => none
  | rest => some (some p, rest)

/-- `parse.rs:4268-4310` `expect_assign_name`, and `parse.rs:1423-1440`, `parse.rs:1475-1488`: nothing may be matched
after the variable. -/
def prefixRight (left : List Char) (leftName : Option Name) (tokens : List Token) : Option (Option Pat × List Token) :=
  match tokens with
  | .name name :: rest =>
    match rest with
    | .symbol .concatenate :: _ => none
    | _ => finishAs (.stringPrefix left leftName (.variable_ name)) rest
  | .discardName name :: rest =>
    match rest with
    | .symbol .concatenate :: _ => none
    | _ => finishAs (.stringPrefix left leftName (.discard name)) rest
  | _ => none

mutual
/-- `parse.rs:1329-1704` `parse_pattern`. The outer option is the error, the inner one says if there is a pattern.
`fuel` bounds the calls: each uses one. Simplified: an error in elements after the tail of a list, which the code forgets,
is an error. Bit arrays are not modelled and are an error. -/
def parsePattern : Nat → List Token → Option (Option Pat × List Token)
  | 0, _ => none
  | fuel + 1, tokens =>
    match tokens with
    | .name name :: rest =>
      match rest with
      | .symbol .concatenate :: _ => none
      | .symbol .dot :: rest =>
        match rest with
        | .upName constructor :: rest => parseConstructor fuel (some name) constructor rest
        | _ => none
      | _ => finishAs (.var name) rest
    | .upName name :: rest => parseConstructor fuel none name rest
    | .discardName name :: rest =>
      match rest with
      | .symbol .concatenate :: _ => none
      | _ => finishAs (.discard name) rest
    | .string value :: rest =>
      match rest with
      | .keyword .as_ :: rest =>
        match rest with
        | .name name :: rest =>
          match rest with
          | .symbol .concatenate :: rest => prefixRight value (some name) rest
          | _ => some (some (.assign name (.string value)), rest)
        | _ => none
      | .symbol .concatenate :: rest => prefixRight value none rest
      | _ => finishAs (.string value) rest
    | .int value n :: rest => finishAs (.int value n) rest
    | .float value :: rest => finishAs (.float value) rest
    | .symbol .hash :: rest =>
      match rest with
      | .symbol .leftParen :: rest =>
        match parsePatterns fuel rest with
        | some (elements, .symbol .rightParen :: rest) => finishAs (.tuple elements) rest
        | _ => none
      | _ => none
    | .symbol .ltLt :: _ => none
    | .symbol .leftSquare :: rest =>
      match parsePatterns fuel rest with
      | none => none
      | some (elements, .symbol .dotDot :: rest) =>
        match parsePattern fuel rest with
        | none => none
        | some (tail, rest) =>
          let after :=
            match rest with
            | .symbol .comma :: rest => parsePatterns fuel rest
            | _ => some (.nil, rest)
          match after with
          | some (.nil, .symbol .rightSquare :: rest) =>
            match tail with
            | some (.var name) => finishAs (.list elements (some (.variable_ name))) rest
            | some (.discard name) => finishAs (.list elements (some (.discard name))) rest
            | some _ => none
            | none => finishAs (.list elements (some (.discard ['_']))) rest
          | _ => none
      | some (elements, .symbol .rightSquare :: rest) => finishAs (.list elements none) rest
      | some _ => none
    | _ => some (none, tokens)

/-- `parse.rs:4518-4560` `series_of` of patterns, with commas. -/
def parsePatterns : Nat → List Token → Option (Pats × List Token)
  | 0, _ => none
  | fuel + 1, tokens =>
    match parsePattern fuel tokens with
    | none => none
    | some (none, rest) => some (.nil, rest)
    | some (some p, rest) =>
      match rest with
      | .symbol .comma :: rest =>
        match rest with
        | .symbol .comma :: _ => none
        | _ => (parsePatterns fuel rest).map fun r => (.cons p r.1, r.2)
      | _ => some (.cons p .nil, rest)

/-- `parse.rs:2067-2127` `expect_constructor_pattern`, after the name, and `parse_constructor_pattern_arguments`. -/
def parseConstructor : Nat → Option Name → Name → List Token → Option (Option Pat × List Token)
  | 0, _, _, _ => none
  | fuel + 1, module, name, tokens =>
    match tokens with
    | .symbol .leftParen :: rest =>
      match parseArguments fuel rest with
      | none => none
      | some (arguments, .symbol .dotDot :: rest) =>
        match rest with
        | .symbol .comma :: .symbol .rightParen :: rest => finishAs (.ctor module name arguments true) rest
        | .symbol .rightParen :: rest => finishAs (.ctor module name arguments true) rest
        | _ => none
      | some (arguments, .symbol .rightParen :: rest) => finishAs (.ctor module name arguments false) rest
      | some _ => none
    | _ => finishAs (.ctor module name .nil false) tokens

/-- `parse.rs:4518-4560` `series_of` of arguments, with commas; `parse.rs:2129-2182`
`parse_constructor_pattern_argument`. -/
def parseArguments : Nat → List Token → Option (Args × List Token)
  | 0, _ => none
  | fuel + 1, tokens =>
    let argument : Option (Option (Args → Args) × List Token) :=
      match tokens with
      | .name label :: .symbol .colon :: rest =>
        match parsePattern fuel rest with
        | none => none
        | some (some p, rest) => some (some (.labelled label p), rest)
        | some (none, rest) => some (some (.shorthand label), rest)
      | tokens =>
        match parsePattern fuel tokens with
        | none => none
        | some (some p, rest) => some (some (.plain p), rest)
        | some (none, rest) => some (none, rest)
    match argument with
    | none => none
    | some (none, rest) => some (.nil, rest)
    | some (some a, rest) =>
      match rest with
      | .symbol .comma :: rest =>
        match rest with
        | .symbol .comma :: _ => none
        | _ => (parseArguments fuel rest).map fun r => (a r.1, r.2)
      | _ => some (a .nil, rest)
end

/-- `parse.rs:4658-4700` `next_token`: the tokens the parser sees. -/
def visible (tokens : List Token) : List Token :=
  tokens.filter fun t => match t with
    | .newLine => false
    | .commentNormal => false
    | .commentDoc _ => false
    | .commentModule => false
    | _ => true

/-- A text read as a pattern, with the tokens that are left. `parse.rs:1329-1704` `parse_pattern` after `lexer.rs`. There is
fuel for every text that the formatter writes (`PatternRead.lean`). -/
def readPattern (source : List Char) : Option (Pat × List Token) :=
  match Lexer.tokens source with
  | (spanned, none) =>
    let tokens := visible (spanned.map (·.token))
    match parsePattern (2 * tokens.length + 2) tokens with
    | some (some p, rest) => some (p, rest)
    | _ => none
  | _ => none

end Verif.Format
