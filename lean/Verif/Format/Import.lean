import Verif.Format.Pattern
import Verif.TypeText.Model

/-!
# Model: how the formatter writes imports, and how the parser reads them

`format/src/lib.rs` `definition` and `sorted_import_group`, and `compiler-core/src/parse.rs` `parse_import`.

Not modelled: comments, empty lines (which divide imports into groups), `@target` attributes, source locations, and errors
other than as a failure.
-/
namespace Verif.Format
open Verif.Pretty (Doc)
open Verif.Lexer (Token Symbol Keyword)
open Verif.TypeText (lastSegment)

/-- `ast.rs:1324-1331` `UnqualifiedImport`. -/
structure Unqualified where
  name : Name
  asName : Option Name
  deriving DecidableEq, Repr

/-- `ast.rs:974-983` `Import`. -/
structure Import where
  module : Name
  asName : Option AssignName
  types : List Unqualified
  values : List Unqualified
  deriving DecidableEq, Repr

/-! ### The formatter -/

/-- `str::cmp`, which compares bytes: the order of characters is that of their bytes. -/
def nameLe : Name → Name → Bool
  | [], _ => true
  | _ :: _, [] => false
  | a :: as, b :: bs => decide (a < b) || (decide (a = b) && nameLe as bs)

/-- One step of `sorted`. -/
def insertBy {α : Type} (key : α → Name) (x : α) : List α → List α
  | [] => [x]
  | y :: ys => if nameLe (key x) (key y) then x :: y :: ys else y :: insertBy key x ys

/-- `itertools` `sorted_by` with the comparison of a name: it keeps the order of what has the same name. -/
def sortBy {α : Type} (key : α → Name) : List α → List α
  | [] => []
  | x :: xs => insertBy key x (sortBy key xs)

/-- `pretty-arena/src/lib.rs:598-602`. -/
def flexComma : Doc := .brk [','] [',', ' '] .flex

section
variable (width : List Char → Nat)

/-- `format/src/lib.rs:409-423` `unqualified_import`. -/
def unqualifiedDoc (u : Unqualified) : Doc :=
  (text width u.name).append
    (match u.asName with
      | none => .empty
      | some s => if s = u.name then .empty else (text width " as ".toList).append (text width s))

/-- `format/src/lib.rs:443-473`: what is imported without the name of the module. -/
def itemsDoc (types values : List Unqualified) : Doc :=
  if values.isEmpty && types.isEmpty then .empty
  else
    let types := (sortBy (·.name) types).map fun u => Pretty.concat [text width "type ".toList, unqualifiedDoc width u]
    let values := (sortBy (·.name) values).map fun u => unqualifiedDoc width u
    let unqualified := Pretty.joinWith flexComma (types ++ values)
    let unqualified := ((Doc.nest 2 .increase .always (emptyBreak.append unqualified)).append trailingCommaBreak).grouped
    ((text width ['.', '{']).append unqualified).append (text width ['}'])

/-- `format/src/lib.rs:436-494`: an import. -/
def importDoc (i : Import) : Doc :=
  let doc := Pretty.concat [text width "import ".toList, text width i.module, itemsDoc width i.types i.values]
  match i.asName with
  | none => doc
  | some (.variable_ name) =>
    if lastSegment i.module = name then doc
    else (doc.append (text width " as ".toList)).append (text width name)
  | some (.discard name) => (doc.append (text width " as ".toList)).append (text width name)

/-- `format/src/lib.rs:387-407` `sorted_import_group`. -/
def importsDoc (imports : List Import) : Doc :=
  Pretty.joinWith (.line 1) ((sortBy (·.module) imports).map fun i => importDoc width i)

/-- A formatted group of imports, with lines of the given length. -/
def formatImports (limit : Int) (imports : List Import) : List Char :=
  Pretty.toPrettyString limit (importsDoc width imports)

end

/-! ### The parser -/

/-- `parse.rs:3139-3166`: the name of a module. `module` is what has been read of it. -/
def parseModule (module : Name) : List Token → Option (Name × List Token)
  | .name name :: .symbol .slash :: rest => parseModule (if module = [] then name else module ++ '/' :: name) rest
  | .name name :: rest =>
    if rest.head? = some (.symbol .slashDot) then none
    else some (if module = [] then name else module ++ '/' :: name, rest)
  | _ => none

/-- `parse.rs:3264-3297`: after the name of a type or constructor. -/
def upItem (isType : Bool) (name : Name) (tokens : List Token) : Option (Option (Bool × Unqualified) × List Token) :=
  match tokens with
  | .keyword .as_ :: rest =>
    match rest with
    | .upName alias_ :: rest => some (some (isType, ⟨name, some alias_⟩), rest)
    | _ => none
  | _ => some (some (isType, ⟨name, none⟩), tokens)

/-- `parse.rs:3244-3303`: one item, and if it is a type. -/
def parseItem (tokens : List Token) : Option (Option (Bool × Unqualified) × List Token) :=
  match tokens with
  | .name name :: rest =>
    match rest with
    | .keyword .as_ :: rest =>
      match rest with
      | .name alias_ :: rest => some (some (false, ⟨name, some alias_⟩), rest)
      | _ => none
    | _ => some (some (false, ⟨name, none⟩), rest)
  | .upName name :: rest => upItem false name rest
  | .keyword .type_ :: rest =>
    match rest with
    | .upName name :: rest => upItem true name rest
    | _ => none
  | _ => some (none, tokens)

/-- `parse.rs:3241-3313` `parse_unqualified_imports`: the types, the values and the tokens that are left. `fuel` bounds the
loop: there are fewer items than tokens. -/
def parseItems : Nat → List Token → Option (List Unqualified × List Unqualified × List Token)
  | 0, _ => none
  | fuel + 1, tokens =>
    match parseItem tokens with
    | none => none
    | some (none, rest) => some ([], [], rest)
    | some (some (isType, u), rest) =>
      match rest with
      | .symbol .comma :: rest =>
        (parseItems fuel rest).map fun r => if isType then (u :: r.1, r.2.1, r.2.2) else (r.1, u :: r.2.1, r.2.2)
      | _ => some (if isType then ([u], [], rest) else ([], [u], rest))

/-- `parse.rs:3170-3205`: the items between braces. -/
def parseBraces (tokens : List Token) : Option (List Unqualified × List Unqualified × List Token) :=
  match tokens with
  | .symbol .dot :: rest =>
    match rest with
    | .symbol .leftBrace :: rest =>
      match parseItems (rest.length + 1) rest with
      | some (types, values, .symbol .rightBrace :: rest) => some (types, values, rest)
      | _ => none
    | _ => none
  | _ => some ([], [], tokens)

/-- `parse.rs:3133-3239` `parse_import`, after `import`. -/
def parseImport (tokens : List Token) : Option (Import × List Token) :=
  match parseModule [] tokens with
  | none => none
  | some (module, rest) =>
    match parseBraces rest with
    | none => none
    | some (types, values, rest) =>
      match rest with
      | .keyword .as_ :: rest =>
        match rest with
        | .name name :: rest => some (⟨module, some (.variable_ name), types, values⟩, rest)
        | .discardName name :: rest => some (⟨module, some (.discard name), types, values⟩, rest)
        | _ => none
      | _ => some (⟨module, none, types, values⟩, rest)

/-- `parse.rs:321-332` `parse_definition`, in a loop, as long as there are imports. `fuel` bounds the loop. -/
def parseImports : Nat → List Token → Option (List Import × List Token)
  | 0, _ => none
  | fuel + 1, tokens =>
    match tokens with
    | .keyword .import_ :: rest =>
      match parseImport rest with
      | none => none
      | some (i, rest) => (parseImports fuel rest).map fun r => (i :: r.1, r.2)
    | _ => some ([], tokens)

/-- The imports at the start of a text, with the tokens that are left. -/
def readImports (source : List Char) : Option (List Import × List Token) :=
  match Lexer.tokens source with
  | (spanned, none) =>
    let tokens := visible (spanned.map (·.token))
    parseImports (tokens.length + 1) tokens
  | _ => none

end Verif.Format
