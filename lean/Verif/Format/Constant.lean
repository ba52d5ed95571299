import Verif.Format.Function

/-!
# Model: how the formatter writes constants of a module, and how the parser reads them

`format/src/lib.rs` `definition` and `const_expr`, and `compiler-core/src/parse.rs` `parse_module_const` and
`parse_const_value`.

Values are integers, strings, names and constructors without arguments. Not modelled: other values (floats, tuples, lists, bit
arrays, records, operators), comments, documentation, source locations, and errors other than as a failure.
-/
namespace Verif.Format
open Verif.Pretty (Doc)
open Verif.Lexer (Token Symbol Keyword)
open Verif.TypeText (TypeAst)

/-- `ast/constant.rs` `Constant`: the values that are modelled. An integer is its text and its value. -/
inductive ConstValue where
  | int (value : List Char) (number : Int)
  | string (value : List Char)
  | var (name : Name)
  | constructor_ (name : Name)
  deriving DecidableEq, Repr

/-- `ast.rs` `ModuleConstant`. -/
structure ModuleConstant where
  attributes : Attributes
  isPublic : Bool
  name : Name
  annotation : Option TypeAst
  value : ConstValue

/-! ### The formatter -/

section
variable (width : List Char → Nat)

/-- `format/src/lib.rs:557-690` `const_expr`. -/
def constValueDoc : ConstValue → Doc
  | .int value _ => text width (int value)
  | .string value => stringDoc width value
  | .var name => text width name
  | .constructor_ name => text width name

/-- `format/src/lib.rs:511-520`: what stands before the value, without the attributes. -/
def constHeadDoc (c : ModuleConstant) : Doc :=
  let head := ((pubDoc width c.isPublic).append (text width "const ".toList)).append (text width c.name)
  match c.annotation with
  | none => head
  | some t => (head.append (text width ": ".toList)).append (typeDoc width t)

/-- `format/src/lib.rs:495-553`, with the target of `:206-232`. In the code the attributes are the first part of a longer chain
of `append`; here the rest of the chain is one document, which has the same parts in the same order. -/
def constantDoc (c : ModuleConstant) : Doc :=
  let a := c.attributes
  let head := (attributesDoc (attributeDocs width a.deprecated none none a.internal)).append (constHeadDoc width c)
  let value := Doc.nest 2 .increase .always (breakableSpace.append (constValueDoc width c.value).grouped)
  targetedDoc width a.target (Pretty.concat [head, text width " =".toList, (Doc.nextBreakFits value .disabled).grouped])

end

/-! ### The parser -/

/-- What follows a value that is modelled: the next definition or the end. -/
def endsValue : List Token → Bool
  | [] => true
  | .keyword _ :: _ => true
  | .symbol .at_ :: _ => true
  | _ => false

/-- `parse.rs:3443-3790` `parse_const_value_unit`, for the values that are modelled. -/
def parseConstUnit (tokens : List Token) : Option (ConstValue × List Token) :=
  match tokens with
  | .int value number :: rest => some (.int value number, rest)
  | .string value :: rest => some (.string value, rest)
  | .upName name :: rest => some (.constructor_ name, rest)
  | .name name :: rest => some (.var name, rest)
  | _ => none

/-- `parse.rs:3382-3441` `parse_const_value`, if no operator, arguments or other part of a value follows. -/
def parseConstValue (tokens : List Token) : Option (ConstValue × List Token) :=
  match parseConstUnit tokens with
  | none => none
  | some (value, rest) => if endsValue rest then some (value, rest) else none

/-- `parse.rs:3323-3373` `parse_module_const`, with the check of externals of `:396-398`. -/
def parseModuleConst (a : Attributes) (isPublic : Bool) (tokens : List Token) : Option (ModuleConstant × List Token) :=
  match tokens with
  | .name name :: rest =>
    match parseTypeAnnotation .colon rest with
    | none => none
    | some (annotation, rest) =>
      match rest with
      | .symbol .equal :: rest =>
        match parseConstValue rest with
        | none => none
        | some (value, rest) =>
          if a.internal && !isPublic then none
          else if a.erlang.isSome || a.javascript.isSome then none
          else some (⟨a, isPublic, name, annotation, value⟩, rest)
      | _ => none
  | _ => none

/-- `parse.rs:321-343` `parse_definition`, for constants. -/
def parseConstant (tokens : List Token) : Option (ModuleConstant × List Token) :=
  match parseAttributes (tokens.length + 1) .default tokens with
  | none => none
  | some (a, rest) =>
    match rest with
    | .keyword .const_ :: rest => parseModuleConst a false rest
    | .keyword .pub_ :: .keyword .const_ :: rest => parseModuleConst a true rest
    | _ => none

end Verif.Format
