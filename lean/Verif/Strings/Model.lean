/-
Model of `/repo/compiler-core/src/strings.rs`, of the string part of `/repo/compiler-core/src/parse/lexer.rs`,
of name checking in `/repo/compiler-core/src/analyse/name.rs`, and of the string literal printers for Erlang
(`/repo/erlang-generation/src/lib.rs`) and JavaScript (`/repo/compiler-core/src/javascript/expression.rs`).

Text is `List Char` (a Lean `Char` is a Unicode scalar value, as a Rust `char`), a byte or a 16-bit unit is a `Nat`.
-/
namespace Verif.Strings

/-! ### Characters -/

/-- `char::is_ascii_hexdigit`. -/
def isHex (c : Char) : Bool :=
  (48 ≤ c.toNat && c.toNat ≤ 57) || (65 ≤ c.toNat && c.toNat ≤ 70) || (97 ≤ c.toNat && c.toNat ≤ 102)

def hexVal (c : Char) : Nat :=
  if c.toNat ≤ 57 then c.toNat - 48 else if c.toNat ≤ 70 then c.toNat - 55 else c.toNat - 87

/-- `u32::from_str_radix(s, 16)` on hexadecimal digits (`None` on overflow or empty input). -/
def parseHex (s : List Char) : Option Nat :=
  let n := s.foldl (fun a c => a * 16 + hexVal c) 0
  if s = [] ∨ 4294967296 ≤ n then none else some n

/-- `char::from_u32`. -/
def charFromU32 (n : Nat) : Option Char :=
  if n < 0xD800 ∨ (0xDFFF < n ∧ n < 0x110000) then some (Char.ofNat n) else none

/-- `char::to_ascii_lowercase`. -/
def toLower (c : Char) : Char := if 65 ≤ c.toNat ∧ c.toNat ≤ 90 then Char.ofNat (c.toNat + 32) else c

/-- `char::to_ascii_uppercase`. -/
def toUpper (c : Char) : Char := if 97 ≤ c.toNat ∧ c.toNat ≤ 122 then Char.ofNat (c.toNat - 32) else c

/-! ### Reading string literals -/

/-- `compiler-core/src/parse/lexer.rs:64-119` `NewlineHandler` (positions dropped). -/
def normalise : List Char → List Char
  | '\r' :: '\n' :: cs => '\n' :: normalise cs
  | '\r' :: cs => '\n' :: normalise cs
  | c :: cs => c :: normalise cs
  | [] => []

/-- Result of one iteration of the loop of `lex_string`. -/
inductive Step where
  | done (rest : List Char)
  | piece (content rest : List Char)
  | error
deriving DecidableEq, Repr

/-- `lexer.rs:1415-1447`: the checks after the closing brace. -/
def unicodeChecked (hex rest : List Char) : Step :=
  if hex.length = 0 ∨ 6 < hex.length then .error
  else if ((parseHex hex).bind charFromU32).isNone then .error
  else .piece ('\\' :: 'u' :: '{' :: (hex ++ ['}'])) rest

/-- `lexer.rs:1370-1413`: after the digits the next character must be the closing brace. -/
def unicodeClose (hex : List Char) : List Char → Step
  | '}' :: rest => unicodeChecked hex rest
  | _ => .error

/-- `lexer.rs:1355-1413`: after `\u`. -/
def unicodeStep : List Char → Step
  | '{' :: r => unicodeClose (r.takeWhile isHex) (r.dropWhile isHex)
  | _ => .error

/-- `lexer.rs:1348-1467`: after a backslash. -/
def escapeStep : List Char → Step
  | [] => .error
  | c :: r =>
    if c = 'u' then unicodeStep r
    else if c = 'f' ∨ c = 'n' ∨ c = 'r' ∨ c = 't' ∨ c = '"' ∨ c = '\\' then .piece ['\\', c] r
    else .error

/-- `lexer.rs:1344-1480`: one iteration. -/
def stringStep : List Char → Step
  | [] => .error
  | c :: r => if c = '\\' then escapeStep r else if c = '"' then .done r else .piece [c] r

/-- `lexer.rs:1338-1488` `lex_string` after the opening quote: the content of the token and the
remaining text; `none` for a lexical error. Each iteration consumes a character, so the length of the input
bounds the iterations. -/
def lexStringLoop : Nat → List Char → List Char → Option (List Char × List Char)
  | 0, _, _ => none
  | fuel + 1, content, s => match stringStep s with
    | .done rest => some (content, rest)
    | .piece p rest => lexStringLoop fuel (content ++ p) rest
    | .error => none

def lexString (s : List Char) : Option (List Char × List Char) := lexStringLoop (s.length + 1) [] s

/-! ### `strings.rs` -/

/-- `strings.rs:36-58`: after the hexadecimal digits of `\u{`; the text to push and the rest. -/
def convertUnicode (hex r : List Char) : List Char × List Char :=
  if hex = [] ∨ r.head? ≠ some '}' then ('u' :: '{' :: hex, r)
  else match (parseHex hex).bind charFromU32 with
    | some c => ([c], r.tail)
    | none => ('u' :: '{' :: hex, r)

/-- `strings.rs:18-35`: after `\u`. -/
def convertU : List Char → List Char × List Char
  | '{' :: r => convertUnicode (r.takeWhile isHex) (r.dropWhile isHex)
  | r => (['u'], r)

/-- `strings.rs:59-65`: the character pushed for `\c`. -/
def simpleEscape (c : Char) : Char :=
  if c = 'n' then '\n' else if c = 'r' then '\r' else if c = 'f' then Char.ofNat 12
  else if c = 't' then '\t' else c

/-- `strings.rs:14-70`: one iteration of the loop; `none` is `break`. -/
def convertStep : List Char → Option (List Char × List Char)
  | [] => none
  | c :: r =>
    if c = '\\' then match r with
      | [] => none
      | d :: r => if d = 'u' then some (convertU r) else some ([simpleEscape d], r)
    else some ([c], r)

def convertLoop : Nat → List Char → List Char
  | 0, _ => []
  | fuel + 1, s => match convertStep s with
    | none => []
    | some (out, rest) => out ++ convertLoop fuel rest

/-- `strings.rs:11-72` `convert_string_escape_chars`. -/
def convert (s : List Char) : List Char := convertLoop (s.length + 1) s

/-- `strings.rs:78-100`: the loop of `to_snake_case`; `up` is `char::is_uppercase` (Unicode tables). -/
def snakeLoop (up : Char → Bool) (acc : List Char) (boundary : Bool) : List Char → List Char
  | [] => acc
  | c :: cs =>
    if c = '_' ∨ c = ' ' then snakeLoop up acc true cs
    else
      let acc := if (boundary || up c) && !acc.isEmpty then acc ++ ['_'] else acc
      snakeLoop up (acc ++ [toLower c]) false cs

/-- `strings.rs:74-103` `to_snake_case`. -/
def toSnakeCase (up : Char → Bool) (s : List Char) : List Char := snakeLoop up [] true s

/-- `strings.rs:105-119` `to_upper_camel_case`. -/
def toUpperCamelCase : List Char → List Char
  | [] => []
  | c :: cs =>
    if c = '_' then match cs with
      | [] => []
      | d :: ds => toUpper d :: toUpperCamelCase ds
    else c :: toUpperCamelCase cs

/-- `char::encode_utf16` (Rust std). -/
def encodeUtf16 (c : Char) : List Nat :=
  if c.toNat < 0x10000 then [c.toNat]
  else [0xD800 + (c.toNat - 0x10000) / 0x400, 0xDC00 + (c.toNat - 0x10000) % 0x400]

/-- `compiler-core/src/ast.rs` `enum Endianness`. -/
inductive Endianness where
  | big | little
deriving DecidableEq, Repr

/-- `u16::to_be_bytes` / `to_le_bytes`. -/
def bytes16 : Endianness → Nat → List Nat
  | .big, n => [n / 256, n % 256]
  | .little, n => [n % 256, n / 256]

/-- `u32::to_be_bytes` / `to_le_bytes`. -/
def bytes32 : Endianness → Nat → List Nat
  | .big, n => [n / 16777216, n / 65536 % 256, n / 256 % 256, n % 256]
  | .little, n => [n % 256, n / 256 % 256, n / 65536 % 256, n / 16777216]

/-- `strings.rs:122-141` `string_to_utf16_bytes`. -/
def stringToUtf16Bytes (s : List Char) (e : Endianness) : List Nat :=
  s.flatMap fun c => (encodeUtf16 c).flatMap (bytes16 e)

/-- `strings.rs:144-156` `string_to_utf32_bytes`. -/
def stringToUtf32Bytes (s : List Char) (e : Endianness) : List Nat := s.flatMap fun c => bytes32 e c.toNat

/-- `strings.rs:159-167` `length_utf16`. -/
def lengthUtf16 (s : List Char) : Nat := s.foldl (fun n c => n + if c.toNat < 0x10000 then 1 else 2) 0

/-- `strings.rs:170-172` `length_utf32`. -/
def lengthUtf32 (s : List Char) : Nat := s.length

/-! ### Printing string literals -/

/-- `erlang-generation/src/lib.rs:3695-3712` `escape_literal_string_content`. The regular expression
`(\\+)(u)` matches maximal runs of backslashes followed by `u`; here as a scan that counts the backslashes just
before the current character. -/
def escapeErlang : Nat → List Char → List Char
  | _, [] => []
  | n, c :: cs =>
    if c = '\\' then c :: escapeErlang (n + 1) cs
    else if c = 'u' ∧ n % 2 = 1 then 'x' :: escapeErlang 0 cs
    else c :: escapeErlang 0 cs

/-- `compiler-core/src/javascript/expression.rs:3698-3711` `string`: the text between the quotes. -/
def jsStringContent (s : List Char) : List Char := s.flatMap fun c => if c = '\n' then ['\\', 'n'] else [c]

/-! ### Names -/

/-- `compiler-core/src/type_/error.rs` `enum Named`, up to the distinctions made in `name.rs`. -/
inductive Named where
  | upper      -- Type, TypeAlias, CustomTypeVariant
  | lower      -- Variable, TypeVariable, Argument, Label, Constant, Function
  | discard    -- Discard
deriving DecidableEq, Repr

def isLowerChar (c : Char) : Bool := 97 ≤ c.toNat && c.toNat ≤ 122
def isUpperChar (c : Char) : Bool := 65 ≤ c.toNat && c.toNat ≤ 90
def isDigitChar (c : Char) : Bool := 48 ≤ c.toNat && c.toNat ≤ 57

/-- `[a-z0-9_]`. -/
def isNameTail (c : Char) : Bool := isLowerChar c || isDigitChar c || c = '_'

/-- `[a-z][a-z0-9_]*`. -/
def plainName : List Char → Bool
  | [] => false
  | c :: cs => isLowerChar c && cs.all isNameTail

/-- `name.rs:20-26` `valid_name`: the pattern `^_?[a-z][a-z0-9_]*$`. -/
def validName : List Char → Bool
  | [] => false
  | c :: cs => if c = '_' then plainName cs else plainName (c :: cs)

/-- `name.rs:30-34` `valid_discard_name`: `^_[a-z0-9_]*$`. -/
def validDiscardName : List Char → Bool
  | [] => false
  | c :: cs => c = '_' && cs.all isNameTail

/-- `name.rs:38-42` `valid_upname`: `^[A-Z][A-Za-z0-9]*$`. -/
def validUpname : List Char → Bool
  | [] => false
  | c :: cs => isUpperChar c && cs.all fun d => isUpperChar d || isLowerChar d || isDigitChar d

/-- `name.rs:44-65` `check_name_case`: whether no error is reported. -/
def checkNameCase (name : List Char) : Named → Bool
  | .upper => validUpname name
  | .lower => validName name
  | .discard => validDiscardName name

/-- `compiler-core/src/parse/lexer.rs:27-54` `string_to_keyword`: the words that are keywords. -/
def keywords : List (List Char) :=
  ["as", "assert", "auto", "case", "const", "delegate", "derive", "echo", "else", "fn", "if", "implement", "import",
   "let", "macro", "opaque", "panic", "pub", "test", "todo", "type", "use"].map String.toList

/-- `name.rs:67-78` `correct_name_case`. -/
def correctNameCase (up : Char → Bool) (name : List Char) : Named → List Char
  | .upper => toUpperCamelCase name
  | .lower => toSnakeCase up name
  | .discard => '_' :: toSnakeCase up name

/-- The table of `compiler-core/src/erlang.rs:4106-4145`. -/
def erlangTypeNames : List (List Char) :=
  ["any", "arity", "atom", "binary", "bitstring", "boolean", "byte", "char", "dynamic", "float", "function",
   "identifier", "integer", "iodata", "iolist", "list", "map", "maybe_improper_list", "mfa", "module", "neg_integer",
   "nil", "no_return", "node", "non_neg_integer", "none", "nonempty_improper_list", "nonempty_list",
   "nonempty_string", "number", "pid", "port", "pos_integer", "record", "reference", "string", "term", "timeout",
   "tuple"].map String.toList

/-- `compiler-core/src/erlang.rs:4104-4151` `erl_safe_type_name`. -/
def erlSafeTypeName (name : List Char) : List Char := if name ∈ erlangTypeNames then name ++ ['_'] else name

/-- `erlang.rs:3628`: the Erlang name of a custom type. -/
def erlangTypeName (up : Char → Bool) (name : List Char) : List Char := erlSafeTypeName (toSnakeCase up name)

/-- `erlang.rs:380`, `979`, `2243`, `erlang/pattern.rs:211`: the atom that tags a constructor. -/
def erlangTag (up : Char → Bool) (name : List Char) : List Char := toSnakeCase up name

end Verif.Strings
