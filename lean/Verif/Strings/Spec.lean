/-!
# Specification: string literals, UTF-16/32, identifiers

Independent of the model.
-/
namespace Verif.Strings.Spec

/-! ### String literals -/

/-- The pieces a Gleam string literal is made of. -/
inductive Piece where
  | char (c : Char)
  | newline | carriageReturn | formFeed | tab | quote | backslash
  | unicode (digits : List Char)

/-- Hexadecimal digits, most significant first. -/
def digitValue? (c : Char) : Option Nat :=
  if '0'.toNat ≤ c.toNat ∧ c.toNat ≤ '9'.toNat then some (c.toNat - '0'.toNat)
  else if 'a'.toNat ≤ c.toNat ∧ c.toNat ≤ 'f'.toNat then some (c.toNat - 'a'.toNat + 10)
  else if 'A'.toNat ≤ c.toNat ∧ c.toNat ≤ 'F'.toNat then some (c.toNat - 'A'.toNat + 10)
  else none

def hexNumber? (ds : List Char) : Option Nat :=
  ds.foldl (fun a d => match a, digitValue? d with
    | some a, some v => some (16 * a + v)
    | _, _ => none) (some 0)

/-- The character with the given code point, if it is a Unicode scalar value. -/
def scalar? (n : Nat) : Option Char := if h : n.isValidChar then some (Char.ofNatAux n h) else none

/-- How a piece is written. -/
def Piece.text : Piece → List Char
  | .char c => [c]
  | .newline => ['\\', 'n']
  | .carriageReturn => ['\\', 'r']
  | .formFeed => ['\\', 'f']
  | .tab => ['\\', 't']
  | .quote => ['\\', '"']
  | .backslash => ['\\', '\\']
  | .unicode ds => ['\\', 'u', '{'] ++ ds ++ ['}']

/-- The character a piece stands for; `none` if the piece is not allowed. -/
def Piece.value? : Piece → Option Char
  | .char c => if c = '\\' ∨ c = '"' then none else some c
  | .newline => some '\n'
  | .carriageReturn => some '\r'
  | .formFeed => some '\x0c'
  | .tab => some '\t'
  | .quote => some '"'
  | .backslash => some '\\'
  | .unicode ds => if 1 ≤ ds.length ∧ ds.length ≤ 6 then (hexNumber? ds).bind scalar? else none

/-- A literal written as these pieces denotes this string. -/
def Denotes (pieces : List Piece) (value : List Char) : Prop :=
  pieces.map Piece.value? = value.map some

/-- The text of a sequence of pieces. -/
def text (pieces : List Piece) : List Char := pieces.flatMap Piece.text

/-- Split at the first closing brace. -/
def untilBrace : List Char → Option (List Char × List Char)
  | [] => none
  | c :: cs => if c = '}' then some ([], cs) else (untilBrace cs).map fun p => (c :: p.1, p.2)

/-- One character of an Erlang string (Erlang reference manual, "Escape Sequences"; those without octal
and control forms): the character and the remaining text. -/
def erlangChar : List Char → Option (Char × List Char)
  | [] => none
  | '\\' :: 'n' :: r => some ('\n', r)
  | '\\' :: 'r' :: r => some ('\r', r)
  | '\\' :: 'f' :: r => some ('\x0c', r)
  | '\\' :: 't' :: r => some ('\t', r)
  | '\\' :: '"' :: r => some ('"', r)
  | '\\' :: '\\' :: r => some ('\\', r)
  | '\\' :: 'x' :: '{' :: r =>
    (untilBrace r).bind fun p => ((hexNumber? p.1).bind scalar?).map fun c => (c, p.2)
  | '\\' :: _ => none
  | '"' :: _ => none
  | c :: r => some (c, r)

/-- One character of a JavaScript string literal (ECMAScript 12.9.4): raw line feeds and carriage
returns are not allowed. -/
def jsChar : List Char → Option (Char × List Char)
  | [] => none
  | '\\' :: 'n' :: r => some ('\n', r)
  | '\\' :: 'r' :: r => some ('\r', r)
  | '\\' :: 'f' :: r => some ('\x0c', r)
  | '\\' :: 't' :: r => some ('\t', r)
  | '\\' :: '"' :: r => some ('"', r)
  | '\\' :: '\\' :: r => some ('\\', r)
  | '\\' :: 'u' :: '{' :: r =>
    (untilBrace r).bind fun p => ((hexNumber? p.1).bind scalar?).map fun c => (c, p.2)
  | '\\' :: _ => none
  | '"' :: _ => none
  | '\n' :: _ => none
  | '\r' :: _ => none
  | c :: r => some (c, r)

/-- A whole literal, one character at a time. -/
inductive Reads (one : List Char → Option (Char × List Char)) : List Char → List Char → Prop
  | nil : Reads one [] []
  | cons {s c rest cs} : one s = some (c, rest) → Reads one rest cs → Reads one s (c :: cs)

/-! ### UTF-16 and UTF-32 -/

/-- 16-bit units from bytes. -/
def units (big : Bool) : List Nat → Option (List Nat)
  | [] => some []
  | a :: b :: r => (units big r).map ((if big then 256 * a + b else a + 256 * b) :: ·)
  | [_] => none

/-- UTF-16 decoding (RFC 2781). -/
def decodeUtf16 : List Nat → Option (List Char)
  | [] => some []
  | u :: us =>
    if u < 0xD800 ∨ 0xDFFF < u then
      (scalar? u).bind fun c => (decodeUtf16 us).map (c :: ·)
    else if u ≤ 0xDBFF then match us with
      | v :: us =>
        if 0xDC00 ≤ v ∧ v ≤ 0xDFFF then
          (scalar? (0x10000 + 0x400 * (u - 0xD800) + (v - 0xDC00))).bind fun c => (decodeUtf16 us).map (c :: ·)
        else none
      | [] => none
    else none

/-- UTF-32 decoding. -/
def decodeUtf32 (big : Bool) : List Nat → Option (List Char)
  | [] => some []
  | a :: b :: c :: d :: r =>
    (scalar? (if big then ((a * 256 + b) * 256 + c) * 256 + d else ((d * 256 + c) * 256 + b) * 256 + a)).bind
      fun ch => (decodeUtf32 big r).map (ch :: ·)
  | _ => none

/-! ### Identifiers -/

def Lower (c : Char) : Prop := 'a'.toNat ≤ c.toNat ∧ c.toNat ≤ 'z'.toNat
def Upper (c : Char) : Prop := 'A'.toNat ≤ c.toNat ∧ c.toNat ≤ 'Z'.toNat
def Digit (c : Char) : Prop := '0'.toNat ≤ c.toNat ∧ c.toNat ≤ '9'.toNat

/-- The characters of identifier tokens. -/
def Word (s : List Char) : Prop := ∀ c ∈ s, Lower c ∨ Upper c ∨ Digit c ∨ c = '_'

/-- snake_case tails. -/
def Snake (s : List Char) : Prop := ∀ c ∈ s, Lower c ∨ Digit c ∨ c = '_'

/-- UpperCamelCase. -/
def UpperCamel (s : List Char) : Prop :=
  ∃ c t, s = c :: t ∧ Upper c ∧ ∀ d ∈ t, Lower d ∨ Upper d ∨ Digit d

/-- What the language accepts as a name of a variable, argument, label, constant or function. -/
def LowerName (s : List Char) : Prop :=
  ∃ c t, (s = c :: t ∨ s = '_' :: c :: t) ∧ Lower c ∧ Snake t

/-- What it accepts as a discard. -/
def DiscardName (s : List Char) : Prop := ∃ t, s = '_' :: t ∧ Snake t

/-- The tokens the lexer produces: a lower-case start, an upper-case start, or an underscore. -/
def NameToken (s : List Char) : Prop := ∃ c t, s = c :: t ∧ Lower c ∧ Word t
def UpNameToken (s : List Char) : Prop := ∃ c t, s = c :: t ∧ Upper c ∧ Word t
def DiscardToken (s : List Char) : Prop := ∃ t, s = '_' :: t ∧ Word t

/-- `char::is_uppercase` agrees with `A`-`Z` on ASCII. -/
def AsciiUpper (up : Char → Bool) : Prop := ∀ c : Char, c.toNat < 128 → (up c = true ↔ Upper c)

/-- The type names Erlang predefines (OTP reference manual, "Types and Function Specifications"). -/
def erlangBuiltinTypes : List String :=
  ["any", "none", "dynamic", "pid", "port", "reference", "nil", "atom", "bitstring", "binary", "float", "integer", "list",
   "maybe_improper_list", "nonempty_improper_list", "nonempty_list", "map", "tuple", "term", "boolean", "byte", "char",
   "number", "string", "nonempty_string", "iodata", "iolist", "function", "module", "mfa", "arity", "identifier", "node",
   "timeout", "no_return", "non_neg_integer", "pos_integer", "neg_integer"]

end Verif.Strings.Spec
