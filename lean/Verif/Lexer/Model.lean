import Verif.Strings.Model

/-
Model of `/repo/compiler-core/src/parse/lexer.rs` and of the token type in `/repo/compiler-core/src/parse/token.rs`.

A source text is a `List Char` (a Lean `Char` is a Unicode scalar value, as a Rust `char`); a position is a byte offset.
Positions are `u32` in Rust and natural numbers here: texts of 4 GiB or more are not modelled.

A method that changes the lexer takes a `Lexer` and returns the new one; `emit` is modelled by returning the tokens a
step emits. When a step fails the state it leaves the lexer in is not modelled: the parser reports the first error.
-/
namespace Verif.Lexer

/-! ### Tokens -/

/-- The keyword tokens of `token.rs:83-105`. -/
inductive Keyword where
  | as_ | assert_ | auto_ | case_ | const_ | delegate_ | derive_ | echo_ | else_ | fn_ | if_ | implement_ | import_
  | let_ | macro_ | opaque_ | panic_ | pub_ | test_ | todo_ | type_ | use_
  deriving DecidableEq, Repr

/-- The groupings, operators and other punctuation of `token.rs:37-78`. -/
inductive Symbol where
  | leftParen | rightParen | leftSquare | rightSquare | leftBrace | rightBrace
  | plus | minus | star | slash | less | greater | lessEqual | greaterEqual | percent
  | plusDot | minusDot | starDot | slashDot | lessDot | greaterDot | lessEqualDot | greaterEqualDot
  | concatenate
  | colon | comma | hash | bang | equal | equalEqual | notEqual | vbar | vbarVbar | amperAmper | ltLt | gtGt | pipe | dot
  | rArrow | lArrow | dotDot | at_
  deriving DecidableEq, Repr

/-- `token.rs:11-106` `Token`. `Float` carries no `float_value`: the conversion to a 64-bit float is not modelled. -/
inductive Token where
  | name (name : List Char)
  | upName (name : List Char)
  | discardName (name : List Char)
  | int (value : List Char) (intValue : Int)
  | float (value : List Char)
  | string (value : List Char)
  | commentDoc (content : List Char)
  | symbol (s : Symbol)
  | endOfFile
  | commentNormal
  | commentModule
  | newLine
  | keyword (k : Keyword)
  deriving DecidableEq, Repr

/-- `lexer.rs:27-54` `string_to_keyword`. -/
def keywordTable : List (List Char × Keyword) :=
  [("as", .as_), ("assert", .assert_), ("auto", .auto_), ("case", .case_), ("const", .const_),
   ("delegate", .delegate_), ("derive", .derive_), ("echo", .echo_), ("else", .else_), ("fn", .fn_), ("if", .if_),
   ("implement", .implement_), ("import", .import_), ("let", .let_), ("macro", .macro_), ("opaque", .opaque_),
   ("panic", .panic_), ("pub", .pub_), ("test", .test_), ("todo", .todo_), ("type", .type_),
   ("use", .use_)].map fun p : String × Keyword => (p.1.toList, p.2)

/-- `lexer.rs:27-54` `string_to_keyword`. -/
def stringToKeyword (word : List Char) : Option Keyword := (keywordTable.find? (fun p => p.1 == word)).map (·.2)

/-- `lexer.rs:25` `Spanned`: start, token, end. -/
structure Spanned where
  start : Nat
  token : Token
  stop : Nat
  deriving DecidableEq, Repr

/-- `parse/error.rs:19-28` `InvalidUnicodeEscapeError`. -/
inductive UnicodeEscapeError where
  | missingOpeningBrace | expectedHexDigitOrCloseBrace | invalidNumberOfHexDigits | invalidCodepoint
  deriving DecidableEq, Repr

/-- `parse/error.rs:31-61` `LexicalErrorType`. `panic` stands for a failed `expect`. -/
inductive ErrorKind where
  | badStringEscape
  | invalidUnicodeEscape (e : UnicodeEscapeError)
  | digitOutOfRadix
  | numTrailingUnderscore
  | radixIntNoValue
  | missingExponent
  | unexpectedStringEnd
  | unrecognizedToken (token : Char)
  | invalidTripleEqual
  | mergeConflictIndicator
  | unsupportedProceduralOperator
  | visuallySimilarInvalidCharacter (name correct : String)
  | panic
  deriving DecidableEq, Repr

/-- `parse/error.rs` `LexicalError`. -/
structure LexicalError where
  error : ErrorKind
  start : Nat
  stop : Nat
  deriving DecidableEq, Repr

/-! ### The characters of a text -/

/-- `str::char_indices`, starting at byte `index`. -/
def charIndices : Nat → List Char → List (Nat × Char)
  | _, [] => []
  | index, c :: cs => (index, c) :: charIndices (index + c.utf8Size) cs

/-- `lexer.rs:66-71` `NewlineHandler`. -/
structure NewlineHandler where
  source : List (Nat × Char)
  char0 : Option (Nat × Char)
  char1 : Option (Nat × Char)
  deriving DecidableEq, Repr

/-- `lexer.rs:88-93` `NewlineHandler::shift`, the new state (the result is the old `char0`). -/
def NewlineHandler.shift (h : NewlineHandler) : NewlineHandler :=
  { source := h.source.tail, char0 := h.char1, char1 := h.source.head? }

/-- `lexer.rs:77-86` `NewlineHandler::new`. -/
def NewlineHandler.new (source : List (Nat × Char)) : NewlineHandler :=
  (NewlineHandler.mk source none none).shift.shift

/-- `lexer.rs:104-115`, the part of `next` that collapses a line ending at the head of the stream into `\n`. -/
def NewlineHandler.collapse (h : NewlineHandler) : NewlineHandler :=
  match h.char0 with
  | some (index, c) =>
    if c = '\r' then
      match h.char1 with
      | some (_, d) =>
        if d = '\n' then { h.shift with char0 := some (index, '\n') } else { h with char0 := some (index, '\n') }
      | none => { h with char0 := some (index, '\n') }
    else h
  | none => h

/-- How many characters the handler still holds. -/
def NewlineHandler.remaining (h : NewlineHandler) : Nat :=
  h.char0.toList.length + h.char1.toList.length + h.source.length

theorem NewlineHandler.shift_remaining (h : NewlineHandler) :
    h.shift.remaining + h.char0.toList.length = h.remaining := by
  obtain ⟨source, c0, c1⟩ := h
  cases source <;> simp [NewlineHandler.shift, NewlineHandler.remaining] <;> omega

theorem NewlineHandler.collapse_remaining (h : NewlineHandler) : h.collapse.remaining ≤ h.remaining := by
  obtain ⟨source, c0, c1⟩ := h
  cases source <;> cases c0 <;> cases c1 <;>
    simp [NewlineHandler.collapse, NewlineHandler.shift, NewlineHandler.remaining] <;> (repeat' split) <;>
    simp <;> omega

/-- `lexer.rs:95-119`: everything the `NewlineHandler` yields, one `next` after another. In Rust the lexer asks for the
characters one at a time; nothing else reads from the handler. -/
def NewlineHandler.chars (h : NewlineHandler) : List (Nat × Char) :=
  match _h0 : h.collapse.char0 with
  | some c => c :: NewlineHandler.chars h.collapse.shift
  | none => []
termination_by h.remaining
decreasing_by
  have h1 := h.collapse_remaining
  have h2 := h.collapse.shift_remaining
  rw [_h0] at h2
  simp at h2
  omega

/-! ### The lexer's view of the text -/

/-- `lexer.rs:16-23` `Lexer`, without the queue of pending tokens. -/
structure Lexer where
  chars : List (Nat × Char)
  char0 : Option Char
  char1 : Option Char
  location0 : Nat
  location1 : Nat
  deriving DecidableEq, Repr

/-- `lexer.rs:1518-1538` `next_char`, the new state (the result is the old `char0`). -/
def Lexer.nextChar (l : Lexer) : Lexer :=
  match l.chars with
  | (location, character) :: rest =>
    { chars := rest, char0 := l.char1, char1 := some character, location0 := l.location1, location1 := location }
  | [] => { chars := [], char0 := l.char1, char1 := none, location0 := l.location1, location1 := l.location1 + 1 }

/-- `lexer.rs:125-143` `Lexer::new`. -/
def Lexer.new (chars : List (Nat × Char)) : Lexer :=
  let l := ({ chars := chars, char0 := none, char1 := none, location0 := 0, location1 := 0 } : Lexer).nextChar.nextChar
  if l.char0 = some '\ufeff' then l.nextChar else l

/-- How many characters are still to be lexed. -/
def Lexer.remaining (l : Lexer) : Nat := l.char0.toList.length + l.char1.toList.length + l.chars.length

theorem Lexer.nextChar_remaining (l : Lexer) : l.nextChar.remaining + l.char0.toList.length = l.remaining := by
  obtain ⟨chars, c0, c1, l0, l1⟩ := l
  cases chars <;> simp [Lexer.nextChar, Lexer.remaining] <;> omega

theorem Lexer.nextChar_lt {l : Lexer} {c : Char} (h : l.char0 = some c) : l.nextChar.remaining < l.remaining := by
  have h1 := l.nextChar_remaining
  rw [h] at h1
  simp at h1
  omega

/-! ### Character classes -/

/-- `'a'..='z'`. -/
def isLower (c : Char) : Bool := 'a' ≤ c && c ≤ 'z'

/-- `char::is_ascii_uppercase`, `lexer.rs:1487-1489` `is_upname_start`. -/
def isUpper (c : Char) : Bool := 'A' ≤ c && c ≤ 'Z'

/-- `'0'..='9'`. -/
def isDigit (c : Char) : Bool := '0' ≤ c && c ≤ '9'

/-- `lexer.rs:1484-1486` `is_name_start`. -/
def isNameStart (c : Char) : Bool := c == '_' || isLower c

/-- `lexer.rs:1498-1502` `is_name_continuation`. -/
def isNameContinuation (c : Char) : Bool := c == '_' || isDigit c || isLower c || isUpper c

/-- `matches!(c, Some('0'..='9'))`. -/
def startsDigit : Option Char → Bool
  | some c => isDigit c
  | none => false

/-- `lexer.rs:1490-1496` `is_number_start`. -/
def isNumberStart (character : Char) (character1 : Option Char) : Bool :=
  isDigit character || (character == '-' && startsDigit character1)

/-- The radixes the lexer uses: `lexer.rs:1297-1302` panics on any other. -/
inductive Radix where
  | binary | octal | decimal | hexadecimal
  deriving DecidableEq, Repr

def Radix.base : Radix → Nat
  | .binary => 2
  | .octal => 8
  | .decimal => 10
  | .hexadecimal => 16

/-- `char::to_digit` for any radix up to 16. -/
def digitValue (c : Char) : Nat :=
  if c.toNat ≤ 57 then c.toNat - 48 else if c.toNat ≤ 70 then c.toNat - 55 else c.toNat - 87

/-- `char::is_digit`. -/
def isDigitOf (radix : Radix) (c : Char) : Bool := Strings.isHex c && digitValue c < radix.base

/-- `lexer.rs:1297-1302` `is_digit_of_radix`. -/
def isDigitOfRadix (c : Option Char) (radix : Radix) : Bool :=
  match c with
  | some c => isDigitOf radix c
  | none => false

/-! ### Names -/

/-- `lexer.rs:1026-1028`, `lexer.rs:1056-1058`: the loop that reads a name. -/
def nameRun (l : Lexer) : List Char × Lexer :=
  match _h : l.char0 with
  | some c => if isNameContinuation c then (c :: (nameRun l.nextChar).1, (nameRun l.nextChar).2) else ([], l)
  | none => ([], l)
termination_by l.remaining
decreasing_by all_goals exact Lexer.nextChar_lt _h

/-- `lexer.rs:1032-1050`: the token for a name that starts with `_` or a lowercase letter. -/
def nameToken (name : List Char) : Token :=
  match stringToKeyword name with
  | some k => .keyword k
  | none => if name.head? = some '_' then .discardName name else .name name

/-- `lexer.rs:1022-1051` `lex_name`. -/
def lexName (l : Lexer) : Spanned × Lexer :=
  (⟨l.location0, nameToken (nameRun l).1, (nameRun l).2.location0⟩, (nameRun l).2)

/-- `lexer.rs:1062-1070`: the token for a name that starts with an uppercase letter. -/
def upNameToken (name : List Char) : Token :=
  match stringToKeyword name with
  | some k => .keyword k
  | none => .upName name

/-- `lexer.rs:1052-1071` `lex_upname`. -/
def lexUpname (l : Lexer) : Spanned × Lexer :=
  (⟨l.location0, upNameToken (nameRun l).1, (nameRun l).2.location0⟩, (nameRun l).2)

/-! ### Numbers -/

/-- `lexer.rs:1265-1282` `radix_run`, with `take_number` (`lexer.rs:1285-1293`). -/
def radixRun (l : Lexer) (radix : Radix) : List Char × Lexer :=
  match _h : l.char0 with
  | some c =>
    if isDigitOf radix c ∨ (c = '_' ∧ isDigitOfRadix l.char1 radix) then
      (c :: (radixRun l.nextChar radix).1, (radixRun l.nextChar radix).2)
    else ([], l)
  | none => ([], l)
termination_by l.remaining
decreasing_by all_goals exact Lexer.nextChar_lt _h

/-- `BigInt::parse_bytes` on digits and underscores: underscores are skipped; the text may not be empty or start with an
underscore. The library also takes a leading `+`, which the lexer never passes. -/
def parseDigits (radix : Radix) (s : List Char) : Option Nat :=
  if s = [] ∨ s.head? = some '_' ∨ s.any (fun c => !(c == '_' || isDigitOf radix c)) then none
  else some ((s.filter (· ≠ '_')).foldl (fun a c => a * radix.base + digitValue c) 0)

/-- `BigInt::parse_bytes`. -/
def parseBigInt (radix : Radix) : List Char → Option Int
  | '-' :: s => (parseDigits radix s).map fun n : Nat => -(n : Int)
  | s => (parseDigits radix s).map fun n : Nat => (n : Int)

/-- `parse.rs:5422-5431`: the radix of the text of a number and the text after the prefix. -/
def stripRadix (value : List Char) : Radix × List Char :=
  match value with
  | '0' :: 'x' :: rest => (.hexadecimal, rest)
  | '0' :: 'o' :: rest => (.octal, rest)
  | '0' :: 'b' :: rest => (.binary, rest)
  | _ => (.decimal, value)

/-- `parse.rs:5422-5436` `parse_int_value`. -/
def parseIntValue (value : List Char) : Option Int :=
  parseBigInt (stripRadix value).1 ((stripRadix value).2.dropWhile (· == '_'))

/-- `lexer.rs:1138-1154`: the token for a number with a radix prefix. -/
def radixToken (start : Nat) (negative : Bool) (value : List Char) (stop : Nat) : Except LexicalError Spanned :=
  match parseIntValue value with
  | none => .error ⟨.panic, start, stop⟩
  | some v =>
    if negative then .ok ⟨start, .int ('-' :: value) (-v), stop⟩ else .ok ⟨start, .int value v, stop⟩

/-- `lexer.rs:1110-1156` `lex_number_radix`. -/
def lexNumberRadix (l : Lexer) (start : Nat) (radix : Radix) (negative : Bool) (pref : List Char) :
    Except LexicalError (Spanned × Lexer) :=
  let r := radixRun l radix
  if r.1 = [] then .error ⟨.radixIntNoValue, r.2.location0 - 1, r.2.location0 - 1⟩
  else if radix.base < 16 ∧ isDigitOfRadix r.2.char0 .hexadecimal then
    .error ⟨.digitOutOfRadix, r.2.location0, r.2.location0⟩
  else (radixToken start negative (pref ++ r.1) r.2.location0).map fun t => (t, r.2)

/-- `lexer.rs:1206-1221`: the exponent of a float, if there is one. -/
def lexExponent (l : Lexer) (start : Nat) : Except LexicalError (List Char × Lexer) :=
  if l.char0 = some 'e' then
    let l1 := l.nextChar
    let sign := if l1.char0 = some '-' then (['-'], l1.nextChar) else ([], l1)
    let r := radixRun sign.2 .decimal
    if r.1 = [] then .error ⟨.missingExponent, start, r.2.location0⟩
    else .ok ('e' :: (sign.1 ++ r.1), r.2)
  else .ok ([], l)

/-- `lexer.rs:1187-1246` `lex_decimal_or_int_number`. -/
def lexDecimalOrIntNumber (l : Lexer) (start : Nat) (negative canLexDecimal : Bool) :
    Except LexicalError (Spanned × Lexer) :=
  let sign := if negative then ['-'] else []
  let r := radixRun l .decimal
  if canLexDecimal ∧ r.2.char0 = some '.' then
    let f := radixRun r.2.nextChar .decimal
    (lexExponent f.2 start).map fun e =>
      (⟨start, .float (sign ++ r.1 ++ '.' :: f.1 ++ e.1), e.2.location0⟩, e.2)
  else
    match parseIntValue (sign ++ r.1) with
    | none => .error ⟨.panic, start, r.2.location0⟩
    | some v => .ok (⟨start, .int (sign ++ r.1) v, r.2.location0⟩, r.2)

/-- `lexer.rs:1089-1096`: what follows the optional minus sign of a number. -/
def lexUnsigned (l : Lexer) (start : Nat) (negative : Bool) : Except LexicalError (Spanned × Lexer) :=
  if l.char0 = some '0' ∧ (l.char1 = some 'x' ∨ l.char1 = some 'X') then
    lexNumberRadix l.nextChar.nextChar start .hexadecimal negative ['0', 'x']
  else if l.char0 = some '0' ∧ (l.char1 = some 'o' ∨ l.char1 = some 'O') then
    lexNumberRadix l.nextChar.nextChar start .octal negative ['0', 'o']
  else if l.char0 = some '0' ∧ (l.char1 = some 'b' ∨ l.char1 = some 'B') then
    lexNumberRadix l.nextChar.nextChar start .binary negative ['0', 'b']
  else lexDecimalOrIntNumber l start negative true

/-- `lexer.rs:1124-1136`: a number may not end with an underscore. -/
def noTrailingUnderscore (r : Spanned × Lexer) : Except LexicalError (Spanned × Lexer) :=
  if r.2.char0 = some '_' then .error ⟨.numTrailingUnderscore, r.2.location0, r.2.location0⟩ else .ok r

/-- `lexer.rs:1073-1137` `lex_number`. -/
def lexNumber (l : Lexer) : Except LexicalError (Spanned × Lexer) :=
  let start := l.location0
  if l.char0 = some '-' then (lexUnsigned l.nextChar start true).bind noTrailingUnderscore
  else (lexUnsigned l start false).bind noTrailingUnderscore

theorem radixRun_more {l : Lexer} {radix : Radix} {c : Char} (h0 : l.char0 = some c)
    (h : isDigitOf radix c ∨ (c = '_' ∧ isDigitOfRadix l.char1 radix)) :
    radixRun l radix = (c :: (radixRun l.nextChar radix).1, (radixRun l.nextChar radix).2) := by
  rw [radixRun]
  split
  · rename_i c' h0'
    rw [h0] at h0'
    cases h0'
    rw [if_pos h]
  · simp_all

theorem radixRun_done {l : Lexer} {radix : Radix} {c : Char} (h0 : l.char0 = some c)
    (h : ¬(isDigitOf radix c ∨ (c = '_' ∧ isDigitOfRadix l.char1 radix))) : radixRun l radix = ([], l) := by
  rw [radixRun]
  split
  · rename_i c' h0'
    rw [h0] at h0'
    cases h0'
    rw [if_neg h]
  · rfl

theorem radixRun_end {l : Lexer} {radix : Radix} (h0 : l.char0 = none) : radixRun l radix = ([], l) := by
  rw [radixRun]
  split
  · simp_all
  · rfl

theorem radixRun_le (l : Lexer) (radix : Radix) : (radixRun l radix).2.remaining ≤ l.remaining := by
  induction l using radixRun.induct radix with
  | case1 l c h0 h ih =>
    have := Lexer.nextChar_lt h0
    rw [radixRun_more h0 h]
    simp only
    omega
  | case2 l c h0 h => rw [radixRun_done h0 h]; exact Nat.le_refl _
  | case3 l h0 => rw [radixRun_end h0]; exact Nat.le_refl _

theorem radixRun_lt {l : Lexer} {c : Char} (h : l.char0 = some c) (hd : isDigitOf .decimal c) :
    (radixRun l .decimal).2.remaining < l.remaining := by
  have h1 := radixRun_le l.nextChar .decimal
  have h2 := Lexer.nextChar_lt h
  rw [radixRun_more h (.inl hd)]
  simp only
  omega

theorem isDigit_isDigitOf {c : Char} (h : isDigit c) : isDigitOf .decimal c := by
  simp only [isDigit, Bool.and_eq_true, decide_eq_true_eq, Char.le_def, UInt32.le_iff_toNat_le] at h
  have h1 : 48 ≤ c.toNat := h.1
  have h2 : c.toNat ≤ 57 := h.2
  simp only [isDigitOf, Strings.isHex, digitValue, Radix.base, h1, h2, decide_true, if_true, Bool.and_self,
    Bool.true_or, Bool.true_and, decide_eq_true_eq]
  omega

/-- `lexer.rs:1249-1260` `maybe_lex_dot_access`. -/
def maybeLexDotAccess (l : Lexer) : Except LexicalError (List Spanned × Lexer) :=
  match _h : l.char0 with
  | some c =>
    if _hd : isDigit c then
      match _hn : lexDecimalOrIntNumber l l.location0 false false with
      | .error e => .error e
      | .ok r => (maybeLexDotAccess r.2).map fun ts => (r.1 :: ts.1, ts.2)
    else .ok ([], l)
  | none => .ok ([], l)
termination_by l.remaining
decreasing_by
  have h1 := radixRun_lt _h (isDigit_isDigitOf _hd)
  simp only [lexDecimalOrIntNumber, Bool.false_eq_true, false_and, if_false] at _hn
  split at _hn
  · cases _hn
  · cases _hn; exact h1

/-! ### Comments and strings -/

/-- `lexer.rs:1331-1337`: the loop that reads a comment. -/
def commentRun (l : Lexer) : List Char × Lexer :=
  match _h : l.char0 with
  | some c => if c = '\n' then ([], l) else (c :: (commentRun l.nextChar).1, (commentRun l.nextChar).2)
  | none => ([], l)
termination_by l.remaining
decreasing_by all_goals exact Lexer.nextChar_lt _h

/-- `lexer.rs:1309-1345` `lex_comment`, entered after two slashes. -/
def lexComment (l : Lexer) : Spanned × Lexer :=
  if l.char0 = some '/' ∧ l.char1 = some '/' then
    let l1 := l.nextChar.nextChar
    (⟨l1.location0, .commentModule, (commentRun l1).2.location0⟩, (commentRun l1).2)
  else if l.char0 = some '/' then
    let l1 := l.nextChar
    (⟨l1.location0, .commentDoc (commentRun l1).1, (commentRun l1).2.location0⟩, (commentRun l1).2)
  else (⟨l.location0, .commentNormal, (commentRun l).2.location0⟩, (commentRun l).2)

/-- `lexer.rs:1385-1412`: the loop that reads the digits of `\u{...}`; the lexer is at the character before them. -/
def hexRun (l : Lexer) : Except LexicalError (List Char × Lexer) :=
  match _h : l.nextChar.char0 with
  | none => .ok ([], l.nextChar)
  | some c =>
    if c = '}' then .ok ([], l.nextChar)
    else if !Strings.isHex c then
      .error ⟨.invalidUnicodeEscape .expectedHexDigitOrCloseBrace, l.nextChar.location0, l.nextChar.location0 + 1⟩
    else (hexRun l.nextChar).map fun r => (c :: r.1, r.2)
termination_by l.nextChar.remaining
decreasing_by exact Lexer.nextChar_lt _h

/-- `lexer.rs:1428-1459`: the checks on the digits of `\u{...}`; the lexer is after the closing brace. -/
def checkDigits (slash : Nat) (r : List Char × Lexer) : Except LexicalError (List Char × Lexer) :=
  if ¬(1 ≤ r.1.length ∧ r.1.length ≤ 6) then
    .error ⟨.invalidUnicodeEscape .invalidNumberOfHexDigits, slash, r.2.location0⟩
  else
    match Strings.parseHex r.1 with
    | none => .error ⟨.panic, slash, r.2.location0⟩
    | some n =>
      match Strings.charFromU32 n with
      | none => .error ⟨.invalidUnicodeEscape .invalidCodepoint, slash, r.2.location0⟩
      | some _ => .ok r

/-- `lexer.rs:1413-1426`: the closing brace of `\u{...}`. -/
def closeBrace (slash : Nat) (r : List Char × Lexer) : Except LexicalError (List Char × Lexer) :=
  if r.2.char0 ≠ some '}' then
    .error ⟨.invalidUnicodeEscape .expectedHexDigitOrCloseBrace, r.2.location0 - 1, r.2.location0⟩
  else checkDigits slash (r.1, r.2.nextChar)

/-- `lexer.rs:1364-1463`: `\u{...}` in a string, entered after the `u`. -/
def lexUnicode (slash : Nat) (l : Lexer) : Except LexicalError (List Char × Lexer) :=
  if l.char0 ≠ some '{' then
    .error ⟨.invalidUnicodeEscape .missingOpeningBrace, l.location0 - 1, l.location0⟩
  else (hexRun l).bind (closeBrace slash)

/-- `lexer.rs:1359`: the characters that may follow a backslash, other than `u`. -/
def isSimpleEscape (c : Char) : Bool := c == 'f' || c == 'n' || c == 'r' || c == 't' || c == '"' || c == '\\'

theorem hexRun_le {l : Lexer} {r : List Char × Lexer} (h : hexRun l = .ok r) : r.2.remaining ≤ l.nextChar.remaining := by
  induction l using hexRun.induct generalizing r with
  | case1 l h0 => rw [hexRun] at h; split at h <;> simp_all; cases h; simp
  | case2 l h0 => rw [hexRun] at h; split at h <;> simp_all; cases h; simp
  | case3 l c h0 h1 h2 => rw [hexRun] at h; split at h <;> simp_all
  | case4 l c h0 h1 h2 ih =>
    rw [hexRun] at h
    split at h
    · simp_all
    · rename_i c' h0'
      rw [h0] at h0'
      cases h0'
      rw [if_neg h1, if_neg (by simpa using h2)] at h
      cases hr : hexRun l.nextChar with
      | error e => rw [hr] at h; cases h
      | ok r' =>
        rw [hr] at h
        cases h
        have h3 := ih hr
        have h4 := Lexer.nextChar_lt h0
        simp only
        omega

theorem lexUnicode_le {slash : Nat} {l : Lexer} {r : List Char × Lexer} (h : lexUnicode slash l = .ok r) :
    r.2.remaining ≤ l.remaining := by
  unfold lexUnicode at h
  split at h
  · cases h
  · cases hr : hexRun l with
    | error e => rw [hr] at h; cases h
    | ok r' =>
      rw [hr] at h
      have h1 := hexRun_le hr
      have h2 := l.nextChar_remaining
      have h3 := r'.2.nextChar_remaining
      simp only [Except.bind, closeBrace, checkDigits] at h
      repeat' split at h
      all_goals cases h
      simp only
      omega

/-- `lexer.rs:1347-1482` `lex_string`: the loop, entered after the opening quote. -/
def stringRun (start : Nat) (l : Lexer) : Except LexicalError (List Char × Lexer) :=
  match _h : l.char0 with
  | none => .error ⟨.unexpectedStringEnd, start, start⟩
  | some c =>
    if c = '\\' then
      match _h1 : l.nextChar.char0 with
      | none => .error ⟨.badStringEscape, l.nextChar.location0 - 1, l.nextChar.location0 - 1⟩
      | some e =>
        if isSimpleEscape e then (stringRun start l.nextChar.nextChar).map fun r => ('\\' :: e :: r.1, r.2)
        else if e = 'u' then
          match _hu : lexUnicode (l.nextChar.location0 - 1) l.nextChar.nextChar with
          | .error e => .error e
          | .ok u => (stringRun start u.2).map fun r => ('\\' :: 'u' :: '{' :: (u.1 ++ '}' :: r.1), r.2)
        else .error ⟨.badStringEscape, l.nextChar.location0 - 1, l.nextChar.location0⟩
    else if c = '"' then .ok ([], l.nextChar)
    else (stringRun start l.nextChar).map fun r => (c :: r.1, r.2)
termination_by l.remaining
decreasing_by
  · have h1 := Lexer.nextChar_lt _h
    have h2 := Lexer.nextChar_lt _h1
    omega
  · have h1 := Lexer.nextChar_lt _h
    have h2 := Lexer.nextChar_lt _h1
    have h3 := lexUnicode_le _hu
    omega
  · exact Lexer.nextChar_lt _h

/-- `lexer.rs:1347-1482` `lex_string`. -/
def lexString (l : Lexer) : Except LexicalError (Spanned × Lexer) :=
  (stringRun l.location0 l.nextChar).map fun r => (⟨l.location0, .string r.1, r.2.location0⟩, r.2)

/-! ### Punctuation -/

/-- What a step of the lexer gives: the tokens it emits and the new state. -/
abbrev Step := Except LexicalError (List Spanned × Lexer)

/-- A step that emits one symbol which starts at `start` and ends where the lexer is now. -/
def emit (start : Nat) (s : Symbol) (l : Lexer) : Step := .ok ([⟨start, .symbol s, l.location0⟩], l)

/-- A failed step: the error covers the text from `start` to where the lexer is now. -/
def fail (start : Nat) (e : ErrorKind) (l : Lexer) : Step := .error ⟨e, start, l.location0⟩

/-- `lexer.rs:1505-1510` `eat_single_char`. -/
def eatSingleChar (s : Symbol) (l : Lexer) : Step := emit l.location0 s l.nextChar

/-- `lexer.rs:239-243`, `lexer.rs:909-913`, `lexer.rs:984-988`: the pairs in a run of `seen` characters, and what is left
of the run: where it starts and whether there is one character more. -/
def pairs (s : Symbol) (start : Nat) : Nat → List Spanned × Nat × Nat
  | seen + 2 => (⟨start, .symbol s, start + 2⟩ :: (pairs s (start + 2) seen).1, (pairs s (start + 2) seen).2)
  | seen => ([], start, seen)

/-- `lexer.rs:226-250`, `lexer.rs:896-921`, `lexer.rs:971-996`: the loop over a run of equal characters. Seven of them
are taken for a merge conflict marker; otherwise gives the number of characters in the run. -/
def runLoop (c : Char) (start : Nat) (l : Lexer) (seen : Nat) : Except LexicalError (Nat × Lexer) :=
  if seen ≥ 7 then .error ⟨.mergeConflictIndicator, start, l.location0⟩
  else if _h : l.char0 = some c then runLoop c start l.nextChar (seen + 1)
  else .ok (seen, l)
termination_by l.remaining
decreasing_by exact Lexer.nextChar_lt _h

/-- `lexer.rs:190-252`: after a `=`. -/
def lexEqual (start : Nat) (l : Lexer) : Step :=
  if l.char0 ≠ some '=' then emit start .equal l
  else if l.nextChar.char0 ≠ some '=' then emit start .equalEqual l.nextChar
  else if l.nextChar.nextChar.char0 ≠ some '=' then fail start .invalidTripleEqual l.nextChar.nextChar
  else
    (runLoop '=' start l.nextChar.nextChar 3).map fun r =>
      let p := pairs .equalEqual start r.1
      if p.2.2 > 0 then (p.1 ++ [⟨p.2.1, .symbol .equal, r.2.location0⟩], r.2) else (p.1, r.2)

/-- `lexer.rs:253-280`: after a `+`. -/
def lexPlus (start : Nat) (l : Lexer) : Step :=
  if l.char0 = some '.' then emit start .plusDot l.nextChar
  else if l.char0 = some '=' ∨ l.char0 = some '+' then fail start .unsupportedProceduralOperator l.nextChar
  else emit start .plus l

/-- `lexer.rs:281-307`: after a `*`. -/
def lexStar (start : Nat) (l : Lexer) : Step :=
  if l.char0 = some '.' then emit start .starDot l.nextChar
  else if l.char0 = some '=' then fail start .unsupportedProceduralOperator l.nextChar
  else emit start .star l

/-- `lexer.rs:308-337`: after a `/`. -/
def lexSlash (start : Nat) (l : Lexer) : Step :=
  if l.char0 = some '.' then emit start .slashDot l.nextChar
  else if l.char0 = some '/' then .ok ([(lexComment l.nextChar).1], (lexComment l.nextChar).2)
  else if l.char0 = some '=' then fail start .unsupportedProceduralOperator l.nextChar
  else emit start .slash l

/-- `lexer.rs:338-359`: after a `%`. -/
def lexPercent (start : Nat) (l : Lexer) : Step :=
  if l.char0 = some '=' then fail start .unsupportedProceduralOperator l.nextChar
  else emit start .percent l

/-- `lexer.rs:360-380`: after a `|`. -/
def lexVbar (start : Nat) (l : Lexer) : Step :=
  if l.char0 = some '|' then emit start .vbarVbar l.nextChar
  else if l.char0 = some '>' then emit start .pipe l.nextChar
  else emit start .vbar l

/-- `lexer.rs:381-400`: after a `&`. -/
def lexAmper (start : Nat) (l : Lexer) : Step :=
  if l.char0 = some '&' then emit start .amperAmper l.nextChar
  else .error ⟨.unrecognizedToken '&', start, start⟩

/-- `lexer.rs:401-434`: after a `-`. -/
def lexMinus (start : Nat) (l : Lexer) : Step :=
  if l.char0 = some '.' then emit start .minusDot l.nextChar
  else if l.char0 = some '>' then emit start .rArrow l.nextChar
  else if l.char0 = some '=' then fail start .unsupportedProceduralOperator l.nextChar
  else emit start .minus l

/-- `lexer.rs:435-446`: after a `!`. -/
def lexBang (start : Nat) (l : Lexer) : Step :=
  if l.char0 = some '=' then emit start .notEqual l.nextChar else emit start .bang l

/-- `lexer.rs:881-885`, `lexer.rs:922-947`: after a `<` that is not followed by another. -/
def lexLtTail (start : Nat) (l : Lexer) : Step :=
  if l.char0 = some '>' then emit start .concatenate l.nextChar
  else if l.char0 = some '.' then emit start .lessDot l.nextChar
  else if l.char0 = some '-' then emit start .lArrow l.nextChar
  else if l.char0 = some '=' then
    if l.nextChar.char0 = some '.' then emit start .lessEqualDot l.nextChar.nextChar
    else emit start .lessEqual l.nextChar
  else emit start .less l

/-- A step after tokens that have been emitted already. -/
def Step.after (ts : List Spanned) (s : Step) : Step := s.map fun r => (ts ++ r.1, r.2)

/-- `lexer.rs:879-948` `lex_lt`. In Rust it calls itself for the last `<` of an odd run; that call sees a character other
than `<`, so it is a call of `lexLtTail` here. -/
def lexLt (start : Nat) (l : Lexer) : Step :=
  if l.char0 = some '<' then
    if l.nextChar.char0 ≠ some '<' then emit start .ltLt l.nextChar
    else
      (runLoop '<' start l.nextChar.nextChar 3).bind fun r =>
        let p := pairs .ltLt start r.1
        if p.2.2 > 0 then (lexLtTail p.2.1 r.2).after p.1 else .ok (p.1, r.2)
  else lexLtTail start l

/-- `lexer.rs:997-1018`: after a `>` that is not followed by another. -/
def lexGtTail (start : Nat) (l : Lexer) : Step :=
  if l.char0 = some '.' then emit start .greaterDot l.nextChar
  else if l.char0 = some '=' then
    if l.nextChar.char0 = some '.' then emit start .greaterEqualDot l.nextChar.nextChar
    else emit start .greaterEqual l.nextChar
  else emit start .greater l

/-- `lexer.rs:951-1019` `lex_gt`. The same remark as for `lex_lt`. -/
def lexGt (start : Nat) (l : Lexer) : Step :=
  if l.char0 = some '>' then
    if l.nextChar.char0 ≠ some '>' then emit start .gtGt l.nextChar
    else
      (runLoop '>' start l.nextChar.nextChar 3).bind fun r =>
        let p := pairs .gtGt start r.1
        if p.2.2 > 0 then (lexGtTail p.2.1 r.2).after p.1 else .ok (p.1, r.2)
  else lexGtTail start l

/-- `lexer.rs:480-492`: after a `.`. -/
def lexDot (start : Nat) (l : Lexer) : Step :=
  if l.char0 = some '.' then emit start .dotDot l.nextChar
  else Step.after [⟨start, .symbol .dot, l.location0⟩] (maybeLexDotAccess l)

/-- The characters that are a token on their own: `lexer.rs:183-185`, `lexer.rs:447-467`, `lexer.rs:478-480`,
`lexer.rs:493-495`. -/
def singleSymbol (c : Char) : Option Symbol :=
  if c = '@' then some .at_
  else if c = '(' then some .leftParen
  else if c = ')' then some .rightParen
  else if c = '[' then some .leftSquare
  else if c = ']' then some .rightSquare
  else if c = '{' then some .leftBrace
  else if c = '}' then some .rightBrace
  else if c = ':' then some .colon
  else if c = ',' then some .comma
  else if c = '#' then some .hash
  else none

/-- `lexer.rs:504-862`: characters that look like one of Gleam's but are not: code point, name, what to write instead. -/
def lookalikes : List (Nat × String × String) :=
  [(0x201A, "low single comma quotation mark", "comma"),
   (0xFF3B, "fullwidth left square bracket", "left square bracket"),
   (0xFF3D, "fullwidth right square bracket", "right square bracket"),
   (0xFF08, "fullwidth left parenthesis", "left parenthesis"),
   (0xFF09, "fullwidth right parenthesis", "right parenthesis"),
   (0xFF0E, "fullwidth full stop", "dot"),
   (0x3002, "ideographic full stop", "dot"),
   (0xFF1C, "fullwidth less-than sign", "less-than sign"),
   (0xFF1E, "fullwidth greater-than sign", "greater-than sign"),
   (0xFF5C, "fullwidth vertical line", "pipe"),
   (0xFF20, "fullwidth commercial at", "at sign"),
   (0xFF3E, "fullwidth circumflex accent", "caret"),
   (0xFF1A, "fullwidth colon", "colon"),
   (0x201C, "double quotation mark", "double quote"),
   (0x201D, "double quotation mark", "double quote"),
   (0x2018, "single quotation mark", "single quote"),
   (0x2019, "single quotation mark", "single quote"),
   (0x2013, "en dash", "minus sign"),
   (0x2014, "em dash", "minus sign"),
   (0x2217, "asterisk operator", "asterisk"),
   (0x2215, "division slash", "forward slash"),
   (0x00A0, "non-breaking space", "space"),
   (0x200B, "zero-width space", "space"),
   (0x0430, "Cyrillic letter а", "latin letter a"),
   (0x0435, "Cyrillic letter е", "latin letter e"),
   (0x043E, "Cyrillic letter о", "latin letter o"),
   (0x0440, "Cyrillic letter р", "latin letter p"),
   (0x1D35, "modifier letter capital I", "latin letter I"),
   (0xFF0C, "fullwidth comma", "comma"),
   (0x3001, "ideographic comma", "comma")]

/-- `lexer.rs:504-873`: the error for a character that cannot start a token. -/
def invalidCharacter (c : Char) (l : Lexer) : Step :=
  match lookalikes.find? (fun p => p.1 == c.toNat) with
  | some p => .error ⟨.visuallySimilarInvalidCharacter p.2.1 p.2.2, l.location0, l.location0⟩
  | none => .error ⟨.unrecognizedToken c, l.location0, l.location0⟩

/-- `lexer.rs:496-503`: white space; a newline is a token. -/
def lexBlank (c : Char) (l : Lexer) : Step :=
  if c = '\n' then .ok ([⟨l.location0, .newLine, l.nextChar.location0⟩], l.nextChar) else .ok ([], l.nextChar)

/-- `lexer.rs:181-876` `consume_character`. -/
def consumeCharacter (c : Char) (l : Lexer) : Step :=
  match singleSymbol c with
  | some s => eatSingleChar s l
  | none =>
    if c = '"' then (lexString l).map fun r => ([r.1], r.2)
    else if c = '=' then lexEqual l.location0 l.nextChar
    else if c = '+' then lexPlus l.location0 l.nextChar
    else if c = '*' then lexStar l.location0 l.nextChar
    else if c = '/' then lexSlash l.location0 l.nextChar
    else if c = '%' then lexPercent l.location0 l.nextChar
    else if c = '|' then lexVbar l.location0 l.nextChar
    else if c = '&' then lexAmper l.location0 l.nextChar
    else if c = '-' then lexMinus l.location0 l.nextChar
    else if c = '!' then lexBang l.location0 l.nextChar
    else if c = '<' then lexLt l.location0 l.nextChar
    else if c = '>' then lexGt l.location0 l.nextChar
    else if c = '.' then lexDot l.location0 l.nextChar
    else if c = '\n' ∨ c = ' ' ∨ c = '\t' ∨ c = '\x0c' then lexBlank c l
    else invalidCharacter c l

/-- `lexer.rs:170-175`: after a name or a number `-` is the operator, even before a digit. -/
def checkForMinus (t : Spanned) (l : Lexer) : Step :=
  if l.char0 = some '-' ∧ isNumberStart '-' l.char1 then Step.after [t] (eatSingleChar .minus l) else .ok ([t], l)

/-- `lexer.rs:149-180` `consume_normal`. -/
def consumeNormal (l : Lexer) : Step :=
  match l.char0 with
  | some c =>
    if isUpper c then .ok ([(lexUpname l).1], (lexUpname l).2)
    else if isNameStart c then checkForMinus (lexName l).1 (lexName l).2
    else if isNumberStart c l.char1 then (lexNumber l).bind fun r => checkForMinus r.1 r.2
    else consumeCharacter c l
  | none => .ok ([⟨l.location0, .endOfFile, l.location0⟩], l)

end Verif.Lexer
