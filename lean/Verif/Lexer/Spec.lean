import Mathlib.Logic.Function.Iterate
import Verif.Lexer.Iter
import Verif.Strings.Spec

/-!
# Specification: the tokens of a source text

How the tokens of a text are laid out over it: which texts a token may stand for, and how the tokens and the blanks
between them make up the whole text. The only parts of the model used here are the data types of tokens and spans.
-/
namespace Verif.Lexer.Spec

/-- The number of bytes of a text in UTF-8. -/
def bytes (text : List Char) : Nat := (text.map Char.utf8Size).sum

/-- A byte offset that is not inside a character. -/
def Boundary (source : List Char) (offset : Nat) : Prop := ∃ before after, source = before ++ after ∧ bytes before = offset

/-- Text between two byte offsets. -/
def TextAt (source : List Char) (start stop : Nat) (text : List Char) : Prop :=
  ∃ before after, source = before ++ text ++ after ∧ bytes before = start ∧ bytes before + bytes text = stop

/-- The text with each line ending written as a single line feed. -/
def unixLines : List Char → List Char
  | '\r' :: '\n' :: rest => '\n' :: unixLines rest
  | '\r' :: rest => '\n' :: unixLines rest
  | c :: rest => c :: unixLines rest
  | [] => []

/-! ### How each token is written -/

def symbolText : Symbol → List Char
  | .leftParen => ['('] | .rightParen => [')'] | .leftSquare => ['['] | .rightSquare => [']']
  | .leftBrace => ['{'] | .rightBrace => ['}']
  | .plus => ['+'] | .minus => ['-'] | .star => ['*'] | .slash => ['/'] | .less => ['<'] | .greater => ['>']
  | .lessEqual => ['<', '='] | .greaterEqual => ['>', '='] | .percent => ['%']
  | .plusDot => ['+', '.'] | .minusDot => ['-', '.'] | .starDot => ['*', '.'] | .slashDot => ['/', '.']
  | .lessDot => ['<', '.'] | .greaterDot => ['>', '.'] | .lessEqualDot => ['<', '=', '.']
  | .greaterEqualDot => ['>', '=', '.']
  | .concatenate => ['<', '>']
  | .colon => [':'] | .comma => [','] | .hash => ['#'] | .bang => ['!'] | .equal => ['='] | .equalEqual => ['=', '=']
  | .notEqual => ['!', '='] | .vbar => ['|'] | .vbarVbar => ['|', '|'] | .amperAmper => ['&', '&']
  | .ltLt => ['<', '<'] | .gtGt => ['>', '>'] | .pipe => ['|', '>'] | .dot => ['.'] | .rArrow => ['-', '>']
  | .lArrow => ['<', '-'] | .dotDot => ['.', '.'] | .at_ => ['@']

def keywordText : Keyword → List Char
  | .as_ => "as".toList | .assert_ => "assert".toList | .auto_ => "auto".toList | .case_ => "case".toList
  | .const_ => "const".toList | .delegate_ => "delegate".toList | .derive_ => "derive".toList
  | .echo_ => "echo".toList | .else_ => "else".toList | .fn_ => "fn".toList | .if_ => "if".toList
  | .implement_ => "implement".toList | .import_ => "import".toList | .let_ => "let".toList
  | .macro_ => "macro".toList | .opaque_ => "opaque".toList | .panic_ => "panic".toList | .pub_ => "pub".toList
  | .test_ => "test".toList | .todo_ => "todo".toList | .type_ => "type".toList | .use_ => "use".toList

/-- A letter, a digit or an underscore. -/
def NameChar (c : Char) : Prop :=
  ('a' ≤ c ∧ c ≤ 'z') ∨ ('A' ≤ c ∧ c ≤ 'Z') ∨ ('0' ≤ c ∧ c ≤ '9') ∨ c = '_'

/-- The value of a digit, in any base up to sixteen. -/
def digit? (c : Char) : Option Nat :=
  match "0123456789abcdef".toList.idxOf? c with
  | some v => some v
  | none => "0123456789ABCDEF".toList.idxOf? c

/-- Digits of a base, with single underscores between them, and the number they denote. -/
inductive Digits (base : Nat) : List Char → Nat → Prop
  | one {c : Char} {v : Nat} : digit? c = some v → v < base → Digits base [c] v
  | more {t : List Char} {n : Nat} {c : Char} {v : Nat} :
      Digits base t n → digit? c = some v → v < base → Digits base (t ++ [c]) (n * base + v)
  | underscore {t : List Char} {n : Nat} {c : Char} {v : Nat} :
      Digits base t n → digit? c = some v → v < base → Digits base (t ++ ['_', c]) (n * base + v)

/-- Digits that may follow an underscore. -/
def LooseDigits (base : Nat) (t : List Char) (n : Nat) : Prop := Digits base t n ∨ ∃ t', t = '_' :: t' ∧ Digits base t' n

/-- The base a letter after `0` stands for, and the way the token writes that letter. -/
def basePrefix : List (Char × Char × Nat) :=
  [('x', 'x', 16), ('X', 'x', 16), ('o', 'o', 8), ('O', 'o', 8), ('b', 'b', 2), ('B', 'b', 2)]

/-- An unsigned integer: the base, how it is written in the source, how in the token, and the number. -/
inductive Natural : Nat → List Char → List Char → Nat → Prop
  | decimal {t : List Char} {n : Nat} : Digits 10 t n → Natural 10 t t n
  | based {x y : Char} {base : Nat} {t : List Char} {n : Nat} :
      (x, y, base) ∈ basePrefix → LooseDigits base t n → Natural base ('0' :: x :: t) ('0' :: y :: t) n

/-- An integer: the base, how it is written in the source, how in the token, and the number. -/
inductive Integer : Nat → List Char → List Char → Int → Prop
  | pos {base : Nat} {t v : List Char} {n : Nat} : Natural base t v n → Integer base t v n
  | neg {base : Nat} {t v : List Char} {n : Nat} : Natural base t v n → Integer base ('-' :: t) ('-' :: v) (-n)

/-- A float literal: digits, a dot, perhaps digits, perhaps an exponent. -/
def FloatText (t : List Char) : Prop :=
  ∃ sign whole fraction exponent, t = sign ++ whole ++ '.' :: fraction ++ exponent ∧
    (sign = [] ∨ sign = ['-']) ∧ (∃ n, Digits 10 whole n) ∧ (fraction = [] ∨ ∃ n, LooseDigits 10 fraction n) ∧
    (exponent = [] ∨ ∃ s ds n, exponent = 'e' :: (s ++ ds) ∧ (s = [] ∨ s = ['-']) ∧ LooseDigits 10 ds n)

/-- A line ending. -/
def LineEnd (t : List Char) : Prop := t = ['\n'] ∨ t = ['\r'] ∨ t = ['\r', '\n']

/-- The text is on one line. -/
def OneLine (t : List Char) : Prop := '\n' ∉ t ∧ '\r' ∉ t

/-- The texts each token may stand for. -/
def Reads : Token → List Char → Prop
  | .name n, t => t = n ∧ (∃ c r, n = c :: r ∧ 'a' ≤ c ∧ c ≤ 'z') ∧ (∀ c ∈ n, NameChar c) ∧ ∀ k, n ≠ keywordText k
  | .upName n, t => t = n ∧ (∃ c r, n = c :: r ∧ 'A' ≤ c ∧ c ≤ 'Z') ∧ (∀ c ∈ n, NameChar c)
  | .discardName n, t => t = n ∧ (∃ r, n = '_' :: r) ∧ (∀ c ∈ n, NameChar c)
  | .int v n, t => ∃ base, Integer base t v n
  | .float v, t => t = v ∧ FloatText v
  | .string v, t => ∃ body pieces value, t = '"' :: body ++ ['"'] ∧ unixLines body = v ∧
      Strings.Spec.text pieces = v ∧ Strings.Spec.Denotes pieces value
  | .commentDoc content, t => t = content ∧ OneLine t
  | .commentNormal, t => OneLine t
  | .commentModule, t => OneLine t
  | .newLine, t => LineEnd t
  | .symbol s, t => t = symbolText s
  | .keyword k, t => t = keywordText k
  | .endOfFile, _ => False

/-- What stands before the text of a token: the slashes of a comment are not part of its text. -/
def lead : Token → List Char
  | .commentNormal => ['/', '/']
  | .commentDoc _ => ['/', '/', '/']
  | .commentModule => ['/', '/', '/', '/']
  | _ => []

/-- A token is as long as it can be: what follows does not continue it. -/
def Longest : Token → (text rest : List Char) → Prop
  | .name _, _, rest | .upName _, _, rest | .discardName _, _, rest | .keyword _, _, rest =>
    ∀ c r, rest = c :: r → ¬NameChar c
  | .int v n, text, rest =>
    ∃ base, Integer base text v n ∧ ∀ c r d, rest = c :: r → digit? c = some d → ¬d < base
  | .float _, _, rest => ∀ c r d, rest = c :: r → digit? c = some d → ¬d < 10
  | .commentNormal, text, rest | .commentDoc _, text, rest =>
    text.head? ≠ some '/' ∧ ∀ c r, rest = c :: r → c = '\n' ∨ c = '\r'
  | .commentModule, _, rest => ∀ c r, rest = c :: r → c = '\n' ∨ c = '\r'
  | .newLine, text, rest => text = ['\r'] → rest.head? ≠ some '\n'
  | .symbol _, text, rest =>
    (∀ s, symbolText s <+: text ++ rest → (symbolText s).length ≤ text.length) ∧ ¬['/', '/'] <+: text ++ rest
  | .string _, _, _ | .endOfFile, _, _ => True

/-- A space, a tab or a form feed. -/
def Blank (c : Char) : Prop := c = ' ' ∨ c = '\t' ∨ c = '\x0c'

/-- Where a stretch of text that is followed by `rest` is said to end: `eof` stands for the end of the source. -/
def endsAt (eof p : Nat) (rest : List Char) : Nat := if rest = [] then eof else p

/-- The tokens after which a `-` is an operator even if a digit follows. -/
def Word : Token → Prop
  | .name _ | .discardName _ | .keyword _ | .int _ _ | .float _ => True
  | _ => False

/-- A number that is written with a minus sign. -/
def Negative : Token → Prop
  | .int v _ | .float v => v.head? = some '-'
  | _ => False

/-- No negative number directly follows a word, which ends at `stop`. -/
def Separate (tok : Token) (stop : Nat) (next : List Spanned) : Prop :=
  Word tok → ∀ u, next.head? = some u → u.start = stop → ¬Negative u.token

/-- `Covers eof p source tokens p' rest`: the text `source`, which starts at byte `p`, is made of the given tokens with
blanks before them, followed by the text `rest`, which starts at byte `p'`. A dot may be directly followed by the digits
of an index into a tuple. -/
inductive Covers (eof : Nat) : Nat → List Char → List Spanned → Nat → List Char → Prop
  | done {p : Nat} {source : List Char} : Covers eof p source [] p source
  | blank {p p' : Nat} {c : Char} {source rest : List Char} {ts : List Spanned} :
      Blank c → Covers eof (p + 1) source ts p' rest → Covers eof p (c :: source) ts p' rest
  | token {p p' : Nat} {text source rest : List Char} {t : Spanned} {ts : List Spanned} :
      t.start = p + bytes (lead t.token) →
      t.stop = endsAt eof (t.start + bytes text) source →
      Reads t.token text → Longest t.token text source →
      Separate t.token (t.start + bytes text) ts →
      Covers eof (t.start + bytes text) source ts p' rest →
      Covers eof p (lead t.token ++ text ++ source) (t :: ts) p' rest
  | index {p p' : Nat} {digits source rest : List Char} {n : Nat} {ts : List Spanned} :
      Digits 10 digits n → (∀ c r d, source = c :: r → digit? c = some d → ¬d < 10) →
      Covers eof (p + 1 + bytes digits) source ts p' rest →
      Covers eof p ('.' :: digits ++ source)
        (⟨p, .symbol .dot, p + 1⟩ :: ⟨p + 1, .int digits n, endsAt eof (p + 1 + bytes digits) source⟩ :: ts) p' rest

/-- The byte order mark. -/
def byteOrderMark : Char := Char.ofNat 0xFEFF

/-- Where the tokens of a source start, and the text from there: a byte order mark is skipped. -/
def body (source : List Char) : Nat × List Char :=
  match source with
  | c :: rest => if c = byteOrderMark then (3, rest) else (0, source)
  | [] => (0, [])

/-- The offset by which the end of a source is reported: one byte after the start of its last character, where a `\r\n`
at the end is one character. -/
def endOffset (source : List Char) : Nat :=
  match source.reverse with
  | '\n' :: '\r' :: before => bytes before.reverse + 1
  | _ :: before => bytes before.reverse + 1
  | [] => 1

/-- The last character of a source is one byte long and the source does not end with `\r\n`. -/
def PlainEnd (source : List Char) : Prop :=
  (∀ c, source.getLast? = some c → c.utf8Size = 1) ∧ ¬['\r', '\n'] <:+ source

/-- The tokens whose span is always their text: all but comments and line endings. -/
def Inner : Token → Prop
  | .commentDoc _ | .commentNormal | .commentModule | .newLine => False
  | _ => True

/-- An iterator that is at its end, and stays there. -/
inductive Finished : Iter → Prop
  | intro {it : Iter} (h : ∀ n : Nat, ((fun i : Iter => i.next.2)^[n] it).next.1 = none) : Finished it

/-- Calling `next` again and again gives the tokens and then, with `none`, the end of the text, at which the iterator
stays, or else an error. -/
inductive Yields : Iter → List Spanned → Option LexicalError → Prop
  | finish {it : Iter} : Finished it → Yields it [] none
  | error {it : Iter} {e : LexicalError} : it.next.1 = some (.error e) → Yields it [] (some e)
  | token {it it' : Iter} {t : Spanned} {ts : List Spanned} {e : Option LexicalError} :
      it.next = (some (.ok t), it') → Yields it' ts e → Yields it (t :: ts) e

/-- A text made of the given texts, each followed by a space. -/
def spaced (items : List (Token × List Char)) : List Char := items.flatMap fun i => i.2 ++ [' ']

/-- The tokens of such a text, with their spans. -/
def spacedTokens (p : Nat) : List (Token × List Char) → List Spanned
  | [] => []
  | (tok, text) :: items => ⟨p, tok, p + bytes text⟩ :: spacedTokens (p + bytes text + 1) items

end Verif.Lexer.Spec
