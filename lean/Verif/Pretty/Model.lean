/-
Model of the pretty printer, `/repo/pretty-arena/src/lib.rs`.

`isize` is `Int` (no overflow), the number of graphemes of a text is a field of the document, as in the code. Writing to
the output appends to a list of events, whose characters are the printed text.
-/
namespace Verif.Pretty

/-- `lib.rs:498-505` `enum BreakKind`. -/
inductive BreakKind where
  | flex
  | strict
deriving DecidableEq, Repr

/-- `lib.rs:507-525` `enum Mode`. -/
inductive Mode where
  | broken
  | unbroken
  | forcedBroken
  | forcedUnbroken
deriving DecidableEq, Repr

/-- `lib.rs:527-532` `enum NextBreakFitsMode`. -/
inductive NextBreakFitsMode where
  | enabled
  | disabled
deriving DecidableEq, Repr

/-- `lib.rs:534-543` `enum NestCondition`. -/
inductive NestCondition where
  | always
  | ifBroken
deriving DecidableEq, Repr

/-- `lib.rs:545-560` `enum NestMode`. -/
inductive NestMode where
  | increase
  | set
deriving DecidableEq, Repr

/-- `lib.rs:394-496` `enum PrintableDocument`. `Str` and `EcoString` are `str`, `ZeroWidthString` and `ZeroWidthStr`
are `zeroWidth`; an observer is a number. -/
inductive Doc where
  | line (count : Nat)
  | forceBroken (doc : Doc)
  | nextBreakFits (doc : Doc) (mode : NextBreakFitsMode)
  | brk (broken unbroken : List Char) (kind : BreakKind)
  | join (first second : Doc)
  | join3 (first second third : Doc)
  | join4 (first second third fourth : Doc)
  | nest (indent : Int) (mode : NestMode) (condition : NestCondition) (doc : Doc)
  | group (doc : Doc)
  | str (string : List Char) (graphemes : Nat)
  | zeroWidth (string : List Char)
  | observer (id : Nat)
  | empty
deriving DecidableEq, Repr

/-- An element of the queue `docs`: indentation, mode, document. -/
structure Entry where
  indent : Int
  mode : Mode
  doc : Doc

/-- `str::len`: the number of bytes. -/
def byteLen (s : List Char) : Nat := (s.map Char.utf8Size).sum

/-- `lib.rs:1331-1335`, `1437-1440`. -/
def newIndent (indent i : Int) : NestMode → Int
  | .increase => indent + i
  | .set => i

/-- `lib.rs:1444-1455`: the mode with which `fits` looks into a group. -/
def groupMode : Mode → Mode
  | .broken => .unbroken
  | m => m

/-- `lib.rs:1488-1511`: the mode with which `fits` looks into a `NextBreakFits`. -/
def nextMode : NextBreakFitsMode → Mode → Mode
  | .disabled, _ => .forcedUnbroken
  | .enabled, .forcedUnbroken => .forcedUnbroken
  | .enabled, _ => .forcedBroken

/-- Number of nodes. -/
def Doc.size : Doc → Nat
  | .forceBroken d | .nextBreakFits d _ | .nest _ _ _ d | .group d => d.size + 1
  | .join a b => a.size + b.size + 1
  | .join3 a b c => a.size + b.size + c.size + 1
  | .join4 a b c d => a.size + b.size + c.size + d.size + 1
  | _ => 1

/-- Work left in a queue. -/
def queueSize (q : List Entry) : Nat := (q.map fun e => e.doc.size).sum

/-- `lib.rs:1430-1441`: the indentation below a `Nest` in `fits`. -/
def fitsIndent (indent i : Int) (mode : NestMode) : NestCondition → Int
  | .ifBroken => indent
  | .always => newIndent indent i mode

/-- `lib.rs:1381-1541` `fits`. -/
def fits (limit width : Int) (docs : List Entry) : Bool :=
  if width > limit then false
  else
    match docs with
    | [] => true
    | ⟨indent, mode, document⟩ :: docs =>
      match document with
      | .forceBroken doc =>
        if mode = .forcedBroken then fits limit width (⟨indent, mode, doc⟩ :: docs) else false
      | .line _ => true
      | .nest i nestMode condition doc =>
        fits limit width (⟨fitsIndent indent i nestMode condition, mode, doc⟩ :: docs)
      | .group doc => fits limit width (⟨indent, groupMode mode, doc⟩ :: docs)
      | .str _ graphemes => fits limit (width + graphemes) docs
      | .zeroWidth _ => fits limit width docs
      | .observer _ => fits limit width docs
      | .brk _ unbroken _ =>
        if mode = .broken ∨ mode = .forcedBroken then true
        else fits limit (width + byteLen unbroken) docs
      | .nextBreakFits doc flag => fits limit width (⟨indent, nextMode flag mode, doc⟩ :: docs)
      | .join a b => fits limit width (⟨indent, mode, a⟩ :: ⟨indent, mode, b⟩ :: docs)
      | .join3 a b c => fits limit width (⟨indent, mode, a⟩ :: ⟨indent, mode, b⟩ :: ⟨indent, mode, c⟩ :: docs)
      | .join4 a b c d =>
        fits limit width (⟨indent, mode, a⟩ :: ⟨indent, mode, b⟩ :: ⟨indent, mode, c⟩ :: ⟨indent, mode, d⟩ :: docs)
      | .empty => fits limit width docs
termination_by queueSize docs
decreasing_by all_goals (simp [queueSize, Doc.size]; try omega)

/-- What is written, and the notifications of observers in between; a text comes with the number of columns the printer
counts for it. -/
inductive Ev where
  | text (string : List Char) (width : Nat)
  | newline
  | spaces (count : Nat)
  | observed (id : Nat) (line width : Int)
deriving DecidableEq, Repr

/-- The characters of an event. -/
def Ev.chars : Ev → List Char
  | .text s _ => s
  | .newline => ['\n']
  | .spaces n => List.replicate n ' '
  | .observed _ _ _ => []

/-- `lib.rs:1188-1189`: the local variables of `format`. -/
structure Pos where
  line : Int
  width : Int
deriving DecidableEq, Repr

/-- `lib.rs:1230-1236`, `1256-1262`: a broken break. -/
def brokenEvents (broken : List Char) (indent : Int) : List Ev := [.text broken (byteLen broken), .newline, .spaces indent.toNat]

/-- `lib.rs:1326-1341`: the indentation below a `Nest` in `format`. -/
def formatIndent (indent i : Int) (nestMode : NestMode) (condition : NestCondition) (mode : Mode) : Int :=
  if condition = .always ∨ (condition = .ifBroken ∧ mode = .broken) then newIndent indent i nestMode else indent

/-- `lib.rs:1183-1379` `format`: the events, in order, from a position on. -/
def format (limit : Int) (docs : List Entry) (p : Pos) : List Ev :=
  match docs with
  | [] => []
  | ⟨indent, mode, document⟩ :: docs =>
    match document with
    | .line count =>
      List.replicate count .newline ++ .spaces indent.toNat :: format limit docs ⟨p.line + count, indent⟩
    | .brk broken unbroken .flex =>
      if mode = .unbroken ∨ fits limit (p.width + byteLen unbroken) docs = true then
        .text unbroken (byteLen unbroken) :: format limit docs ⟨p.line, p.width + byteLen unbroken⟩
      else brokenEvents broken indent ++ format limit docs ⟨p.line + 1, indent⟩
    | .brk broken unbroken .strict =>
      if mode = .broken ∨ mode = .forcedBroken then
        brokenEvents broken indent ++ format limit docs ⟨p.line + 1, indent⟩
      else .text unbroken (byteLen unbroken) :: format limit docs ⟨p.line, p.width + byteLen unbroken⟩
    | .str string graphemes => .text string graphemes :: format limit docs ⟨p.line, p.width + graphemes⟩
    | .zeroWidth string => .text string 0 :: format limit docs p
    | .join a b => format limit (⟨indent, mode, a⟩ :: ⟨indent, mode, b⟩ :: docs) p
    | .join3 a b c => format limit (⟨indent, mode, a⟩ :: ⟨indent, mode, b⟩ :: ⟨indent, mode, c⟩ :: docs) p
    | .join4 a b c d =>
      format limit (⟨indent, mode, a⟩ :: ⟨indent, mode, b⟩ :: ⟨indent, mode, c⟩ :: ⟨indent, mode, d⟩ :: docs) p
    | .nest i nestMode condition doc =>
      format limit (⟨formatIndent indent i nestMode condition mode, mode, doc⟩ :: docs) p
    | .group doc =>
      if fits limit p.width [⟨indent, .unbroken, doc⟩] = true then format limit (⟨indent, .unbroken, doc⟩ :: docs) p
      else format limit (⟨indent, .broken, doc⟩ :: docs) p
    | .forceBroken doc => format limit (⟨indent, mode, doc⟩ :: docs) p
    | .nextBreakFits doc _ => format limit (⟨indent, mode, doc⟩ :: docs) p
    | .observer id => .observed id p.line p.width :: format limit docs p
    | .empty => format limit docs p
termination_by queueSize docs
decreasing_by all_goals (simp [queueSize, Doc.size]; try omega)

/-- `lib.rs:381-386` `pretty_print`. -/
def print (limit : Int) (d : Doc) : List Ev := format limit [⟨0, .unbroken, d⟩] ⟨0, 0⟩

/-- `lib.rs:372-377` `to_pretty_string`. -/
def toPrettyString (limit : Int) (d : Doc) : List Char := (print limit d).flatMap Ev.chars

/-! ### Building documents -/

/-- `lib.rs:192-216` `group`. -/
def Doc.grouped : Doc → Doc
  | .group d => .group d
  | .empty => .empty
  | .str s g => .str s g
  | .zeroWidth s => .zeroWidth s
  | .observer id => .observer id
  | d => .group d

/-- `lib.rs:288-325` `append`. -/
def Doc.append (d new : Doc) : Doc :=
  match new with
  | .empty => d
  | new =>
    match d with
    | .empty => new
    | .join a b => .join3 a b new
    | .join3 a b c => .join4 a b c new
    | d => .join d new

/-- `lib.rs:329-338` `surround`. -/
def Doc.surround (d opened closed : Doc) : Doc := (opened.append d).append closed

/-- `lib.rs:1105-1127` `concat`, the loop. -/
def concatLoop (previous : Doc) : List Doc → Doc
  | [] => previous
  | [second] => previous.append second
  | [second, third] => .join3 previous second third
  | second :: third :: fourth :: rest => concatLoop (.join4 previous second third fourth) rest

/-- `lib.rs:1105-1127` `concat`. -/
def concat : List Doc → Doc
  | [] => .empty
  | d :: ds => concatLoop d ds

/-- `lib.rs:1132-1147` `join`. -/
def joinWith (separator : Doc) : List Doc → Doc
  | [] => .empty
  | d :: ds => ds.foldl (fun previous next => .join3 previous separator next) d

/-- `lib.rs:342-368` `is_empty`. -/
def Doc.isEmpty : Doc → Bool
  | .empty => true
  | .line n => n = 0
  | .str s _ => s.isEmpty
  | .brk b _ _ => b.isEmpty
  | .forceBroken d => d.isEmpty
  | .nest _ _ _ d => d.isEmpty
  | .group d => d.isEmpty
  | .nextBreakFits d _ => d.isEmpty
  | .join a b => a.isEmpty && b.isEmpty
  | .join3 a b c => a.isEmpty && b.isEmpty && c.isEmpty
  | .join4 a b c d => a.isEmpty && b.isEmpty && c.isEmpty && d.isEmpty
  | .zeroWidth s => s.isEmpty
  | .observer _ => true

end Verif.Pretty
