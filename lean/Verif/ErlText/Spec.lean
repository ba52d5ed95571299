/-!
# Reading Erlang source code

What the Erlang compiler makes of a text: a scanner after `erl_scan` and a parser after the grammar `erl_parse.yrl`
of Erlang/OTP 28 (`lib/stdlib/src`), for the part of the language that the code generator uses. Both fail on
everything outside that part, so a text that is read here is one that Erlang reads in the same way.

Nothing here refers to the printer.
-/

namespace Verif.ErlText.Read

/-! ### Tokens -/

/-- The operators, with `=` among them. -/
inductive Op where
  | bind
  | orelse | andalso
  | lt | le | exact | ne | notExact | gt | ge
  | plus | minus
  | times | slash | div | rem
  | not
  deriving DecidableEq, Repr

/-- The reserved words that are not operators; `other` are those that the generated code does not use. -/
inductive Keyword where
  | begin | end_ | case_ | of | when | fun_
  | other
  deriving DecidableEq, Repr

inductive Tok where
  | var (name : List Char)
  | atom (name : List Char)
  | int (n : Nat)
  | float (whole fraction : List Char)
  /-- `"…"`, with the characters between the quotes as they are written. -/
  | string (content : List Char)
  /-- `~"…"`. -/
  | sigil (content : List Char)
  | word (k : Keyword)
  | op (o : Op)
  | lparen | rparen | lbrack | rbrack | lbrace | rbrace | ltlt | gtgt
  | comma | semi | colon | bar | hash | arrow | assoc
  /-- The `.` that ends a form. -/
  | dot
  deriving DecidableEq, Repr

def isSpace (c : Char) : Bool := c = ' ' || c = '\n' || c = '\t' || c = '\r'

def isDigit (c : Char) : Bool := 48 ≤ c.toNat && c.toNat ≤ 57

def isSmall (c : Char) : Bool := 97 ≤ c.toNat && c.toNat ≤ 122

def isCapital (c : Char) : Bool := 65 ≤ c.toNat && c.toNat ≤ 90

/-- The characters of names. Erlang allows the letters of Latin-1 too. -/
def isNameChar (c : Char) : Bool := isSmall c || isCapital c || isDigit c || c = '_' || c = '@'

/-- The reserved words of Erlang. -/
def words : List (String × Tok) :=
  [("begin", .word .begin), ("end", .word .end_), ("case", .word .case_), ("of", .word .of), ("when", .word .when),
   ("fun", .word .fun_), ("orelse", .op .orelse), ("andalso", .op .andalso), ("div", .op .div), ("rem", .op .rem),
   ("not", .op .not), ("after", .word .other), ("and", .word .other), ("band", .word .other),
   ("bnot", .word .other), ("bor", .word .other), ("bsl", .word .other), ("bsr", .word .other),
   ("bxor", .word .other), ("catch", .word .other), ("cond", .word .other), ("else", .word .other),
   ("if", .word .other), ("let", .word .other), ("maybe", .word .other), ("or", .word .other),
   ("receive", .word .other), ("try", .word .other), ("xor", .word .other)]

/-- A name that starts with a small letter is a reserved word or an atom. -/
def wordOrAtom (name : List Char) : Tok :=
  match words.find? (fun w => w.1.toList = name) with
  | some w => w.2
  | none => .atom name

/-- The characters up to the closing quote `q`, where a backslash takes the next character with it. -/
def quoted (q : Char) : List Char → Option (List Char × List Char)
  | [] => none
  | c :: cs =>
    if c = q then some ([], cs)
    else if c = '\\' then
      match cs with
      | [] => none
      | d :: ds => (quoted q ds).map fun (s, r) => ('\\' :: d :: s, r)
    else (quoted q cs).map fun (s, r) => (c :: s, r)

/-- Tokens made of punctuation; the longest one that fits. -/
def punctuation : List Char → Option (Tok × List Char)
  | '(' :: r => some (.lparen, r)
  | ')' :: r => some (.rparen, r)
  | '[' :: r => some (.lbrack, r)
  | ']' :: r => some (.rbrack, r)
  | '{' :: r => some (.lbrace, r)
  | '}' :: r => some (.rbrace, r)
  | ',' :: r => some (.comma, r)
  | ';' :: r => some (.semi, r)
  | '#' :: r => some (.hash, r)
  | '*' :: r => some (.op .times, r)
  | '|' :: '|' :: _ => none
  | '|' :: r => some (.bar, r)
  | ':' :: ':' :: _ => none
  | ':' :: '=' :: _ => none
  | ':' :: r => some (.colon, r)
  | '+' :: '+' :: _ => none
  | '+' :: r => some (.op .plus, r)
  | '-' :: '-' :: _ => none
  | '-' :: '>' :: r => some (.arrow, r)
  | '-' :: r => some (.op .minus, r)
  | '/' :: '=' :: r => some (.op .ne, r)
  | '/' :: r => some (.op .slash, r)
  | '<' :: '<' :: r => some (.ltlt, r)
  | '<' :: '-' :: _ => none
  | '<' :: '=' :: _ => none
  | '<' :: r => some (.op .lt, r)
  | '>' :: '>' :: r => some (.gtgt, r)
  | '>' :: '=' :: r => some (.op .ge, r)
  | '>' :: r => some (.op .gt, r)
  | '=' :: '<' :: r => some (.op .le, r)
  | '=' :: '>' :: r => some (.assoc, r)
  | '=' :: ':' :: '=' :: r => some (.op .exact, r)
  | '=' :: '/' :: '=' :: r => some (.op .notExact, r)
  | '=' :: '=' :: _ => none
  | '=' :: r => some (.op .bind, r)
  | _ => none

/-- A number: digits, or digits, a point and digits. Bases, exponents and digits run into a name are rejected. -/
def number (cs : List Char) : Option (Tok × List Char) :=
  let whole := cs.takeWhile isDigit
  let after (t : Tok) (r : List Char) : Option (Tok × List Char) :=
    match r with
    | c :: _ => if isNameChar c || c = '#' then none else some (t, r)
    | [] => some (t, r)
  match cs.dropWhile isDigit with
  | '.' :: d :: r =>
    if isDigit d then
      after (.float whole ((d :: r).takeWhile isDigit)) ((d :: r).dropWhile isDigit)
    else some (.int (whole.foldl (fun n c => n * 10 + (c.toNat - 48)) 0), '.' :: d :: r)
  | r => after (.int (whole.foldl (fun n c => n * 10 + (c.toNat - 48)) 0)) r

/-- The `.` that ends a form is followed by white space, or by nothing. -/
def fullStop : List Char → Option (Tok × List Char)
  | [] => some (.dot, [])
  | c :: cs => if isSpace c then some (.dot, c :: cs) else none

/-- A sigil `~"…"` with no modifier after it. -/
def sigil (cs : List Char) : Option (Tok × List Char) :=
  match quoted '"' cs with
  | some (s, []) => some (.sigil s, [])
  | some (s, c :: r) => if isNameChar c then none else some (.sigil s, c :: r)
  | none => none

/-- A quoted atom. Those with a backslash are rejected. -/
def quotedAtom (cs : List Char) : Option (Tok × List Char) :=
  match quoted '\'' cs with
  | some (s, r) => if '\\' ∈ s then none else some (.atom s, r)
  | none => none

/-- The next token of a text that does not start with white space. -/
def next : List Char → Option (Tok × List Char)
  | [] => none
  | c :: cs =>
    if isSmall c then
      some (wordOrAtom (c :: cs.takeWhile isNameChar), cs.dropWhile isNameChar)
    else if isCapital c || c = '_' then
      some (.var (c :: cs.takeWhile isNameChar), cs.dropWhile isNameChar)
    else if isDigit c then number (c :: cs)
    else if c = '"' then (quoted '"' cs).map fun (s, r) => (.string s, r)
    else if c = '\'' then quotedAtom cs
    else if c = '~' then
      match cs with
      | '"' :: r => sigil r
      | _ => none
    else if c = '.' then fullStop cs
    else punctuation (c :: cs)

def scanLoop : Nat → List Char → Option (List Tok)
  | _, [] => some []
  | 0, _ :: _ => none
  | n + 1, c :: cs =>
    if isSpace c then scanLoop n cs
    else
      match next (c :: cs) with
      | some (t, r) => (scanLoop n r).map fun ts => t :: ts
      | none => none

/-- The tokens of a text; each token takes at least one character. -/
def scan (cs : List Char) : Option (List Tok) := scanLoop cs.length cs

/-! ### Syntax trees -/

mutual

/-- Expressions and patterns. -/
inductive Ast where
  | var (name : List Char)
  | atom (name : List Char)
  | int (n : Nat)
  | float (whole fraction : List Char)
  | string (content : List Char)
  | sigil (content : List Char)
  | nil
  | cons (head tail : Ast)
  | tuple (items : List Ast)
  | bits (segments : List AstSegment)
  | map (fields : List AstField)
  | block (body : List Ast)
  /-- `module:function`. -/
  | remote (module function : Ast)
  | call (called : Ast) (arguments : List Ast)
  | function (parameters : List (List Char)) (body : List Ast)
  | reference (module : Option (List Char)) (name : List Char) (arity : Nat)
  | unary (op : Op) (operand : Ast)
  | binary (op : Op) (left right : Ast)
  | case_ (subject : Ast) (clauses : List AstClause)

inductive AstSegment where
  | mk (value : Ast) (size : Option Ast) (types : List (List Char × Option Nat))

inductive AstField where
  | mk (key value : Ast)

inductive AstClause where
  | mk (pattern : Ast) (guard : Option Ast) (body : List Ast)

end

inductive AstForm where
  | attribute (name : List Char) (arguments : List Ast)
  | function (name : List Char) (parameters : List (List Char)) (body : List Ast)

/-! ### The parser

The grammar is read by recursive descent, with the precedence of binary operators as in the declarations at the
top of `erl_parse.yrl`. The first argument of each function bounds the depth of the recursion. -/

inductive Assoc where
  | left
  | right
  | none
  deriving DecidableEq, Repr

/-- The precedence and associativity of the binary operators. -/
def Op.precedence : Op → Option (Nat × Assoc)
  | .bind => some (100, .right)
  | .orelse => some (150, .right)
  | .andalso => some (160, .right)
  | .lt | .le | .exact | .ne | .notExact | .gt | .ge => some (200, .none)
  | .plus | .minus => some (400, .left)
  | .times | .slash | .div | .rem => some (500, .left)
  | .not => Option.none

/-- `prefix_op`: the unary operators. -/
def Op.prefix : Op → Bool
  | .plus | .minus | .not => true
  | _ => false

/-- `bit_type_list`. -/
def types : List Tok → Option (List (List Char × Option Nat) × List Tok)
  | .atom a :: .colon :: .int n :: .op .minus :: r => (types r).map fun (l, r) => ((a, some n) :: l, r)
  | .atom a :: .colon :: .int n :: r => some ([(a, some n)], r)
  | .atom a :: .op .minus :: r => (types r).map fun (l, r) => ((a, none) :: l, r)
  | .atom a :: r => some ([(a, none)], r)
  | _ => none

/-- The parameters of a function up to the closing parenthesis; the generated code has variables only. -/
def parameters : List Tok → Option (List (List Char) × List Tok)
  | .var v :: .rparen :: r => some ([v], r)
  | .var v :: .comma :: r => (parameters r).map fun (l, r) => (v :: l, r)
  | _ => none

/-- `pat_argument_list`, after the opening parenthesis. -/
def parameterList : List Tok → Option (List (List Char) × List Tok)
  | .rparen :: r => some ([], r)
  | ts => parameters ts

/-- Whether the tokens start with a binary operator of a precedence. -/
def continuesAt (p : Nat) : List Tok → Bool
  | .op o :: _ =>
    match o.precedence with
    | some (q, _) => p = q
    | none => false
  | _ => false

mutual

/-- `expr_max`. -/
def primary : Nat → List Tok → Option (Ast × List Tok)
  | 0, _ => none
  | n + 1, ts =>
    match ts with
    | .var v :: r => some (.var v, r)
    | .atom a :: r => some (.atom a, r)
    | .int i :: r => some (.int i, r)
    | .float w f :: r => some (.float w f, r)
    | .string s :: r => some (.string s, r)
    | .sigil s :: r => some (.sigil s, r)
    | .lparen :: r =>
      match expression n 0 r with
      | some (e, .rparen :: r) => some (e, r)
      | _ => none
    | .lbrack :: .rbrack :: r => some (.nil, r)
    | .lbrack :: r =>
      match expression n 0 r with
      | some (h, r) =>
        match tail n r with
        | some (t, r) => some (.cons h t, r)
        | none => none
      | none => none
    | .lbrace :: .rbrace :: r => some (.tuple [], r)
    | .lbrace :: r =>
      match expressions n r with
      | some (es, .rbrace :: r) => some (.tuple es, r)
      | _ => none
    | .ltlt :: .gtgt :: r => some (.bits [], r)
    | .ltlt :: r =>
      match segments n r with
      | some (ss, .gtgt :: r) => some (.bits ss, r)
      | _ => none
    | .word .begin :: r =>
      match expressions n r with
      | some (es, .word .end_ :: r) => some (.block es, r)
      | _ => none
    | .word .case_ :: r =>
      match expression n 0 r with
      | some (s, .word .of :: r) =>
        match clauses n r with
        | some (cs, .word .end_ :: r) => some (.case_ s cs, r)
        | _ => none
      | _ => none
    | .word .fun_ :: .lparen :: r =>
      match parameterList r with
      | some (ps, .arrow :: r) =>
        match expressions n r with
        | some (es, .word .end_ :: r) => some (.function ps es, r)
        | _ => none
      | _ => none
    | .word .fun_ :: .atom f :: .op .slash :: .int a :: r => some (.reference none f a, r)
    | .word .fun_ :: .atom m :: .colon :: .atom f :: .op .slash :: .int a :: r => some (.reference (some m) f a, r)
    | _ => none

/-- `tail` of a list. -/
def tail : Nat → List Tok → Option (Ast × List Tok)
  | 0, _ => none
  | n + 1, ts =>
    match ts with
    | .rbrack :: r => some (.nil, r)
    | .bar :: r =>
      match expression n 0 r with
      | some (e, .rbrack :: r) => some (e, r)
      | _ => none
    | .comma :: r =>
      match expression n 0 r with
      | some (h, r) =>
        match tail n r with
        | some (t, r) => some (.cons h t, r)
        | none => none
      | none => none
    | _ => none

/-- `argument_list`, if there is one. -/
def arguments : Nat → Ast → List Tok → Option (Ast × List Tok)
  | 0, _, _ => none
  | n + 1, f, ts =>
    match ts with
    | .lparen :: .rparen :: r => some (.call f [], r)
    | .lparen :: r =>
      match expressions n r with
      | some (es, .rparen :: r) => some (.call f es, r)
      | _ => none
    | r => some (f, r)

/-- `map_expr`, `function_call` and `expr_remote`. -/
def application : Nat → List Tok → Option (Ast × List Tok)
  | 0, _ => none
  | n + 1, ts =>
    match ts with
    | .hash :: .lbrace :: .rbrace :: r => some (.map [], r)
    | .hash :: .lbrace :: r =>
      match fields n r with
      | some (fs, .rbrace :: r) => some (.map fs, r)
      | _ => none
    | _ =>
      match primary n ts with
      | some (m, .colon :: r) =>
        match primary n r with
        | some (f, r) => arguments n (.remote m f) r
        | none => none
      | some (f, r) => arguments n f r
      | none => none

/-- An expression without a binary operator at the top. -/
def operand : Nat → List Tok → Option (Ast × List Tok)
  | 0, _ => none
  | n + 1, ts =>
    match ts with
    | .op o :: r =>
      if o.prefix then
        match operand n r with
        | some (e, r) => some (.unary o e, r)
        | none => none
      else none
    | ts => application n ts

/-- `expr`, made of operators of at least a precedence. -/
def expression : Nat → Nat → List Tok → Option (Ast × List Tok)
  | 0, _, _ => none
  | n + 1, p, ts =>
    match operand n ts with
    | some (l, r) => climb n p l r
    | none => none

/-- What follows the left operand of an expression. -/
def climb : Nat → Nat → Ast → List Tok → Option (Ast × List Tok)
  | 0, _, _, _ => none
  | n + 1, p, l, ts =>
    match ts with
    | .op o :: r =>
      match o.precedence with
      | some (q, assoc) =>
        if q < p then some (l, ts)
        else
          match expression n (if assoc = .right then q else q + 1) r with
          | some (e, r) =>
            if assoc = .none && continuesAt q r then none else climb n p (.binary o l e) r
          | none => none
      | none => some (l, ts)
    | ts => some (l, ts)

/-- `exprs`. -/
def expressions : Nat → List Tok → Option (List Ast × List Tok)
  | 0, _ => none
  | n + 1, ts =>
    match expression n 0 ts with
    | some (e, .comma :: r) =>
      match expressions n r with
      | some (es, r) => some (e :: es, r)
      | none => none
    | some (e, r) => some ([e], r)
    | none => none

/-- `bin_element`: `bit_expr`, then an optional size, then optional types. -/
def segment : Nat → List Tok → Option (AstSegment × List Tok)
  | 0, _ => none
  | n + 1, ts =>
    match bitExpression n ts with
    | some (v, .colon :: r) =>
      match primary n r with
      | some (s, .op .slash :: r) =>
        match types r with
        | some (l, r) => some (.mk v (some s) l, r)
        | none => none
      | some (s, r) => some (.mk v (some s) [], r)
      | none => none
    | some (v, .op .slash :: r) =>
      match types r with
      | some (l, r) => some (.mk v none l, r)
      | none => none
    | some (v, r) => some (.mk v none [], r)
    | none => none

/-- `bit_expr`. -/
def bitExpression : Nat → List Tok → Option (Ast × List Tok)
  | 0, _ => none
  | n + 1, ts =>
    match ts with
    | .op o :: r =>
      if o.prefix then
        match primary n r with
        | some (e, r) => some (.unary o e, r)
        | none => none
      else none
    | ts => primary n ts

/-- `bin_elements`. -/
def segments : Nat → List Tok → Option (List AstSegment × List Tok)
  | 0, _ => none
  | n + 1, ts =>
    match segment n ts with
    | some (s, .comma :: r) =>
      match segments n r with
      | some (ss, r) => some (s :: ss, r)
      | none => none
    | some (s, r) => some ([s], r)
    | none => none

/-- `map_fields`, of the form `key => value`. -/
def fields : Nat → List Tok → Option (List AstField × List Tok)
  | 0, _ => none
  | n + 1, ts =>
    match expression n 0 ts with
    | some (k, .assoc :: r) =>
      match expression n 0 r with
      | some (v, .comma :: r) =>
        match fields n r with
        | some (fs, r) => some (.mk k v :: fs, r)
        | none => none
      | some (v, r) => some ([.mk k v], r)
      | none => none
    | _ => none

/-- `cr_clause`: a pattern, a guard of at most one test, and a body. -/
def clause : Nat → List Tok → Option (AstClause × List Tok)
  | 0, _ => none
  | n + 1, ts =>
    match expression n 0 ts with
    | some (p, .arrow :: r) =>
      match expressions n r with
      | some (es, r) => some (.mk p none es, r)
      | none => none
    | some (p, .word .when :: r) =>
      match expression n 0 r with
      | some (g, .arrow :: r) =>
        match expressions n r with
        | some (es, r) => some (.mk p (some g) es, r)
        | none => none
      | _ => none
    | _ => none

/-- `cr_clauses`. -/
def clauses : Nat → List Tok → Option (List AstClause × List Tok)
  | 0, _ => none
  | n + 1, ts =>
    match clause n ts with
    | some (c, .semi :: r) =>
      match clauses n r with
      | some (cs, r) => some (c :: cs, r)
      | none => none
    | some (c, r) => some ([c], r)
    | none => none

end

/-- An attribute or a function of one clause. -/
def form (n : Nat) : List Tok → Option (AstForm × List Tok)
  | .op .minus :: .atom a :: .lparen :: r =>
    match expressions n r with
    | some (es, .rparen :: .dot :: r) => some (.attribute a es, r)
    | _ => none
  | .atom f :: .lparen :: r =>
    match parameterList r with
    | some (ps, .arrow :: r) =>
      match expressions n r with
      | some (es, .dot :: r) => some (.function f ps es, r)
      | _ => none
    | _ => none
  | _ => none

/-- The forms of a module, up to the end of the tokens. -/
def forms : Nat → List Tok → Option (List AstForm)
  | 0, _ => none
  | _ + 1, [] => some []
  | n + 1, t :: ts =>
    match form n (t :: ts) with
    | some (f, r) => (forms n r).map fun fs => f :: fs
    | none => none

/-- The text is read as these forms, whatever the bound on the depth, once it is large enough. -/
def Reads (code : List Char) (fs : List AstForm) : Prop :=
  ∃ ts, scan code = some ts ∧ ∃ n, ∀ m, n ≤ m → forms m ts = some fs

/-- The text is not read as anything: it is a syntax error. -/
def Rejected (code : List Char) : Prop :=
  scan code = none ∨ ∃ ts, scan code = some ts ∧ ∀ n, forms n ts = none

/-! Some texts. -/

def readText (n : Nat) (s : String) : Option (List AstForm) := (scan s.toList).bind (forms n)

end Verif.ErlText.Read
