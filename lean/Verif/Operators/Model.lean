/-
Model of operator parsing in `/repo/compiler-core/src/parse.rs` and of operator printing in
`/repo/format/src/lib.rs`.

Tokens carry no positions (`Spanned` is the token alone); operands of expressions, constants and bit array sizes
are opaque atoms, guards have their full operand syntax up to the leaves.
-/
namespace Verif.Operators

/-- `compiler-core/src/parse/token.rs` `enum Token`: the operator tokens, the brackets and `!` that matter for guards;
`atom` stands for the tokens of an operand, `other` for all remaining tokens. -/
inductive Tok where
  | vbarVbar | amperAmper | equalEqual | notEqual
  | less | lessEqual | greater | greaterEqual | lessDot | lessEqualDot | greaterDot | greaterEqualDot
  | concatenate | pipe
  | plus | minus | plusDot | minusDot | star | starDot | slash | slashDot | percent
  | bang | leftBrace | rightBrace
  | atom (n : Nat)
  | other (n : Nat)
deriving DecidableEq, Repr

/-- `compiler-core/src/parse/token.rs` `Display for Token`: the operator tokens. -/
def Tok.spelling : Tok → String
  | .vbarVbar => "||" | .amperAmper => "&&" | .equalEqual => "==" | .notEqual => "!="
  | .less => "<" | .lessEqual => "<=" | .greater => ">" | .greaterEqual => ">="
  | .lessDot => "<." | .lessEqualDot => "<=." | .greaterDot => ">." | .greaterEqualDot => ">=."
  | .concatenate => "<>" | .pipe => "|>"
  | .plus => "+" | .minus => "-" | .plusDot => "+." | .minusDot => "-."
  | .star => "*" | .starDot => "*." | .slash => "/" | .slashDot => "/." | .percent => "%"
  | .bang => "!" | .leftBrace => "{" | .rightBrace => "}"
  | .atom _ | .other _ => ""

/-- `compiler-core/src/ast.rs` `enum BinOp`. -/
inductive BinOp where
  | and | or | eq | notEq
  | ltInt | ltEqInt | ltFloat | ltEqFloat | gtEqInt | gtInt | gtEqFloat | gtFloat
  | addInt | addFloat | subInt | subFloat | multInt | multFloat | divInt | divFloat | remainderInt
  | concatenate
deriving DecidableEq, Repr

/-- `ast.rs:1412-1440` `BinOp::precedence`. -/
def BinOp.precedence : BinOp → Nat
  | .or => 1
  | .and => 2
  | .eq | .notEq => 3
  | .ltInt | .ltEqInt | .ltFloat | .ltEqFloat | .gtEqInt | .gtInt | .gtEqFloat | .gtFloat => 4
  | .concatenate => 5
  | .addInt | .addFloat | .subInt | .subFloat => 7
  | .multInt | .multFloat | .divInt | .divFloat | .remainderInt => 8

/-- `parse.rs:4959-5037` `token_to_binop`. -/
def tokenToBinop : Tok → Option BinOp
  | .vbarVbar => some .or
  | .amperAmper => some .and
  | .equalEqual => some .eq
  | .notEqual => some .notEq
  | .less => some .ltInt
  | .lessEqual => some .ltEqInt
  | .greater => some .gtInt
  | .greaterEqual => some .gtEqInt
  | .lessDot => some .ltFloat
  | .lessEqualDot => some .ltEqFloat
  | .greaterDot => some .gtFloat
  | .greaterEqualDot => some .gtEqFloat
  | .plus => some .addInt
  | .minus => some .subInt
  | .plusDot => some .addFloat
  | .minusDot => some .subFloat
  | .percent => some .remainderInt
  | .star => some .multInt
  | .starDot => some .multFloat
  | .slash => some .divInt
  | .slashDot => some .divFloat
  | .concatenate => some .concatenate
  | _ => none

/-- `parse.rs:4952-4957` `precedence`. -/
def precedence (t : Tok) : Option Nat :=
  if t = .pipe then some 6 else (tokenToBinop t).map BinOp.precedence

/-- `parse/token.rs:114-200` `guard_precedence`. -/
def guardPrecedence : Tok → Option Nat
  | .vbarVbar => some 1
  | .amperAmper => some 2
  | .equalEqual | .notEqual => some 3
  | .less | .lessEqual | .lessDot | .lessEqualDot | .greaterEqual | .greater | .greaterEqualDot | .greaterDot => some 4
  | .concatenate => some 5
  | .plus | .plusDot | .minus | .minusDot => some 6
  | .star | .starDot | .slash | .slashDot | .percent => some 7
  | _ => none

/-- `ast.rs:2916-2940` `IntOperator` and its precedence, `parse.rs:5039-5045` `token_to_bit_array_size_operator`. -/
def bitSizePrecedence : Tok → Option Nat
  | .plus | .minus => some 7
  | .star | .slash | .percent => some 8
  | _ => none

/-- What `handle_operator` does to the stacks: the value returned (only with no next operator) and the stacks;
`none` is a panic. -/
abbrev Handled (A : Type) := Option (Option A × List (Tok × Nat) × List A)

/-- `do_reduce_expression`, `do_reduce_clause_guard`, `do_reduce_constant`, `reduce_bit_array_size`
(`parse.rs:5120-5171`): pop the right and the left operand, push the combination; `none` is a panic. Stacks are lists
with the top first. -/
def doReduce {A : Type} (combine : Tok → A → A → Option A) (op : Tok) : List A → Option (List A)
  | right :: left :: rest => (combine op left right).map (· :: rest)
  | _ => none

/-- `parse.rs:4911-4946` `handle_operator` with no next operator: reduce everything. -/
def handleEnd {A : Type} (combine : Tok → A → A → Option A) : List (Tok × Nat) → List A → Handled A
  | [], [] => some (none, [], [])
  | [], [fin] => some (some fin, [], [])
  | [], _ => none
  | (op, _) :: ops, es => (doReduce combine op es).bind fun es => handleEnd combine ops es

/-- `parse.rs:4911-4946` `handle_operator` with a next operator. -/
def handleNext {A : Type} (combine : Tok → A → A → Option A) (next : Tok × Nat) :
    List (Tok × Nat) → List A → Handled A
  | [], es => some (none, [next], es)
  | (op, p) :: ops, es =>
    if next.2 ≤ p then (doReduce combine op es).bind fun es => handleNext combine next ops es
    else some (none, next :: (op, p) :: ops, es)

/-- Result of parsing an operand: an operand and the remaining tokens, no operand here, or a syntax error. -/
inductive UnitResult (A : Type) where
  | found (a : A) (rest : List Tok)
  | missing
  | error

/-- Result of parsing an expression: `Ok(Some(..))`, `Ok(None)`, `Err(..)`, a panic. -/
inductive Parsed (A : Type) where
  | ok (a : A) (rest : List Tok)
  | nothing
  | error
  | panic

/-- `parse.rs:484-490`: after the loop. -/
def finish {A : Type} (combine : Tok → A → A → Option A) (ops : List (Tok × Nat)) (es : List A) (toks : List Tok) :
    Parsed A :=
  match handleEnd combine ops es with
  | some (some e, _, _) => .ok e toks
  | some (none, _, _) => .nothing
  | none => .panic

/-- `parse.rs:438-483` (also `1795-1842`, `3388-3434`): the loop; `fuel` bounds the number of operands (the length
of the input suffices, see `parse_grouped`). -/
def loop {A : Type} (unit : List Tok → UnitResult A) (prec : Tok → Option Nat) (combine : Tok → A → A → Option A) :
    Nat → List (Tok × Nat) → List A → List Tok → Parsed A
  | 0, _, _, _ => .panic
  | fuel + 1, ops, es, toks =>
    match unit toks with
    | .error => .error
    | .missing => if es.isEmpty then .nothing else .error
    | .found u [] => finish combine ops (u :: es) []
    | .found u (t :: rest) =>
      match prec t with
      | none => finish combine ops (u :: es) (t :: rest)
      | some p =>
        match handleNext combine (t, p) ops (u :: es) with
        | none => .panic
        | some (_, ops, es) => loop unit prec combine fuel ops es rest

/-- `parse_expression_inner`, `parse_clause_guard_inner`, `parse_const_value` as a whole. -/
def parseWith {A : Type} (unit : List Tok → UnitResult A) (prec : Tok → Option Nat)
    (combine : Tok → A → A → Option A) (toks : List Tok) : Parsed A :=
  loop unit prec combine (toks.length + 1) [] [] toks

/-! ### Expressions -/

/-- `compiler-core/src/ast/untyped.rs` `UntypedExpr`: binary operations, pipelines (a `Vec1`: first element
and the others), and anything else as `unit`. -/
inductive Expr where
  | unit (n : Nat)
  | binOp (operator : BinOp) (left right : Expr)
  | pipeline (first : Expr) (more : List Expr)

/-- `parse.rs:5178-5185`. -/
def pipelineReduction : Expr → Expr → Expr
  | .pipeline first more, right => .pipeline first (more ++ [right])
  | left, right => .pipeline left [right]

/-- `parse.rs:5173-5204` `expression_operator_reduction`. -/
def expressionReduction (op : Tok) (left right : Expr) : Option Expr :=
  if op = .pipe then some (pipelineReduction left right)
  else (tokenToBinop op).map fun o => .binOp o left right

/-- `parse.rs:515-` `parse_expression_unit`, operands being opaque. -/
def expressionUnit : List Tok → UnitResult Expr
  | .atom n :: rest => .found (.unit n) rest
  | _ => .missing

/-- `parse.rs:421-490` `parse_expression`. -/
def parseExpression (toks : List Tok) : Parsed Expr :=
  parseWith expressionUnit precedence expressionReduction toks

/-! ### Constants and bit array sizes -/

/-- `compiler-core/src/ast/constant.rs` `Constant::BinaryOperator`, `ast.rs` `BitArraySize::BinaryOperator`. -/
inductive Simple where
  | unit (n : Nat)
  | binary (operator : Tok) (left right : Simple)
deriving DecidableEq, Repr

def simpleUnit : List Tok → UnitResult Simple
  | .atom n :: rest => .found (.unit n) rest
  | _ => .missing

/-- `parse.rs:5226-5247` `constant_binop_reduction`. -/
def constantReduction (op : Tok) (left right : Simple) : Option Simple :=
  (tokenToBinop op).map fun _ => .binary op left right

/-- `parse.rs:5153-5171` `reduce_bit_array_size`. -/
def bitSizeReduction (op : Tok) (left right : Simple) : Option Simple :=
  (bitSizePrecedence op).map fun _ => .binary op left right

/-- `parse.rs:3381-3441` `parse_const_value`; a pipe is an error, here a token that is not an operator. -/
def constantPrecedence (t : Tok) : Option Nat := if t = .pipe then none else precedence t

def parseConstant (toks : List Tok) : Parsed Simple := parseWith simpleUnit constantPrecedence constantReduction toks

/-- `parse.rs:4090-4122` `expect_bit_array_size` (`nothing` is an error there). -/
def parseBitSize (toks : List Tok) : Parsed Simple := parseWith simpleUnit bitSizePrecedence bitSizeReduction toks

/-! ### Guards -/

/-- `ast.rs` `ClauseGuard`; variables, accesses and constants are atoms. -/
inductive Guard where
  | atom (n : Nat)
  | not (expression : Guard)
  | block (value : Guard)
  | binary (operator : BinOp) (left right : Guard)
deriving DecidableEq, Repr

/-- `parse.rs:5206-5224` `clause_guard_reduction`. -/
def guardReduction (op : Tok) (left right : Guard) : Option Guard :=
  (tokenToBinop op).map fun o => .binary o left right

/-- `parse.rs:1889-1901`: after `!`. -/
def notResult : UnitResult Guard → UnitResult Guard
  | .found g rest => .found (.not g) rest
  | _ => .error

/-- `parse.rs:2010-2033` `parse_case_clause_guard_block`: after `{`. -/
def blockResult : Parsed Guard → UnitResult Guard
  | .ok g (.rightBrace :: rest) => .found (.block g) rest
  | _ => .error

/-- `parse.rs:1886-2033` `parse_case_clause_guard_unit`. -/
def guardUnit : Nat → List Tok → UnitResult Guard
  | 0, _ => .error
  | _ + 1, .atom n :: rest => .found (.atom n) rest
  | fuel + 1, .bang :: rest => notResult (guardUnit fuel rest)
  | fuel + 1, .leftBrace :: rest => blockResult (parseWith (guardUnit fuel) guardPrecedence guardReduction rest)
  | _ + 1, _ => .missing

/-- `parse.rs:1797-1849` `parse_clause_guard_inner`, called after `if`. -/
def parseGuard (toks : List Tok) : Parsed Guard :=
  parseWith (guardUnit (toks.length + 1)) guardPrecedence guardReduction toks

/-! ### Printing -/

/-- `format/src/lib.rs` `binop`: how an operator is written. -/
def binopTok : BinOp → Tok
  | .and => .amperAmper
  | .or => .vbarVbar
  | .eq => .equalEqual
  | .notEq => .notEqual
  | .ltInt => .less
  | .ltEqInt => .lessEqual
  | .ltFloat => .lessDot
  | .ltEqFloat => .lessEqualDot
  | .gtEqInt => .greaterEqual
  | .gtInt => .greater
  | .gtEqFloat => .greaterEqualDot
  | .gtFloat => .greaterDot
  | .addInt => .plus
  | .addFloat => .plusDot
  | .subInt => .minus
  | .subFloat => .minusDot
  | .multInt => .star
  | .multFloat => .starDot
  | .divInt => .slash
  | .divFloat => .slashDot
  | .remainderInt => .percent
  | .concatenate => .concatenate

/-- `format/src/lib.rs:2026-2038` `operator_side` (layout dropped). -/
def operatorSide (doc : List Tok) (op side : Nat) : List Tok :=
  if side < op then .leftBrace :: doc ++ [.rightBrace] else doc

/-- `ast.rs:2549-2555` `ClauseGuard::precedence`. -/
def Guard.precedence : Guard → Nat
  | .binary op _ _ => op.precedence
  | _ => 255

/-- `format/src/lib.rs:3308-3360` `clause_guard`, `3250-3306` `clause_guard_bin_op(_side)`. -/
def printGuard : Guard → List Tok
  | .atom n => [.atom n]
  | .not g => .bang :: printGuard g
  | .block g => .leftBrace :: printGuard g ++ [.rightBrace]
  | .binary op l r =>
    operatorSide (printGuard l) op.precedence l.precedence ++
    binopTok op :: operatorSide (printGuard r) op.precedence (r.precedence - 1)

/-- `ast/untyped.rs:217-240` `bin_op_precedence`. -/
def Expr.binOpPrecedence : Expr → Nat
  | .binOp op _ _ => op.precedence
  | .pipeline _ _ => 5
  | .unit _ => 255

/-- `ast.rs:1442-1492` `operator_kind`, `can_be_grouped_with`: operators of the same kind. -/
def BinOp.kind : BinOp → Nat
  | .and | .or => 0
  | .eq | .notEq => 1
  | .ltInt | .ltEqInt | .gtEqInt | .gtInt => 2
  | .ltFloat | .ltEqFloat | .gtEqFloat | .gtFloat => 3
  | .addInt | .subInt | .multInt | .remainderInt | .divInt => 4
  | .addFloat | .subFloat | .multFloat | .divFloat => 5
  | .concatenate => 6

/-- `format/src/lib.rs:1989-2023`: the side is left as it is if it is an operation of the same kind. -/
def binOpSide (doc : List Tok) (op : BinOp) : Expr → List Tok
  | .binOp side _ _ => if side.kind = op.kind then doc else operatorSide doc op.precedence side.precedence
  | side => operatorSide doc op.precedence side.binOpPrecedence

mutual
/-- `format/src/lib.rs` `expr`, `1866-1893` `bin_op`, `2073-2121` `pipeline` (layout and comments dropped). -/
def printExpr : Expr → List Tok
  | .unit n => [.atom n]
  | .binOp op l r => binOpSide (printExpr l) op l ++ binopTok op :: binOpSide (printExpr r) op r
  | .pipeline e es => operatorSide (printExpr e) 5 e.binOpPrecedence ++ printSteps es
/-- `format/src/lib.rs:2097-2114`: the steps after the first. -/
def printSteps : List Expr → List Tok
  | [] => []
  | e :: es => .pipe :: operatorSide (printExpr e) 4 e.binOpPrecedence ++ printSteps es
end

end Verif.Operators
