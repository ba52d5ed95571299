import Verif.ErlText.Text
import Verif.ErlText.Meaning

/-! # The tokens of a term -/

namespace Verif.ErlText

open Read

def parenToks (b : Bool) (ts : List Tok) : List Tok := if b then .lparen :: (ts ++ [.rparen]) else ts

def Ctx.restToks (c : Ctx) (ts : List Tok) : List Tok := if c.tail then .bar :: (ts ++ [.rbrack]) else ts

def intToks : Int → List Tok
  | .ofNat n => [.int n]
  | .negSucc n => [.op .minus, .int (n + 1)]

def Sign.toks : Sign → List Tok
  | .none => []
  | .plus => [.op .plus]
  | .minus => [.op .minus]

def Spec.toks : Spec → List Tok
  | .unit n => [.atom "unit".toList, .colon, .int n]
  | s => [.atom s.text]

def specToks : Bool → List Spec → List Tok
  | _, [] => []
  | first, s :: ss => (if first then .op .slash else .op .minus) :: (s.toks ++ specToks false ss)

def parameterToks : List Text → List Tok
  | [] => []
  | [n] => [.var n]
  | n :: ns => .var n :: .comma :: parameterToks ns

def moduleToks : Option Text → List Tok
  | some m => [.atom m, .colon]
  | none => []

def sepToks (sep : Tok) (first : Bool) : List Tok := if first then [] else [sep]

mutual

def Term.toks (k : Kind) (c : Ctx) : Term → List Tok
  | .var name => c.restToks [.var name]
  | .discard => c.restToks [.var ['_']]
  | .int n => c.restToks (intToks n)
  | .float sign whole fraction => c.restToks (sign.toks ++ [.float whole fraction])
  | .string content =>
    c.restToks [if c.value then .string (Strings.escapeErlang 0 content) else .sigil (Strings.escapeErlang 0 content)]
  | .atom name => c.restToks [.atom name]
  | .nil => if c.tail then [.rbrack] else [.lbrack, .rbrack]
  | .cons head tail =>
    (if c.tail then .comma else .lbrack) :: (head.toks k plain ++ tail.toks k { tail := true })
  | .tuple items => c.restToks (.lbrace :: (toksAll k true items ++ [.rbrace]))
  | .bits segments => c.restToks (.ltlt :: (segmentToks k true segments ++ [.gtgt]))
  | .map fields => c.restToks (.hash :: .lbrace :: (fieldToks true fields ++ [.rbrace]))
  | .block body => c.restToks (.word .begin :: (toksAll .expression true body ++ [.word .end_]))
  | .call called arguments =>
    c.restToks (parenToks called.isCall (called.toks .expression plain) ++
      .lparen :: (toksAll .expression true arguments ++ [.rparen]))
  | .remote module function arguments =>
    c.restToks (.atom module :: .colon :: .atom function :: .lparen :: (toksAll .expression true arguments ++ [.rparen]))
  | .function parameters body =>
    c.restToks (.word .fun_ :: .lparen :: (parameterToks parameters ++
      .rparen :: .arrow :: (toksAll .expression true body ++ [.word .end_])))
  | .reference module name arity =>
    c.restToks (.word .fun_ :: (moduleToks module ++ [.atom name, .op .slash, .int arity]))
  | .unary op operand =>
    c.restToks (.op op.op :: operand.toks .expression { operand := true, value := c.value })
  | .binary op left right =>
    c.restToks (parenToks c.operand (left.toks .expression { operand := true } ++
      .op op.op :: right.toks .expression { operand := true }))
  | .bind left right => c.restToks (left.toks .pattern plain ++ .op .bind :: right.toks k { value := c.value })
  | .case_ subject clauses =>
    c.restToks (.word .case_ :: (subject.toks .expression plain ++
      .word .of :: (clauseToks true clauses ++ [.word .end_])))

def toksAll (k : Kind) (first : Bool) : List Term → List Tok
  | [] => []
  | t :: ts => sepToks .comma first ++ (t.toks k plain ++ toksAll k false ts)

def segmentToks (k : Kind) (first : Bool) : List Segment → List Tok
  | [] => []
  | .mk value none specs :: ss =>
    sepToks .comma first ++ (parenToks (!value.bare k) (value.toks k { value := true }) ++
      (specToks true (sortSpecs specs) ++ segmentToks k false ss))
  | .mk value (some size) specs :: ss =>
    sepToks .comma first ++ (parenToks (!value.bare k) (value.toks k { value := true }) ++
      .colon :: (parenToks (!size.bare .expression) (size.toks .expression plain) ++
      (specToks true (sortSpecs specs) ++ segmentToks k false ss)))

def fieldToks (first : Bool) : List Field → List Tok
  | [] => []
  | .mk key value :: fs =>
    sepToks .comma first ++ (key.toks .expression plain ++ .assoc :: (value.toks .expression plain ++ fieldToks false fs))

def clauseToks (first : Bool) : List Clause → List Tok
  | [] => []
  | .mk pattern none body :: cs =>
    sepToks .semi first ++ (pattern.toks .pattern plain ++ .arrow :: (toksAll .expression true body ++ clauseToks false cs))
  | .mk pattern (some guard) body :: cs =>
    sepToks .semi first ++ (pattern.toks .pattern plain ++ .word .when :: (guard.toks .expression plain ++
      .arrow :: (toksAll .expression true body ++ clauseToks false cs)))

end

end Verif.ErlText
