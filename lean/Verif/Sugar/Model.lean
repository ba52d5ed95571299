import Verif.Sugar.Syntax

/-!
# How the compiler takes the notations apart

`/repo/compiler-core/src/parse.rs` `make_call`, `type_/pipe.rs`, and of `type_/expression.rs` `infer_use`,
`UseAssignments` and `infer_record_update`: from programs as they are written to typed programs (`ErlGen/Syntax.lean`). Types
are left out, except that the number of parameters of a called function is given where `pipe.rs` asks for it.
-/

namespace Verif.Sugar

open Verif.ErlText (Text)
open Verif.ErlGen (Loc Pattern)

/-- `ast.rs:44`. -/
def pipeVariable : Text := "_pipe".toList

/-- `ast.rs:45`. -/
def useVariable (index : Nat) : Text := "_use".toList ++ Nat.toDigits 10 index

/-- `ast.rs:46`. -/
def recordVariable : Text := "_record".toList

/-- `ast.rs:49`. -/
def captureVariable : Text := "_capture".toList

/-- `parse.rs:5388-5410`: the place of the hole. -/
def holeLoc : List Arg → Loc
  | [] => 0
  | .hole l :: _ => l
  | .expr _ :: es => holeLoc es

/-- `parse.rs:5381-5412` `make_call`: a call with a hole is a function. That there is at most one hole is checked by
`Expr.ok`. -/
def makeCall (arguments : List Arg) (called : ErlGen.Expr) (es : List ErlGen.Expr) : ErlGen.Expr :=
  if holes arguments = 0 then .call called es
  else .fn [some (captureVariable, holeLoc arguments)] [.expr (.call called es)]

/-- `pipe.rs:264-289`: the variable for the value on the left hand side. -/
def left (loc : Loc) : ErlGen.Expr := .var pipeVariable loc

/-- `expression.rs:6145-6212` `UseAssignments::from_use_expression`: the parameters of the function, from an index on. -/
def useParameters : Nat → List (Pattern × Loc) → List Parameter
  | _, [] => []
  | i, (.discard, _) :: ps => none :: useParameters (i + 1) ps
  | i, (.var x _, l) :: ps => some (x, l) :: useParameters (i + 1) ps
  | i, (_, l) :: ps => some (useVariable i, l) :: useParameters (i + 1) ps

/-- `expression.rs:6145-6212`: the assignments in the body of the function. -/
def useAssignments : Nat → List (Pattern × Loc) → List ErlGen.Stmt
  | _, [] => []
  | i, (.discard, _) :: ps => useAssignments (i + 1) ps
  | i, (.var _ _, _) :: ps => useAssignments (i + 1) ps
  | i, (p, l) :: ps => .let_ p (.var (useVariable i) l) :: useAssignments (i + 1) ps

/-- `expression.rs:804-845` `infer_use`: the function for the statements that follow. -/
def useCallback (ps : List (Pattern × Loc)) (line : Nat) (following : List ErlGen.Stmt) : ErlGen.Expr :=
  .fn (useParameters 0 ps)
    (useAssignments 0 ps ++ if following.isEmpty then [.expr (.fail .todo line none)] else following)

/-- `Itertools::sorted_by_key`: a stable insertion sort. -/
def insertByIndex {α : Type} (e : Nat × α) : List (Nat × α) → List (Nat × α)
  | [] => [e]
  | x :: xs => if e.1 ≤ x.1 then e :: x :: xs else x :: insertByIndex e xs

def sortByIndex {α : Type} : List (Nat × α) → List (Nat × α)
  | [] => []
  | x :: xs => insertByIndex x (sortByIndex xs)

/-- `expression.rs:3254-3311` of `infer_record_update_arguments`: what is given, with the index of the field; what has a
label of no field is dropped (an error is reported). -/
def explicitArguments (labels : List (Option Text)) (given : List (Text × ErlGen.Expr)) : List (Nat × ErlGen.Expr) :=
  given.filterMap fun g => (labels.findIdx? (· == some g.1)).map fun i => (i, g.2)

/-- `expression.rs:3335-3463`: the fields that are copied. `record` is the variable for the old record. Fields without a label are always
copied. -/
def implicitArguments (labels : List (Option Text)) (given : List (Text × ErlGen.Expr)) (record : ErlGen.Expr) :
    List (Nat × ErlGen.Expr) :=
  (labels.zipIdx).filterMap fun (label, i) =>
    match label with
    | some l => if (given.map Prod.fst).contains l then none else some (i, .field record i)
    | none => some (i, .field record i)

/-- `expression.rs:3481-3487`. -/
def updateArguments (labels : List (Option Text)) (given : List (Text × ErlGen.Expr)) (record : ErlGen.Expr) :
    List ErlGen.Expr :=
  (sortByIndex (explicitArguments labels given ++ implicitArguments labels given record)).map Prod.snd

/-- `expression.rs:3195-3235` `infer_record_update`: a variable is used as it is, other records are bound to a variable
first. -/
def recordUpdate (loc : Loc) (record : ErlGen.Expr) (tag : Text) (labels : List (Option Text))
    (given : List (Text × ErlGen.Expr)) : ErlGen.Expr :=
  match record with
  | .var x l => .update none (.var x l) tag (updateArguments labels given (.var x l))
  | e => .update (some (recordVariable, loc)) e tag (updateArguments labels given (.var recordVariable loc))

mutual

/-- `expression.rs` `infer`: the notations; everything else keeps its shape. -/
def typed : Expr → ErlGen.Expr
  | .int n => .int n
  | .string ps => .string ps
  | .var x l => .var x l
  | .ctor tag arity => .ctor tag arity
  | .fnRef m f arity => .fnRef m f arity
  | .block body => .block (typedStmts body)
  | .not e => .not (typed e)
  | .neg e => .neg (typed e)
  | .bin op l r => .bin op (typed l) (typed r)
  | .nil => .nil
  | .cons h t => .cons (typed h) (typed t)
  | .tuple es => .tuple (typedAll es)
  | .index e i => .index (typed e) i
  | .field e i => .field (typed e) i
  | .fn ps body => .fn ps (typedStmts body)
  | .call f es => makeCall es (typed f) (typedArgs es)
  | .pipeline loc e ss => .pipe pipeVariable loc (typed e) (typedSteps loc ss)
  | .update loc e tag labels gs => recordUpdate loc (typed e) tag labels (typedGivens gs)
  | .fail kind line => .fail kind line none
  | .case_ es cs => .case_ (typedAll es) (typedClauses cs)

def typedAll : List Expr → List ErlGen.Expr
  | [] => []
  | e :: es => typed e :: typedAll es

/-- `parse.rs:5342-5379`: a hole is a variable. -/
def typedArgs : List Arg → List ErlGen.Expr
  | [] => []
  | .expr e :: es => typed e :: typedArgs es
  | .hole l :: es => .var captureVariable l :: typedArgs es

/-- `pipe.rs:77-226` `infer_each_expression`: the last step is the value of the pipeline, the others are assigned to the
variable. `loc` is the place of the value before. A call without a hole gets the value as its first argument
(`infer_insert_pipe`, 344-369), or what it returns is called with the value if the number of parameters is that of the arguments
(`infer_apply_to_call_pipe`, 307-341). Everything else is called with the value (`infer_apply_pipe`, 371-408, and functions,
94-124). -/
def typedSteps (loc : Loc) : List Step → ErlGen.Expr
  | [] => left loc
  | .mk known here (.call f es) :: ss =>
    let call :=
      if holes es = 0 then
        if known = some es.length then .call (.call (typed f) (typedArgs es)) [left loc]
        else .call (typed f) (left loc :: typedArgs es)
      else .call (makeCall es (typed f) (typedArgs es)) [left loc]
    if ss.isEmpty then call else .pipe pipeVariable here call (typedSteps here ss)
  | .mk _ here e :: ss =>
    let call := .call (typed e) [left loc]
    if ss.isEmpty then call else .pipe pipeVariable here call (typedSteps here ss)

def typedGivens : List Given → List (Text × ErlGen.Expr)
  | [] => []
  | .mk label e :: gs => (label, typed e) :: typedGivens gs

def typedClauses : List Clause → List ErlGen.Clause
  | [] => []
  | .mk ps e :: cs => .mk ps [] none (typed e) :: typedClauses cs

/-- `expression.rs:560-700` `infer_statements` and 797-899 `infer_use`: the statements after a `use` are the body of a function that is
the last argument of its call. `get_use_expression_call` (6098-6117): if it is not a call, it is called with this
function. -/
def typedStmts : List Stmt → List ErlGen.Stmt
  | [] => []
  | .expr e :: ss => .expr (typed e) :: typedStmts ss
  | .let_ p e :: ss => .let_ p (typed e) :: typedStmts ss
  | .use_ ps (.call f es) line :: ss =>
    if holes es = 0 then [.expr (.call (typed f) (typedArgs es ++ [useCallback ps line (typedStmts ss)]))]
    else [.expr (.call (makeCall es (typed f) (typedArgs es)) [useCallback ps line (typedStmts ss)])]
  | .use_ ps e line :: ss => [.expr (.call (typed e) [useCallback ps line (typedStmts ss)])]

end

/-- A function of the module. -/
def typedFun (f : Fun) : ErlGen.Fun := ⟨f.name, f.parameters, typedStmts f.body⟩

end Verif.Sugar
