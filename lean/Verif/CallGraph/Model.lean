/-
Model of the call graph of a module: `/repo/compiler-core/src/call_graph.rs`.

Expressions, patterns, guards and constants that are handled by going through their parts in order, with no effect on the scope, are one
constructor `node` each.
-/
namespace Verif.CallGraph

/-- `BitArraySize`. -/
inductive Size where
  | int
  | variable (name : String)
  | binary (left right : Size)
  | block (inner : Size)

mutual
/-- `UntypedPattern`. `Discard`, `Int`, `Float`, `String`, `Invalid`, `Tuple`, `List` and `Constructor` are nodes. -/
inductive Pat where
  | variable (name : String)
  /-- `"prefix" as left <> right` -/
  | stringPrefix (left right : Option String)
  | node (children : Pats)
  | size (size : Size)
  | assign (name : String) (pattern : Pat)
  | bitArray (segments : Segments)

inductive Pats where
  | nil
  | cons (head : Pat) (tail : Pats)

/-- Segments of bit array patterns: the values of the size options, and the value. -/
inductive Segments where
  | nil
  | cons (sizes : Pats) (value : Pat) (rest : Segments)
end

/-- `UntypedConstant`. -/
inductive Const where
  /-- `module: None` -/
  | variable (name : String)
  /-- `module: Some(_)` -/
  | qualified (module name : String)
  | leaf
  | both (left right : Const)

/-- `UntypedClauseGuard`. -/
inductive Guard where
  | invalid
  | binary (left right : Guard)
  /-- `Block`, `Not`, `TupleIndex`, `FieldAccess` -/
  | inner (guard : Guard)
  | variable (name : String)
  | moduleSelect (module label : String)
  | constant (value : Const)

mutual
/-- `UntypedExpr`. -/
inductive Expr where
  | variable (name : String)
  /-- `Int`, `Float`, `String`, `Todo`, `Panic`, `Echo`, `Call`, `Pipeline`, `Tuple`, `BinOp`, `List`, `NegateInt`, `NegateBool`, `TupleIndex`,
  `FieldAccess`, `BitArray`, `RecordUpdate` -/
  | node (children : Exprs)
  | block (statements : Stmts)
  | fn (parameters : List String) (body : Stmts)
  | case (subjects : Exprs) (clauses : Clauses)

inductive Exprs where
  | nil
  | cons (head : Expr) (tail : Exprs)

/-- `UntypedStatement`s. -/
inductive Stmts where
  | nil
  /-- `Expression`, `Assert` -/
  | expression (value : Expr) (rest : Stmts)
  /-- `let assert` has a message or none. -/
  | assignment (value : Expr) (pattern : Pat) (message : Exprs) (rest : Stmts)
  | use (call : Expr) (patterns : Pats) (rest : Stmts)

inductive Clauses where
  | nil
  | cons (pattern : Pats) (alternatives : List Pats) (guard : Option Guard) (body : Expr) (rest : Clauses)
end

/-- `CallGraphBuilder::names`: unknown, a local variable, or a node. -/
abbrev Names := String → Option (Option Nat)

/-- `call_graph.rs:396-398` `define`. -/
def define (names : Names) (name : String) : Names := fun x => if x = name then some none else names x

/-- `call_graph.rs:123-137` `referenced`: the edges added. -/
def referenced (names : Names) (name : String) : List Nat :=
  match names name with
  | some (some target) => [target]
  | _ => []

/-- `call_graph.rs:384-394` `bit_array_size`. -/
def sizeEdges (names : Names) : Size → List Nat
  | .int => []
  | .variable name => referenced names name
  | .binary left right => sizeEdges names left ++ sizeEdges names right
  | .block inner => sizeEdges names inner

mutual
/-- `call_graph.rs:325-382` `pattern`: the names afterwards. -/
def patNames (names : Names) : Pat → Names
  | .variable name => define names name
  | .stringPrefix _ none => names
  | .stringPrefix _ (some name) => define names name
  | .node children => patsNames names children
  | .size _ => names
  | .assign name pattern => patNames (define names name) pattern
  | .bitArray segments => segmentsNames names segments

def patsNames (names : Names) : Pats → Names
  | .nil => names
  | .cons head tail => patsNames (patNames names head) tail

def segmentsNames (names : Names) : Segments → Names
  | .nil => names
  | .cons sizes value rest => segmentsNames (patNames (patsNames names sizes) value) rest
end

mutual
/-- The edges added by `pattern`. -/
def patEdges (names : Names) : Pat → List Nat
  | .variable _ => []
  | .stringPrefix _ _ => []
  | .node children => patsEdges names children
  | .size size => sizeEdges names size
  | .assign name pattern => patEdges (define names name) pattern
  | .bitArray segments => segmentsEdges names segments

def patsEdges (names : Names) : Pats → List Nat
  | .nil => []
  | .cons head tail => patEdges names head ++ patsEdges (patNames names head) tail

def segmentsEdges (names : Names) : Segments → List Nat
  | .nil => []
  | .cons sizes value rest =>
    patsEdges names sizes ++ (patEdges (patsNames names sizes) value ++ segmentsEdges (patNames (patsNames names sizes) value) rest)
end

/-- `call_graph.rs:459-523` `constant`. -/
def constEdges (names : Names) : Const → List Nat
  | .variable name => referenced names name
  | .qualified _ _ => []
  | .leaf => []
  | .both left right => constEdges names left ++ constEdges names right

/-- `call_graph.rs:434-457` `guard`. -/
def guardEdges (names : Names) : Guard → List Nat
  | .invalid => []
  | .binary left right => guardEdges names left ++ guardEdges names right
  | .inner guard => guardEdges names guard
  | .variable name => referenced names name
  | .moduleSelect module _ => referenced names module
  | .constant value => constEdges names value

def optionalGuardEdges (names : Names) : Option Guard → List Nat
  | none => []
  | some guard => guardEdges names guard

mutual
/-- `call_graph.rs:180-323` `expression`: the edges added. The names are the same afterwards. -/
def exprEdges (names : Names) : Expr → List Nat
  | .variable name => referenced names name
  | .node children => exprsEdges names children
  | .block statements => stmtsEdges names statements
  | .fn parameters body => stmtsEdges (parameters.foldl define names) body
  | .case subjects clauses => exprsEdges names subjects ++ clausesEdges names clauses

def exprsEdges (names : Names) : Exprs → List Nat
  | .nil => []
  | .cons head tail => exprEdges names head ++ exprsEdges names tail

/-- `call_graph.rs:139-178` `statements`, `statement`. -/
def stmtsEdges (names : Names) : Stmts → List Nat
  | .nil => []
  | .expression value rest => exprEdges names value ++ stmtsEdges names rest
  | .assignment value pattern message rest =>
    exprEdges names value ++ (patEdges names pattern ++ (exprsEdges (patNames names pattern) message ++ stmtsEdges (patNames names pattern) rest))
  | .use call patterns rest => exprEdges names call ++ (patsEdges names patterns ++ stmtsEdges (patsNames names patterns) rest)

/-- `call_graph.rs:306-320`: the alternative patterns are not looked at. -/
def clausesEdges (names : Names) : Clauses → List Nat
  | .nil => []
  | .cons pattern _ guard body rest =>
    patsEdges names pattern ++ (optionalGuardEdges (patsNames names pattern) guard ++ (exprEdges (patsNames names pattern) body ++
      clausesEdges names rest))
end

/-- A function, with the names of its parameters that have one, or a constant. -/
inductive Definition where
  | function (name : String) (parameters : List String) (body : Stmts)
  | constant (name : String) (value : Const)

def Definition.name : Definition → String
  | .function name _ _ => name
  | .constant name _ => name

/-- `call_graph.rs:43-89`: `register_module_function_existence`, `register_module_const_existence`; `none` is the duplicate name error. -/
def register (names : Names) (next : Nat) : List Definition → Option Names
  | [] => some names
  | d :: rest =>
    match names d.name with
    | some (some _) => none
    | _ => register (fun x => if x = d.name then some (some next) else names x) (next + 1) rest

/-- `call_graph.rs:91-121`: `register_references`, `register_references_constant`. -/
def definitionEdges (names : Names) : Definition → List Nat
  | .function _ parameters body => stmtsEdges (parameters.foldl define names) body
  | .constant _ value => constEdges names value

/-- `call_graph.rs:529-556`: the edges of the graph, for every definition in order. -/
def graph (definitions : List Definition) : Option (List (List Nat)) :=
  (register (fun _ => none) 0 definitions).map fun names => definitions.map (definitionEdges names)

end Verif.CallGraph
