import Verif.JsNames.Model

/-
Which variable a use means, in Gleam and in JavaScript.
-/
namespace Verif.JsNames

/-- In Gleam a use means the latest binding of its name that is in scope; every part of the program that is nested is a scope. The result
lists, for all uses in order, the number of the variable meant, or nothing when there is none. -/
def resolve (env : Ident → Option Nat) (visible : List Nat) : Code → List (Option Nat)
  | .done => []
  | .ref x rest => env x :: resolve env visible rest
  | .bind id x rest => resolve (set env x id) visible rest
  | .store id _ rest => resolve env (id :: visible) rest
  | .useStored id rest => (if id ∈ visible then some id else none) :: resolve env visible rest
  | .branch body rest => resolve env visible body ++ resolve env visible rest
  | .function params body rest =>
    resolve (fun x => match params.find? (·.2 = x) with | some p => some p.1 | none => env x) visible body ++ resolve env visible rest
  | .direct body rest => resolve env visible body ++ resolve env visible rest
  | .block body rest => resolve env visible body ++ resolve env visible rest
  | .scoped body rest => resolve env visible body ++ resolve env visible rest
  | .assert vars message rest =>
    resolve env visible message ++ resolve (vars.foldl (fun env v => set env v.2 v.1) env) visible rest

/-- A scope of JavaScript: all names declared in it, and those of them whose declaration was passed already. -/
structure Frame where
  names : List Text
  declared : List (Text × Nat)

/-- The names declared in a piece of code, not counting nested blocks and functions. -/
def Js.names : Js → List Text
  | .done => []
  | .use _ rest => rest.names
  | .decl _ n rest => n :: rest.names
  | .block _ rest => rest.names
  | .function _ _ rest => rest.names

/-- A name means the variable of the innermost scope that declares it anywhere; using it before its declaration is an error. -/
def lookup (n : Text) : List Frame → Option Nat
  | [] => none
  | f :: fs => if n ∈ f.names then (f.declared.find? (·.1 = n)).map (·.2) else lookup n fs

def declare (id : Nat) (n : Text) : List Frame → List Frame
  | [] => []
  | f :: fs => { f with declared := (n, id) :: f.declared } :: fs

def resolveJs (frames : List Frame) : Js → List (Option Nat)
  | .done => []
  | .use n rest => lookup n frames :: resolveJs frames rest
  | .decl id n rest => resolveJs (declare id n frames) rest
  | .block body rest => resolveJs (⟨body.names, []⟩ :: frames) body ++ resolveJs frames rest
  | .function params body rest =>
    resolveJs (⟨params.map (·.2) ++ body.names, params.map fun p => (p.2, p.1)⟩ :: frames) body ++ resolveJs frames rest

/-- No scope declares a name twice, which would be a syntax error. -/
def Js.Legal : Js → Prop
  | .done => True
  | .use _ rest => rest.Legal
  | .decl _ _ rest => rest.Legal
  | .block body rest => body.names.Nodup ∧ body.Legal ∧ rest.Legal
  | .function params body rest => (params.map (·.2) ++ body.names).Nodup ∧ body.Legal ∧ rest.Legal

/-- The parameters of functions have different names (as the type checker demands). -/
def Code.ParamsDistinct : Code → Prop
  | .done => True
  | .ref _ rest => rest.ParamsDistinct
  | .bind _ _ rest => rest.ParamsDistinct
  | .store _ _ rest => rest.ParamsDistinct
  | .useStored _ rest => rest.ParamsDistinct
  | .branch body rest => body.ParamsDistinct ∧ rest.ParamsDistinct
  | .function params body rest => (params.map (·.2)).Nodup ∧ body.ParamsDistinct ∧ rest.ParamsDistinct
  | .direct body rest => body.ParamsDistinct ∧ rest.ParamsDistinct
  | .block body rest => body.ParamsDistinct ∧ rest.ParamsDistinct
  | .scoped body rest => body.ParamsDistinct ∧ rest.ParamsDistinct
  | .assert _ message rest => message.ParamsDistinct ∧ rest.ParamsDistinct

/-- The code declares a variable, not counting what is printed in a block or function of its own. -/
def Code.declares : Code → Bool
  | .done => false
  | .ref _ rest => rest.declares
  | .bind _ _ _ => true
  | .store _ _ _ => true
  | .useStored _ rest => rest.declares
  | .branch _ rest => rest.declares
  | .function _ _ rest => rest.declares
  | .direct body rest => body.declares || rest.declares
  | .block _ rest => rest.declares
  | .scoped body rest => body.declares || rest.declares
  | .assert vars _ rest => !vars.isEmpty || rest.declares

/-- The code has variables of a guard that are printed without a block. -/
def Code.guarded : Code → Bool
  | .done => false
  | .ref _ rest => rest.guarded
  | .bind _ _ rest => rest.guarded
  | .store _ _ rest => rest.guarded
  | .useStored _ rest => rest.guarded
  | .branch _ rest => rest.guarded
  | .function _ _ rest => rest.guarded
  | .direct body rest => body.guarded || rest.guarded
  | .block _ rest => rest.guarded
  | .scoped body rest => body.declares || rest.guarded
  | .assert _ _ rest => rest.guarded

/-- Nothing is declared after the variables of a guard in the same JavaScript block. -/
def Code.GuardsLast : Code → Prop
  | .done => True
  | .ref _ rest => rest.GuardsLast
  | .bind _ _ rest => rest.GuardsLast
  | .store _ _ rest => rest.GuardsLast
  | .useStored _ rest => rest.GuardsLast
  | .branch body rest => body.GuardsLast ∧ rest.GuardsLast
  | .function _ body rest => body.GuardsLast ∧ rest.GuardsLast
  | .direct body rest => body.GuardsLast ∧ rest.GuardsLast ∧ (body.guarded = false ∨ rest.declares = false)
  | .block body rest => body.GuardsLast ∧ rest.GuardsLast
  | .scoped body rest => body.GuardsLast ∧ rest.GuardsLast ∧ (body.declares = false ∨ rest.declares = false)
  | .assert _ message rest => message.GuardsLast ∧ rest.GuardsLast

/-- The names used in a piece of code. -/
def Code.uses : Code → List Ident
  | .done => []
  | .ref x rest => x :: rest.uses
  | .bind _ _ rest => rest.uses
  | .store _ _ rest => rest.uses
  | .useStored _ rest => rest.uses
  | .branch body rest => body.uses ++ rest.uses
  | .function _ body rest => body.uses ++ rest.uses
  | .direct body rest => body.uses ++ rest.uses
  | .block body rest => body.uses ++ rest.uses
  | .scoped body rest => body.uses ++ rest.uses
  | .assert _ message rest => message.uses ++ rest.uses

/-- No message of a `let assert` uses a name that its pattern binds. -/
def Code.MessagesPlain : Code → Prop
  | .done => True
  | .ref _ rest => rest.MessagesPlain
  | .bind _ _ rest => rest.MessagesPlain
  | .store _ _ rest => rest.MessagesPlain
  | .useStored _ rest => rest.MessagesPlain
  | .branch body rest => body.MessagesPlain ∧ rest.MessagesPlain
  | .function _ body rest => body.MessagesPlain ∧ rest.MessagesPlain
  | .direct body rest => body.MessagesPlain ∧ rest.MessagesPlain
  | .block body rest => body.MessagesPlain ∧ rest.MessagesPlain
  | .scoped body rest => body.MessagesPlain ∧ rest.MessagesPlain
  | .assert vars message rest => (∀ v ∈ vars, v.2 ∉ message.uses) ∧ message.MessagesPlain ∧ rest.MessagesPlain

/-- Blocks are only the last thing in their scope. -/
def Code.BlocksLast : Code → Prop
  | .done => True
  | .ref _ rest => rest.BlocksLast
  | .bind _ _ rest => rest.BlocksLast
  | .store _ _ rest => rest.BlocksLast
  | .useStored _ rest => rest.BlocksLast
  | .branch body rest => body.BlocksLast ∧ rest.BlocksLast
  | .function _ body rest => body.BlocksLast ∧ rest.BlocksLast
  | .direct body rest => body.BlocksLast ∧ rest.BlocksLast
  | .block body rest => body.BlocksLast ∧ rest = .done
  | .scoped body rest => body.BlocksLast ∧ rest.BlocksLast
  | .assert _ message rest => message.BlocksLast ∧ rest.BlocksLast

/-- The words that cannot be names of variables in a JavaScript module: ECMAScript 2025, 12.7.2 (`ReservedWord`, and the words reserved in
strict mode code, which module code is) and 13.1.1 (`arguments` and `eval` in strict mode code). -/
def reserved : List Text :=
  ["await", "break", "case", "catch", "class", "const", "continue", "debugger", "default", "delete", "do", "else", "enum", "export",
    "extends", "false", "finally", "for", "function", "if", "import", "in", "instanceof", "new", "null", "return", "super", "switch",
    "this", "throw", "true", "try", "typeof", "var", "void", "while", "with", "yield",
    "let", "static", "implements", "interface", "package", "private", "protected", "public",
    "arguments", "eval"].map String.toList

/-- Enough of ECMAScript's `IdentifierName`. -/
def isIdentifierName (cs : Text) : Bool :=
  match cs with
  | [] => false
  | c :: rest => (c.isAlpha || c == '_' || c == '$') && rest.all (fun c => c.isAlpha || c.isDigit || c == '_' || c == '$')

end Verif.JsNames
