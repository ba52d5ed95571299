import Verif.Lexer.Iter

/-
Model of how a type is written for a reader of a module, and of how such text is read back:
`/repo/compiler-core/src/type_/printer.rs` (`Names` and `Printer`), the parts of `analyse/imports.rs`, `analyse.rs` and
`type_/environment.rs` that keep the names, `parse.rs` `parse_type` and `type_/hydrator.rs` `type_from_ast`.

Not modelled: errors other than as a failure, source locations, warnings, references, deprecations, values, the
constructors of types, `print_constructor`, and `PrintMode::ExpandAliases` apart from `namedTypeExpanded`.
-/
namespace Verif.TypeText
open Lexer (Token Symbol Keyword)

/-- A name, as text. -/
abbrev Name := List Char

/-- `type_.rs:62-125` `Type` and `TypeVar`.
Simplified: unbound and generic variables are one (`var`); they are printed alike. The publicity and the package that a
named type carries are left to `Facts`: they are those of its declaration. The variant known for a value is left out. -/
inductive Ty where
  | named (module name : Name) (arguments : List Ty)
  | fn (arguments : List Ty) (ret : Ty)
  | tuple (elements : List Ty)
  | var (id : Nat)
  | link (type : Ty)
  deriving Repr

/-- What is known of every declared type: how many parameters it has, if it is internal, and the package of a module. -/
structure Facts where
  arity : Name → Name → Nat
  internal : Name → Name → Bool
  package : Name → Name

/-- `ast.rs:800-835` `Publicity`. -/
inductive Publicity where
  | public_
  | internal_
  | private_
  deriving DecidableEq, Repr

/-- `ast.rs:836-841` `is_importable`. -/
def Publicity.isImportable : Publicity → Bool
  | .public_ => true
  | .internal_ => true
  | .private_ => false

/-- `type_.rs` `TypeConstructor`: what a type's name stands for. Also `TypeAliasConstructor`.
Simplified: the parameters are generic variables, given by their numbers (`analyse.rs:1549-1572` makes no others). -/
structure TypeConstructor where
  module : Name
  parameters : List Nat
  type : Ty
  publicity : Publicity
  deriving Repr

/-- `type_.rs` `ModuleInterface`: the types of a module that has been analysed. -/
structure Interface where
  types : Name → Option TypeConstructor
  aliases : Name → Option TypeConstructor
  isInternal : Bool

/-- `environment.rs` `importable_modules`. -/
abbrev World := Name → Option Interface

/-- `type_.rs:1198-1205` `get_importable_type`. -/
def Interface.importableType (i : Interface) (name : Name) : Option TypeConstructor :=
  (i.types name).filter fun c => c.publicity.isImportable

/-- A map with one more entry: `HashMap::insert`. -/
def put {α β : Type} [DecidableEq α] (m : α → Option β) (a : α) (b : β) : α → Option β :=
  fun x => if x = a then some b else m x

/-! ### Names -/

/-- `printer.rs:14-143` `Names`. Simplified: locations and the names of value constructors are left out. -/
structure Names where
  localTypes : List ((Name × Name) × Name)
  importedModules : Name → Option Name
  typeVariables : List (Nat × Name)
  reexportAliases : Name × Name → Option (Name × Name)

/-- `printer.rs:158-167` `Names::new`. -/
def Names.new : Names := ⟨[], fun _ => none, [], fun _ => none⟩

/-- `bimap` `BiHashMap::insert`: entries with the same key and entries with the same value go. -/
def bimapInsert (m : List ((Name × Name) × Name)) (k : Name × Name) (v : Name) : List ((Name × Name) × Name) :=
  (k, v) :: m.filter fun e => e.1 ≠ k ∧ e.2 ≠ v

/-- `bimap` `BiHashMap::remove_by_right`. -/
def bimapRemoveRight (m : List ((Name × Name) × Name)) (v : Name) : List ((Name × Name) × Name) :=
  m.filter fun e => e.2 ≠ v

/-- `bimap` `BiHashMap::get_by_left`. -/
def bimapGet (m : List ((Name × Name) × Name)) (k : Name × Name) : Option Name :=
  (m.find? fun e => e.1 = k).map (·.2)

/-- `printer.rs:169-180` `named_type_in_scope`. -/
def Names.namedTypeInScope (n : Names) (module type alias : Name) : Names :=
  { n with localTypes := bimapInsert (bimapRemoveRight n.localTypes alias) (module, type) alias }

/-- `type_.rs:561-674` `same_as`, for a type that is compared with a generic variable. -/
def sameAsParameter : Ty → Nat → Bool
  | .var i, p => i = p
  | .link t, p => sameAsParameter t p
  | _, _ => false

/-- `printer.rs:145-156` `compare_arguments`. -/
def compareArguments : List Ty → List Nat → Bool
  | [], [] => true
  | a :: as, p :: ps => sameAsParameter a p && compareArguments as ps
  | _, _ => false

/-- `printer.rs:182-201` `type_in_scope`. -/
def Names.typeInScope (n : Names) (alias : Name) (type : Ty) (parameters : List Nat) : Names :=
  match type with
  | .named m t arguments =>
    if compareArguments arguments parameters then n.namedTypeInScope m t alias
    else { n with localTypes := bimapRemoveRight n.localTypes alias }
  | _ => { n with localTypes := bimapRemoveRight n.localTypes alias }

/-- `printer.rs:203-206` `type_variable_in_scope`. -/
def Names.typeVariableInScope (n : Names) (id : Nat) (alias : Name) : Names :=
  { n with typeVariables := (id, alias) :: n.typeVariables.filter fun e => e.1 ≠ id }

/-- `printer.rs:208-220` `imported_module`. -/
def Names.importedModule (n : Names) (module alias : Name) : Names :=
  { n with importedModules := put n.importedModules module alias }

/-- `printer.rs:222-254` `maybe_register_reexport_alias`. -/
def Names.maybeRegisterReexport (facts : Facts) (n : Names) (package alias : Name) (c : TypeConstructor) : Names :=
  match c.type with
  | .named m t arguments =>
    if facts.package m = package ∧ facts.internal m t = true ∧ compareArguments arguments c.parameters = true then
      { n with reexportAliases := put n.reexportAliases (m, t) (c.module, alias) }
    else n
  | _ => n

/-- `printer.rs:350-358` `NameContextInformation`. -/
inductive NameInfo where
  | unimported (module name : Name)
  | unqualified (name : Name)
  | qualified (module name : Name)
  deriving DecidableEq, Repr

/-- `printer.rs:273-296`: `named_type`, to print a type in the usual way. -/
def Names.namedType (n : Names) (module name : Name) : NameInfo :=
  match bimapGet n.localTypes (module, name) with
  | some alias => .unqualified alias
  | none =>
    match n.reexportAliases (module, name) with
    | some (m, alias) =>
      match n.importedModules m with
      | some a => .qualified a alias
      | none => .unimported m alias
    | none =>
      match n.importedModules module with
      | some a => .qualified a name
      | none => .unimported module name

/-- `printer.rs:263-269`: `named_type`, to print a type with its aliases expanded. -/
def Names.namedTypeExpanded (n : Names) (module name : Name) : NameInfo :=
  match n.importedModules module with
  | some a => .qualified a name
  | none => .unimported module name

/-! ### The printer -/

/-- `module.split('/').next_back()`: what follows the last slash. -/
def lastSegment (module : Name) : Name := (module.reverse.takeWhile (· ≠ '/')).reverse

/-- `printer.rs:381-404` `Printer`. -/
structure Printer where
  uid : Nat
  variables : List (Nat × Name)
  used : List Name
  deriving Repr, DecidableEq

/-- `printer.rs:407-414` `Printer::new`. -/
def Printer.new (n : Names) : Printer := ⟨0, [], n.typeVariables.map (·.2)⟩

/-- `printer.rs:434-441` `new_without_type_variables`. -/
def Printer.newWithout : Printer := ⟨0, [], []⟩

/-- `printer.rs:451-457` `register_type_variable`. -/
def Printer.register (p : Printer) (name : Name) : Printer := { p with used := name :: p.used }

/-- `printer.rs:578-587`: the loop of `next_letter`: the letters, last one first. -/
def lettersRev (rest : Nat) : List Char :=
  Char.ofNat (rest % 26 + 97) :: (if _h : rest / 26 = 0 then [] else lettersRev (rest / 26 - 1))
termination_by rest
decreasing_by omega

/-- `printer.rs:571-591` `next_letter`, as a function of `uid`. -/
def letters (uid : Nat) : Name := (lettersRev uid).reverse

/-- `printer.rs:551-569` `type_variable`.
The loop tries names until one is not in use. Here it tries one more than there are names in use; `letters` never gives
the same name twice, so that is enough (`letters_free`). -/
def typeVariable (n : Names) (p : Printer) (id : Nat) : Name × Printer :=
  match n.typeVariables.lookup id with
  | some name => (name, p)
  | none =>
    match p.variables.lookup id with
    | some name => (name, p)
    | none =>
      match (List.range (p.used.length + 1)).find? fun k => letters (p.uid + k) ∉ p.used with
      | some k =>
        (letters (p.uid + k),
          { uid := p.uid + k + 1
            variables := (id, letters (p.uid + k)) :: p.variables
            used := letters (p.uid + k) :: p.used })
      | none => ([], p)

/-- `printer.rs:485-498`: what is written before the name of a named type, and the name. -/
def NameInfo.parts : NameInfo → Option Name × Name
  | .qualified m n => (some m, n)
  | .unqualified n => (none, n)
  | .unimported m n => (some (lastSegment m), n)

/-- `printer.rs:500-504`: a type's name, with its module. -/
def writtenName (parts : Option Name × Name) : List Char :=
  match parts.1 with
  | some m => m ++ '.' :: parts.2
  | none => parts.2

mutual
/-- `printer.rs:477-530` `print`. -/
def print (n : Names) (p : Printer) : Ty → List Char × Printer
  | .named m t arguments =>
    (writtenName (n.namedType m t).parts ++
        (if arguments.isEmpty then [] else '(' :: (printArguments n p arguments).1 ++ [')']),
      (printArguments n p arguments).2)
  | .fn arguments ret =>
    ("fn(".toList ++ (printArguments n p arguments).1 ++ ") -> ".toList ++ (print n (printArguments n p arguments).2 ret).1,
      (print n (printArguments n p arguments).2 ret).2)
  | .tuple elements => ("#(".toList ++ (printArguments n p elements).1 ++ [')'], (printArguments n p elements).2)
  | .var id => typeVariable n p id
  | .link t => print n p t

/-- `printer.rs:535-549` `print_arguments`. -/
def printArguments (n : Names) (p : Printer) : List Ty → List Char × Printer
  | [] => ([], p)
  | [t] => print n p t
  | t :: u :: ts =>
    ((print n p t).1 ++ ", ".toList ++ (printArguments n (print n p t).2 (u :: ts)).1,
      (printArguments n (print n p t).2 (u :: ts)).2)
end

/-- A printer that has printed some types. -/
def printAll (n : Names) (p : Printer) (types : List Ty) : Printer := types.foldl (fun p t => (print n p t).2) p

/-! ### Reading a type: the parser -/

/-- `ast.rs` `TypeAst`, without locations. The name is missing in `wibble.`. -/
inductive TypeAst where
  | constructor (module : Option Name) (name : Option Name) (arguments : List TypeAst) (parentheses : Bool)
  | fn (arguments : List TypeAst) (ret : TypeAst)
  | var (name : Name)
  | tuple (elements : List TypeAst)
  | hole (name : Name)
  deriving Repr

mutual
/-- `parse.rs:2946-3035` `parse_type`. The outer option is the error, the inner one says if there is a type.
`fuel` bounds the calls: each uses one and the parser is started with more than there are tokens. -/
def parseType : Nat → List Token → Option (Option TypeAst × List Token)
  | 0, _ => none
  | fuel + 1, tokens =>
    match tokens with
    | .discardName name :: rest => some (some (.hole name), rest)
    | .symbol .hash :: rest =>
      match rest with
      | .symbol .leftParen :: rest =>
        match parseTypes fuel rest with
        | some (elements, .symbol .rightParen :: rest) => some (some (.tuple elements), rest)
        | _ => none
      | _ => none
    | .keyword .fn_ :: rest =>
      match rest with
      | .symbol .leftParen :: rest =>
        match parseTypes fuel rest with
        | some (arguments, .symbol .rightParen :: .symbol .rArrow :: rest) =>
          match parseType fuel rest with
          | some (some ret, rest) => some (some (.fn arguments ret), rest)
          | _ => none
        | _ => none
      | _ => none
    | .upName name :: rest => parseTypeNameFinish fuel none (some name) rest
    | .name module :: rest =>
      match rest with
      | .symbol .dot :: rest =>
        match rest with
        | .upName name :: rest => parseTypeNameFinish fuel (some module) (some name) rest
        | _ => parseTypeNameFinish fuel (some module) none rest
      | _ => some (some (.var module), rest)
    | _ => some (none, tokens)

/-- `parse.rs:3038-3100` `parse_type_name_finish`. -/
def parseTypeNameFinish : Nat → Option Name → Option Name → List Token → Option (Option TypeAst × List Token)
  | 0, _, _, _ => none
  | fuel + 1, module, name, tokens =>
    match tokens with
    | .symbol .leftParen :: rest =>
      match name with
      | none => none
      | some name =>
        match parseTypes fuel rest with
        | some (arguments, .symbol .rightParen :: rest) =>
          some (some (.constructor module (some name) arguments true), rest)
        | _ => none
    | .symbol .less :: _ => none
    | _ => some (some (.constructor module name [] false), tokens)

/-- `parse.rs:3103-3106` `parse_types`, `parse.rs:4518-4560` `series_of` with commas. -/
def parseTypes : Nat → List Token → Option (List TypeAst × List Token)
  | 0, _ => none
  | fuel + 1, tokens =>
    match parseType fuel tokens with
    | none => none
    | some (none, rest) => some ([], rest)
    | some (some t, rest) =>
      match rest with
      | .symbol .comma :: rest =>
        match rest with
        | .symbol .comma :: _ => none
        | _ => (parseTypes fuel rest).map fun r => (t :: r.1, r.2)
      | _ => some ([t], rest)
end

/-! ### Reading a type: the names -/

/-- `environment.rs:26-118` `Environment`: the part that gives the names of types a meaning. -/
structure Env where
  current : Name
  moduleTypes : Name → Option TypeConstructor
  moduleTypeAliases : Name → Option TypeConstructor
  importedModules : Name → Option Name
  names : Names
  next : Nat

/-- `environment.rs:463-497` `get_type_constructor`. -/
def Env.typeConstructor (env : Env) (world : World) (module : Option Name) (name : Name) : Option TypeConstructor :=
  match module with
  | none => env.moduleTypes name
  | some alias => do
    let m ← env.importedModules alias
    let i ← world m
    i.importableType name

mutual
/-- `environment.rs:662-745` `instantiate`, and the `unify` of `hydrator.rs:262-270`, which links each variable that
stands for a parameter to its argument.
Simplified: variables other than the parameters are kept; a constructor has none, as the hydrator of its type permits no
others. -/
def substitute (f : List (Nat × Ty)) : Ty → Ty
  | .named m t arguments => .named m t (substituteAll f arguments)
  | .fn arguments ret => .fn (substituteAll f arguments) (substitute f ret)
  | .tuple elements => .tuple (substituteAll f elements)
  | .var id =>
    match f.lookup id with
    | some t => .link t
    | none => .var id
  | .link t => substitute f t

/-- `substitute`, for several types. -/
def substituteAll (f : List (Nat × Ty)) : List Ty → List Ty
  | [] => []
  | t :: ts => substitute f t :: substituteAll f ts
end

/-- `hydrator.rs:29-60` `Hydrator`: the named variables, with the numbers that are in use, what is permitted. -/
structure Hydrator where
  created : List (Name × Nat)
  next : Nat
  permitNew : Bool
  permitHoles : Bool
  deriving Repr

mutual
/-- `hydrator.rs:111-335` `type_from_ast`. -/
def typeFromAst (env : Env) (world : World) (h : Hydrator) : TypeAst → Option (Ty × Hydrator)
  | .constructor module name arguments parentheses => do
    let (argumentTypes, h) ← typesFromAst env world h arguments
    let name ← name
    let c ← env.typeConstructor world module name
    if parentheses = true ∧ c.parameters = [] then none
    else if arguments.length ≠ c.parameters.length then none
    else some (substitute (c.parameters.zip argumentTypes) c.type, h)
  | .tuple elements => do
    let (types, h) ← typesFromAst env world h elements
    some (.tuple types, h)
  | .fn arguments ret => do
    let (types, h) ← typesFromAst env world h arguments
    let (ret, h) ← typeFromAst env world h ret
    some (.fn types ret, h)
  | .var name =>
    match h.created.lookup name with
    | some id => some (.var id, h)
    | none =>
      if h.permitNew then some (.var h.next, { h with created := (name, h.next) :: h.created, next := h.next + 1 })
      else none
  | .hole _ => if h.permitHoles then some (.var h.next, { h with next := h.next + 1 }) else none

/-- `type_from_ast`, for several types. -/
def typesFromAst (env : Env) (world : World) (h : Hydrator) : List TypeAst → Option (List Ty × Hydrator)
  | [] => some ([], h)
  | a :: as => do
    let (t, h) ← typeFromAst env world h a
    let (ts, h) ← typesFromAst env world h as
    some (t :: ts, h)
end

/-- The text of a type annotation, read in the scope of a module: `lexer.rs`, `parse.rs` and `hydrator.rs`.
It is an error if something follows the type. -/
def readType (env : Env) (world : World) (h : Hydrator) (text : List Char) : Option (Ty × Hydrator) :=
  match Lexer.tokens text with
  | (_, some _) => none
  | (tokens, none) =>
    match parseType (2 * tokens.length + 2) (tokens.map (·.token)) with
    | some (some ast, []) => typeFromAst env world h ast
    | _ => none

/-! ### The declarations of a module -/

/-- `type_/prelude.rs` `PRELUDE_MODULE_NAME`. -/
def preludeName : Name := "gleam".toList

/-- `prelude.rs:221-480` `build_prelude`: the types, with the number of their parameters. -/
def preludeTypes : List (Name × Nat) :=
  [("BitArray".toList, 0), ("Bool".toList, 0), ("Float".toList, 0), ("Int".toList, 0), ("List".toList, 1), ("Nil".toList, 0),
   ("Result".toList, 2), ("String".toList, 0), ("UtfCodepoint".toList, 0)]

/-- `prelude.rs:221-480`: a type of the prelude. -/
def preludeConstructor (name : Name) (parameters : Nat) : TypeConstructor :=
  { module := preludeName
    parameters := List.range parameters
    type := .named preludeName name ((List.range parameters).map .var)
    publicity := .public_ }

/-- `prelude.rs:221-480` `build_prelude`. -/
def prelude : Interface :=
  { types := fun n => (preludeTypes.lookup n).map (preludeConstructor n)
    aliases := fun _ => none
    isInternal := false }

/-- `environment.rs:176-215` `build_names`. `order` is the order in which the maps give the aliases of the modules: the
theorems hold for every order. -/
def buildNames (facts : Facts) (world : World) (order : List (Name × Name)) : Names :=
  order.foldl (fun n o =>
      match world o.1 with
      | some i =>
        if i.isInternal then n
        else
          match i.aliases o.2 with
          | some c => if c.publicity = .public_ then n.maybeRegisterReexport facts (facts.package o.1) o.2 c else n
          | none => n
      | none => n)
    (preludeTypes.foldl (fun n t => n.namedTypeInScope preludeName t.1 t.1) Names.new)

/-- `environment.rs:133-174` `Environment::new`. -/
def Env.new (facts : Facts) (world : World) (current : Name) (order : List (Name × Name)) (next : Nat) : Env :=
  { current
    moduleTypes := prelude.types
    moduleTypeAliases := fun _ => none
    importedModules := fun _ => none
    names := buildNames facts world order
    next }

/-- `environment.rs:388-409` `insert_type_constructor` and `environment.rs:433-446` `assert_unique_type_name`: a name may
be taken if it is free or one of the prelude's. -/
def Env.nameIsFree (env : Env) (name : Name) : Bool :=
  match env.moduleTypes name with
  | none => true
  | some c => c.module = preludeName

/-- `environment.rs:393-409` `insert_type_constructor`. -/
def Env.insertTypeConstructor (env : Env) (name : Name) (c : TypeConstructor) : Option Env :=
  if env.nameIsFree name then some { env with moduleTypes := put env.moduleTypes name c } else none

/-- `imports.rs:317-373` `register_module`. `used` is the name the module is used by, if it has one. -/
def Env.importModule (env : Env) (world : World) (module : Name) (used : Option Name) : Option Env :=
  match world module with
  | none => none
  | some _ =>
    match used with
    | none => some env
    | some alias =>
      match env.importedModules alias with
      | some _ => none
      | none =>
        some { env with
          importedModules := put env.importedModules alias module
          names := env.names.importedModule module alias }

/-- `imports.rs:84-147` `register_unqualified_type`. -/
def Env.importType (env : Env) (world : World) (module name alias : Name) : Option Env := do
  let i ← world module
  let c ← i.importableType name
  Env.insertTypeConstructor { env with names := env.names.typeInScope alias c.type c.parameters } alias c

/-- `analyse.rs:1549-1572` `make_type_vars` and `hydrator.rs:347-368` `add_type_variable`: the numbers of the parameters and
the names they are printed by. A name that is given twice is an error. -/
def Env.makeTypeVars (env : Env) (parameters : List Name) : Option (List (Name × Nat) × Env) :=
  if parameters.Nodup then
    some (parameters.zip (List.range' env.next parameters.length),
      { env with
        names := (parameters.zip (List.range' env.next parameters.length)).foldl (fun n v => n.typeVariableInScope v.2 v.1)
          env.names
        next := env.next + parameters.length })
  else none

/-- `analyse.rs:1366-1466` `register_types_from_custom_type`. Simplified: the publicity is that of the result. -/
def Env.customType (env : Env) (name : Name) (parameters : List Name) (publicity : Publicity) : Option Env :=
  if env.nameIsFree name then do
    let (vars, env) ← env.makeTypeVars parameters
    let env ← env.insertTypeConstructor name
      { module := env.current
        parameters := vars.map (·.2)
        type := .named env.current name (vars.map fun v => .var v.2)
        publicity }
    some { env with names := env.names.namedTypeInScope env.current name name }
  else none

/-- `analyse.rs:1468-1547` `register_type_alias`. Simplified: the check that each parameter is used is left out. -/
def Env.typeAlias (env : Env) (facts : Facts) (world : World) (name : Name) (parameters : List Name) (ast : TypeAst)
    (publicity : Publicity) : Option Env :=
  if env.nameIsFree name then do
    let (vars, env) ← env.makeTypeVars parameters
    let (type, h) ← typeFromAst env world { created := vars, next := env.next, permitNew := false, permitHoles := false } ast
    let c : TypeConstructor := { module := env.current, parameters := vars.map (·.2), type, publicity }
    let env ← Env.insertTypeConstructor
      { env with names := env.names.typeInScope name type c.parameters, next := h.next } name c
    some { env with
      names := env.names.maybeRegisterReexport facts (facts.package env.current) name c
      moduleTypeAliases := put env.moduleTypeAliases name c }
  else none

/-- `ast.rs`: the declarations of a module that name types. An import of a module with unqualified types is one
`importModule` and then an `importType` for each type. -/
inductive Decl where
  | importModule (module : Name) (used : Option Name)
  | importType (module name alias : Name)
  | customType (name : Name) (parameters : List Name) (publicity : Publicity)
  | typeAlias (name : Name) (parameters : List Name) (ast : TypeAst) (publicity : Publicity)

/-- One declaration. -/
def Env.declare (facts : Facts) (world : World) (env : Env) : Decl → Option Env
  | .importModule m used => env.importModule world m used
  | .importType m n a => env.importType world m n a
  | .customType n ps p => env.customType n ps p
  | .typeAlias n ps ast p => env.typeAlias facts world n ps ast p

/-- `analyse.rs:218-260`: the declarations of a module, from its imports to its aliases. The code takes the imports first,
then the custom types, then the aliases; here any order is taken. -/
def analyse (facts : Facts) (world : World) (current : Name) (order : List (Name × Name)) (next : Nat)
    (decls : List Decl) : Option Env :=
  decls.foldlM (Env.declare facts world) (Env.new facts world current order next)

/-- `analyse.rs:344-351`, `analyse.rs:369-421`: the interface of a module that has been analysed. -/
def Env.interface (env : Env) (isInternal : Bool) : Interface :=
  { types := fun n => (env.moduleTypes n).filter fun c => c.module = env.current
    aliases := env.moduleTypeAliases
    isInternal }

/-! ### Names for variables that stand for named ones -/

/-- `environment.rs:305-318` `resolve_type_var_id`. -/
def resolveTypeVarId : Ty → Option Nat
  | .var id => some id
  | .link t => resolveTypeVarId t
  | _ => none

/-- `environment.rs:285-303` `resolve_deferred_type_variable_aliases`. -/
def resolveDeferred (n : Names) (deferred : List (Nat × Ty)) : Names :=
  deferred.foldl (fun n d =>
      match n.typeVariables.lookup d.1 with
      | some alias =>
        match resolveTypeVarId d.2 with
        | some id =>
          match n.typeVariables.lookup id with
          | none => n.typeVariableInScope id alias
          | some _ => n
        | none => n
      | none => n)
    n

end Verif.TypeText
