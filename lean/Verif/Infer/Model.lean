import Verif.Infer.Syntax

/-!
# Type inference

Model of the type checker: `compiler-core/src/type_/expression.rs`, `type_/pattern.rs`, `type_/hydrator.rs`, `type_/environment.rs`
(`instantiate`; for `unify` see `Unify`), `type_.rs` (`match_fun_type`, `named_type_arguments`, `generalise`) and `analyse.rs` (functions).

What is simplified:

* Every error ends the inference: the checker records it, goes on, and then rejects the module.
* Type variables are cells of a heap in which the cell `c` starts as unbound variable with the id `c`; making a new variable takes the next
  one. Following links is bounded by fuel; running out of it is `Stop.fuel`, as is everything that only a broken heap could cause.
* Variant inference, warnings, purity, implementations, references and usage counting are left out. None of them changes a type.
* Exhaustiveness is checked apart from this (see `Case`).
* Values and constructors that are generalised are kept as types over their generic ids, since no cell in them ever changes.
-/

namespace Verif.Infer

open Verif.Unify

inductive Stop where
  /-- The checker reports an error. -/
  | rejected
  | fuel
  deriving DecidableEq

/-- `hydrator.rs:30-38` `Hydrator`. -/
structure Hydrator where
  created : List (String × Ty Cell)
  rigid : List Nat

structure St where
  heap : Heap
  next : Nat
  hydrator : Hydrator

def I (α : Type) : Type := St → Except Stop (α × St)

def I.pure {α : Type} (a : α) : I α := fun s => .ok (a, s)

def I.bind {α β : Type} (x : I α) (f : α → I β) : I β := fun s =>
  match x s with
  | .ok (a, s) => f a s
  | .error e => .error e

instance : Monad I where
  pure := I.pure
  bind := I.bind

def reject {α : Type} : I α := fun _ => .error .rejected

def outOfFuel {α : Type} : I α := fun _ => .error .fuel

def ofFuel {α : Type} : Option α → I α
  | some a => fun s => .ok (a, s)
  | none => outOfFuel

def getHeap : I Heap := fun s => .ok (s.heap, s)

def setHeap (h : Heap) : I Unit := fun s => .ok ((), { s with heap := h })

def check (b : Bool) : I Unit := if b then pure () else reject

/-- Errors if there is nothing. -/
def expect {α : Type} : Option α → I α
  | some a => pure a
  | none => reject

/-! ### Variables -/

/-- `environment.rs` `new_unbound_var`. -/
def fresh : I (Ty Cell) := fun s =>
  match s.heap s.next with
  | .unbound _ => .ok (.var s.next, { s with next := s.next + 1 })
  | _ => .error .fuel

/-- Several new variables. -/
def freshes : Nat → I (Tys Cell)
  | 0 => pure .nil
  | k + 1 => do
    let t ← fresh
    let ts ← freshes k
    pure (.cons t ts)

/-- `environment.rs` `new_generic_var`; the cell and the id are the same number. -/
def newGeneric : I Nat := fun s =>
  match s.heap s.next with
  | .unbound _ => .ok (s.next, { s with heap := s.heap.set s.next (.generic s.next), next := s.next + 1 })
  | _ => .error .fuel

def collapseI (n : Nat) (t : Ty Cell) : I (Ty Cell) := fun s =>
  match collapse n s.heap t with
  | some u => .ok (u, s)
  | none => .error .fuel

/-- `environment.rs:1042-1193` `unify`; a mismatch is an error. -/
def unifyI (n : Nat) (t u : Ty Cell) : I Unit := fun s =>
  match unify n [] s.heap t u with
  | some (.ok, h) => .ok ((), { s with heap := h })
  | some (.fail, _) => .error .rejected
  | some (.panic, _) => .error .fuel
  | none => .error .fuel

/-- Making an unbound variable a link to a type: `type_.rs:1711-1714`, `459-471`. -/
def linkTo (c : Cell) (t : Ty Cell) : I Unit := fun s =>
  match s.heap c with
  | .unbound _ => .ok ((), { s with heap := s.heap.set c (.link t) })
  | _ => .error .fuel

/-- Runs in a new scope: `expression.rs:380-393` `scoped`; what the hydrator learnt is forgotten at its end. -/
def inScope {α : Type} (x : I α) : I α := fun s =>
  match x s with
  | .ok (a, s') => .ok (a, { s' with hydrator := s.hydrator })
  | .error e => .error e

def getHydrator : I Hydrator := fun s => .ok (s.hydrator, s)

def setHydrator (h : Hydrator) : I Unit := fun s => .ok ((), { s with hydrator := h })

/-! ### Instances of types -/

abbrev Ids := List (Nat × Ty Cell)

/-- `environment.rs:700-722`: an id of a generic variable, that is not rigid. -/
def instantiateId (id : Nat) (ids : Ids) : I (Ty Cell × Ids) :=
  match ids.lookup id with
  | some t => pure (t, ids)
  | none => do
    let t ← fresh
    pure (t, (id, t) :: ids)

/-- Lists of types, from left to right. -/
def instantiateAll (f : Ty Cell → Ids → I (Ty Cell × Ids)) : Tys Cell → Ids → I (Tys Cell × Ids)
  | .nil, ids => pure (.nil, ids)
  | .cons t ts, ids => do
    let (t, ids) ← f t ids
    let (ts, ids) ← instantiateAll f ts ids
    pure (.cons t ts, ids)

/-- `environment.rs:663-745` `instantiate`, for types that may have links and unbound variables. -/
def instantiate : Nat → Ty Cell → Ids → I (Ty Cell × Ids)
  | 0, _, _ => outOfFuel
  | n + 1, .var c, ids => do
    let h ← getHeap
    match h c with
    | .link t => instantiate n t ids
    | .unbound _ => pure (.var c, ids)
    | .generic id => do
      let hy ← getHydrator
      match ids.lookup id with
      | some t => pure (t, ids)
      | none => if hy.rigid.contains id then pure (.var c, ids) else instantiateId id ids
  | n + 1, .named m x as, ids => do
    let (as, ids) ← instantiateAll (instantiate n) as ids
    pure (.named m x as, ids)
  | n + 1, .fn as r, ids => do
    let (as, ids) ← instantiateAll (instantiate n) as ids
    let (r, ids) ← instantiate n r ids
    pure (.fn as r, ids)
  | n + 1, .tuple as, ids => do
    let (as, ids) ← instantiateAll (instantiate n) as ids
    pure (.tuple as, ids)

mutual

/-- `environment.rs:663-745` `instantiate`, for the type of a generalised value. Its ids are never rigid: a function's rigid variables were
made for its own head and body. -/
def instScheme : Ty Nat → Ids → I (Ty Cell × Ids)
  | .var id, ids => instantiateId id ids
  | .named m x as, ids => do
    let (as, ids) ← instSchemes as ids
    pure (.named m x as, ids)
  | .fn as r, ids => do
    let (as, ids) ← instSchemes as ids
    let (r, ids) ← instScheme r ids
    pure (.fn as r, ids)
  | .tuple as, ids => do
    let (as, ids) ← instSchemes as ids
    pure (.tuple as, ids)

def instSchemes : Tys Nat → Ids → I (Tys Cell × Ids)
  | .nil, ids => pure (.nil, ids)
  | .cons t ts, ids => do
    let (t, ids) ← instScheme t ids
    let (ts, ids) ← instSchemes ts ids
    pure (.cons t ts, ids)

end

/-- Lists of types. -/
def generaliseAll (f : Ty Cell → Option (Ty Nat)) : Tys Cell → Option (Tys Nat)
  | .nil => some .nil
  | .cons t ts =>
    match f t, generaliseAll f ts with
    | some t, some ts => some (.cons t ts)
    | _, _ => none

/-- `type_.rs:1732-1779` `generalise`. -/
def generalise : Nat → Heap → Ty Cell → Option (Ty Nat)
  | 0, _, _ => none
  | n + 1, h, .var c =>
    match h c with
    | .link t => generalise n h t
    | .unbound id => some (.var id)
    | .generic id => some (.var id)
  | n + 1, h, .named m x as => (generaliseAll (generalise n h) as).map (.named m x)
  | n + 1, h, .fn as r =>
    match generaliseAll (generalise n h) as, generalise n h r with
    | some as, some r => some (.fn as r)
    | _, _ => none
  | n + 1, h, .tuple as => (generaliseAll (generalise n h) as).map .tuple

/-! ### Custom types -/

/-- A custom type with the id of its first parameter: `analyse.rs:1553-1575` `make_type_vars`. -/
structure Registered where
  type : CustomType
  base : Nat

def Registered.id (r : Registered) (i : Nat) : Ty Nat := .var (r.base + i)

/-- The first variant with this name. -/
def findConstructor : List Registered → String → Option (Registered × Variant)
  | [], _ => none
  | r :: rs, x =>
    match r.type.variants.find? fun v => v.name = x with
    | some v => some (r, v)
    | none => findConstructor rs x

mutual

/-- `type_.rs` `same_as`. -/
def sameTy : Ty Nat → Ty Nat → Bool
  | .var a, .var b => a == b
  | .named m x as, .named m' x' bs => m == m' && x == x' && sameTys as bs
  | .fn as r, .fn bs r' => sameTys as bs && sameTy r r'
  | .tuple as, .tuple bs => sameTys as bs
  | _, _ => false

def sameTys : Tys Nat → Tys Nat → Bool
  | .nil, .nil => true
  | .cons a as, .cons b bs => sameTy a b && sameTys as bs
  | _, _ => false

end

/-- `analyse.rs:2100-2125`: a variant has the same field at the same position. -/
def compatible (label : String) (index : Nat) (t : Ty Nat) (v : Variant) : Bool :=
  match v.fields[index]? with
  | some (some l, u) => l == label && sameTy u t
  | _ => false

/-- The first field with the label. -/
def labelIndex (label : String) (fs : List (Option String × Ty Nat)) : Option Nat := fs.findIdx? fun f => f.1 = some label

/-- `analyse.rs:2075-2157` `get_compatible_record_fields`: the type of the field with a label that all variants have. -/
def accessor (ct : CustomType) (label : String) : Option (Ty Nat) :=
  match ct.variants with
  | [] => none
  | v :: vs =>
    match labelIndex label v.fields with
    | none => none
    | some i =>
      match v.fields[i]? with
      | none => none
      | some (_, t) => if vs.all (compatible label i t) then some t else none

/-! ### Annotations -/

/-- The names of types that annotations can use, with their modules and the numbers of their parameters. -/
def typeArity (types : List CustomType) (name : String) : Option (String × Nat) :=
  match types.find? fun ct => ct.name = name with
  | some ct => some (ct.module, ct.parameters)
  | none =>
    if name = "Int" ∨ name = "Float" ∨ name = "String" then some ("gleam", 0)
    else if name = "List" then some ("gleam", 1)
    else none

section
variable (types : List CustomType)

mutual

/-- `hydrator.rs:112-330` `type_from_ast`. The constructor's parameters are replaced by the arguments directly, and not by making variables
for them that are unified with the arguments. -/
def hydrate : TypeAst → I (Ty Cell)
  | .con name as => do
    let ts ← hydrateAll as
    match typeArity types name with
    | some (m, k) => if ts.length = k then pure (.named m name ts) else reject
    | none => reject
  | .fn as r => do
    let ts ← hydrateAll as
    let t ← hydrate r
    pure (.fn ts t)
  | .tuple as => do
    let ts ← hydrateAll as
    pure (.tuple ts)
  | .var name => do
    let hy ← getHydrator
    match hy.created.lookup name with
    | some t => pure t
    | none => do
      let id ← newGeneric
      setHydrator ⟨(name, .var id) :: hy.created, id :: hy.rigid⟩
      pure (.var id)
  | .hole => fresh

def hydrateAll : List TypeAst → I (Tys Cell)
  | [] => pure .nil
  | a :: as => do
    let t ← hydrate a
    let ts ← hydrateAll as
    pure (.cons t ts)

end

/-- `hydrator.rs` `type_from_option_ast`. -/
def hydrateOption : Option TypeAst → I (Ty Cell)
  | some a => hydrate types a
  | none => fresh

/-- Annotations of parameters. -/
def hydrateParameters : List Param → I (Tys Cell)
  | [] => pure .nil
  | p :: ps => do
    let t ← hydrateOption types p.annotation
    let ts ← hydrateParameters ps
    pure (.cons t ts)

end

/-! ### Scopes -/

abbrev Locals := List (String × Ty Cell)

/-- What stays the same during the inference of a function. -/
structure Globals where
  types : List Registered
  /-- The functions of the group, with their preregistered types. -/
  group : List (String × Ty Cell)
  /-- The functions of earlier groups. -/
  values : List (String × Ty Nat)

def Globals.customTypes (g : Globals) : List CustomType := g.types.map (·.type)

/-- `expression.rs:3671-3764` `do_infer_value_constructor`: the type of a variable, instantiated. -/
def inferVar (n : Nat) (g : Globals) (locals : Locals) (x : String) : I (Ty Cell) :=
  match locals.lookup x with
  | some t => do
    let (t, _) ← instantiate n t []
    pure t
  | none =>
    match g.group.lookup x with
    | some t => do
      let (t, _) ← instantiate n t []
      pure t
    | none =>
      match g.values.lookup x with
      | some t => do
        let (t, _) ← instScheme t []
        pure t
      | none =>
        match findConstructor g.types x with
        | some (r, v) => do
          let (t, _) ← instScheme (constructorType r.type v r.id) []
          pure t
        | none => reject

/-! ### Patterns -/

/-- `pattern.rs:45-58` `PatternTyper`: the variables of the first alternative, while another one is checked. -/
inductive PMode where
  | initial
  | alternative (variables : Locals)

/-- `pattern.rs:123-190` `insert_variable`; `vars` are the variables so far. -/
def insertVariable (n : Nat) (mode : PMode) (x : String) (t : Ty Cell) (vars : Locals) : I Locals :=
  if (vars.lookup x).isSome then reject
  else
    match mode with
    | .initial => pure (vars ++ [(x, t)])
    | .alternative initial =>
      match initial.lookup x with
      | none => reject
      | some u => do
        unifyI n u t
        pure (vars ++ [(x, t)])

def insertOption (n : Nat) (mode : PMode) (x : Option String) (t : Ty Cell) (vars : Locals) : I Locals :=
  match x with
  | some x => insertVariable n mode x t vars
  | none => pure vars

/-- The type of the elements, if it is a list. -/
def listArgument : Ty Cell → Option (Ty Cell)
  | .named m x (.cons a .nil) => if m = "gleam" ∧ x = "List" then some a else none
  | _ => none

/-- `type_.rs:420-475` `named_type_arguments`, for lists: the type of the elements. -/
def listElement (n : Nat) (t : Ty Cell) : I (Ty Cell) := do
  let u ← collapseI n t
  match listArgument u with
  | some a => pure a
  | none =>
    match u with
    | .var c => do
      let h ← getHeap
      match h c with
      | .unbound id => do
        let a ← fresh
        -- the new variable is another one
        match occurs n h id a with
        | some false => do
          linkTo c (tList a)
          pure a
        | _ => outOfFuel
      | _ => reject
    | _ => reject

mutual

/-- `pattern.rs:690-1310` `unify`: the type of the pattern and the variables. -/
def inferPattern (n : Nat) (g : Globals) (mode : PMode) : Pattern → Ty Cell → Locals → I (Ty Cell × Locals)
  | .discard, t, vars => pure (t, vars)
  | .var x, t, vars => do
    let vars ← insertVariable n mode x t vars
    pure (t, vars)
  | .int _, t, vars => do
    unifyI n t tInt
    pure (tInt, vars)
  | .float _, t, vars => do
    unifyI n t tFloat
    pure (tFloat, vars)
  | .string _, t, vars => do
    unifyI n t tString
    pure (tString, vars)
  | .prefix _ left right, t, vars => do
    unifyI n t tString
    let vars ← insertOption n mode left tString vars
    let vars ← insertOption n mode right tString vars
    pure (tString, vars)
  | .assign p x, t, vars => do
    let (u, vars) ← inferPattern n g mode p t vars
    let vars ← insertVariable n mode x u vars
    pure (u, vars)
  | .list ps tail, t, vars => do
    let a ← listElement n t
    let vars ← inferPatternsAt n g mode ps a vars
    match tail with
    | none => pure (tList a, vars)
    | some q => do
      let (_, vars) ← inferPattern n g mode q (tList a) vars
      pure (tList a, vars)
  | .tuple ps, t, vars => do
    let u ← collapseI n t
    match u with
    | .tuple ts =>
      if ps.length = ts.length then do
        let (us, vars) ← inferPatterns n g mode ps ts vars
        pure (.tuple us, vars)
      else reject
    | .var _ => do
      let ts ← freshes ps.length
      unifyI n (.tuple ts) t
      let (us, vars) ← inferPatterns n g mode ps ts vars
      pure (.tuple us, vars)
    | _ => reject
  | .ctor name ps, t, vars =>
    match findConstructor g.types name with
    | none => reject
    | some (r, v) => do
      let (c, _) ← instScheme (constructorType r.type v r.id) []
      match c with
      | .fn ts u => do
        unifyI n t u
        check (decide (ts.length = ps.length))
        let (_, vars) ← inferPatterns n g mode ps ts vars
        pure (u, vars)
      | .named m x as => do
        unifyI n t (.named m x as)
        check ps.isEmpty
        pure (.named m x as, vars)
      | _ => outOfFuel

/-- Patterns with a type for each. -/
def inferPatterns (n : Nat) (g : Globals) (mode : PMode) : List Pattern → Tys Cell → Locals → I (Tys Cell × Locals)
  | [], .nil, vars => pure (.nil, vars)
  | p :: ps, .cons t ts, vars => do
    let (u, vars) ← inferPattern n g mode p t vars
    let (us, vars) ← inferPatterns n g mode ps ts vars
    pure (.cons u us, vars)
  | _, _, _ => reject

/-- Patterns of the same type. -/
def inferPatternsAt (n : Nat) (g : Globals) (mode : PMode) : List Pattern → Ty Cell → Locals → I Locals
  | [], _, vars => pure vars
  | p :: ps, t, vars => do
    let (_, vars) ← inferPattern n g mode p t vars
    inferPatternsAt n g mode ps t vars

end

/-- `pattern.rs:248-290` `infer_alternative_multi_pattern`, for all alternatives of a clause. -/
def inferAlternatives (n : Nat) (g : Globals) (initial : Locals) (ts : Tys Cell) : List (List Pattern) → I Unit
  | [] => pure ()
  | ps :: rest => do
    let (_, vars) ← inferPatterns n g (.alternative initial) ps ts []
    check (!decide (vars.length < initial.length))
    inferAlternatives n g initial ts rest

/-! ### Operators and guards -/

def Tys.list {V : Type} : Tys V → List (Ty V)
  | .nil => []
  | .cons t ts => t :: Tys.list ts


/-- `expression.rs:1878-1923`, without `==` and `!=`: the type of the operands and the type of the result. -/
def Op.types {V : Type} : Op → Option (Ty V × Ty V)
  | .eq => none
  | .notEq => none
  | .and => some (tBool, tBool)
  | .or => some (tBool, tBool)
  | .ltInt => some (tInt, tBool)
  | .leInt => some (tInt, tBool)
  | .gtInt => some (tInt, tBool)
  | .geInt => some (tInt, tBool)
  | .ltFloat => some (tFloat, tBool)
  | .leFloat => some (tFloat, tBool)
  | .gtFloat => some (tFloat, tBool)
  | .geFloat => some (tFloat, tBool)
  | .addInt => some (tInt, tInt)
  | .subInt => some (tInt, tInt)
  | .multInt => some (tInt, tInt)
  | .divInt => some (tInt, tInt)
  | .remInt => some (tInt, tInt)
  | .addFloat => some (tFloat, tFloat)
  | .subFloat => some (tFloat, tFloat)
  | .multFloat => some (tFloat, tFloat)
  | .divFloat => some (tFloat, tFloat)
  | .concat => some (tString, tString)

/-- `expression.rs:1925-1930`, `2656-2760`: the operands have the types that the operator needs. -/
def inferOperator (n : Nat) (op : Op) (l r : Ty Cell) : I (Ty Cell) :=
  match op.types with
  | none => do
    unifyI n l r
    pure tBool
  | some (input, output) => do
    unifyI n input l
    unifyI n input r
    pure output

/-- `expression.rs:2520-2806` `infer_clause_guard`. -/
def inferGuard (n : Nat) (locals : Locals) : Guard → I (Ty Cell)
  | .var x =>
    match locals.lookup x with
    | some t => do
      let (t, _) ← instantiate n t []
      pure t
    | none => reject
  | .int _ => pure tInt
  | .float _ => pure tFloat
  | .string _ => pure tString
  | .block g => inferGuard n locals g
  | .not g => do
    let t ← inferGuard n locals g
    unifyI n tBool t
    pure tBool
  | .bin op l r => do
    let tl ← inferGuard n locals l
    let tr ← inferGuard n locals r
    inferOperator n op tl tr
  | .index g i => do
    let t ← inferGuard n locals g
    match t with
    | .tuple ts => expect ((Tys.list ts)[i]?)
    | _ => reject

/-- `expression.rs:2502-2516` `infer_optional_clause_guard`. -/
def inferOptionalGuard (n : Nat) (locals : Locals) : Option Guard → I Unit
  | none => pure ()
  | some g => do
    let t ← inferGuard n locals g
    unifyI n tBool t

/-! ### Expressions -/

/-- The number of parameters of a function literal. -/
def Expr.literalArity : Expr → Option Nat
  | .fn ps _ _ => some ps.length
  | _ => none

/-- `type_.rs:1688-1730` `match_fun_type`. -/
def matchFunction (n : Nat) (t : Ty Cell) (arity : Nat) : I (Tys Cell × Ty Cell) := do
  let u ← collapseI n t
  match u with
  | .fn as r => if as.length = arity then pure (as, r) else reject
  | .var c => do
    let h ← getHeap
    match h c with
    | .unbound id => do
      let as ← freshes arity
      let r ← fresh
      let h ← getHeap
      -- the new variables are other ones
      match occurs n h id (.fn as r) with
      | some false => do
        linkTo c (.fn as r)
        pure (as, r)
      | _ => outOfFuel
    | _ => reject
  | _ => reject

/-- `expression.rs:1128-1169` `infer_arg` for each parameter, with the types that are expected from the context. -/
def inferParameters (n : Nat) (types : List CustomType) : List Param → Tys Cell → I (Tys Cell)
  | [], _ => pure .nil
  | p :: ps, .nil => do
    let t ← hydrateOption types p.annotation
    let ts ← inferParameters n types ps .nil
    pure (.cons t ts)
  | p :: ps, .cons e es => do
    let t ← hydrateOption types p.annotation
    unifyI n e t
    let ts ← inferParameters n types ps es
    pure (.cons t ts)

/-- `expression.rs:5340-5395`: parameters are new variables, with different names. -/
def bindTypes : List Param → Tys Cell → Option Locals
  | [], .nil => some []
  | p :: ps, .cons t ts =>
    match bindTypes ps ts with
    | none => none
    | some vars =>
      match p.name with
      | none => some vars
      | some x => if (vars.lookup x).isSome then none else some ((x, t) :: vars)
  | _, _ => none

/-- The return annotation of a function literal. -/
def hydrateReturn (types : List CustomType) : Option TypeAst → I (Option (Ty Cell))
  | none => pure none
  | some a => do
    let t ← hydrate types a
    pure (some t)

/-- `expression.rs:5319-5425` `infer_fn_with_known_types`: the type of the last statement. -/
def inferBody (n : Nat) (locals : Locals) (ps : List Param) (ts : Tys Cell) (return_ : Option (Ty Cell)) (body : Locals → I (Ty Cell)) :
    I (Ty Cell) :=
  inScope do
    let vars ← expect (bindTypes ps ts)
    let t ← body (vars ++ locals)
    match return_ with
    | none => pure t
    | some r => do
      unifyI n r t
      pure t

/-- What a call argument that is a function literal is expected to be: `expression.rs:5196-5222`. -/
def expectedOf (t : Ty Cell) (e : Expr) : Tys Cell :=
  match t, e.literalArity with
  | .fn as _, some k => if as.length = k then as else .nil
  | _, _ => .nil

section
variable (n : Nat) (g : Globals)

/-- `expression.rs:3022-3120` `infer_known_record_access`. -/
def inferField (t : Ty Cell) (label : String) : I (Ty Cell) := do
  let u ← collapseI n t
  match u with
  | .named m x _ =>
    match g.types.find? fun r => decide (r.type.module = m ∧ r.type.name = x) with
    | none => reject
    | some r =>
      match accessor r.type label with
      | none => reject
      | some f => do
        let (record, ids) ← instScheme (r.type.result r.id) []
        let (f, _) ← instScheme (f.sub r.id) ids
        unifyI n record t
        pure f
  | _ => reject

/-- An annotation of an assignment: `2164-2183`. -/
def inferAnnotation (annotation : Option TypeAst) (t : Ty Cell) : I Unit :=
  match annotation with
  | none => pure ()
  | some a => do
    let u ← hydrate g.customTypes a
    let (u, _) ← instantiate n u []
    unifyI n u t

mutual

/-- `expression.rs:408-562` `infer_or_error`. `expected` are the expected types of the parameters, if the expression is a function
literal. -/
def infer (locals : Locals) (expected : Tys Cell) : Expr → I (Ty Cell)
  | .int _ => pure tInt
  | .float _ => pure tFloat
  | .string _ => pure tString
  | .var x => inferVar n g locals x
  -- `1054-1126` `infer_fn`, `5291-5317` `do_infer_fn`
  | .fn ps ret body => do
    let ts ← inferParameters n g.customTypes ps expected
    let r ← hydrateReturn g.customTypes ret
    let t ← inferBody n locals ps ts r fun locals => inferStmts locals body
    pure (.fn ts t)
  -- `4803-4874` `do_infer_call`, `4902-4949` `infer_fn_with_call_context`
  | .call f es => do
    let expected ← (if f.literalArity = some es.length then inferAll locals es else pure .nil)
    let t ← infer locals expected f
    let (ts, r) ← matchFunction n t es.length
    inferArguments locals es ts
    pure r
  -- `1870-1987` `infer_binop`
  | .bin op l r => do
    let tl ← infer locals .nil l
    let tr ← infer locals .nil r
    inferOperator n op tl tr
  -- `901-1052`
  | .not e => do
    let t ← infer locals .nil e
    unifyI n tBool t
    pure tBool
  | .neg e => do
    let t ← infer locals .nil e
    unifyI n tInt t
    pure tInt
  -- `5427-5435` `infer_block`
  | .block body => inScope (inferStmts locals body)
  -- `1283-1294` `infer_tuple`
  | .tuple es => do
    let ts ← inferAll locals es
    pure (.tuple ts)
  -- `1559-1600` `infer_tuple_index`
  | .index e i => do
    let t ← infer locals .nil e
    let u ← collapseI n t
    match u with
    | .tuple ts => expect ((Tys.list ts)[i]?)
    | _ => reject
  -- `1239-1281` `infer_list`
  | .list es tail => do
    let a ← fresh
    inferItems locals a es
    match tail with
    | none => pure (tList a)
    | some e => do
      let t ← infer locals .nil e
      unifyI n (tList a) t
      pure (tList a)
  -- `1357-1470` `infer_field_access`
  | .field e label => do
    let t ← infer locals .nil e
    inferField n g t label
  -- `2330-2430` `infer_case`
  | .case_ subjects cs => do
    let r ← fresh
    let ts ← inferSubjects locals subjects
    inferClauses locals ts r cs
    pure r
  -- `568-611` `infer_todo`, `infer_panic`
  | .fail none => fresh
  | .fail (some e) => do
    let r ← fresh
    let t ← infer locals .nil e
    unifyI n tString t
    pure r

/-- Expressions from left to right. -/
def inferAll (locals : Locals) : List Expr → I (Tys Cell)
  | [] => pure .nil
  | e :: es => do
    let t ← infer locals .nil e
    let ts ← inferAll locals es
    pure (.cons t ts)

/-- The subjects of a case expression, each in a scope of its own. -/
def inferSubjects (locals : Locals) : List Expr → I (Tys Cell)
  | [] => pure .nil
  | e :: es => do
    let t ← inScope (infer locals .nil e)
    let ts ← inferSubjects locals es
    pure (.cons t ts)

/-- The elements of a list. -/
def inferItems (locals : Locals) (a : Ty Cell) : List Expr → I Unit
  | [] => pure ()
  | e :: es => do
    let t ← infer locals .nil e
    unifyI n a t
    inferItems locals a es

/-- `5184-5241` `infer_call_argument` for each argument. -/
def inferArguments (locals : Locals) : List Expr → Tys Cell → I Unit
  | [], .nil => pure ()
  | e :: es, .cons t ts => do
    let u ← collapseI n t
    let v ← infer locals (expectedOf u e) e
    unifyI n u v
    inferArguments locals es ts
  | _, _ => reject

/-- `747-795` `infer_iter_statements`: the type of the last one. -/
def inferStmts (locals : Locals) : List Stmt → I (Ty Cell)
  | [] => reject
  | [s] => do
    let (t, _) ← inferStmt locals s
    pure t
  | s :: s' :: ss => do
    let (_, vars) ← inferStmt locals s
    inferStmts (vars ++ locals) (s' :: ss)

/-- The type of a statement, and its variables. -/
def inferStmt (locals : Locals) : Stmt → I (Ty Cell × Locals)
  | .expr e => do
    let t ← infer locals .nil e
    pure (t, [])
  -- `2136-2261` `infer_assignment`
  | .let_ p annotation e => do
    let t ← inScope (infer locals .nil e)
    let (_, vars) ← inferPattern n g .initial p t []
    inferAnnotation n g annotation t
    pure (t, vars)
  | .letAssert p annotation e message => do
    let t ← inScope (infer locals .nil e)
    inferMessage locals message
    let (_, vars) ← inferPattern n g .initial p t []
    inferAnnotation n g annotation t
    pure (t, vars)
  -- `2295-2328` `infer_assert`
  | .assert e message => do
    let t ← infer locals .nil e
    unifyI n tBool t
    inferMessage locals message
    pure (tNil, [])

/-- `1861-1868` `infer_and_unify` with `string`. -/
def inferMessage (locals : Locals) : Option Expr → I Unit
  | none => pure ()
  | some e => do
    let t ← infer locals .nil e
    unifyI n tString t

/-- `2435-2500` `infer_clause` for each clause. -/
def inferClauses (locals : Locals) (ts : Tys Cell) (r : Ty Cell) : List Clause → I Unit
  | [] => pure ()
  | .mk ps alternatives guard body :: cs => do
    let t ← inScope do
      let (_, vars) ← inferPatterns n g .initial ps ts []
      inferAlternatives n g vars ts alternatives
      inferOptionalGuard n (vars ++ locals) guard
      infer (vars ++ locals) .nil body
    unifyI n r t
    inferClauses locals ts r cs

end
end

/-! ### Functions -/

/-- A function with its preregistered type and its hydrator. -/
structure Head where
  fun_ : Fun
  parameters : Tys Cell
  return_ : Ty Cell
  hydrator : Hydrator

def Head.type (h : Head) : Ty Cell := .fn h.parameters h.return_

/-- `analyse.rs:1583-1689` `register_value_from_function`. Functions are registered when their group is reached, and not all before the first
group is inferred: functions of later groups are not mentioned before. -/
def registerFunction (types : List CustomType) (f : Fun) : I Head := do
  setHydrator ⟨[], []⟩
  let ts ← hydrateParameters types f.parameters
  let r ← hydrateOption types f.return_
  let hy ← getHydrator
  pure ⟨f, ts, r, hy⟩

def registerAll (types : List CustomType) : List Fun → I (List Head)
  | [] => pure []
  | f :: fs => do
    let h ← registerFunction types f
    let hs ← registerAll types fs
    pure (h :: hs)

/-- `analyse.rs:534-846` `infer_function`. -/
def inferFunction (n : Nat) (g : Globals) (h : Head) : I Unit := do
  setHydrator h.hydrator
  let t ← inferBody n [] h.fun_.parameters h.parameters (some h.return_) fun locals => inferStmts n g locals h.fun_.body
  unifyI n h.type (.fn h.parameters t)

def inferFunctions (n : Nat) (g : Globals) : List Head → I Unit
  | [] => pure ()
  | h :: hs => do
    inferFunction n g h
    inferFunctions n g hs

/-- `analyse.rs:1923-2008` `generalise_function`, for each function of the group. -/
def generaliseHeads (n : Nat) : List Head → I (List (String × Ty Nat))
  | [] => pure []
  | h :: hs => do
    let heap ← getHeap
    let t ← ofFuel (generalise n heap h.type)
    let ts ← generaliseHeads n hs
    pure ((h.fun_.name, t) :: ts)

/-- `analyse.rs:340-380`: the groups of functions, in their order. -/
def inferGroups (n : Nat) (types : List Registered) (values : List (String × Ty Nat)) : List (List Fun) → I (List (String × Ty Nat))
  | [] => pure values
  | fs :: rest => do
    let heads ← registerAll (types.map (·.type)) fs
    inferFunctions n ⟨types, heads.map fun h => (h.fun_.name, h.type), values⟩ heads
    let new ← generaliseHeads n heads
    inferGroups n types (new ++ values) rest

/-- The ids of the parameters of custom types are taken one after the other. -/
def registerTypes (base : Nat) : List CustomType → List Registered × Nat
  | [] => ([], base)
  | ct :: cts =>
    let (rs, next) := registerTypes (base + ct.parameters) cts
    (⟨ct, base⟩ :: rs, next)

/-- Names are not used twice. -/
def noDuplicates : List String → Bool
  | [] => true
  | x :: xs => !xs.contains x && noDuplicates xs

/-- The labels of a variant are not used twice: `fields.rs` `FieldMapBuilder::add`. -/
def distinctLabels (v : Variant) : Bool := noDuplicates (v.fields.filterMap (·.1))

/-- What is known before any variable was made. -/
def emptyHeap : Heap := fun c => .unbound c

/-- `analyse.rs:219-420` `infer_module_type`: the types of the functions, if the module is accepted. `assert_unique_name`: values of a module
have different names. -/
def inferModule (n : Nat) (m : Module) : Except Stop (List (String × Ty Nat)) :=
  let r := registerTypes 0 m.allTypes
  if noDuplicates (m.funs.map (·.name) ++ (m.types.flatMap (·.variants)).map (·.name)) && m.types.all (fun ct => ct.variants.all distinctLabels)
  then
    match inferGroups n r.1 [] m.groups ⟨emptyHeap, r.2, ⟨[], []⟩⟩ with
    | .ok (values, _) => .ok values
    | .error e => .error e
  else .error .rejected

end Verif.Infer
