/-
Model of unification: `/repo/compiler-core/src/type_/environment.rs:1042-1193` (`unify`), `/repo/compiler-core/src/type_.rs:1645-1690`
(`unify_unbound_type`) and `676-683` (`collapse_links`).

Type variables are cells of a heap, as they are behind `Arc<RefCell<TypeVar>>`. Of a named type the module, the name and the arguments are
kept; publicity, package and inferred variant are not (`unify` does not look at them, except that `==` may then be false for types that
are told equal one step later, argument by argument).
Recursion through the heap is bounded by fuel; running out of it is `none`.
-/
namespace Verif.Unify

mutual
/-- `type_.rs` `Type`, with variables of any kind. -/
inductive Ty (V : Type) where
  | var (v : V)
  | named (module name : String) (arguments : Tys V)
  | fn (arguments : Tys V) (return_ : Ty V)
  | tuple (elements : Tys V)

inductive Tys (V : Type) where
  | nil
  | cons (head : Ty V) (tail : Tys V)
end

def Tys.length {V : Type} : Tys V → Nat
  | .nil => 0
  | .cons _ tail => tail.length + 1

abbrev Cell := Nat

/-- `type_.rs` `TypeVar`. -/
inductive TypeVar where
  | link (type_ : Ty Cell)
  | unbound (id : Nat)
  | generic (id : Nat)

abbrev Heap := Cell → TypeVar

def Heap.set (s : Heap) (c : Cell) (v : TypeVar) : Heap := fun d => if d = c then v else s d

def TypeVar.linked : TypeVar → Option (Ty Cell)
  | .link t => some t
  | _ => none

def TypeVar.isUnbound : TypeVar → Bool
  | .unbound _ => true
  | _ => false

/-- Comparing lists of types: `Vec`'s `==`. -/
def sameAll (same : Ty Cell → Ty Cell → Option Bool) : Tys Cell → Tys Cell → Option Bool
  | .nil, .nil => some true
  | .cons a as, .cons b bs =>
    match same a b with
    | none => none
    | some false => some false
    | some true => sameAll same as bs
  | _, _ => some false

/-- The derived `==` of types, which compares what is in the cells. -/
def same : Nat → Heap → Ty Cell → Ty Cell → Option Bool
  | 0, _, _, _ => none
  | n + 1, s, .var c, .var d =>
    match s c, s d with
    | .link t, .link u => same n s t u
    | .unbound i, .unbound j => some (i == j)
    | .generic i, .generic j => some (i == j)
    | _, _ => some false
  | n + 1, s, .named m x as, .named m' x' bs => if m = m' ∧ x = x' then sameAll (same n s) as bs else some false
  | n + 1, s, .fn as r, .fn bs r' =>
    match sameAll (same n s) as bs with
    | none => none
    | some false => some false
    | some true => same n s r r'
  | n + 1, s, .tuple as, .tuple bs => sameAll (same n s) as bs
  | _ + 1, _, _, _ => some false

def occursAny (occurs : Ty Cell → Option Bool) : Tys Cell → Option Bool
  | .nil => some false
  | .cons a as =>
    match occurs a with
    | none => none
    | some true => some true
    | some false => occursAny occurs as

/-- `type_.rs:1645-1690` `unify_unbound_type`: whether the variable was found. -/
def occurs : Nat → Heap → Nat → Ty Cell → Option Bool
  | 0, _, _, _ => none
  | n + 1, s, own, .var c =>
    match s c with
    | .link t => occurs n s own t
    | .unbound id => some (id == own)
    | .generic _ => some false
  | n + 1, s, own, .named _ _ as => occursAny (occurs n s own) as
  | n + 1, s, own, .fn as r =>
    match occursAny (occurs n s own) as with
    | none => none
    | some true => some true
    | some false => occurs n s own r
  | n + 1, s, own, .tuple as => occursAny (occurs n s own) as

/-- `type_.rs:676-683` `collapse_links`. -/
def collapse : Nat → Heap → Ty Cell → Option (Ty Cell)
  | 0, _, _ => none
  | n + 1, s, .var c =>
    match s c with
    | .link t => collapse n s t
    | _ => some (.var c)
  | _ + 1, _, t => some t

inductive Outcome where
  | ok
  | fail
  | panic

/-- Running through two lists of arguments, with `?` after each. -/
def unifyAll (unify : Heap → Ty Cell → Ty Cell → Option (Outcome × Heap)) (s : Heap) : Tys Cell → Tys Cell → Option (Outcome × Heap)
  | .cons a as, .cons b bs =>
    match unify s a b with
    | some (.ok, s) => unifyAll unify s as bs
    | r => r
  | _, _ => some (.ok, s)

/-- The cell and the target, if the type is a linked variable. -/
def linkOf (s : Heap) : Ty Cell → Option (Cell × Ty Cell)
  | .var c => (s c).linked.map fun t => (c, t)
  | _ => none

/-- `environment.rs:1119-1190`: the types are no variables. -/
def unifyStructures (unify : Heap → Ty Cell → Ty Cell → Option (Outcome × Heap)) (s : Heap) : Ty Cell → Ty Cell → Option (Outcome × Heap)
  | .named m x as, .named m' x' bs =>
    if m = m' ∧ x = x' ∧ as.length = bs.length then unifyAll unify s as bs else some (.fail, s)
  | .tuple as, .tuple bs => if as.length = bs.length then unifyAll unify s as bs else some (.fail, s)
  | .fn as r, .fn bs r' =>
    if as.length = bs.length then
      match unifyAll unify s as bs with
      | some (.ok, s) => unify s r r'
      | r => r
    else some (.fail, s)
  | _, _ => some (.fail, s)

/-- `environment.rs:1068-1076`: the first type is a generic variable. -/
def unifyGeneric (held : List Cell) (s : Heap) (id : Nat) : Ty Cell → Option (Outcome × Heap)
  | .var d => if (s d).isUnbound then (if d ∈ held then some (.panic, s) else some (.ok, s.set d (.generic id))) else some (.fail, s)
  | _ => some (.fail, s)

/-- `environment.rs:1063-1066`, `1080-1087`: the first type is an unbound variable. -/
def unifyUnbound (n : Nat) (held : List Cell) (s : Heap) (c : Cell) (id : Nat) (t2 : Ty Cell) : Option (Outcome × Heap) :=
  match occurs n s id t2 with
  | none => none
  | some true => some (.fail, s)
  | some false => if c ∈ held then some (.panic, s) else some (.ok, s.set c (.link t2))

/-- `environment.rs:1089-1106`: the first type is a link; `r` is the result of unifying its target. -/
def unifyLink (n : Nat) (held : List Cell) (c : Cell) (t : Ty Cell) (r : Option (Outcome × Heap)) : Option (Outcome × Heap) :=
  match r with
  | some (.ok, s) =>
    if c ∈ held then some (.ok, s)
    else
      match collapse n s t with
      | none => none
      | some u => some (.ok, s.set c (.link u))
  | r => r

/-- `environment.rs:1042-1193` `unify`. `held` are the cells that are borrowed while the right hand side's links are followed; borrowing one
of them for writing with `borrow_mut` panics, with `try_borrow_mut` it is left alone. -/
def unify : Nat → List Cell → Heap → Ty Cell → Ty Cell → Option (Outcome × Heap)
  | 0, _, _, _, _ => none
  | n + 1, held, s, t1, t2 =>
    match same n s t1 t2 with
    | none => none
    | some true => some (.ok, s)
    | some false =>
      match linkOf s t2 with
      | some (d, t) => unify n (d :: held) s t1 t
      | none =>
        match t1 with
        | .var c =>
          match s c with
          | .link t => unifyLink n held c t (unify n held s t t2)
          | .unbound id => unifyUnbound n held s c id t2
          | .generic id => unifyGeneric held s id t2
        | t1 =>
          match t2 with
          | .var d => unify n held s (.var d) t1
          | t2 => unifyStructures (unify n held) s t1 t2

end Verif.Unify
