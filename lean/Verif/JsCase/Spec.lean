import Verif.Case.Spec
import Verif.JsCase.Model

/-!
# What the generated JavaScript does

The meaning of the statements and expressions, independent of how they are generated, and the
decision trees that make sense.
-/

namespace Verif.JsCase

open Verif.Case

variable {B : BitSys}

/-! ### Running JavaScript -/

/-- The UTF-16 code units of a character. -/
def codeUnits (c : Char) : List Nat :=
  if c.toNat < 0x10000 then [c.toNat]
  else [0xD800 + (c.toNat - 0x10000) / 0x400, 0xDC00 + (c.toNat - 0x10000) % 0x400]

/-- The UTF-16 code units of a string. -/
def stringUnits (s : List Char) : List Nat := s.flatMap codeUnits

/-- `s.slice(n)`, where `n` counts code units; `none` if it would cut a character in two. -/
def sliceUnits : Nat → List Char → Option (List Char)
  | 0, s => some s
  | _ + 1, [] => some []
  | n + 1, c :: s =>
    if (codeUnits c).length ≤ n + 1 then sliceUnits (n + 1 - (codeUnits c).length) s else none
termination_by n s => s.length

/-- The values of the JavaScript variables, the newest first. -/
abbrev JEnv (B : BitSys) := List (JName × Val B.Bits)

/-- The value of an expression, `none` is an exception or `undefined`.
`NaN`, the code of the first character of an empty string, is a value that is not a number here. -/
def JExpr.eval (ρ : JEnv B) : JExpr B → Option (Val B.Bits)
  | .name n => ρ.lookup n
  | .const c => some c
  | .index e i =>
    match e.eval ρ with
    | some (.tuple vs) => vs[i]?
    | some (.variant _ vs) => vs[i]?
    | _ => none
  | .head e =>
    match e.eval ρ with
    | some (.cons h _) => some h
    | _ => none
  | .tail e =>
    match e.eval ρ with
    | some (.cons _ t) => some t
    | _ => none
  | .slice e n =>
    match e.eval ρ with
    | some (.str s) => (sliceUnits n s).map Val.str
    | _ => none
  | .read r e =>
    match e.eval ρ with
    | some (.bits b) => some (B.read r b)
    | _ => none
  | .charCode e =>
    match e.eval ρ with
    | some (.str s) =>
      some (match (stringUnits s).head? with
        | some n => .int n
        | none => .opaque 0)
    | _ => none
  | .missing => none

/-- The value of a condition, `none` is an exception.  The prelude's `True` is variant 0 of `Bool`
and `False` is variant 1; they are `true` and `false` in JavaScript. -/
def Cond.eval (guards : Guards B) (ρ : JEnv B) (vars : Name → Option (Val B.Bits)) :
    Cond B → Option Bool
  | .int e i => (e.eval ρ).map fun
    | .int j => decide (j = i)
    | _ => false
  | .float e f => (e.eval ρ).map fun
    | .float g => decide (g = f)
    | _ => false
  | .str e s => (e.eval ρ).map fun
    | .str x => decide (stringUnits x = stringUnits s.decode)
    | _ => false
  | .startsWith e s => (e.eval ρ).bind fun
    | .str x => some (decide (stringUnits s.decode <+: stringUnits x))
    | _ => none
  | .code e n => (e.eval ρ).map fun
    | .int j => decide (j = n)
    | _ => false
  | .bits e t => (e.eval ρ).bind fun
    | .bits b => some (B.holds t b)
    | _ => none
  | .truthy e => (e.eval ρ).bind fun
    | .variant 0 [] => some true
    | .variant 1 [] => some false
    | _ => none
  | .falsy e => (e.eval ρ).bind fun
    | .variant 0 [] => some false
    | .variant 1 [] => some true
    | _ => none
  | .isVariant e i => (e.eval ρ).map fun
    | .variant j _ => decide (j = i)
    | _ => false
  | .isEmpty e => (e.eval ρ).map fun
    | .nil => true
    | _ => false
  | .isNonEmpty e => (e.eval ρ).map fun
    | .cons _ _ => true
    | _ => false
  | .guard g => some (guards g vars)
  | .panic => none

/-- `c && d && ..`: later conditions are only looked at if the earlier ones are true. -/
def evalConds (guards : Guards B) (ρ : JEnv B) (vars : Name → Option (Val B.Bits)) :
    List (Cond B) → Option Bool
  | [] => some true
  | c :: cs =>
    match c.eval guards ρ vars with
    | some true => evalConds guards ρ vars cs
    | r => r

/-- The values of declarations. -/
def evalBindings (ρ : JEnv B) : List (Name × JExpr B) → Option (Bindings B)
  | [] => some []
  | (x, e) :: bs => (e.eval ρ).bind fun v => (evalBindings ρ bs).map fun l => (x, v) :: l

/-- A variable of the source: its last declaration counts. -/
def lastOf (μ : Bindings B) : Name → Option (Val B.Bits) := fun x => μ.reverse.lookup x

/-- What code does: it runs the expression of a clause with variables, it returns a subject for a
clause, it goes on after a `let assert` with variables, it throws the error of a `let assert`, or it
does something else that never should happen. -/
inductive Outcome (B : BitSys)
  | ran (clause : Nat) (vars : Name → Option (Val B.Bits))
  | returned (clause : Nat) (value : Val B.Bits)
  | assigned (vars : Name → Option (Val B.Bits))
  | threw
  | stuck

/-- Runs code; `μ` are the variables of the clause. -/
def Code.exec (guards : Guards B) : JEnv B → Bindings B → Code B → Outcome B
  | _, μ, .empty => .assigned (lastOf μ)
  | ρ, μ, .lets n e rest =>
    match e.eval ρ with
    | some v => rest.exec guards ((n, v) :: ρ) μ
    | none => .stuck
  | ρ, μ, .body bs clause =>
    match evalBindings ρ bs with
    | some l => .ran clause (lastOf (μ ++ l))
    | none => .stuck
  | ρ, _, .ret clause i =>
    match ρ.lookup (.subject i) with
    | some v => .returned clause v
    | none => .stuck
  | ρ, μ, .assign bs =>
    match evalBindings ρ bs with
    | some l => .assigned (lastOf (μ ++ l))
    | none => .stuck
  | ρ, μ, .ite cs yes no =>
    match evalConds guards ρ (lastOf μ) cs with
    | some true => yes.exec guards ρ μ
    | some false => no.exec guards ρ μ
    | none => .stuck
  | ρ, μ, .unless cs no =>
    match evalConds guards ρ (lastOf μ) cs with
    | some true => .assigned (lastOf μ)
    | some false => no.exec guards ρ μ
    | none => .stuck
  | ρ, _, .guarded bs g yes no =>
    match evalBindings ρ bs with
    | some l => if guards g (lastOf l) then yes.exec guards ρ l else no.exec guards ρ []
    | none => .stuck
  | _, _, .throws => .threw
  | _, _, .panic => .stuck

/-- The variables of the subjects. -/
def subjectVars (vs : List (Val B.Bits)) : JEnv B :=
  vs.zipIdx.map fun p => (.subject p.2, p.1)

/-- What the code for a decision tree has to do, given the clause the tree runs and its
variables. -/
def expected (ctx : Ctx) (subjects : List (Val B.Bits)) :
    Option (Nat × (Name → Option (Val B.Bits))) → Outcome B
  | none => if ctx.letAssert then .threw else .stuck
  | some (clause, vars) =>
    if ctx.letAssert then .assigned vars
    else match ctx.returned clause with
      | none => .ran clause vars
      | some i =>
        match subjects[i]? with
        | some v => .returned clause v
        | none => .stuck

/-! ### Decision trees that make sense -/

/-- The variables a check introduces. -/
def checkVars : Check B → List Var
  | .strPrefix _ rest => [rest]
  | .tuple vs => vs
  | .variant _ _ vs => vs
  | .cons first rest => [first, rest]
  | _ => []

/-- The variables a fallback introduces. -/
def fallbackVars : Fallback B → List Var
  | .check c => checkVars c
  | _ => []

/-- The variable a binding refers to. -/
def boundVar : Bound B → Option Var
  | .var v => some v
  | .const _ => none
  | .bitSlice v _ => some v
  | .strSlice v _ => some v

/-- The checks of choices. -/
def checksOf : Choices B → List (Check B)
  | .nil => []
  | .cons c _ cs => c :: checksOf cs

/-- Choices as a list. -/
def choiceList : Choices B → List (Check B × Decision B)
  | .nil => []
  | .cons c d cs => (c, d) :: choiceList cs

mutual
/-- The variables a decision tree introduces. -/
def varsOf : Decision B → List Var
  | .run _ => []
  | .guard _ _ d => varsOf d
  | .switch _ cs d f => varsOfChoices cs ++ (fallbackVars f ++ varsOf d)
  | .fail => []
/-- The variables choices introduce. -/
def varsOfChoices : Choices B → List Var
  | .nil => []
  | .cons c d cs => checkVars c ++ varsOf d ++ varsOfChoices cs
end

mutual
/-- The decision tree only uses variables that are in scope. -/
def Scoped : List Var → Decision B → Prop
  | sc, .run b => ∀ p ∈ b.bindings, ∀ v, boundVar p.2 = some v → v ∈ sc
  | sc, .guard _ b d => (∀ p ∈ b.bindings, ∀ v, boundVar p.2 = some v → v ∈ sc) ∧ Scoped sc d
  | sc, .switch v cs d f => v ∈ sc ∧ ScopedChoices sc cs ∧ Scoped (fallbackVars f ++ sc) d
  | _, .fail => True
/-- The same for choices. -/
def ScopedChoices : List Var → Choices B → Prop
  | _, .nil => True
  | sc, .cons c d cs => Scoped (checkVars c ++ sc) d ∧ ScopedChoices sc cs
end

/-- The check can be made for a value of a type: there are no checks for tuples, a prefix is looked
for in strings, and a test is made of bit arrays. -/
def Speaks (ctx : Ctx) (t : Ty) (x : Val B.Bits) : Check B → Prop
  | .tuple _ => False
  | .strPrefix _ _ => ∃ s, x = .str s
  | .bits _ => ∃ b, x = .bits b
  | .variant _ i _ =>
    ctx.isBool t = true → (i = 0 ∨ i = 1) ∧ (x = .variant 0 [] ∨ x = .variant 1 [])
  | _ => True

/-- A value has the parts that a check takes from it. -/
def Fits (x : Val B.Bits) : Check B → Prop
  | .strPrefix p _ => ∃ s, x = .str s ∧ p.decode <+: s
  | .tuple vs => ∃ xs, x = .tuple xs ∧ xs.length = vs.length
  | .variant _ _ vs => ∃ i xs, x = .variant i xs ∧ xs.length = vs.length
  | .cons _ _ => ∃ h t, x = .cons h t
  | _ => True

/-- A value has the parts that a fallback takes from it. -/
def FallbackFits (x : Val B.Bits) : Fallback B → Prop
  | .check c => Fits x c
  | _ => True

/-- A binding reads a segment of a bit array, or drops a prefix of a string. -/
def BoundFits (env : Env B) : Bound B → Prop
  | .bitSlice v _ => ∃ b, env v = .bits b
  | .strSlice v p => ∃ s, env v = .str s ∧ p.decode <+: s
  | _ => True

/-- The variables of a body have different names, and their values exist. -/
def BodyFits (env : Env B) (b : Body B) : Prop :=
  (b.bindings.map Prod.fst).Nodup ∧ ∀ p ∈ b.bindings, BoundFits env p.2

/-- A decision that ends without doing anything in a `let assert`: all checks have been made and
there are no variables. -/
def Quiet : Decision B → Prop
  | .run b => b.bindings = []
  | .switch _ .nil d _ => Quiet d
  | _ => False

/-- If two checks of a switch succeed and the choice of the first one ends like the fallback, then
so does the choice of the second one.  It is true if at most one check succeeds. -/
def Unanimous (guards : Guards B) (env : Env B) (x : Val B.Bits) (fallback : Decision B)
    (cs : Choices B) : Prop :=
  (choiceList cs).Pairwise fun p q => p.1.holds x = true → q.1.holds x = true →
    p.2.eval guards (env.set (p.1.binds x)) = fallback.eval guards env →
    q.2.eval guards (env.set (q.1.binds x)) = fallback.eval guards env

mutual
/-- The decision tree makes sense for the values of the variables: wherever they lead to,
the checks can be made, choices that end like the fallback agree (`Unanimous`) and the values have
the parts that are taken from them.  In a `let assert`, if `inner`, which means just after the check of a
choice, checks that all fail do not lead to nothing at all. -/
def Proper (ctx : Ctx) (guards : Guards B) (inner : Bool) : Env B → Decision B → Prop
  | env, .run b => BodyFits env b
  | env, .guard _ b d => ctx.letAssert = false ∧ BodyFits env b ∧ Proper ctx guards false env d
  | env, .switch v .nil d f =>
    FallbackFits (env v) f ∧ Proper ctx guards inner (env.set (f.binds (env v))) d
  | env, .switch v (.cons c e cs) d f =>
    (∀ k ∈ checksOf (.cons c e cs), Speaks ctx v.ty (env v) k) ∧
    Unanimous guards env (env v) d (.cons c e cs) ∧
    ProperChoices ctx guards env (env v) (.cons c e cs) ∧
    ((∀ k ∈ checksOf (.cons c e cs), k.holds (env v) = false) →
      FallbackFits (env v) f ∧ (ctx.letAssert = true → inner = true → ¬ Quiet d) ∧
      Proper ctx guards false (env.set (f.binds (env v))) d)
  | _, .fail => True
/-- The same for choices. -/
def ProperChoices (ctx : Ctx) (guards : Guards B) : Env B → Val B.Bits → Choices B → Prop
  | _, _, .nil => True
  | env, x, .cons c d cs =>
    (c.holds x = true → Fits x c ∧ Proper ctx guards true (env.set (c.binds x)) d) ∧
    ProperChoices ctx guards env x cs
end

/-- The guards only depend on the variables they mention. -/
def GuardsLocal (ctx : Ctx) (guards : Guards B) : Prop :=
  ∀ g f f', (∀ x ∈ ctx.refs g, f x = f' x) → guards g f = guards g f'

/-- `True` and `False` are not imported under other names. -/
def BoolsNamed (ctx : Ctx) : Prop :=
  ∀ v i, ctx.isBool v.ty = true → (ctx.namedTrue v i = true ↔ i = 0)

end Verif.JsCase
