import Verif.CallGraph.Model
import Mathlib.Logic.Relation

/-
What a definition refers to, by the scoping rules of the type checker (`/repo/compiler-core/src/type_/expression.rs:2136-2260`, `2430-2460`,
`/repo/compiler-core/src/type_/pattern.rs:1383-1419`): free names of expressions.
-/
namespace Verif.CallGraph

def Size.Uses (x : String) : Size → Prop
  | .int => False
  | .variable name => name = x
  | .binary left right => left.Uses x ∨ right.Uses x
  | .block inner => inner.Uses x

mutual
/-- The pattern binds the name. -/
def Pat.Binds (x : String) : Pat → Prop
  | .variable name => name = x
  | .stringPrefix left right => left = some x ∨ right = some x
  | .node children => children.Binds x
  | .size _ => False
  | .assign name pattern => name = x ∨ pattern.Binds x
  | .bitArray segments => segments.Binds x

def Pats.Binds (x : String) : Pats → Prop
  | .nil => False
  | .cons head tail => head.Binds x ∨ tail.Binds x

def Segments.Binds (x : String) : Segments → Prop
  | .nil => False
  | .cons _ value rest => value.Binds x ∨ rest.Binds x
end

mutual
/-- The pattern refers to the name from outside of it: in the size of a segment, where only the variables of earlier segments of the same
bit array are in scope besides those from outside of the whole pattern. -/
def Pat.Uses (x : String) : Pat → Prop
  | .variable _ => False
  | .stringPrefix _ _ => False
  | .node children => children.Uses x
  | .size size => size.Uses x
  | .assign _ pattern => pattern.Uses x
  | .bitArray segments => segments.Uses x

def Pats.Uses (x : String) : Pats → Prop
  | .nil => False
  | .cons head tail => head.Uses x ∨ tail.Uses x

def Segments.Uses (x : String) : Segments → Prop
  | .nil => False
  | .cons sizes value rest => sizes.Uses x ∨ value.Uses x ∨ (¬ value.Binds x ∧ rest.Uses x)
end

def Const.Uses (x : String) : Const → Prop
  | .variable name => name = x
  | .qualified _ _ => False
  | .leaf => False
  | .both left right => left.Uses x ∨ right.Uses x

/-- `module.constant` does not refer to a value of this module. -/
def Guard.Uses (x : String) : Guard → Prop
  | .invalid => False
  | .binary left right => left.Uses x ∨ right.Uses x
  | .inner guard => guard.Uses x
  | .variable name => name = x
  | .moduleSelect _ _ => False
  | .constant value => value.Uses x

mutual
/-- The name is free in the expression. -/
def Expr.Uses (x : String) : Expr → Prop
  | .variable name => name = x
  | .node children => children.Uses x
  | .block statements => statements.Uses x
  | .fn parameters body => x ∉ parameters ∧ body.Uses x
  | .case subjects clauses => subjects.Uses x ∨ clauses.Uses x

def Exprs.Uses (x : String) : Exprs → Prop
  | .nil => False
  | .cons head tail => head.Uses x ∨ tail.Uses x

/-- The variables of an assignment are in scope in the statements after it. -/
def Stmts.Uses (x : String) : Stmts → Prop
  | .nil => False
  | .expression value rest => value.Uses x ∨ rest.Uses x
  | .assignment value pattern message rest => value.Uses x ∨ pattern.Uses x ∨ message.Uses x ∨ (¬ pattern.Binds x ∧ rest.Uses x)
  | .use call patterns rest => call.Uses x ∨ patterns.Uses x ∨ (¬ patterns.Binds x ∧ rest.Uses x)

/-- Alternative patterns bind the same variables as the first. -/
def Clauses.Uses (x : String) : Clauses → Prop
  | .nil => False
  | .cons pattern alternatives guard body rest =>
    pattern.Uses x ∨ (∃ p ∈ alternatives, p.Uses x) ∨ (¬ pattern.Binds x ∧ ((∃ g, guard = some g ∧ g.Uses x) ∨ body.Uses x)) ∨ rest.Uses x
end

/-- The definition refers to the name, at the level of the module. -/
def Definition.Uses (x : String) : Definition → Prop
  | .function _ parameters body => x ∉ parameters ∧ body.Uses x
  | .constant _ value => value.Uses x

/-- One definition refers to another, by their places in the module. -/
def RefersTo (definitions : List Definition) (i j : Nat) : Prop :=
  ∃ d e, definitions[i]? = some d ∧ definitions[j]? = some e ∧ d.Uses e.name

/-- What is asked of the groups: every definition is in exactly one, everything a definition refers to is in the same or an earlier group, and
definitions in one group refer to each other, through others of the module or directly. -/
structure InOrder (definitions : List Definition) (groups : List (List Nat)) : Prop where
  complete : List.Perm groups.flatten (List.range definitions.length)
  earlier : ∀ before group after, groups = before ++ group :: after → ∀ i ∈ group, ∀ j, RefersTo definitions i j → j ∈ group ∨ ∃ g ∈ before, j ∈ g
  mutual_ : ∀ group ∈ groups, ∀ i ∈ group, ∀ j ∈ group, Relation.ReflTransGen (RefersTo definitions) i j

/-- The contract of `petgraph::algo::tarjan_scc`: the strongly connected components of the graph, in reverse topological order. -/
structure Components (edges : List (List Nat)) (groups : List (List Nat)) : Prop where
  complete : List.Perm groups.flatten (List.range edges.length)
  earlier : ∀ before group after, groups = before ++ group :: after → ∀ i ∈ group, ∀ targets, edges[i]? = some targets → ∀ j ∈ targets,
    j ∈ group ∨ ∃ g ∈ before, j ∈ g
  connected : ∀ group ∈ groups, ∀ i ∈ group, ∀ j ∈ group, Relation.ReflTransGen (fun a b => ∃ targets, edges[a]? = some targets ∧ b ∈ targets) i j

/-! ### Modules on which the graph is exact -/

/-- No name is bound by the pattern and also refers, in a size, to something outside of it. -/
def Pat.Apart (p : Pat) : Prop := ∀ x, p.Uses x → ¬ p.Binds x
def Pats.Apart (p : Pats) : Prop := ∀ x, p.Uses x → ¬ p.Binds x

mutual
/-- No string prefix is given a name, and size options are sizes. -/
def Pat.Plain : Pat → Prop
  | .variable _ => True
  | .stringPrefix left _ => left = none
  | .node children => children.Plain
  | .size _ => True
  | .assign _ pattern => pattern.Plain
  | .bitArray segments => segments.Plain

def Pats.Plain : Pats → Prop
  | .nil => True
  | .cons head tail => head.Plain ∧ tail.Plain

def Segments.Plain : Segments → Prop
  | .nil => True
  | .cons sizes value rest => sizes.Plain ∧ (∀ x, ¬ sizes.Binds x) ∧ value.Plain ∧ rest.Plain
end

/-- No constants of other modules are selected. -/
def Guard.Plain : Guard → Prop
  | .invalid => True
  | .binary left right => left.Plain ∧ right.Plain
  | .inner guard => guard.Plain
  | .variable _ => True
  | .moduleSelect _ _ => False
  | .constant _ => True

mutual
def Expr.Plain : Expr → Prop
  | .variable _ => True
  | .node children => children.Plain
  | .block statements => statements.Plain
  | .fn _ body => body.Plain
  | .case subjects clauses => subjects.Plain ∧ clauses.Plain

def Exprs.Plain : Exprs → Prop
  | .nil => True
  | .cons head tail => head.Plain ∧ tail.Plain

/-- The message of an assertion does not use a name the pattern binds. -/
def Stmts.Plain : Stmts → Prop
  | .nil => True
  | .expression value rest => value.Plain ∧ rest.Plain
  | .assignment value pattern message rest =>
    value.Plain ∧ pattern.Plain ∧ pattern.Apart ∧ message.Plain ∧ (∀ x, message.Uses x → ¬ pattern.Binds x) ∧ rest.Plain
  | .use call patterns rest => call.Plain ∧ patterns.Plain ∧ patterns.Apart ∧ rest.Plain

/-- Alternative patterns have no names in sizes. -/
def Clauses.Plain : Clauses → Prop
  | .nil => True
  | .cons pattern alternatives guard body rest =>
    pattern.Plain ∧ pattern.Apart ∧ (∀ p ∈ alternatives, ∀ x, ¬ p.Uses x) ∧ (∀ g, guard = some g → g.Plain) ∧ body.Plain ∧ rest.Plain
end

def Definition.Plain : Definition → Prop
  | .function _ _ body => body.Plain
  | .constant _ _ => True

end Verif.CallGraph
