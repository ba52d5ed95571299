/-
Model of the ordering of modules by their imports, `/repo/compiler-core/src/dep_tree.rs`, and of the part of
`/repo/compiler-core/src/build/package_loader.rs` that reports an import cycle.

The graph library `petgraph` is not part of the repository; `toposort` below models `petgraph::algo::toposort` (a depth first
search giving a finishing order, followed by a search of the reversed graph).
-/
namespace Verif.DepTree

/-- `petgraph::Graph<(), ()>`: the number of nodes, and the edges in the order in which they were added. -/
structure Graph where
  size : Nat
  edges : List (Nat × Nat)

/-- `petgraph`'s `graph.neighbors_directed(node, Direction::Outgoing)`: the edge that was added last comes first. -/
def Graph.successors (g : Graph) (node : Nat) : List Nat :=
  ((g.edges.filter fun e => e.1 == node).map (·.2)).reverse

/-- `petgraph`'s `Reversed(graph).neighbors(node)`. -/
def Graph.predecessors (g : Graph) (node : Nat) : List Nat :=
  ((g.edges.filter fun e => e.2 == node).map (·.1)).reverse

/-- First loop of `petgraph::algo::toposort`, for one start node. The top of the stack is the head of the list; `white` are the
nodes not yet discovered; `finished` has the node that finished last first. An error is a node with an edge to itself. -/
def dfsLoop (g : Graph) (stack white finished : List Nat) : Except Nat (List Nat × List Nat) :=
  match stack with
  | [] => .ok (white, finished)
  | nx :: rest =>
    if nx ∈ white then
      if nx ∈ g.successors nx then .error nx
      else dfsLoop g (((g.successors nx).filter fun s => s ∈ white.erase nx).reverse ++ nx :: rest) (white.erase nx) finished
    else dfsLoop g rest white (if nx ∈ finished then finished else nx :: finished)
termination_by (white.length, stack.length)
decreasing_by
  · rename_i h _
    apply Prod.Lex.left
    rw [List.length_erase_of_mem h]
    have := List.length_pos_of_mem h
    omega
  · apply Prod.Lex.right
    simp

/-- First loop of `petgraph::algo::toposort`, over all start nodes. -/
def dfsAll (g : Graph) (starts white finished : List Nat) : Except Nat (List Nat × List Nat) :=
  match starts with
  | [] => .ok (white, finished)
  | i :: starts =>
    if i ∈ white then
      match dfsLoop g [i] white finished with
      | .error n => .error n
      | .ok (white, finished) => dfsAll g starts white finished
    else dfsAll g starts white finished

/-- `petgraph::visit::Dfs::next` on the reversed graph: the node found, the stack and the undiscovered nodes. -/
def dfsNext (g : Graph) (stack white : List Nat) : Option (Nat × List Nat × List Nat) :=
  match stack with
  | [] => none
  | node :: rest =>
    if node ∈ white then
      some (node, ((g.predecessors node).filter fun s => s ∈ white.erase node).reverse ++ rest, white.erase node)
    else dfsNext g rest white

/-- Second loop of `petgraph::algo::toposort`: a search of the reversed graph from each node may only find that node. -/
def checkOrder (g : Graph) (order white : List Nat) : Option Nat :=
  match order with
  | [] => none
  | i :: order =>
    match dfsNext g [i] white with
    | none => checkOrder g order white
    | some (_, stack, white) =>
      match dfsNext g stack white with
      | some (j, _, _) => some j
      | none => checkOrder g order white

/-- `petgraph::algo::toposort(&graph, None)`. -/
def toposort (g : Graph) : Except Nat (List Nat) :=
  match dfsAll g (List.range g.size) (List.range g.size) [] with
  | .error n => .error n
  | .ok (_, finished) =>
    match checkOrder g finished (List.range g.size) with
    | some n => .error n
    | none => .ok finished

/-- `dep_tree.rs:22`, `24-28`: the map `indexes`; inserting a name again replaces its index. Lookup takes the first entry. -/
def indexes (inputs : List (String × List String)) (next : Nat) (acc : List (String × Nat)) : List (String × Nat) :=
  match inputs with
  | [] => acc
  | (value, _) :: rest => indexes rest (next + 1) ((value, next) :: acc)

/-- `HashMap::get`. -/
def get (map : List (String × Nat)) (name : String) : Option Nat := (map.find? fun e => e.1 == name).map (·.2)

/-- `dep_tree.rs:33-35`: the edges from one value to those of its dependencies that have an index. -/
def edgesFrom (map : List (String × Nat)) (fromIndex : Nat) (deps : List String) : List (Nat × Nat) :=
  (deps.filterMap (get map)).map fun to => (fromIndex, to)

/-- `dep_tree.rs:30-36`: the second loop. `none` is the panic of the `expect`. -/
def edges (map : List (String × Nat)) (inputs : List (String × List String)) : Option (List (Nat × Nat)) :=
  match inputs with
  | [] => some []
  | (value, deps) :: rest =>
    match get map value, edges map rest with
    | some fromIndex, some more => some (edgesFrom map fromIndex deps ++ more)
    | _, _ => none

/-- `values.remove(&i).expect(...)` for each of a sequence of indexes, `dep_tree.rs:41-43` and `55-61`. The map `values` is a
list of indexes and names; `none` is the panic. -/
def removeAll (values : List (Nat × String)) (seq : List Nat) : Option (List String) :=
  match seq with
  | [] => some []
  | i :: seq =>
    match values.find? fun e => e.1 == i with
    | none => none
    | some (_, name) =>
      match removeAll (values.filter fun e => e.1 != i) seq with
      | none => none
      | some names => some (name :: names)

/-- `dep_tree.rs:21`, `27`: the map `values`. -/
def values (inputs : List (String × List String)) : List (Nat × String) :=
  (List.range inputs.length).zip (inputs.map (·.1))

mutual
/-- `dep_tree.rs:64-86` `find_cycle`. The result is `(found, path, seen)`, where `path` is in the order of the pushes. The call
depth is bounded by `fuel`, `none` is running out of it. -/
def findCycle (g : Graph) (origin parent : Nat) (path seen : List Nat) (fuel : Nat) : Option (Bool × List Nat × List Nat) :=
  match fuel with
  | 0 => none
  | fuel + 1 => findCycleLoop g origin (g.successors parent) path (parent :: seen) fuel
termination_by (fuel, 0)

/-- `dep_tree.rs:72-85`: the loop over the neighbours. -/
def findCycleLoop (g : Graph) (origin : Nat) (nodes path seen : List Nat) (fuel : Nat) : Option (Bool × List Nat × List Nat) :=
  match nodes with
  | [] => some (false, path, seen)
  | node :: nodes =>
    if node = origin then some (true, path ++ [node], seen)
    else if node ∈ seen then findCycleLoop g origin nodes path seen fuel
    else
      match findCycle g origin node path seen fuel with
      | none => none
      | some (true, path, seen) => some (true, path ++ [node], seen)
      | some (false, path, seen) => findCycleLoop g origin nodes path seen fuel
termination_by (fuel, nodes.length + 1)
end

/-- `dep_tree.rs:16-92`, the result of `toposort_deps`; `panic` stands for the `expect`s and for `find_cycle` not ending. -/
inductive Outcome where
  | ordered (names : List String)
  | cycle (names : List String)
  | panic
deriving DecidableEq, Repr

/-- `dep_tree.rs:48-62` `import_cycle`. -/
def importCycle (g : Graph) (origin : Nat) (vals : List (Nat × String)) : Outcome :=
  match findCycle g origin origin [] [] (g.size + 1) with
  | none => .panic
  | some (_, path, _) =>
    match removeAll vals path with
    | none => .panic
    | some names => .cycle names

/-- `dep_tree.rs:19-46` `toposort_deps`. -/
def toposortDeps (inputs : List (String × List String)) : Outcome :=
  match edges (indexes inputs 0 []) inputs with
  | none => .panic
  | some es =>
    match toposort ⟨inputs.length, es⟩ with
    | .error n => importCycle ⟨inputs.length, es⟩ n (values inputs)
    | .ok seq =>
      match removeAll (values inputs) seq with
      | none => .panic
      | some names => .ordered names.reverse

/-- `package_loader.rs:318-361`: for each module of the cycle the location of its import of the module it imports, found by
name; `none` is the panic of one of the `expect`s. The dependencies of a module and their locations are given by `imports`. -/
def cycleLocations {Loc : Type} (imports : String → List (String × Loc)) (modules : List String) (i : Nat)
    (todo : List String) : Option (List (String × Loc)) :=
  match todo with
  | [] => some []
  | m :: todo =>
    match modules[if i = 0 then modules.length - 1 else i - 1]? with
    | none => none
    | some imported =>
      match (imports m).find? fun d => d.1 == imported with
      | none => none
      | some (_, location) =>
        match cycleLocations imports modules (i + 1) todo with
        | none => none
        | some rest => some ((m, location) :: rest)

/-- `package_loader.rs:312-363` `convert_deps_tree_error`: the modules of the error, with locations. -/
def convertCycle {Loc : Type} (imports : String → List (String × Loc)) (modules : List String) : Option (List (String × Loc)) :=
  if modules = [] then none else cycleLocations imports modules 0 modules

end Verif.DepTree
