import Mathlib.Data.List.Basic
import Mathlib.Data.Nat.Notation

/-!
# Call graphs: references, nodes, ordering and reachability

Models `/repo/src/fastforward/_orchestration/graph_module.py`.
-/

namespace FF.Orch

/-- The key of an `AttributeRef` (`graph_module.py:87-113`): an index or a name. -/
inductive Attr where
  | idx (i : Int)
  | key (s : String)
  deriving DecidableEq, Repr

/-- References (`graph_module.py:31-113`). Python compares references by id only (names and values are `compare=False`), so a
reference is its id: a node id, an input (ids are unique per name within a graph), or a constant id; the value of a constant is a
function of its id. -/
inductive Ref where
  | node (id : ℕ)
  | input (name : String)
  | const (id : ℕ)
  | attr (ref : Ref) (a : Attr)
  deriving DecidableEq, Repr

/-- `unwrap_ref` (`graph_module.py:41-43, 109-113`). -/
def Ref.unwrap : Ref → Ref
  | .attr r _ => r.unwrap
  | r => r

/-- Execution contexts (context managers, compared by identity); `0` is `DEFAULT_CONTEXT` (`graph_module.py:986`). -/
abbrev Ctx := ℕ

/-- `Delegate` (`graph_module.py:174-184`); the function is named by a number. -/
structure Delegate where
  fn : ℕ
  contexts : List Ctx
  deriving DecidableEq, Repr

/-- `Node` (`graph_module.py:200-244`). `target` names the callable, `isModule` says whether it is an `nn.Module`. Simplification:
`op` is not needed, the engine always calls the target. -/
structure Node where
  id : ℕ
  name : String
  target : ℕ
  isModule : Bool
  args : List Ref
  kwargs : List (String × Ref)
  delegate : Option Delegate := none
  parent : Option ℕ := none
  deriving DecidableEq, Repr

/-- `GraphModule` (`graph_module.py:347-361`): `_nodes` in insertion order, `_fold_ids`, input names, outputs, and the fold
bindings. -/
structure Graph where
  nodes : List Node := []
  folds : List ℕ := []
  inputs : List String := []
  outputs : List Ref := []
  bindings : List (ℕ × List Ref) := []
  deriving Repr

inductive GErr where
  | valueError
  | keyError
  | typeError
  deriving DecidableEq, Repr

/-- `graph._nodes[id]`. -/
def Graph.find? (g : Graph) (id : ℕ) : Option Node := g.nodes.find? (fun n => n.id == id)

/-- `(*node.args, *node.kwargs.values())`. -/
def Node.allArgs (n : Node) : List Ref := n.args ++ n.kwargs.map (·.2)

/-- The node id an argument refers to, if any. -/
def Ref.baseNode? (r : Ref) : Option ℕ :=
  match r.unwrap with
  | .node id => some id
  | _ => none

/-- Keep the first of equal elements (the `seen` set of `node_inputs`). -/
def dedupe (seen : List ℕ) : List ℕ → List ℕ
  | [] => []
  | x :: xs => if x ∈ seen then dedupe seen xs else x :: dedupe (x :: seen) xs

/-- `node_inputs` (`graph_module.py:380-395`) of a node. -/
def Node.inputs (n : Node) : List ℕ := dedupe [] (n.allArgs.filterMap Ref.baseNode?)

/-- `node_inputs(ref)`: a missing node is a `KeyError`. -/
def Graph.nodeInputs (g : Graph) (id : ℕ) : Except GErr (List ℕ) :=
  match g.find? id with
  | none => .error .keyError
  | some n => .ok n.inputs

/-- `node_outputs` (`graph_module.py:397-414`): the nodes with an argument based on `id`, in insertion order. -/
def Graph.nodeOutputs (g : Graph) (id : ℕ) : Except GErr (List ℕ) :=
  match g.find? id with
  | none => .error .keyError
  | some _ => .ok ((g.nodes.filter fun m => m.allArgs.any fun r => r.baseNode? == some id).map (·.id))

/-- `leaf_refs` (`graph_module.py:876`): the nodes that are not folds. -/
def Graph.leaves (g : Graph) : List Node := g.nodes.filter fun n => !g.folds.contains n.id

def Graph.leafIds (g : Graph) : List ℕ := g.leaves.map (·.id)

/-! ### `topological_sort` -/

/-- State of the loop: remaining in-degrees, queue, order so far (878-885). -/
structure Kahn where
  deg : ℕ → Int
  queue : List ℕ
  order : List ℕ

/-- One dependent of the current node (889-893). -/
def Kahn.relax (leafIds : List ℕ) (s : Kahn) (d : ℕ) : Kahn :=
  if leafIds.contains d then
    let deg := fun n => if n = d then s.deg d - 1 else s.deg n
    if deg d = 0 then { s with deg, queue := s.queue ++ [d] } else { s with deg }
  else s

/-- The `while queue` loop (885-893), with a bound on the number of iterations; `kahn_fuel` shows the bound is never reached. -/
def Kahn.run (g : Graph) : ℕ → Kahn → Except GErr Kahn
  | 0, s => .ok s
  | fuel + 1, s =>
    match s.queue with
    | [] => .ok s
    | current :: queue =>
      match g.nodeOutputs current with
      | .error e => .error e
      | .ok deps => Kahn.run g fuel (deps.foldl (Kahn.relax g.leafIds) { s with queue, order := s.order ++ [current] })

/-- In-degrees of the leaves (879-881); the value for other ids is never used. -/
def Graph.inDegree (g : Graph) (id : ℕ) : Int :=
  match g.find? id with
  | none => 0
  | some n => n.inputs.length

/-- `topological_sort` (`graph_module.py:864-908`). -/
def topologicalSort (g : Graph) (closure : Option (List ℕ) := none) : Except GErr (List ℕ) :=
  let leafIds := g.leafIds
  match Kahn.run g (leafIds.length + 1) ⟨g.inDegree, leafIds.filter (fun id => g.inDegree id = 0), []⟩ with
  | .error e => .error e
  | .ok s =>
    if s.order.length ≠ leafIds.length then .error .valueError
    else match closure with
      | none => .ok s.order
      | some c => if c.all fun id => leafIds.contains id then .ok (s.order.filter fun id => c.contains id) else .error .valueError

/-! ### `ancestors` -/

/-- The backward walk (931-943), with a bound on the number of iterations. Result: collected nodes (latest first) and `reached`. -/
def ancestorsLoop (g : Graph) (stop : Option ℕ) : ℕ → List ℕ → List ℕ → Bool → Except GErr (List ℕ × Bool)
  | 0, _, collected, reached => .ok (collected, reached)
  | _ + 1, [], collected, reached => .ok (collected, reached)
  | fuel + 1, current :: frontier, collected, reached =>
    if current ∈ collected then ancestorsLoop g stop fuel frontier collected reached
    else if some current = stop then ancestorsLoop g stop fuel frontier (current :: collected) true
    else
      match g.nodeInputs current with
      | .error e => .error e
      | .ok ins => ancestorsLoop g stop fuel (ins.reverse ++ frontier) (current :: collected) reached

/-- The forward walk (950-956). -/
def onPathLoop (g : Graph) (collected : List ℕ) : ℕ → List ℕ → List ℕ → Except GErr (List ℕ)
  | 0, _, onPath => .ok onPath
  | _ + 1, [], onPath => .ok onPath
  | fuel + 1, current :: frontier, onPath =>
    if current ∈ onPath then onPathLoop g collected fuel frontier onPath
    else
      match g.nodeOutputs current with
      | .error e => .error e
      | .ok outs => onPathLoop g collected fuel ((outs.filter (· ∈ collected)).reverse ++ frontier) (current :: onPath)

/-- A bound on the length of both walks: one iteration per frontier entry, entries come from edges. -/
def Graph.edgeBound (g : Graph) : ℕ := (g.nodes.map fun n => n.inputs.length).sum + g.nodes.length * g.nodes.length + 2

/-- `ancestors` (`graph_module.py:911-954`). -/
def ancestors (g : Graph) (node : ℕ) (stop : Option ℕ := none) (strict : Bool := false) : Except GErr (List ℕ × Bool) :=
  if strict && stop.isNone then .error .valueError
  else
    match ancestorsLoop g stop g.edgeBound [node] [] stop.isNone with
    | .error e => .error e
    | .ok (collected, reached) =>
      if !strict then .ok (collected, reached)
      else if !reached then .ok ([], false)
      else match stop with
        | none => .ok ([], reached)
        | some s =>
          match onPathLoop g collected g.edgeBound [s] [] with
          | .error e => .error e
          | .ok onPath => .ok (onPath, reached)

/-! ### `find_cycle` -/

inductive Visit where
  | unvisited
  | visiting
  | visited
  deriving DecidableEq, Repr

/-- `edges[n]`: the mapping as an association list of (node, successors); iteration order of a set is the list's order. -/
abbrev Edges := List (ℕ × List ℕ)

def Edges.succ? (e : Edges) (n : ℕ) : Option (List ℕ) := (e.find? (fun p => p.1 == n)).map (·.2)

/-- Outcome of exploring the successors of a node: a cycle, or the new stack (975-980). A successor that is not a key of the
mapping is a `KeyError` (`state[successor]`). -/
def pushSuccessors (e : Edges) (st : ℕ → Visit) (path : List ℕ) :
    List ℕ → List (ℕ × List ℕ) → Except GErr (List (ℕ × List ℕ) ⊕ List ℕ)
  | [], stack => .ok (.inl stack)
  | s :: ss, stack =>
    if (e.succ? s).isNone then .error .keyError
    else match st s with
      | .visiting => .ok (.inr (path.drop (path.idxOf s) ++ [s]))
      | .unvisited => pushSuccessors e st path ss ((s, path ++ [s]) :: stack)
      | .visited => pushSuccessors e st path ss stack

/-- The `while stack` loop (968-980); the top of the stack is the head of the list. The bound is never reached
(`findCycleLoop_fuel`). -/
def findCycleLoop (e : Edges) : ℕ → List (ℕ × List ℕ) → (ℕ → Visit) → Except GErr ((ℕ → Visit) ⊕ List ℕ)
  | 0, _, st => .ok (.inl st)
  | _ + 1, [], st => .ok (.inl st)
  | fuel + 1, (n, path) :: stack, st =>
    if st n = .visiting then findCycleLoop e fuel stack (fun m => if m = n then .visited else st m)
    else
      match e.succ? n with
      | none => .error .keyError
      | some succs =>
        match pushSuccessors e (fun m => if m = n then .visiting else st m) path succs ((n, path) :: stack) with
        | .error err => .error err
        | .ok (.inl stack') => findCycleLoop e fuel stack' (fun m => if m = n then .visiting else st m)
        | .ok (.inr cycle) => .ok (.inr cycle)

/-- The outer loop over the roots (964-967). -/
def findCycleRoots (e : Edges) (fuel : ℕ) : List ℕ → (ℕ → Visit) → Except GErr (Option (List ℕ))
  | [], _ => .ok none
  | r :: rs, st =>
    if st r = .unvisited then
      match findCycleLoop e fuel [(r, [r])] st with
      | .error err => .error err
      | .ok (.inr c) => .ok (some c)
      | .ok (.inl st') => findCycleRoots e fuel rs st'
    else findCycleRoots e fuel rs st

/-- `find_cycle` (`graph_module.py:957-983`). -/
def findCycle (e : Edges) : Except GErr (Option (List ℕ)) :=
  findCycleRoots e (2 * (e.map fun p => p.2.length).sum + 3) (e.map (·.1)) (fun _ => .unvisited)

end FF.Orch
