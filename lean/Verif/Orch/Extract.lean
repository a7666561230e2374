import Verif.Orch.Subgraph

/-!
# Extracting a part of a graph

Models `create_subgraph` of `/repo/src/fastforward/_orchestration/graph_module.py`.
-/

namespace FF.Orch

/-! ### Model -/

/-- `is_external` (`graph_module.py:782-785`). -/
def externalRef (path : List ℕ) (r : Ref) : Bool :=
  match r.unwrap with
  | .input _ => true
  | .node id => !path.contains id
  | _ => false

/-- `base.name` (790, 792). -/
def baseName (nameOf : ℕ → String) (r : Ref) : String :=
  match r.unwrap with
  | .input x => x
  | .node id => nameOf id
  | _ => ""

/-- The name under which an argument from outside is passed (789-792): only the last attribute is part of it. -/
def depLabel (nameOf : ℕ → String) (r : Ref) : String :=
  match r with
  | .attr _ a => liftedKey (baseName nameOf r) a
  | _ => baseName nameOf r

/-- `_external_dependencies` (779-794). -/
def externalDeps (nameOf : ℕ → String) (path : List ℕ) (n : Node) : List String :=
  (n.allArgs.filter (externalRef path)).map (depLabel nameOf)

/-- Appending what has not been seen (800-802, 813-815, 828-830). -/
def appendNew {α : Type} [DecidableEq α] (acc : List α) (x : α) : List α := if x ∈ acc then acc else acc ++ [x]

/-- `graph._nodes[id]`. -/
def Graph.getNode (g : Graph) (id : ℕ) : Except GErr Node :=
  match g.find? id with
  | some n => .ok n
  | none => .error .keyError

/-- `external_inputs` (796-802). `path` is the set of nodes in the order in which it is iterated. -/
def Graph.extInputs (g : Graph) (path : List ℕ) : Except GErr (List String) := do
  let ns ← path.mapM g.getNode
  .ok ((ns.flatMap (externalDeps g.nameOf path)).foldl appendNew [])

/-- `ref.unwrap_ref() in path_nodes` (812). -/
def producedIn (path : List ℕ) (r : Ref) : Bool :=
  match r.unwrap with
  | .node id => path.contains id
  | _ => false

/-- `external_outputs` (807-830). -/
def Graph.extOutputs (g : Graph) (path : List ℕ) : Except GErr (List Ref) := do
  path.foldlM (fun acc id => do
    let deps ← g.nodeOutputs id
    .ok (if deps.any fun m => !path.contains m then appendNew acc (.node id) else acc))
    ((g.outputs.filter (producedIn path)).foldl appendNew [])

/-- A node of the new graph (841-852); it has no parent and no delegate. -/
def Graph.extracted (g : Graph) (ctx : List (String × Ref)) (inner : List String) (id : ℕ) : Except GErr Node :=
  do
    let n ← g.getNode id
    let args ← n.args.mapM (remap g.nameOf ctx inner)
    let kwargs ← n.kwargs.mapM fun kv => (remap g.nameOf ctx inner kv.2).map (kv.1, ·)
    .ok { id := n.id, name := n.name, target := n.target, isModule := n.isModule, args, kwargs }

/-- `create_subgraph` (764-861). Simplification: the nodes are added in the order of `path`; the code iterates over another set with
the same elements. -/
def createSubgraph (g : Graph) (path : List ℕ) : Except GErr Graph := do
  let inputs ← g.extInputs path
  let outputs ← g.extOutputs path
  let ctx := inputs.map fun x => (x, Ref.input x)
  let inner := path.map g.nameOf
  let nodes ← path.mapM (g.extracted ctx inner)
  let outs ← outputs.mapM (remap g.nameOf ctx inner)
  .ok { nodes, inputs, outputs := outs }

end FF.Orch
