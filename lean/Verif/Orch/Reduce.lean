import Verif.Orch.Extract

/-!
# Reducing a graph to the resolution that specifications need

Models `node_ref`, `leaf_nodes`, `fold_outputs`, `_validate_siblings`, `SubgraphSpec.resolve`, `node_order`, `_coarse_complement`,
`_resolve_subgraph_input` and `reduce_resolution` of `/repo/src/fastforward/_orchestration/graph_module.py` (416-473, 989-1262).

Sets of nodes are lists; `iter` is the order in which a set is iterated. `parseInt` is Python's `int` on strings. `modOf` gives the number
of a graph as a module (the object that `create_subgraph` returns).
-/

namespace FF.Orch

/-! ### Model -/

/-- `Region` (989-1019): a module, a path between two modules, or siblings. -/
inductive Region where
  | module (t : ℕ)
  | span (start stop : ℕ)
  | group (ts : List ℕ)
  deriving DecidableEq, Repr

/-- `SubgraphSpec` (1044-1064); flows are not used here. -/
structure Spec where
  region : Region
  delegate : Delegate
  deriving DecidableEq, Repr

/-- `node_ref` (416-437): the first node with the module. -/
def Graph.nodeRef (g : Graph) (t : ℕ) : Except GErr ℕ :=
  match g.nodes.find? fun n => n.target == t with
  | some n => .ok n.id
  | none => .error .valueError

/-- The nodes with a given parent. -/
def Graph.children (g : Graph) (p : Option ℕ) : List ℕ := (g.nodes.filter fun n => n.parent == p).map (·.id)

/-- The loop of `leaf_nodes` (441-453), with a bound on the number of iterations. -/
def Graph.insideLoop (g : Graph) : ℕ → List ℕ → List ℕ → List ℕ
  | 0, _, result => result
  | _ + 1, [], result => result
  | fuel + 1, child :: stack, result =>
    if child ∈ result then g.insideLoop fuel stack result
    else g.insideLoop fuel ((g.children (some child)).reverse ++ stack) (child :: result)

/-- `leaf_nodes` (439-454). -/
def Graph.leafNodes (g : Graph) (fold : ℕ) : List ℕ :=
  (g.insideLoop (g.nodes.length + g.nodes.length * g.nodes.length + 1) (g.children (some fold)).reverse []).filter fun id => !g.folds.contains id

/-- `feeds_external` (468). -/
def Graph.feedsExternal (g : Graph) (inside : List ℕ) (id : ℕ) : Bool :=
  (g.nodes.filter fun m => m.allArgs.any fun r => r.baseNode? == some id).any fun m => !(inside.contains m.id || g.folds.contains m.id)

/-- `fold_outputs` (456-473). -/
def Graph.foldOutputs (g : Graph) (fold : ℕ) : List ℕ :=
  let inside := g.leafNodes fold
  (g.nodes.filter fun n => inside.contains n.id &&
    (g.feedsExternal inside n.id || g.outputs.any fun r => r.baseNode? == some n.id)).map (·.id)

/-- `set(a) == set(b)`. -/
def sameSet (a b : List ℕ) : Bool := a.all (b.contains ·) && b.all (a.contains ·)

/-- `_validate_siblings` (1030-1041). -/
def Graph.siblings (g : Graph) : List ℕ → Except GErr Unit
  | [] => .ok ()
  | [_] => .ok ()
  | r :: rs => do
    let pred ← g.nodeInputs r
    let succ ← g.nodeOutputs r
    rs.forM fun q => do
      let p ← g.nodeInputs q
      let s ← g.nodeOutputs q
      if sameSet p pred && sameSet s succ then .ok () else .error .valueError

/-- `SubgraphSpec.resolve` (1066-1081): the nodes, and the graph for a path or siblings. -/
def Graph.resolve (g : Graph) (iter : List ℕ → List ℕ) : Region → Except GErr (List ℕ × Option Graph)
  | .module t => do
    let id ← g.nodeRef t
    .ok ([id], none)
  | .span s e => do
    let a ← g.nodeRef s
    let b ← g.nodeRef e
    let (path, reached) ← ancestors g b (some a) true
    if !reached then .error .valueError
    else
      let sub ← createSubgraph g (iter path)
      .ok (iter path, some sub)
  | .group ts => do
    let ids ← ts.mapM g.nodeRef
    g.siblings ids
    let sub ← createSubgraph g (iter (dedupe [] ids))
    .ok (iter (dedupe [] ids), some sub)

/-- The first loop of `reduce_resolution` (1175-1185): regions with their nodes; overlapping ones are refused. -/
def Graph.resolveAll (g : Graph) (iter : List ℕ → List ℕ) : List Region → List ℕ → Except GErr (List (Region × List ℕ × Option Graph))
  | [], _ => .ok []
  | r :: rs, seen => do
    let (nodes, sub) ← g.resolve iter r
    if nodes.any fun id => seen.contains id then .error .valueError
    else
      let rest ← g.resolveAll iter rs (seen ++ nodes)
      .ok ((r, nodes, sub) :: rest)

/-- `has_target_descendant` (1111-1119), one chain of parents. Simplification: a parent that is no node ends the chain. The bound is the
number of nodes; a cyclic chain of parents would not end. -/
def Graph.isBelow (g : Graph) (fold : ℕ) : ℕ → Option ℕ → Bool
  | 0, _ => false
  | _ + 1, none => false
  | fuel + 1, some p => p == fold || g.isBelow fold fuel ((g.find? p).bind (·.parent))

/-- `has_target_descendant` (1111-1119). -/
def Graph.hasTargetBelow (g : Graph) (targets : List ℕ) (fold : ℕ) : Bool :=
  g.nodes.any fun n => targets.contains n.id && g.isBelow fold g.nodes.length n.parent

/-- `collect` (1123-1135), with a bound on the depth. -/
def Graph.collect (g : Graph) (targets : List ℕ) : ℕ → Option ℕ → List ℕ
  | 0, _ => []
  | fuel + 1, fold => (g.children fold).flatMap fun id =>
    if id ∈ targets then []
    else if g.folds.contains id && g.hasTargetBelow targets id then g.collect targets fuel (some id)
    else [id]

/-- `_coarse_complement` (1107-1138). -/
def Graph.coarseComplement (g : Graph) (targets : List ℕ) : List ℕ := g.collect targets (g.nodes.length + 1) none

/-- `OutputNode` (1084): a node, or a graph for a path or siblings. -/
inductive Part where
  | node (id : ℕ)
  | sub (g : Graph)
  deriving Repr

/-- `max(topo[...])`. -/
def maxIndex (topo : List ℕ) (ids : List ℕ) : ℕ := (ids.map fun id => topo.idxOf id).foldl max 0

/-- `_sort_key` (1091-1102). -/
def Graph.sortKey (g : Graph) (topo : List ℕ) : Part → Except GErr ℕ
  | .node id =>
    if g.folds.contains id then .ok (maxIndex topo (g.foldOutputs id))
    else if id ∈ topo then .ok (topo.idxOf id) else .error .keyError
  | .sub s =>
    let ids := s.outputs.filterMap Ref.baseNode?
    if ids.isEmpty then .error .valueError else .ok (maxIndex topo ids)

/-- Insertion into a sorted list, before the equal ones. -/
def insertKeyed {α : Type} (x : ℕ × α) : List (ℕ × α) → List (ℕ × α)
  | [] => [x]
  | y :: l => if x.1 ≤ y.1 then x :: y :: l else y :: insertKeyed x l

/-- `sorted(nodes, key=...)`, a stable sort. -/
def sortKeyed {α : Type} (l : List (ℕ × α)) : List (ℕ × α) := l.foldr insertKeyed []

/-- `node_order` (1087-1104). -/
def Graph.nodeOrder (g : Graph) (parts : List Part) : Except GErr (List Part) := do
  let topo ← topologicalSort g
  let keyed ← parts.mapM fun p => (g.sortKey topo p).map (·, p)
  .ok ((sortKeyed keyed).map (·.2))

/-- Attributes of a reference object that `getattr` returns instead of making an `AttributeRef` (31-60): the dataclass fields and methods
of `NodeRef` and `InputRef`. Simplification: other attributes of Python objects (such as `__class__`) are left out; the reference
objects that stand for parts have other fields. -/
def ownAttributes : List String := ["id", "name", "unwrap_ref", "reference", "attribute"]

/-- `_resolve_subgraph_input` (1141-1152). Simplification: an own attribute, which is no reference, is an error. -/
def resolveInput (parseInt : String → Option Int) (ctx : List (String × Ref)) (name : String) : Except GErr Ref :=
  let cs := name.toList
  let base := cs.takeWhile (· ≠ '[')
  let rest := cs.drop (base.length + 1)
  if base.length = cs.length || rest.getLast? ≠ some ']' then ctxGet ctx name
  else do
    let r ← ctxGet ctx (String.ofList base)
    let inner := String.ofList rest.dropLast
    match parseInt inner with
    | some i => .ok (.attr r (.idx i))
    | none => if inner ∈ ownAttributes then .error .typeError else .ok (.attr r (.key inner))

/-- The state of the second loop (1194-1196). -/
structure Rewired where
  graph : Graph
  ctx : List (String × Ref)
  subs : ℕ := 0

/-- `context[name] = ref if len(...) == 1 else ref[i]` (1207-1209, 1223-1225). -/
def bindOutputs (ctx : List (String × Ref)) (ref : Ref) (n : ℕ) : List (ℕ × String) → List (String × Ref)
  | [] => ctx
  | (i, name) :: rest => bindOutputs (Dict.set ctx name (if n = 1 then ref else .attr ref (.idx i))) ref n rest

/-- The outputs of a graph that are nodes (or parts of nodes), with their index and name. -/
def Graph.outputNames (g : Graph) (outs : List Ref) : List (ℕ × String) :=
  outs.zipIdx.filterMap fun p => p.1.baseNode?.map fun id => (p.2, g.nameOf id)

/-- One part (1199-1237). The new node's id is the number of nodes so far (the code uses random ids). -/
def Graph.rewire (g : Graph) (parseInt : String → Option Int) (modOf : Graph → ℕ) (s : Rewired) : Part → Except GErr Rewired
  | .sub sub => do
    let args ← sub.inputs.mapM (resolveInput parseInt s.ctx)
    let id := s.graph.nodes.length
    let graph ← s.graph.addNode { id, name := "subgraph_" ++ toString s.subs, target := modOf sub, isModule := true, args, kwargs := [] }
    .ok { graph, ctx := bindOutputs s.ctx (.node id) sub.outputs.length (g.outputNames sub.outputs), subs := s.subs + 1 }
  | .node nid => do
    let n ← g.getNode nid
    let args ← n.args.mapM (remap g.nameOf s.ctx [])
    let kwargs ← n.kwargs.mapM fun kv => (remap g.nameOf s.ctx [] kv.2).map (kv.1, ·)
    let id := s.graph.nodes.length
    let graph ← s.graph.addNode { id, name := n.name, target := n.target, isModule := n.isModule, args, kwargs }
    let ctx := Dict.set s.ctx n.name (.node id)
    if g.folds.contains nid then
      let outs := g.foldOutputs nid
      .ok { graph, ctx := bindOutputs ctx (.node id) outs.length (g.outputNames (outs.map .node)), subs := s.subs }
    else .ok { graph, ctx, subs := s.subs }

/-- `add_output` (498-519) of one rewritten output (1239-1242). -/
def Graph.rewireOutput (g new : Graph) (ctx : List (String × Ref)) (r : Ref) : Except GErr Ref := do
  let r' ← remap g.nameOf ctx [] r
  match r'.baseNode? with
  | some id => if (new.find? id).isSome then .ok r' else .error .valueError
  | none => .error .valueError

/-- The module that a specification is anchored on (1066-1081, 1183). -/
def specTarget (modOf : Graph → ℕ) : Region × List ℕ × Option Graph → ℕ
  | (.module t, _, _) => t
  | (_, _, some sub) => modOf sub
  | (_, _, none) => 0

/-- Attaching one delegate (1245-1249). -/
def Graph.attach (g : Graph) (t : ℕ) (d : Delegate) : Except GErr Graph := do
  let id ← g.nodeRef t
  .ok { g with nodes := g.nodes.map fun n => if n.id = id then { n with delegate := some d } else n }

/-- The parts of the new graph in their order (1189-1199). -/
def Graph.parts (g : Graph) (iter : List ℕ → List ℕ) (resolved : List (Region × List ℕ × Option Graph)) : Except GErr (List Part) :=
  let targets := resolved.flatMap (·.2.1)
  let subs := resolved.filterMap (·.2.2)
  let alone := (resolved.filter fun p => p.2.2.isNone).flatMap (·.2.1)
  g.nodeOrder ((iter alone).map .node ++ (g.coarseComplement targets).map .node ++ subs.map .sub)

/-- `reduce_resolution` (1155-1262): the new graph, and for each specification the module it is anchored on. -/
def reduceResolution (g : Graph) (iter : List ℕ → List ℕ) (parseInt : String → Option Int) (modOf : Graph → ℕ) (specs : List Spec) :
    Except GErr (Graph × List ℕ) := do
  let resolved ← g.resolveAll iter (specs.map (·.region)) []
  let parts ← g.parts iter resolved
  let start : Rewired := { graph := { inputs := g.inputs }, ctx := g.inputs.map fun x => (x, Ref.input x) }
  let s ← parts.foldlM (g.rewire parseInt modOf) start
  let outs ← g.outputs.mapM (g.rewireOutput s.graph s.ctx)
  let targets := resolved.map (specTarget modOf)
  let new ← (targets.zip (specs.map (·.delegate))).foldlM (fun new p => new.attach p.1 p.2) { s.graph with outputs := outs }
  .ok (new, targets)

end FF.Orch
