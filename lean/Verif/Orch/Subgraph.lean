import Verif.Orch.Model
import Verif.Util.Dict

/-!
# Inlining a graph into another

Models `remap_subgraph_reference`, `GraphModule.add_node` and `GraphModule.add_subgraph` of
`/repo/src/fastforward/_orchestration/graph_module.py`.
-/

namespace FF.Orch

/-! ### Model -/

/-- `str(attr)`. -/
def Attr.text : Attr → String
  | .idx i => toString i
  | .key s => s

/-- `f"{base.name}[{attr}]"` (`graph_module.py:153`). -/
def liftedKey (base : String) (a : Attr) : String := base ++ "[" ++ a.text ++ "]"

/-- The entry for `base[attr]` (149-157), where `base` is the reference that `ref` unwraps to. -/
def lifted (nameOf : ℕ → String) (ctx : List (String × Ref)) (inner : List String) (base : Ref) (a : Attr) : Option Ref :=
  match base with
  | .node id => if nameOf id ∈ inner then none else Dict.get ctx (liftedKey (nameOf id) a)
  | .input x => Dict.get ctx (liftedKey x a)
  | _ => none

/-- `new_context[name]`. -/
def ctxGet (ctx : List (String × Ref)) (name : String) : Except GErr Ref :=
  match Dict.get ctx name with
  | some r => .ok r
  | none => .error .keyError

/-- `remap_subgraph_reference` (116-167). Names of references are not part of the model's references; `nameOf` gives the name of a node
(simplification: a reference carries its node's name). The scope only changes names, so it is left out. -/
def remap (nameOf : ℕ → String) (ctx : List (String × Ref)) (inner : List String) : Ref → Except GErr Ref
  | .node id => if nameOf id ∈ inner then .ok (.node id) else ctxGet ctx (nameOf id)
  | .attr r a =>
    match lifted nameOf ctx inner r.unwrap a with
    | some r' => .ok r'
    | none => match remap nameOf ctx inner r with
      | .ok r' => .ok (.attr r' a)
      | .error e => .error e
  | .input x => ctxGet ctx x
  | .const k => .ok (.const k)

/-- `add_node` (521-581). The registration of the target as a submodule (565-579) is not modelled. A node never gets a delegate here. -/
def Graph.addNode (g : Graph) (n : Node) : Except GErr Graph :=
  if (g.find? n.id).isSome then .error .valueError else .ok { g with nodes := g.nodes ++ [{ n with delegate := none }] }

/-- `input_binding` (627-644): inputs bound to arguments by position, then by keyword. -/
def bindSub (names : List String) (args : List Ref) (kwargs : List (String × Ref)) : Except GErr (List (String × Ref)) :=
  if args.length + kwargs.length ≠ names.length then .error .valueError
  else kwargs.foldlM (fun b kv =>
    if kv.1 ∉ names then .error .valueError
    else if (Dict.get b kv.1).isSome then .error .valueError
    else .ok (Dict.set b kv.1 kv.2)) (names.zip args)

/-- The name of a node of the subgraph. -/
def Graph.nameOf (g : Graph) (id : ℕ) : String := ((g.find? id).map (·.name)).getD ""

/-- `remap_reference` (662-669). -/
def Graph.remapIn (sub : Graph) (b : List (String × Ref)) (r : Ref) : Except GErr Ref := remap sub.nameOf b (sub.nodes.map (·.name)) r

/-- One node of the loop (680-707): the new node. A parent keeps its id (`old_to_new_fold` maps a fold to a reference with the same
id). -/
def Graph.inlined (sub : Graph) (b : List (String × Ref)) (name : String) (fold : Option ℕ) (n : Node) : Except GErr Node := do
  let args ← n.args.mapM (sub.remapIn b)
  let kwargs ← n.kwargs.mapM fun kv => (sub.remapIn b kv.2).map (kv.1, ·)
  .ok { id := n.id, name := name ++ "." ++ n.name, target := n.target, isModule := n.isModule, args, kwargs, parent := n.parent.or fold }

/-- The rest of the loop's body for a fold (700-707). -/
def Graph.copyFold (sub : Graph) (b : List (String × Ref)) (n : Node) (g : Graph) : Except GErr Graph :=
  if sub.folds.contains n.id then
    match Dict.get sub.bindings n.id with
    | none => .ok { g with folds := g.folds ++ [n.id] }
    | some rs => match rs.mapM (sub.remapIn b) with
      | .ok rs => .ok { g with folds := g.folds ++ [n.id], bindings := Dict.set g.bindings n.id rs }
      | .error e => .error e
  else .ok g

/-- The loop (680-707); the graph is changed in place, so on an exception it keeps what was added. -/
def Graph.inlineAll (sub : Graph) (b : List (String × Ref)) (name : String) (fold : Option ℕ) : List Node → Graph → Graph × Option GErr
  | [], g => (g, none)
  | n :: ns, g =>
    match sub.inlined b name fold n with
    | .error e => (g, some e)
    | .ok n' =>
      match g.addNode n' with
      | .error e => (g, some e)
      | .ok g1 =>
        match sub.copyFold b n g1 with
        | .error e => ({ g1 with folds := g1.folds ++ [n.id] }, some e)
        | .ok g2 => sub.inlineAll b name fold ns g2

/-- `sorted_nodes` (675-678): folds first, otherwise in order. -/
def Graph.foldsFirst (sub : Graph) : List Node :=
  sub.nodes.filter (fun n => sub.folds.contains n.id) ++ sub.nodes.filter fun n => !sub.folds.contains n.id

/-- The fold node (651-655): keyword arguments as given, the other inputs by position. -/
def Graph.foldNode (sub : Graph) (b : List (String × Ref)) (name : String) (kwargs : List (String × Ref)) (fid target : ℕ) : Node where
  id := fid
  name := name
  target := target
  isModule := true
  args := (sub.inputs.filter fun x => x ∉ kwargs.map (·.1)).filterMap (Dict.get b)
  kwargs := kwargs

/-- Adding the fold for the original module (648-660), with a new id. -/
def Graph.addFold (g sub : Graph) (b : List (String × Ref)) (name : String) (kwargs : List (String × Ref)) : Option (ℕ × ℕ) → Graph
  | none => g
  | some (fid, target) => { g with
      nodes := g.nodes ++ [sub.foldNode b name kwargs fid target]
      folds := g.folds ++ [fid]
      bindings := Dict.set g.bindings fid (sub.inputs.filterMap (Dict.get b)) }

/-- `add_subgraph` (583-716): the graph afterwards, and the references to the inlined outputs or the exception. `original` is the
original module and the id of its fold. -/
def Graph.addSubgraph (g : Graph) (name : String) (sub : Graph) (args : List Ref) (kwargs : List (String × Ref))
    (original : Option (ℕ × ℕ)) : Graph × Except GErr (List Ref) :=
  if sub.outputs.isEmpty then (g, .error .valueError)
  else match bindSub sub.inputs args kwargs with
    | .error e => (g, .error e)
    | .ok b =>
      match sub.inlineAll b name (original.map (·.1)) sub.foldsFirst (g.addFold sub b name kwargs original) with
      | (g', some e) => (g', .error e)
      | (g', none) => (g', sub.outputs.mapM (sub.remapIn b))

end FF.Orch
