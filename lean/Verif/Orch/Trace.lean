import Verif.Orch.ReduceValues

/-!
# Tracing: from an exported graph to a graph module (C84)

Models `_GraphBuilder`, `_contains_fx_node`, `_unmangle_placeholder`, `_is_non_leaf_graph_module`, `_can_call_original` and the cache of `trace` in
`/repo/src/fastforward/_orchestration/trace.py`. `torch.export` itself is not modelled: it gives the graph that is built from.
-/

namespace FF.Trace

open FF.Orch

/-! ### Model -/

/-- An argument in an `fx.Graph`: a node, a constant (by number), or a tuple, list, slice or dictionary of arguments. -/
inductive Arg where
  | node (i : ℕ)
  | const (k : ℕ)
  | tuple (l : List Arg)
  | list (l : List Arg)
  | slice (start stop step : Arg)
  | dict (keys : List String) (vals : List Arg)

/-- A node of an `fx.Graph`. An attribute has the constant that the traced module holds for it, if it does. A call of a module has the number of
required parameters of the original module's `forward`, if it has a signature, and the nodes and the output of the traced submodule's graph.
Simplification: an `fx.Graph` ends in its output node, which is given apart. -/
inductive Fx where
  | placeholder (id : ℕ) (name : String)
  | getAttr (id : ℕ) (name target : String) (lifted : Option ℕ)
  | callModule (id : ℕ) (name target : String) (required : Option ℕ) (body : List Fx) (out : Arg) (args : List Arg) (kwargs : List (String × Arg))
  | callFunction (id : ℕ) (name : String) (fn : ℕ) (args : List Arg) (kwargs : List (String × Arg))
  | callMethod (id : ℕ) (name method : String) (args : List Arg) (kwargs : List (String × Arg))
  | skipped (id : ℕ)

/-- The numbers of the callables and constants that the builder uses: `_make_tuple`, `_make_list`, `_make_slice`, `_make_dict` and
`_prepare_output(spec)` (68-82, 129-136), functions, `_make_method_caller` and `_make_get_attr` (85-105), the original and the traced module at a path,
and `Const(x)`. -/
structure Callables where
  tuple : ℕ
  list : ℕ
  slice : ℕ
  dict : ℕ
  unflatten : ℕ
  func : ℕ → ℕ
  method : String → ℕ
  getter : String → ℕ
  original : String → ℕ
  traced : String → ℕ
  const : Arg → ℕ

mutual

/-- `_contains_fx_node` (139-151). -/
def Arg.hasNode : Arg → Bool
  | .node _ => true
  | .const _ => false
  | .tuple l => anyNode l
  | .list l => anyNode l
  | .slice a b c => a.hasNode || b.hasNode || c.hasNode
  | .dict _ l => anyNode l

def anyNode : List Arg → Bool
  | [] => false
  | a :: l => a.hasNode || anyNode l

end

/-- The state of a `_GraphBuilder` (252-272): the graph, the next new node id (`uuid4`; ids are never used twice), and `_fx_to_ff`. -/
structure Builder where
  graph : Graph := {}
  next : ℕ := 0
  refs : List (ℕ × Ref) := []

/-- `self._graph.add_node(name, target, args, kwargs)`. -/
def Builder.add (s : Builder) (name : String) (target : ℕ) (isModule : Bool) (args : List Ref) (kwargs : List (String × Ref)) :
    Except GErr (Builder × Ref) :=
  match s.graph.addNode { id := s.next, name, target, isModule, args, kwargs } with
  | .error e => .error e
  | .ok g => .ok ({ s with graph := g, next := s.next + 1 }, .node s.next)

/-- `self._fx_to_ff[fx_node] = ref`. -/
def Builder.bind (id : ℕ) (p : Builder × Ref) : Builder := { p.1 with refs := Dict.set p.1.refs id p.2 }

mutual

/-- `_convert_arg` (286-323). -/
def convert (t : Callables) : Arg → String → Builder → Except GErr (Builder × Ref)
  | .node i, _, s =>
    match Dict.get s.refs i with
    | some r => .ok (s, r)
    | none => .error .keyError
  | .const k, _, s => .ok (s, .const (t.const (.const k)))
  | .tuple l, name, s =>
    if anyNode l then
      match convertAll t l ((List.range l.length).map fun i => s!"{name}_{i}") s with
      | .error e => .error e
      | .ok (s, rs) => s.add (name ++ "__make_tuple") t.tuple false rs []
    else .ok (s, .const (t.const (.tuple l)))
  | .list l, name, s =>
    if anyNode l then
      match convertAll t l ((List.range l.length).map fun i => s!"{name}_{i}") s with
      | .error e => .error e
      | .ok (s, rs) => s.add (name ++ "__make_list") t.list false rs []
    else .ok (s, .const (t.const (.list l)))
  | .slice a b c, name, s =>
    if a.hasNode || b.hasNode || c.hasNode then
      match convert t a (name ++ "_start") s with
      | .error e => .error e
      | .ok (s, ra) =>
        match convert t b (name ++ "_stop") s with
        | .error e => .error e
        | .ok (s, rb) =>
          match convert t c (name ++ "_step") s with
          | .error e => .error e
          | .ok (s, rc) => s.add (name ++ "_make_slice") t.slice false [] [("start", ra), ("stop", rb), ("step", rc)]
    else .ok (s, .const (t.const (.slice a b c)))
  | .dict keys l, name, s =>
    if anyNode l then
      match convertAll t l (keys.map fun k => s!"{name}_{k}") s with
      | .error e => .error e
      | .ok (s, rs) => s.add (name ++ "_make_dict") t.dict false [] (keys.zip rs)
    else .ok (s, .const (t.const (.dict keys l)))

/-- The arguments in order, each with its name. -/
def convertAll (t : Callables) : List Arg → List String → Builder → Except GErr (Builder × List Ref)
  | [], _, s => .ok (s, [])
  | a :: l, names, s =>
    match convert t a (names.headD "") s with
    | .error e => .error e
    | .ok (s, r) =>
      match convertAll t l names.tail s with
      | .error e => .error e
      | .ok (s, rs) => .ok (s, r :: rs)

end

/-- `_convert_args` (325-331). -/
def convertArgs (t : Callables) (name : String) (args : List Arg) (kwargs : List (String × Arg)) (s : Builder) :
    Except GErr (Builder × List Ref × List (String × Ref)) :=
  match convertAll t args ((List.range args.length).map fun i => s!"{name}_arg{i}") s with
  | .error e => .error e
  | .ok (s, rs) =>
    match convertAll t (kwargs.map (·.2)) (kwargs.map fun p => s!"{name}_{p.1}") s with
    | .error e => .error e
    | .ok (s, ks) => .ok (s, rs, (kwargs.map (·.1)).zip ks)

/-- `_add_op_node` (333-342). -/
def addOp (t : Callables) (fxName name : String) (target : ℕ) (isModule : Bool) (args : List Arg) (kwargs : List (String × Arg)) (s : Builder) :
    Except GErr (Builder × Ref) :=
  match convertArgs t fxName args kwargs s with
  | .error e => .error e
  | .ok (s, rs, ks) => s.add name target isModule rs ks

/-- `_absolute_path` (274-275). -/
def absolute (pre target : String) : String := if pre = "" then target else pre ++ "." ++ target

/-- `node.op == "call_module"`. -/
def Fx.isCall : Fx → Bool
  | .callModule .. => true
  | _ => false

/-- The items of an output: those of a list or tuple, or one (371-373). -/
def Arg.items : Arg → List Arg
  | .tuple l => l
  | .list l => l
  | a => [a]

/-- `_can_call_original` (209-246). -/
def canCallOriginal (required : Option ℕ) (provided : ℕ) (out : Arg) : Bool :=
  match required with
  | none => false
  | some n => if provided < n then false else match out with
    | .tuple l => !(1 < l.length)
    | .list l => !(1 < l.length)
    | _ => true

/-- The references of an output's nodes (374): other items are left out. -/
def flatRefs (refs : List (ℕ × Ref)) : List Arg → Except GErr (List Ref)
  | [] => .ok []
  | .node i :: l =>
    match Dict.get refs i with
    | none => .error .keyError
    | some r => (flatRefs refs l).map (r :: ·)
  | _ :: l => flatRefs refs l

/-- `isinstance(r, NodeRef)`. -/
def isNodeRef : Ref → Bool
  | .node _ => true
  | _ => false

/-- `_handle_output` (370-390) for a submodule; a failed assertion is a `typeError`. -/
def outputs (s : Builder) (out : Arg) : Except GErr Builder :=
  match flatRefs s.refs out.items with
  | .error e => .error e
  | .ok rs => if rs.all isNodeRef then .ok { s with graph := { s.graph with outputs := s.graph.outputs ++ rs } } else .error .typeError

/-- `_handle_output` (370-390) for the root. -/
def rootOutput (t : Callables) (s : Builder) (out : Arg) : Except GErr Builder :=
  match flatRefs s.refs out.items with
  | .error e => .error e
  | .ok rs =>
    if rs.all isNodeRef then
      match s.add "_prepare_output" t.unflatten false rs [] with
      | .error e => .error e
      | .ok (s, r) => .ok { s with graph := { s.graph with outputs := s.graph.outputs ++ [r] } }
    else .error .typeError

/-- The end of `_handle_call_module` for a submodule with a graph (357-365). -/
def packed (t : Callables) (target : String) (outs : List Ref) (s : Builder) : Except GErr (Builder × Ref) :=
  match outs with
  | [r] => .ok (s, r)
  | outs => s.add (target ++ "_pack_outputs") t.tuple false outs []

/-- The graph that is inlined, and the reference to its result (352-365). -/
def inlineCall (t : Callables) (path name target : String) (sub : Graph) (args : List Arg) (kwargs : List (String × Arg)) (s : Builder) :
    Except GErr (Builder × Ref) :=
  match convertArgs t name args kwargs s with
  | .error e => .error e
  | .ok (s, rs, ks) =>
    match s.graph.addSubgraph target sub rs ks (some (s.next, t.original path)) with
    | (_, .error e) => .error e
    | (g, .ok outs) => packed t target outs { s with graph := g, next := s.next + 1 }

mutual

/-- One node of the loop of `build` (401-452) and `_handle_call_module` (344-368). `rename` is applied to the names of inputs, `onOriginal` says
whether the original model has an attribute (277-284). Simplification: the original model has a module at each path that is called. -/
def buildNode (t : Callables) (onOriginal : String → Bool) (rename : String → String) (pre : String) : Fx → Builder → Except GErr Builder
  | .placeholder id name, s =>
    if rename name ∈ s.graph.inputs then .error .valueError
    else .ok { s with graph := { s.graph with inputs := s.graph.inputs ++ [rename name] }, refs := Dict.set s.refs id (.input (rename name)) }
  | .getAttr id name target lifted, s =>
    match lifted, onOriginal (absolute pre target) with
    | some k, false => .ok (Builder.bind id (s, .const (t.const (.const k))))
    | _, _ => (s.add (name ++ "_get_attr") (t.getter (absolute pre target)) false [] []).map (Builder.bind id)
  | .callModule id name target required body out args kwargs, s =>
    if body.any Fx.isCall then
      match buildNodes t onOriginal _root_.id (absolute pre target) body { next := s.next } with
      | .error e => .error e
      | .ok sub =>
        match outputs sub out with
        | .error e => .error e
        | .ok sub => (inlineCall t (absolute pre target) name target sub.graph args kwargs { s with next := sub.next }).map (Builder.bind id)
    else
      (addOp t name target (if canCallOriginal required (args.length + kwargs.length) out then t.original (absolute pre target)
        else t.traced (absolute pre target)) true args kwargs s).map (Builder.bind id)
  | .callFunction id name fn args kwargs, s => (addOp t name (name ++ "_call_function") (t.func fn) false args kwargs s).map (Builder.bind id)
  | .callMethod id name method args kwargs, s => (addOp t name (name ++ "_call_method") (t.method method) false args kwargs s).map (Builder.bind id)
  | .skipped _, s => .ok s

/-- The loop of `build`. -/
def buildNodes (t : Callables) (onOriginal : String → Bool) (rename : String → String) (pre : String) : List Fx → Builder → Except GErr Builder
  | [], s => .ok s
  | n :: ns, s =>
    match buildNode t onOriginal rename pre n s with
    | .error e => .error e
    | .ok s => buildNodes t onOriginal rename pre ns s

end

/-- `builder.build(unflattened)` for the root (533-541). -/
def build (t : Callables) (onOriginal : String → Bool) (rename : String → String) (nodes : List Fx) (out : Arg) : Except GErr Graph :=
  match buildNodes t onOriginal rename "" nodes {} with
  | .error e => .error e
  | .ok s => (rootOutput t s out).map (·.graph)

/-- The text between `pre` and a final `_`, if there is any: the groups of `re.fullmatch(r"l_kw_(.+)_", name)` and of `l_a_(\d+)_` (173-176). -/
def between (pre name : String) : Option String :=
  let rest := name.toList.drop pre.toList.length
  if pre.toList.isPrefixOf name.toList = true ∧ rest.getLast? = some '_' ∧ 1 < rest.length then some (String.ofList rest.dropLast) else none

/-- `_unmangle_placeholder` (167-180). Simplification: digits are `0` to `9`. -/
def unmangle (positional : List String) (name : String) : String :=
  match between "l_kw_" name with
  | some m => m
  | none =>
    match between "l_a_" name with
    | some ds =>
      if ds.toList.all Char.isDigit then (positional[Nat.ofDigitChars 10 ds.toList 0]?).getD s!"arg_{Nat.ofDigitChars 10 ds.toList 0}"
      else name
    | none => name

/-- `trace` (463-544) with `_graph_cache`: the graph of the module if it has been traced, else what is made of its export. `made` is what exporting the
module with these example inputs and building gives. -/
def trace (cache : List (ℕ × Graph)) (module : ℕ) (made : Except GErr Graph) : List (ℕ × Graph) × Except GErr Graph :=
  match Dict.get cache module with
  | some g => (cache, .ok g)
  | none =>
    match made with
    | .error e => (cache, .error e)
    | .ok g => (Dict.set cache module g, .ok g)

/-- Traces one after the other. -/
def traces (cache : List (ℕ × Graph)) : List (ℕ × Except GErr Graph) → List (ℕ × Graph)
  | [] => cache
  | (m, made) :: l => traces (trace cache m made).1 l

/-! ### Specification: what an exported graph computes -/

variable {V W : Type}

/-- The language: constants, containers, functions, methods, the attributes of the original model, and the model's return structure. -/
structure Lang (V : Type) where
  const : ℕ → V
  tuple : List V → V
  list : List V → V
  slice : V → V → V → V
  dict : List (String × V) → V
  func : ℕ → List V → List (String × V) → Option V
  method : String → List V → List (String × V) → Option V
  attr : String → Option V
  unflatten : List V → V

mutual

/-- The value of an argument, given those of the nodes. -/
def Arg.eval (P : Lang V) (env : ℕ → Option V) : Arg → Option V
  | .node i => env i
  | .const k => some (P.const k)
  | .tuple l => (evalAll P env l).map P.tuple
  | .list l => (evalAll P env l).map P.list
  | .slice a b c =>
    match a.eval P env, b.eval P env, c.eval P env with
    | some x, some y, some z => some (P.slice x y z)
    | _, _, _ => none
  | .dict keys l => (evalAll P env l).map fun vs => P.dict (keys.zip vs)

def evalAll (P : Lang V) (env : ℕ → Option V) : List Arg → Option (List V)
  | [] => some []
  | a :: l =>
    match a.eval P env, evalAll P env l with
    | some v, some vs => some (v :: vs)
    | _, _ => none

end

/-- `env[i] = v`. -/
def update (env : ℕ → Option V) (i : ℕ) (v : V) : ℕ → Option V := fun j => if j = i then some v else env j

/-- The inputs of a graph, in order. -/
def placeholders (body : List Fx) : List String := body.filterMap fun n => match n with
  | .placeholder _ name => some name
  | _ => none

/-- Inputs are bound by position, then by keyword. -/
def bound (names : List String) (vs : List V) (kvs : List (String × V)) : String → Option V := Dict.get (names.zip vs ++ kvs)

/-- The values of the arguments and of the keyword arguments of a call. -/
def evalArgs (P : Lang V) (env : ℕ → Option V) (args : List Arg) (kwargs : List (String × Arg)) : Option (List V × List (String × V)) :=
  match evalAll P env args, evalAll P env (kwargs.map (·.2)) with
  | some vs, some ks => some (vs, (kwargs.map (·.1)).zip ks)
  | _, _ => none

mutual

/-- Running one node of an exported graph: the values of the nodes after it. An attribute is that of the original model, if it has it. Calling a
module is running its graph. -/
def evalNode (P : Lang V) (onOriginal : String → Bool) (pre : String) (inputs : String → Option V) : Fx → (ℕ → Option V) → Option (ℕ → Option V)
  | .placeholder id name, env => (inputs name).map (update env id)
  | .getAttr id _ target lifted, env =>
    if onOriginal (absolute pre target) then (P.attr (absolute pre target)).map (update env id)
    else lifted.map fun k => update env id (P.const k)
  | .callModule id _ target _ body out args kwargs, env =>
    match evalArgs P env args kwargs with
    | none => none
    | some (vs, kvs) =>
      match evalNodes P onOriginal (absolute pre target) (bound (placeholders body) vs kvs) body (fun _ => none) with
      | none => none
      | some inner => (out.eval P inner).map (update env id)
  | .callFunction id _ fn args kwargs, env =>
    match evalArgs P env args kwargs with
    | none => none
    | some (vs, kvs) => (P.func fn vs kvs).map (update env id)
  | .callMethod id _ method args kwargs, env =>
    match evalArgs P env args kwargs with
    | none => none
    | some (vs, kvs) => (P.method method vs kvs).map (update env id)
  | .skipped _, env => some env

def evalNodes (P : Lang V) (onOriginal : String → Bool) (pre : String) (inputs : String → Option V) : List Fx → (ℕ → Option V) → Option (ℕ → Option V)
  | [], env => some env
  | n :: ns, env =>
    match evalNode P onOriginal pre inputs n env with
    | none => none
    | some env => evalNodes P onOriginal pre inputs ns env

end

/-- The value of a call of a traced module with graph `body`. -/
def bodyValue (P : Lang V) (onOriginal : String → Bool) (path : String) (body : List Fx) (out : Arg) (vs : List V) (kvs : List (String × V)) : Option V :=
  match evalNodes P onOriginal path (bound (placeholders body) vs kvs) body (fun _ => none) with
  | none => none
  | some env => out.eval P env

/-- What an exported model returns: several values in a tuple or a list, or one. -/
def Arg.parts : Arg → List Arg
  | .tuple l => l
  | .list l => l
  | a => [a]

theorem Arg.items_eq (a : Arg) : a.items = a.parts := by cases a <;> rfl

/-- The value of the exported model for the arguments `b`: its return structure, made of the items of its output. -/
def modelValue (P : Lang V) (onOriginal : String → Bool) (nodes : List Fx) (out : Arg) (inputs : String → V) : Option V :=
  match evalNodes P onOriginal "" (fun x => some (inputs x)) nodes (fun _ => none) with
  | none => none
  | some env => (evalAll P env out.parts).map P.unflatten

/-! ### Specification: assumptions -/

/-- The callables do what they are made for. -/
structure Behaves (t : Callables) (sem : Sem V W) (w : W) (c : Ctx) (P : Lang V) : Prop where
  const : ∀ a v, a.eval P (fun _ => none) = some v → sem.constVal (t.const a) = v
  tuple : ∀ vs, sem.call w c t.tuple vs [] = some (P.tuple vs)
  list : ∀ vs, sem.call w c t.list vs [] = some (P.list vs)
  slice : ∀ x y z, sem.call w c t.slice [] [("start", x), ("stop", y), ("step", z)] = some (P.slice x y z)
  dict : ∀ kvs, sem.call w c t.dict [] kvs = some (P.dict kvs)
  unflatten : ∀ vs, sem.call w c t.unflatten vs [] = some (P.unflatten vs)
  func : ∀ f vs kvs, sem.call w c (t.func f) vs kvs = P.func f vs kvs
  method : ∀ m vs kvs, sem.call w c (t.method m) vs kvs = P.method m vs kvs
  getter : ∀ p, sem.call w c (t.getter p) [] [] = P.attr p

/-- A call of a module in the graph `nodes` at path `pre`, or inside a module that it calls: the path of the module, the required parameters of the
original, its traced graph and output, and the number of arguments. -/
inductive Calls : String → List Fx → String → Option ℕ → List Fx → Arg → ℕ → Prop
  | here {pre : String} {nodes : List Fx} {id : ℕ} {name target : String} {required : Option ℕ} {body : List Fx} {out : Arg} {args : List Arg}
      {kwargs : List (String × Arg)} : Fx.callModule id name target required body out args kwargs ∈ nodes →
      Calls pre nodes (absolute pre target) required body out (args.length + kwargs.length)
  | inside {pre : String} {nodes : List Fx} {id : ℕ} {name target : String} {required : Option ℕ} {body : List Fx} {out : Arg} {args : List Arg}
      {kwargs : List (String × Arg)} {path : String} {required' : Option ℕ} {body' : List Fx} {out' : Arg} {provided : ℕ} :
      Fx.callModule id name target required body out args kwargs ∈ nodes → Calls (absolute pre target) body path required' body' out' provided →
      Calls pre nodes path required' body' out' provided

/-- A module that calls no modules. -/
def LeafBody (body : List Fx) : Prop := ∀ n ∈ body, ∀ id name target required inner out args kwargs, n ≠ .callModule id name target required inner out args kwargs

/-- Modules compute what their traced graphs compute: a traced module always, the original one if it is given all required parameters and the traced
graph does not return several values. -/
def Faithful (t : Callables) (sem : Sem V W) (w : W) (c : Ctx) (P : Lang V) (onOriginal : String → Bool) (pre : String) (nodes : List Fx) : Prop :=
  ∀ path required body out provided, Calls pre nodes path required body out provided → LeafBody body → ∀ vs kvs v, vs.length + kvs.length = provided →
    bodyValue P onOriginal path body out vs kvs = some v →
    sem.call w c (t.traced path) vs kvs = some v ∧
    ((∃ n ≤ provided, required = some n) → out.parts.length ≤ 1 → sem.call w c (t.original path) vs kvs = some v)

/-- Modules that call modules return one value, or a tuple of several values that are all computed, and the names of inputs have no brackets. -/
def Regular (pre : String) (nodes : List Fx) : Prop :=
  ∀ path required body out provided, Calls pre nodes path required body out provided → ¬ LeafBody body →
    ((∃ i, out = .node i) ∨ ∃ is : List ℕ, 2 ≤ is.length ∧ out = .tuple (is.map .node)) ∧ ∀ x ∈ placeholders body, '[' ∉ x.toList

end FF.Trace
