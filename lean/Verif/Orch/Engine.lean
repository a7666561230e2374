import Verif.Orch.Model

/-!
# The instruction engine

Models `/repo/src/fastforward/_orchestration/instruction_engine.py`.
-/

namespace FF.Orch

/-- The exceptions the engine lets through. `userError` is an exception of a called module or delegate, `lookupError` of an item or
attribute access on a batch; `diverges` is an endless loop. -/
inductive EErr where
  | keyError
  | valueError
  | typeError
  | userError
  | lookupError
  | diverges
  deriving DecidableEq, Repr

/-- Devices (`torch.device`), named by numbers. -/
abbrev Dev := ℕ

/-- The `device` field of `MoveModule` (`instruction_engine.py:513`): one device, or one per parameter name. -/
inductive MoveTo where
  | dev (d : Dev)
  | map (m : List (String × Dev))
  deriving DecidableEq, Repr

/-- `ActivationBundle` (`instruction_engine.py:213-228`). -/
structure Bundle (V : Type) where
  args : List (List V)
  kwargs : List (String × List V)
  deriving DecidableEq, Repr

/-- Everything the engine calls but does not define: item access, attribute access, the called modules, the optimization delegates
and device moves. `W` is the state of all modules, which only delegates and moves change; calls are deterministic and do not change it
(simplification: modules with running statistics are not covered). -/
structure Sem (V W : Type) where
  constVal : ℕ → V
  item : V → Attr → Option V
  getattr : V → String → Option V
  call : W → Ctx → ℕ → List V → List (String × V) → Option V
  optimize : W → ℕ → ℕ → List (Bundle V) → Option W
  move : Dev → V → V
  moveModule : W → MoveTo → ℕ → W

/-- What a register slot holds: an `ActivationDataset`, or the `Const` object that `StoreValue` puts there
(`instruction_engine.py:1231`: `value=ref`). -/
inductive Cell (V : Type) where
  | data (batches : List V)
  | constObj
  deriving DecidableEq, Repr

/-- The streams of one register entry: a dictionary from context to slot. -/
abbrev Streams (V : Type) := List (Ctx × Cell V)

/-- `ActivationRegister` (`instruction_engine.py:167-210`). -/
abbrev Reg (V : Type) := Ref → Option (Streams V)

variable {V W : Type}

/-- `dict[context] = cell`. -/
def Streams.set : Streams V → Ctx → Cell V → Streams V
  | [], c, x => [(c, x)]
  | (c', y) :: rest, c, x => if c' = c then (c, x) :: rest else (c', y) :: Streams.set rest c x

/-- `store` (173-177). -/
def Reg.store (reg : Reg V) (r : Ref) (c : Ctx) (x : Cell V) : Reg V :=
  fun r' => if r' = r then some (((reg r).getD []).set c x) else reg r'

/-- `store_all` (179-181): also creates the entry when the mapping is empty. -/
def Reg.storeAll (reg : Reg V) (r : Ref) (m : Streams V) : Reg V :=
  fun r' => if r' = r then some (m.foldl (fun s p => s.set p.1 p.2) ((reg r).getD [])) else reg r'

/-- `load` (183-185). -/
def Reg.load (reg : Reg V) (r : Ref) (c : Ctx) : Except EErr (Cell V) :=
  match reg r with
  | none => .error .keyError
  | some s => match s.lookup c with
    | none => .error .keyError
    | some x => .ok x

/-- `delete` of a whole entry (195-203). -/
def Reg.delete (reg : Reg V) (r : Ref) : Reg V := fun r' => if r' = r then none else reg r'

/-- `ActivationDataset.broadcast` (136-164). -/
def broadcast (ds : List (List V)) : Except EErr (List (List V)) :=
  let lengths := dedupe [] (ds.map List.length)
  if lengths.length ≤ 1 then .ok ds
  else match lengths.filter (· ≠ 1) with
    | [target] => .ok (ds.map fun d => if d.length = 1 then (List.replicate target d).flatten else d)
    | _ => .error .valueError

/-- `ActivationDataset.merge` (102-134); a row is the tuple of the values at one batch index. Python returns a single dataset itself
instead of one-element tuples; here it is given as one-element rows. -/
def merge (ds : List (List V)) : Except EErr (List (List V)) :=
  match ds with
  | [] => .error .valueError
  | [d] => .ok (d.map ([·]))
  | d :: rest =>
    if (dedupe [] ((d :: rest).map List.length)).length > 1 then .error .valueError
    else
      match (List.range d.length).mapM fun i => (d :: rest).mapM fun x => x[i]? with
      | some rows => .ok rows
      | none => .error .lookupError

/-- `get_dataset` inside `gather` (251-254). The `Const` object is not a dataset: using it as one is a `TypeError`. -/
def getDataset (sem : Sem V W) (reg : Reg V) (c : Ctx) (r : Ref) : Except EErr (List V) :=
  match r with
  | .const k => .ok [sem.constVal k]
  | r =>
    match reg.load r c with
    | .error e => .error e
    | .ok (.data d) => .ok d
    | .ok .constObj => .error .typeError

/-- `ActivationBundle.gather` (230-264). -/
def gather (sem : Sem V W) (reg : Reg V) (c : Ctx) (args : List Ref) (kwargs : List (String × Ref)) : Except EErr (Bundle V) := do
  let argDs ← args.mapM (getDataset sem reg c)
  let kwDs ← (kwargs.map (·.2)).mapM (getDataset sem reg c)
  let b ← broadcast (argDs ++ kwDs)
  .ok ⟨b.take argDs.length, (kwargs.map (·.1)).zip (b.drop argDs.length)⟩

/-- `__len__` (266-276). -/
def Bundle.len (b : Bundle V) : ℕ :=
  match b.args, b.kwargs with
  | d :: _, _ => d.length
  | [], (_, d) :: _ => d.length
  | [], [] => 0

/-- `dataset[i]`. -/
def batchAt (i : ℕ) (d : List V) : Except EErr V :=
  match d[i]? with
  | some v => .ok v
  | none => .error .lookupError

/-- `(key, dataset[i])`. -/
def kwBatchAt (i : ℕ) (p : String × List V) : Except EErr (String × V) :=
  match p.2[i]? with
  | some v => .ok (p.1, v)
  | none => .error .lookupError

/-- One element of `__iter__` (290-293). -/
def Bundle.row (b : Bundle V) (i : ℕ) : Except EErr (List V × List (String × V)) := do
  let args ← b.args.mapM (batchAt i)
  let kwargs ← b.kwargs.mapM (kwBatchAt i)
  .ok (args, kwargs)

/-- `_extract_attribute` (358-371): an index is an item access; a name is an item access for all batches or, if one fails, an
attribute access for all batches. -/
def Sem.extract (sem : Sem V W) (a : Attr) (d : List V) : Option (List V) :=
  match a with
  | .idx _ => d.mapM fun v => sem.item v a
  | .key k => match d.mapM fun v => sem.item v a with
    | some r => some r
    | none => d.mapM fun v => sem.getattr v k

/-- The instructions (324-597). -/
inductive Instr where
  | store (target : Ref) (contexts : List Ctx)
  | load (source target : Ref) (a : Attr)
  | call (module : ℕ) (isModule : Bool) (args : List Ref) (kwargs : List (String × Ref)) (target : Ref) (contexts : List Ctx)
  | optimize (module : ℕ) (args : List Ref) (kwargs : List (String × Ref)) (delegate : Delegate)
  | ret (outputs : List Ref)
  | delete (targets : List Ref)
  | moveModule (dest : MoveTo) (module : ℕ)
  | moveAct (d : Dev) (ref : Ref)
  deriving DecidableEq, Repr

/-- `uses()` of each instruction (342, 373, 417, 457, 487, 596; the default is empty). -/
def Instr.uses : Instr → List Ref
  | .store t _ => [t]
  | .load s _ _ => [s]
  | .call _ _ args kwargs _ _ => args ++ kwargs.map (·.2)
  | .optimize _ args kwargs _ => args ++ kwargs.map (·.2)
  | .ret outs => outs
  | .delete _ => []
  | .moveModule _ _ => []
  | .moveAct _ r => [r]

/-- `produces()` of each instruction (376, 421; the default is empty). -/
def Instr.produces : Instr → List Ref
  | .load _ t _ => [t]
  | .call _ _ _ _ t _ => [t]
  | _ => []

/-- State of a run. -/
structure St (V W : Type) where
  w : W
  reg : Reg V

/-- Result of `ReturnOutputs`: for each context the rows of output values. -/
abbrev Out (V : Type) := List (Ctx × List (List V))

/-- `self.module(*args, **kwargs)` inside a context (408, 411). -/
def callTarget (sem : Sem V W) (w : W) (c : Ctx) (m : ℕ) (args : List V) (kwargs : List (String × V)) : Except EErr V :=
  match sem.call w c m args kwargs with
  | some v => .ok v
  | none => .error .userError

/-- The call for one batch (409-411). -/
def callBatch (sem : Sem V W) (w : W) (c : Ctx) (m : ℕ) (b : Bundle V) (i : ℕ) : Except EErr V :=
  match b.row i with
  | .error e => .error e
  | .ok r => callTarget sem w c m r.1 r.2

/-- One context of `CallModule.execute` (404-413). -/
def callOne (sem : Sem V W) (s : St V W) (m : ℕ) (args : List Ref) (kwargs : List (String × Ref)) (c : Ctx) :
    Except EErr (List V) := do
  let b ← gather sem s.reg c args kwargs
  if args.isEmpty && kwargs.isEmpty then
    let v ← callTarget sem s.w c m [] []
    .ok [v]
  else (List.range b.len).mapM (callBatch sem s.w c m b)

/-- `CallModule.execute`'s loop over contexts (402-413); a context listed twice keeps the later result, which is the same. -/
def callAll (sem : Sem V W) (s : St V W) (m : ℕ) (args : List Ref) (kwargs : List (String × Ref)) :
    List Ctx → Except EErr (Streams V)
  | [] => .ok []
  | c :: cs => do
    let d ← callOne sem s m args kwargs c
    let rest ← callAll sem s m args kwargs cs
    .ok ((c, .data d) :: rest)

/-- `LoadAttribute.execute`'s loop (354-356). The `Const` object has `__getitem__` for every index and no length
(`graph_module.py:35-39`), so iterating over it never ends. -/
def loadAll (sem : Sem V W) (a : Attr) (t : Ref) : Streams V → Reg V → Except EErr (Reg V)
  | [], reg => .ok reg
  | (c, .data d) :: rest, reg =>
    match sem.extract a d with
    | none => .error .lookupError
    | some d' => loadAll sem a t rest (reg.store t c (.data d'))
  | (_, .constObj) :: _, _ => .error .diverges

/-- `ReturnOutputs`: append the streams of one output to the per-context lists (475-478). -/
def addOutput (acc : List (Ctx × List (List V))) : Streams V → Except EErr (List (Ctx × List (List V)))
  | [] => .ok acc
  | (c, .data d) :: rest =>
    let acc' := if acc.any (fun p => p.1 == c) then acc.map fun p => if p.1 = c then (p.1, p.2 ++ [d]) else p else acc ++ [(c, [d])]
    addOutput acc' rest
  | (_, .constObj) :: _ => .error .typeError

def collectOutputs (reg : Reg V) : List Ref → List (Ctx × List (List V)) → Except EErr (List (Ctx × List (List V)))
  | [], acc => .ok acc
  | r :: rs, acc =>
    match reg r with
    | none => .error .keyError
    | some s => match addOutput acc s with
      | .error e => .error e
      | .ok acc' => collectOutputs reg rs acc'

/-- The outputs of one context (480-484). -/
def mergeContext (p : Ctx × List (List V)) : Except EErr (Ctx × List (List V)) :=
  match merge p.2 with
  | .error e => .error e
  | .ok rows => .ok (p.1, rows)

/-- `ReturnOutputs.execute` (472-485). -/
def returnOutputs (reg : Reg V) (outs : List Ref) : Except EErr (Out V) := do
  let per ← collectOutputs reg outs []
  per.mapM mergeContext

/-- `_move_register_entries_to_device` (564-578); a `Const` object has no `batches` (`TypeError`). -/
def moveStreams (sem : Sem V W) (d : Dev) : Streams V → Except EErr (Streams V)
  | [] => .ok []
  | (c, .data vs) :: rest => do
    let r ← moveStreams sem d rest
    .ok ((c, .data (vs.map (sem.move d))) :: r)
  | (_, .constObj) :: _ => .error .typeError

/-- `execute` of each instruction (338-594): the new state and, for `ReturnOutputs`, the result. An instruction that fails leaves the
state as it was (simplification: a failing delegate or multi-context call may have had effects). -/
def exec (sem : Sem V W) (i : Instr) (s : St V W) : Except EErr (St V W × Option (Out V)) :=
  match i with
  | .store t cs => .ok (⟨s.w, cs.foldl (fun reg c => reg.store t c .constObj) s.reg⟩, none)
  | .load src t a =>
    match s.reg src with
    | none => .error .keyError
    | some str => match loadAll sem a t str s.reg with
      | .error e => .error e
      | .ok reg => .ok (⟨s.w, reg⟩, none)
  | .call m _ args kwargs t cs =>
    match callAll sem s m args kwargs cs with
    | .error e => .error e
    | .ok res => .ok (⟨s.w, s.reg.storeAll t res⟩, none)
  | .optimize m args kwargs d =>
    match d.contexts.mapM fun c => gather sem s.reg c args kwargs with
    | .error e => .error e
    | .ok bundles => match sem.optimize s.w d.fn m bundles with
      | none => .error .userError
      | some w => .ok (⟨w, s.reg⟩, none)
  | .ret outs =>
    match returnOutputs s.reg outs with
    | .error e => .error e
    | .ok o => .ok (s, some o)
  | .delete ts => .ok (⟨s.w, ts.foldl Reg.delete s.reg⟩, none)
  | .moveModule dest m => .ok (⟨sem.moveModule s.w dest m, s.reg⟩, none)
  | .moveAct d r =>
    match s.reg r with
    | none => .error .keyError
    | some str => match moveStreams sem d str with
      | .error e => .error e
      | .ok str' => .ok (⟨s.w, fun r' => if r' = r then some str' else s.reg r'⟩, none)

/-- `run_instructions` (728-741): the state in which execution stopped, and the result or the exception. -/
def run (sem : Sem V W) : List Instr → St V W → St V W × Except EErr (Option (Out V))
  | [], s => (s, .ok none)
  | i :: is, s =>
    match exec sem i s with
    | .error e => (s, .error e)
    | .ok (s', some o) => (s', .ok (some o))
    | .ok (s', none) => run sem is s'

/-! ### Scheduling -/

/-- Set union of contexts; the iteration order of the Python set is not specified, insertion order is used here. -/
def ctxUnion (a b : List Ctx) : List Ctx := b.foldl (fun acc c => if c ∈ acc then acc else acc ++ [c]) a

/-- The effect of one node in `_propagate_contexts` (625-633). -/
def propagateStep (g : Graph) (ctxs : ℕ → List Ctx) (id : ℕ) : ℕ → List Ctx :=
  match g.find? id with
  | none => ctxs
  | some n => n.inputs.foldl (fun ctxs m => fun k =>
      if k = m then ctxUnion (ctxUnion (ctxs m) (ctxs id)) (n.delegate.elim [] (·.contexts)) else ctxs k) ctxs

/-- `_propagate_contexts` (604-635), for node references; no other reference ever gets contexts. -/
def propagateContexts (g : Graph) (order : List ℕ) : ℕ → List Ctx :=
  let seed : ℕ → List Ctx := fun k => if g.outputs.any (fun r => r.baseNode? == some k) then [0] else []
  order.reverse.foldl (propagateStep g) seed

/-- `_schedule_ref_id` (1212-1240): the instructions that make a reference available (the reference itself is the register key). -/
def scheduleRef : Ref → List Instr
  | .node _ => []
  | .input _ => []
  | .const k => [.store (.const k) [0]]
  | .attr r a => scheduleRef r ++ [.load r (.attr r a) a]

/-- `_schedule_node` (1143-1186). -/
def scheduleNode (ctxs : ℕ → List Ctx) (n : Node) : List Instr :=
  n.args.flatMap scheduleRef ++ (n.kwargs.map (·.2)).flatMap scheduleRef ++
  (match n.delegate, n.isModule with
    | some d, true => [.optimize n.target n.args n.kwargs d]
    | _, _ => []) ++
  [.call n.target n.isModule n.args n.kwargs (.node n.id) (ctxs n.id)]

/-- `_schedule` and `_schedule_return` (1122-1141, 1188-1210) for a given order. -/
def schedule (g : Graph) (order : List ℕ) : List Instr :=
  let ctxs := propagateContexts g order
  (order.filterMap g.find?).flatMap (scheduleNode ctxs) ++
  (if g.outputs.isEmpty then [] else g.outputs.flatMap scheduleRef ++ [.ret g.outputs])

/-- The contexts one instruction contributes to `InstructionProgram.contexts` (655-664). -/
def Instr.ctxs : Instr → List Ctx
  | .call _ _ _ _ _ cs => cs
  | .optimize _ _ _ d => d.contexts
  | .store _ cs => cs
  | _ => []

/-- `InstructionProgram.contexts` (650-666). -/
def programContexts (is : List Instr) : List Ctx := is.foldl (fun acc i => ctxUnion acc i.ctxs) []

/-! ### Inputs -/

/-- A value passed to a graph: a list or data loader, an `ActivationDataset`, or anything else (`from_value`, 84-100). -/
inductive RawInput (V : Type) where
  | batches (vs : List V)
  | single (v : V)

/-- `ActivationDataset.from_value` (84-100). -/
def RawInput.dataset : RawInput V → List V
  | .batches vs => vs
  | .single v => [v]

/-- One keyword argument (`instruction_engine.py:707-714`). -/
def bindStep (names : List String) (acc : Except EErr (List (String × RawInput V))) (kv : String × RawInput V) :
    Except EErr (List (String × RawInput V)) :=
  match acc with
  | .error e => .error e
  | .ok inputs =>
    if kv.1 ∉ names then .error EErr.typeError
    else if kv.1 ∈ inputs.map (·.1) then .error .typeError
    else .ok (inputs ++ [kv])

/-- The binding part of `prepare_input_register` (699-718): names to values. The keyword dictionary has distinct keys. -/
def bindInputs (names : List String) (args : List (RawInput V)) (kwargs : List (String × RawInput V)) :
    Except EErr (List (String × RawInput V)) :=
  if args.length > names.length then .error .typeError
  else
    let inputs := (names.take args.length).zip args
    match kwargs.foldl (bindStep names) (.ok inputs) with
    | .error e => .error e
    | .ok inputs => if names.any fun n => n ∉ inputs.map (·.1) then .error .typeError else .ok inputs

/-- `prepare_input_register` (678-726). -/
def prepareRegister (names : List String) (args : List (RawInput V)) (kwargs : List (String × RawInput V)) (contexts : List Ctx) :
    Except EErr (Reg V) :=
  match bindInputs names args kwargs with
  | .error e => .error e
  | .ok inputs =>
    .ok (inputs.foldl (fun reg p => contexts.foldl (fun reg c => reg.store (.input p.1) c (.data p.2.dataset)) reg) fun _ => none)

/-- `InstructionEngine.run` (743-755) on a scheduled graph. -/
def runGraph (sem : Sem V W) (g : Graph) (order : List ℕ) (w : W) (args : List (RawInput V)) (kwargs : List (String × RawInput V)) :
    W × Except EErr (Option (Out V)) :=
  let is := schedule g order
  match prepareRegister g.inputs args kwargs (programContexts is) with
  | .error e => (w, .error e)
  | .ok reg => let r := run sem is ⟨w, reg⟩; (r.1.w, r.2)

end FF.Orch
