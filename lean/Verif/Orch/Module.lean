import Verif.Orch.SubgraphProps
import Verif.Orch.ExecTotal
import Verif.Orch.ExecCases

/-!
# Building and calling a graph module (C82)

Models `GraphModule.add_input`, `add_output`, `add_node`, `add_subgraph`, `_invalidate_caches` and `forward` of
`/repo/src/fastforward/_orchestration/graph_module.py` (347-367, 489-581, 583-716, 718-761). The rewriting of inputs at the start of `forward` is
modelled in `Verif.Orch.Inputs`; here a call gets the rewritten inputs.
-/

namespace FF.Orch

variable {V W : Type}

/-! ### Model -/

/-- A `GraphModule` (347-361): the graph, and `_program` while `_engine` is set. The program shares the dictionary of inputs with the graph
(`instruction_engine.py:1120`), so only its instructions can be out of date. -/
structure GM where
  graph : Graph := {}
  program : Option (List Instr) := none

/-- `add_output` (498-519): the references before the first that is refused are added. -/
def addOutputs (g : Graph) : List Ref → Graph
  | [] => g
  | r :: rs =>
    match r.unwrap with
    | .node id => if (g.find? id).isSome then addOutputs { g with outputs := g.outputs ++ [r] } rs else g
    | _ => g

/-- What is done with a graph module. -/
inductive Use (V : Type) where
  | addInput (name : String)
  | addOutput (refs : List Ref)
  | addNode (n : Node)
  | addSubgraph (name : String) (sub : Graph) (args : List Ref) (kwargs : List (String × Ref)) (original : Option (ℕ × ℕ))
  | call (args : List (RawInput V)) (kwargs : List (String × RawInput V))

/-- The exceptions of scheduling. -/
def GErr.raised : GErr → EErr
  | .valueError => .valueError
  | .keyError => .keyError
  | .typeError => .typeError

/-- Lines 736-744 of `forward`: make the program if there is none. -/
def GM.prepare (m : GM) : GM × Except EErr (List Instr) :=
  match m.program with
  | some is => (m, .ok is)
  | none =>
    match topologicalSort m.graph with
    | .error e => (m, .error e.raised)
    | .ok order => ({ m with program := some (schedule m.graph order) }, .ok (schedule m.graph order))

/-- The graph module after a step: `add_input` (489-496) and `add_output` keep the program, `add_node` (554-559) and `add_subgraph` (618-623)
drop it, unless they raise before that. -/
def GM.step (m : GM) : Use V → GM
  | .addInput x => if x ∈ m.graph.inputs then m else { m with graph := { m.graph with inputs := m.graph.inputs ++ [x] } }
  | .addOutput rs => { m with graph := addOutputs m.graph rs }
  | .addNode n =>
    match m.graph.addNode n with
    | .error _ => m
    | .ok g => { graph := g, program := none }
  | .addSubgraph name sub args kwargs original =>
    if sub.outputs.isEmpty then m else { graph := (m.graph.addSubgraph name sub args kwargs original).1, program := none }
  | .call _ _ => m.prepare.1

def GM.steps (m : GM) (uses : List (Use V)) : GM := uses.foldl GM.step m

/-- What `forward` returns: `None`, a single result, or the results of all batches for each context. -/
inductive Result (V : Type) where
  | nothing
  | one (row : List V)
  | all (out : Out V)
  deriving DecidableEq, Repr

/-- The end of `forward` (753-761). -/
def unwrapResult : Option (Out V) → Result V
  | none => .nothing
  | some [(_, [row])] => .one row
  | some out => .all out

/-- `forward` (718-761): the state of the modules afterwards, and the result. -/
def GM.call (sem : Sem V W) (m : GM) (w : W) (args : List (RawInput V)) (kwargs : List (String × RawInput V)) : W × Except EErr (Result V) :=
  match m.prepare.2 with
  | .error e => (w, .error e)
  | .ok is =>
    match prepareRegister m.graph.inputs args kwargs (programContexts is) with
    | .error e => (w, .error e)
    | .ok reg => let r := run sem is ⟨w, reg⟩; (r.1.w, r.2.map unwrapResult)

/-! ### Specification -/

/-- Every new fold gets an id that no node has. -/
def FreshFolds : GM → List (Use V) → Prop
  | _, [] => True
  | m, u :: us => (match u with
      | .addSubgraph _ _ _ _ (some (fid, _)) => ∀ n ∈ m.graph.nodes, n.id ≠ fid
      | _ => True) ∧ FreshFolds (m.step u) us

/-- Since every earlier call, outputs were added only along with nodes. -/
def NoLateOutput (uses : List (Use V)) : Prop :=
  ∀ before after args kwargs, uses = before ++ .call args kwargs :: after →
    ((GM.steps {} before).graph.nodes = (GM.steps {} uses).graph.nodes → (GM.steps {} before).graph.outputs = (GM.steps {} uses).graph.outputs)

/-- The answer to a call of a graph: the values of its outputs, in order, for each batch; a single batch is given by itself, and there is no
answer without outputs. -/
def Answer (sem : Sem V W) (g : Graph) (inp : String → List V) (w : W) (res : Result V) : Prop :=
  (g.outputs = [] → res = .nothing) ∧
  (g.outputs ≠ [] → ∃ ds rows, List.Forall₂ (Den sem g inp (fun _ => w) 0) g.outputs ds ∧ Transposed ds rows ∧
    ((∃ row, rows = [row] ∧ res = .one row) ∨ (rows.length ≠ 1 ∧ res = .all [(0, rows)])))

/-! ### Lemmas -/

theorem kahn_congr {g g' : Graph} (hn : g.nodes = g'.nodes) (hf : g.folds = g'.folds) (fuel : ℕ) (s : Kahn) : Kahn.run g fuel s = Kahn.run g' fuel s := by
  induction fuel generalizing s with
  | zero => rfl
  | succ fuel ih =>
    have ho : ∀ id, g.nodeOutputs id = g'.nodeOutputs id := fun id => by unfold Graph.nodeOutputs Graph.find?; rw [hn]
    have hl : g.leafIds = g'.leafIds := by unfold Graph.leafIds Graph.leaves; rw [hn, hf]
    unfold Kahn.run
    cases s.queue with
    | nil => rfl
    | cons a q =>
      simp only [ho, hl]
      cases g'.nodeOutputs a with
      | error e => rfl
      | ok deps => exact ih _

theorem sort_congr {g g' : Graph} (hn : g.nodes = g'.nodes) (hf : g.folds = g'.folds) : topologicalSort g = topologicalSort g' := by
  have hl : g.leafIds = g'.leafIds := by unfold Graph.leafIds Graph.leaves; rw [hn, hf]
  have hd : g.inDegree = g'.inDegree := by funext id; unfold Graph.inDegree Graph.find?; rw [hn]
  unfold topologicalSort
  simp only [hl, hd, kahn_congr hn hf]

theorem find_congr {g g' : Graph} (hn : g.nodes = g'.nodes) : g.find? = g'.find? := by
  funext id
  unfold Graph.find?
  rw [hn]

theorem schedule_congr {g g' : Graph} (hn : g.nodes = g'.nodes) (ho : g.outputs = g'.outputs) (order : List ℕ) : schedule g order = schedule g' order := by
  have hp : propagateContexts g order = propagateContexts g' order := by
    have : propagateStep g = propagateStep g' := by funext c id; unfold propagateStep; rw [find_congr hn]
    unfold propagateContexts
    rw [this, ho]
  unfold schedule
  simp only [hp, find_congr hn, ho]

theorem addOutputs_graph (g : Graph) (rs : List Ref) :
    (addOutputs g rs).nodes = g.nodes ∧ (addOutputs g rs).folds = g.folds ∧ (addOutputs g rs).inputs = g.inputs := by
  induction rs generalizing g with
  | nil => exact ⟨rfl, rfl, rfl⟩
  | cons r rs ih =>
    unfold addOutputs
    split
    · split
      · exact ih _
      · exact ⟨rfl, rfl, rfl⟩
    · exact ⟨rfl, rfl, rfl⟩

theorem addNode_extends {g g' : Graph} {n : Node} (h : g.addNode n = .ok g') :
    (∀ m ∈ g.nodes, m.id ≠ n.id) ∧ g' = { g with nodes := g.nodes ++ [{ n with delegate := none }] } := by
  unfold Graph.addNode at h
  split at h
  · simp at h
  · rename_i hf
    refine ⟨find_none_iff.1 ?_, (Except.ok.inj h).symm⟩
    simpa using hf

/-- What building keeps: distinct ids, distinct input names and no delegates. -/
structure Buildable (g : Graph) : Prop where
  ids : g.UniqueIds
  names : g.inputs.Nodup
  plain : g.Plain

theorem addNode_built {g g' : Graph} {n : Node} (hb : Buildable g) (h : g.addNode n = .ok g') : Buildable g' := by
  obtain ⟨h1, rfl⟩ := addNode_extends h
  refine ⟨?_, hb.names, ?_⟩
  · show ((g.nodes ++ [({ n with delegate := none } : Node)]).map (·.id)).Nodup
    rw [List.map_append]
    refine List.nodup_append'.2 ⟨hb.ids, by simp, ?_⟩
    intro id h2 h3
    obtain ⟨m, hm, rfl⟩ := List.mem_map.1 h2
    simp only [List.map_cons, List.map_nil, List.mem_singleton] at h3
    exact h1 m hm h3
  · intro m hm
    rcases List.mem_append.1 hm with hm | hm
    · exact hb.plain m hm
    · rw [List.mem_singleton.1 hm]

theorem built_folds {g : Graph} (hb : Buildable g) (fs : List ℕ) (bs : List (ℕ × List Ref)) : Buildable { g with folds := fs, bindings := bs } :=
  ⟨hb.ids, hb.names, hb.plain⟩

theorem inlineAll_built (sub : Graph) (b : List (String × Ref)) (name : String) (fold : Option ℕ) (ns : List Node) (g : Graph) (hb : Buildable g) :
    Buildable (sub.inlineAll b name fold ns g).1 := by
  induction ns generalizing g with
  | nil => exact hb
  | cons n ns ih =>
    unfold Graph.inlineAll
    cases sub.inlined b name fold n with
    | error e => exact hb
    | ok n' =>
      simp only
      cases h : g.addNode n' with
      | error e => exact hb
      | ok g1 =>
        have h1 := addNode_built hb h
        simp only
        cases h2 : sub.copyFold b n g1 with
        | error e => exact built_folds h1 _ _
        | ok g2 =>
          refine ih g2 ?_
          unfold Graph.copyFold at h2
          split at h2
          · split at h2
            · obtain rfl := Except.ok.inj h2
              exact built_folds h1 _ _
            · split at h2
              · obtain rfl := Except.ok.inj h2
                exact built_folds h1 _ _
              · simp at h2
          · obtain rfl := Except.ok.inj h2
            exact h1

theorem addSubgraph_built {g sub : Graph} {name : String} {args : List Ref} {kwargs : List (String × Ref)} {original : Option (ℕ × ℕ)}
    (hb : Buildable g) (hf : ∀ p, original = some p → ∀ n ∈ g.nodes, n.id ≠ p.1) : Buildable (g.addSubgraph name sub args kwargs original).1 := by
  have hfold : ∀ b, Buildable (g.addFold sub b name kwargs original) := by
    intro b
    cases original with
    | none => exact hb
    | some p =>
      refine ⟨?_, hb.names, ?_⟩
      · show ((g.nodes ++ [sub.foldNode b name kwargs p.1 p.2]).map (·.id)).Nodup
        rw [List.map_append]
        refine List.nodup_append'.2 ⟨hb.ids, by simp, ?_⟩
        intro id h2 h3
        obtain ⟨m, hm, rfl⟩ := List.mem_map.1 h2
        simp only [List.map_cons, List.map_nil, List.mem_singleton] at h3
        exact hf p rfl m hm h3
      · intro m hm
        rcases List.mem_append.1 hm with hm | hm
        · exact hb.plain m hm
        · rw [List.mem_singleton.1 hm]
          rfl
  unfold Graph.addSubgraph
  split
  · exact hb
  · split
    · exact hb
    · rename_i b _
      have := inlineAll_built sub b name (original.map (·.1)) sub.foldsFirst _ (hfold b)
      split
      · rename_i heq
        rw [heq] at this
        exact this
      · rename_i heq
        rw [heq] at this
        exact this

theorem prepare_graph (m : GM) : m.prepare.1.graph = m.graph := by
  unfold GM.prepare
  split
  · rfl
  · split <;> rfl

theorem step_built {m : GM} (u : Use V) (hb : Buildable m.graph) (hf : FreshFolds m [u]) : Buildable (m.step u).graph := by
  cases u with
  | addInput x =>
    simp only [GM.step]
    split
    · exact hb
    · rename_i hx
      refine ⟨hb.ids, ?_, hb.plain⟩
      exact List.nodup_append'.2 ⟨hb.names, by simp, by
        intro y h1 h2
        rw [List.mem_singleton.1 h2] at h1
        exact hx h1⟩
  | addOutput rs =>
    obtain ⟨h1, _, h3⟩ := addOutputs_graph m.graph rs
    refine ⟨?_, ?_, ?_⟩
    · show (((addOutputs m.graph rs).nodes).map (·.id)).Nodup
      rw [h1]
      exact hb.ids
    · show (addOutputs m.graph rs).inputs.Nodup
      rw [h3]
      exact hb.names
    · show ∀ n ∈ (addOutputs m.graph rs).nodes, n.delegate = none
      rw [h1]
      exact hb.plain
  | addNode n =>
    simp only [GM.step]
    cases h : m.graph.addNode n with
    | error e => exact hb
    | ok g => exact addNode_built hb h
  | addSubgraph name sub args kwargs original =>
    simp only [GM.step]
    split
    · exact hb
    · refine addSubgraph_built hb ?_
      rintro ⟨fid, t⟩ rfl
      exact hf.1
  | call args kwargs =>
    show Buildable m.prepare.1.graph
    rw [prepare_graph]
    exact hb

theorem steps_built {m : GM} (us : List (Use V)) (hb : Buildable m.graph) (hf : FreshFolds m us) : Buildable (m.steps us).graph := by
  unfold GM.steps
  induction us generalizing m with
  | nil => exact hb
  | cons u us ih => exact ih (step_built u hb ⟨hf.1, trivial⟩) hf.2

theorem steps_append (m : GM) (a b : List (Use V)) : m.steps (a ++ b) = (m.steps a).steps b := by
  unfold GM.steps
  rw [List.foldl_append]

/-- Where a program comes from: a call after which no node was added. -/
def Cached (uses : List (Use V)) : Prop :=
  ∀ is, (GM.steps {} uses).program = some is → ∃ before after args kwargs order, uses = before ++ .call args kwargs :: after ∧
    (GM.steps {} before).graph.nodes = (GM.steps {} uses).graph.nodes ∧ (GM.steps {} before).graph.folds = (GM.steps {} uses).graph.folds ∧
    topologicalSort (GM.steps {} before).graph = .ok order ∧ is = schedule (GM.steps {} before).graph order

theorem cached (uses : List (Use V)) : Cached uses := by
  induction uses using List.reverseRecOn with
  | nil => exact fun is h => by simp [GM.steps] at h
  | append_singleton us u ih =>
    intro is h
    have hs : GM.steps {} (us ++ [u]) = (GM.steps {} us).step u := by rw [steps_append]; rfl
    have key : (GM.steps {} us).program = some is → ((GM.steps {} us).step u).graph.nodes = (GM.steps {} us).graph.nodes →
        ((GM.steps {} us).step u).graph.folds = (GM.steps {} us).graph.folds → ∃ before after args kwargs order, us ++ [u] = before ++ .call args kwargs :: after ∧
        (GM.steps {} before).graph.nodes = (GM.steps {} (us ++ [u])).graph.nodes ∧
        (GM.steps {} before).graph.folds = (GM.steps {} (us ++ [u])).graph.folds ∧
        topologicalSort (GM.steps {} before).graph = .ok order ∧ is = schedule (GM.steps {} before).graph order := by
      intro h1 h2 h3
      obtain ⟨before, after, args, kwargs, order, rfl, q1, q2, q3, q4⟩ := ih is h1
      refine ⟨before, after ++ [u], args, kwargs, order, by simp, ?_, ?_, q3, q4⟩
      · rw [hs, h2, q1]
      · rw [hs, h3, q2]
    rw [hs] at h
    cases u with
    | addInput x =>
      refine key ?_ ?_ ?_
      · revert h
        simp only [GM.step]
        split <;> exact id
      · simp only [GM.step]
        split <;> rfl
      · simp only [GM.step]
        split <;> rfl
    | addOutput rs => exact key h (addOutputs_graph _ rs).1 (addOutputs_graph _ rs).2.1
    | addNode n =>
      simp only [GM.step] at h key
      cases hn : (GM.steps {} us).graph.addNode n with
      | error e =>
        rw [hn] at h key
        exact key h rfl rfl
      | ok g =>
        rw [hn] at h
        simp at h
    | addSubgraph name sub args kwargs original =>
      simp only [GM.step] at h key
      split at h
      · rename_i he
        simp only [he, if_true] at key
        exact key h trivial trivial
      · simp at h
    | call args kwargs =>
      cases hp : (GM.steps {} us).program with
      | some is' =>
        have hpr : ((GM.steps {} us).step (.call args kwargs)) = GM.steps {} us := by
          show (GM.steps {} us).prepare.1 = _
          unfold GM.prepare
          rw [hp]
        rw [hpr] at h key
        exact key h rfl rfl
      | none =>
        have hpr : ((GM.steps {} us).step (.call args kwargs)) = (GM.steps {} us).prepare.1 := rfl
        rw [hpr] at h
        unfold GM.prepare at h
        rw [hp] at h
        cases ht : topologicalSort (GM.steps {} us).graph with
        | error e =>
          rw [ht] at h
          simp only at h
          rw [hp] at h
          simp at h
        | ok order =>
          rw [ht] at h
          simp only [Option.some.injEq] at h
          refine ⟨us, [], args, kwargs, order, rfl, ?_, ?_, ht, h.symm⟩
          · rw [hs, hpr, prepare_graph]
          · rw [hs, hpr, prepare_graph]

/-- A call runs the current graph. -/
theorem call_runs (sem : Sem V W) (uses : List (Use V)) (hl : NoLateOutput uses) (w : W) (args : List (RawInput V)) (kwargs : List (String × RawInput V)) :
    (∃ e, topologicalSort (GM.steps {} uses).graph = .error e ∧ (GM.steps {} uses).call sem w args kwargs = (w, .error e.raised)) ∨
    ∃ order, topologicalSort (GM.steps {} uses).graph = .ok order ∧ (GM.steps {} uses).call sem w args kwargs =
      ((runGraph sem (GM.steps {} uses).graph order w args kwargs).1, (runGraph sem (GM.steps {} uses).graph order w args kwargs).2.map unwrapResult) := by
  have hrun : ∀ order, (GM.steps {} uses).prepare.2 = .ok (schedule (GM.steps {} uses).graph order) → (GM.steps {} uses).call sem w args kwargs =
      ((runGraph sem (GM.steps {} uses).graph order w args kwargs).1, (runGraph sem (GM.steps {} uses).graph order w args kwargs).2.map unwrapResult) := by
    intro order h
    unfold GM.call runGraph
    rw [h]
    simp only
    cases prepareRegister (GM.steps {} uses).graph.inputs args kwargs (programContexts (schedule (GM.steps {} uses).graph order)) <;> rfl
  cases hp : (GM.steps {} uses).program with
  | some is =>
    obtain ⟨before, after, a, k, order, hu, h1, h2, h3, h4⟩ := cached uses is hp
    have ho := hl before after a k hu h1
    refine Or.inr ⟨order, ?_, hrun order ?_⟩
    · rw [← sort_congr h1 h2]
      exact h3
    · unfold GM.prepare
      rw [hp]
      simp only [h4, schedule_congr h1 ho]
  | none =>
    cases ht : topologicalSort (GM.steps {} uses).graph with
    | error e =>
      refine Or.inl ⟨e, rfl, ?_⟩
      unfold GM.call GM.prepare
      rw [hp, ht]
    | ok order =>
      refine Or.inr ⟨order, rfl, hrun order ?_⟩
      unfold GM.prepare
      rw [hp, ht]

theorem steps_sound (uses : List (Use V)) (hf : FreshFolds {} uses) : Buildable (GM.steps {} uses).graph :=
  steps_built uses ⟨List.nodup_nil, List.nodup_nil, by intro n hn; simp at hn⟩ hf

theorem plain_runsTo (sem : Sem V W) {g : Graph} (inp : String → List V) (w : W) (hp : g.Plain) (order : List ℕ) (ho : ∀ id ∈ order, (g.find? id).isSome) :
    RunsTo sem g inp (fun _ => w) w order w := by
  induction order with
  | nil => exact .nil
  | cons id rest ih =>
    obtain ⟨n, hn⟩ := Option.isSome_iff_exists.1 (ho id (by simp))
    exact .plain hn (Or.inl (hp n (mem_of_find hn).1)) rfl (ih fun i hi => ho i (by simp [hi]))

/-! ### Properties -/

/-- **C82 (partial).** What a call returns is the answer of the graph as it is at the call, for every history of additions and earlier calls; the call
leaves the modules as they are.

Missing: outputs that are added after a call without adding a node are not returned (`late_output_ignored`). -/
theorem call_answers_partial (sem : Sem V W) (uses : List (Use V)) (hf : FreshFolds {} uses) (hl : NoLateOutput uses)
    (hout : ∀ r ∈ (GM.steps {} uses).graph.outputs, ∃ n ∈ (GM.steps {} uses).graph.leafIds, r.unwrap = .node n)
    (args : List (RawInput V)) (kwargs : List (String × RawInput V)) (hk : (kwargs.map (·.1)).Nodup) (inp : String → List V)
    (hinp : ∀ x v, Gives (GM.steps {} uses).graph.inputs args kwargs x v → inp x = v.dataset) (w w' : W) (res : Result V)
    (h : (GM.steps {} uses).call sem w args kwargs = (w', .ok res)) : w' = w ∧ Answer sem (GM.steps {} uses).graph inp w res := by
  have hs := steps_sound uses hf
  rcases call_runs sem uses hl w args kwargs with ⟨e, _, he⟩ | ⟨order, ht, hc⟩
  · rw [he] at h
    simp at h
  · rw [hc] at h
    obtain ⟨w1, r, hr⟩ : ∃ w1 r, runGraph sem (GM.steps {} uses).graph order w args kwargs = (w1, r) := ⟨_, _, rfl⟩
    rw [hr] at h
    cases r with
    | error e => simp [Except.map] at h
    | ok out =>
      simp only [Except.map, Prod.mk.injEq, Except.ok.injEq] at h
      obtain ⟨rfl, rfl⟩ := h
      have hv := topological_sort_valid _ hs.ids order ht
      obtain ⟨wAt, h1, h2, h3⟩ := scheduled_run_denotes sem _ hs.ids hs.names order hv hout args kwargs hk inp hinp w w1 out hr
      obtain ⟨rfl, hw⟩ := plain_runs hs.plain h1
      refine ⟨rfl, fun ho => ?_, fun ho => ?_⟩
      · rw [h2 ho]
        rfl
      · obtain ⟨o, rfl, ho'⟩ := h3 ho
        obtain ⟨rows, ds, rfl, hds, htr⟩ := plain_returns hs.plain ho hout ho'
        refine ⟨ds, rows, ?_, htr, ?_⟩
        · refine forall2_imp_mem hds fun r d hr h3 => den_world hv hw (fun n hrn => ?_) h3
          obtain ⟨m, hm1, hm2⟩ := hout r hr
          rw [hrn] at hm2
          cases hm2
          exact hv.1.mem_iff.2 hm1
        · match rows with
          | [] => exact Or.inr ⟨by simp, rfl⟩
          | [row] => exact Or.inl ⟨row, rfl, rfl⟩
          | a :: b :: rows => exact Or.inr ⟨by simp, rfl⟩

/-- **C82 (partial).** A call succeeds whenever the current graph has an answer: it has no cycle, the arguments fit its inputs, and all values that it
needs are defined. -/
theorem call_succeeds_partial (sem : Sem V W) (uses : List (Use V)) (hf : FreshFolds {} uses) (hl : NoLateOutput uses)
    (hg : WellFormed (GM.steps {} uses).graph) (order : List ℕ) (hv : ValidOrder (GM.steps {} uses).graph order)
    (args : List (RawInput V)) (kwargs : List (String × RawInput V)) (hk : (kwargs.map (·.1)).Nodup)
    (hacc : Acceptable (GM.steps {} uses).graph.inputs args kwargs) (inp : String → List V)
    (hinp : ∀ x v, Gives (GM.steps {} uses).graph.inputs args kwargs x v → inp x = v.dataset) (w : W)
    (hdef : Defined sem (GM.steps {} uses).graph inp fun _ => w)
    (hlen : ∀ ds, List.Forall₂ (Den sem (GM.steps {} uses).graph inp (fun _ => w) 0) (GM.steps {} uses).graph.outputs ds →
      ∀ d ∈ ds, ∀ d' ∈ ds, d.length = d'.length) :
    ∃ res, (GM.steps {} uses).call sem w args kwargs = (w, .ok res) := by
  classical
  have hs := steps_sound uses hf
  obtain ⟨o, ho⟩ := topological_sort_complete _ hg.ids order hv
  have hv' := topological_sort_valid _ hg.ids o ho
  rcases call_runs sem uses hl w args kwargs with ⟨e, he, _⟩ | ⟨o', ht, hc⟩
  · rw [he] at ho
    simp at ho
  · rw [ht] at ho
    obtain rfl := Except.ok.inj ho
    have hrt : RunsTo sem (GM.steps {} uses).graph inp (fun _ => w) w o' w := plain_runsTo sem inp w hs.plain o' fun id hid => by
      obtain ⟨n, hn, hid', _⟩ := mem_leafIds.1 (hv'.1.mem_iff.1 hid)
      rw [← hid', find_of_mem hg.ids hn]
      rfl
    have hlen' : ∀ c ds, List.Forall₂ (Den sem (GM.steps {} uses).graph inp (fun _ => w) c)
        ((GM.steps {} uses).graph.outputs.filter fun r => NeededRef (GM.steps {} uses).graph c r) ds → ∀ d ∈ ds, ∀ d' ∈ ds, d.length = d'.length := by
      intro c ds hds
      by_cases hc : c = 0
      · subst hc
        rw [List.filter_eq_self.2] at hds
        · exact hlen ds hds
        · intro r hr
          obtain ⟨n, _, hn⟩ := hg.outputs r hr
          simpa using ⟨n, hn, .out hr hn⟩
      · have : ((GM.steps {} uses).graph.outputs.filter fun r => NeededRef (GM.steps {} uses).graph c r) = [] := by
          rw [List.filter_eq_nil_iff]
          intro r _ h
          obtain ⟨n, _, hn⟩ := of_decide_eq_true h
          exact hc (plain_needed hs.plain hn)
        rw [this] at hds
        cases hds
        simp
    obtain ⟨res, hres⟩ := run_completes sem _ hg o' hv' args kwargs hk hacc inp hinp w w (fun _ => w) hrt hdef hlen'
    exact ⟨unwrapResult res, by rw [hc, hres]; rfl⟩

/-- **C82.** The outputs of a graph are the references added with `add_output`, in the order added: all of them if they are parts of nodes of the graph,
and otherwise those before the first that is not. -/
theorem added_outputs (m : GM) (rs : List Ref) :
    ∃ ok rest, rs = ok ++ rest ∧ (m.step (.addOutput rs : Use V)).graph.outputs = m.graph.outputs ++ ok ∧
      (∀ r ∈ ok, ∃ n ∈ m.graph.nodes, r.unwrap = .node n.id) ∧ (∀ r ∈ rest.head?, ¬ ∃ n ∈ m.graph.nodes, r.unwrap = .node n.id) := by
  suffices h : ∀ (g : Graph), ∃ ok rest, rs = ok ++ rest ∧ (addOutputs g rs).outputs = g.outputs ++ ok ∧
      (∀ r ∈ ok, ∃ n ∈ g.nodes, r.unwrap = .node n.id) ∧ (∀ r ∈ rest.head?, ¬ ∃ n ∈ g.nodes, r.unwrap = .node n.id) from h m.graph
  induction rs with
  | nil => exact fun g => ⟨[], [], rfl, by simp [addOutputs], by simp, by simp⟩
  | cons r rs ih =>
    intro g
    cases hu : r.unwrap with
    | node id =>
      by_cases hs : (g.find? id).isSome
      · obtain ⟨ok, rest, h1, h2, h3, h4⟩ := ih { g with outputs := g.outputs ++ [r] }
        refine ⟨r :: ok, rest, by rw [h1]; rfl, ?_, ?_, h4⟩
        · simp only [addOutputs, hu, hs, if_true, h2, List.append_assoc, List.singleton_append]
        · intro r' hr'
          rcases List.mem_cons.1 hr' with rfl | hr'
          · obtain ⟨n, hn⟩ := Option.isSome_iff_exists.1 hs
            obtain ⟨hn1, hn2⟩ := mem_of_find hn
            exact ⟨n, hn1, by rw [hu, hn2]⟩
          · exact h3 r' hr'
      · refine ⟨[], r :: rs, rfl, by simp [addOutputs, hu, hs], by simp, ?_⟩
        simp only [List.head?_cons, Option.mem_def, Option.some.injEq, forall_eq', hu, Ref.node.injEq]
        rintro ⟨n, hn, rfl⟩
        exact find_none_iff.1 (by simpa using hs) n hn rfl
    | _ =>
      refine ⟨[], r :: rs, rfl, by simp [addOutputs, hu], by simp, ?_⟩
      simp [hu]

/-- **C82.** Calls have no effect on later calls, and leave the graph as it is. -/
theorem calls_independent (sem : Sem V W) (m : GM) (calls : List (List (RawInput V) × List (String × RawInput V))) (w : W) (args : List (RawInput V))
    (kwargs : List (String × RawInput V)) :
    (m.steps (calls.map fun c => Use.call c.1 c.2)).graph = m.graph ∧
    (m.steps (calls.map fun c => Use.call c.1 c.2)).call sem w args kwargs = m.call sem w args kwargs := by
  have hone : ∀ m : GM, m.prepare.1.call sem w args kwargs = m.call sem w args kwargs := by
    intro m
    have h2 : m.prepare.1.prepare.2 = m.prepare.2 := by
      cases hp : m.program with
      | some is => simp only [GM.prepare, hp]
      | none =>
        cases ht : topologicalSort m.graph with
        | error e => simp only [GM.prepare, hp, ht]
        | ok order => simp only [GM.prepare, hp, ht]
    unfold GM.call
    rw [h2, prepare_graph]
  unfold GM.steps
  induction calls generalizing m with
  | nil => exact ⟨rfl, rfl⟩
  | cons c cs ih =>
    obtain ⟨h1, h2⟩ := ih m.prepare.1
    exact ⟨h1.trans (prepare_graph m), h2.trans (hone m)⟩

/-! ### Deviations -/

/-- **C82, deviation.** Outputs that are added after a call, without adding a node, are not returned: every later call gives what it would have given
without them. -/
theorem late_output_ignored (sem : Sem V W) (uses : List (Use V)) (order : List ℕ) (ht : topologicalSort (GM.steps {} uses).graph = .ok order)
    (args args' : List (RawInput V)) (kwargs kwargs' : List (String × RawInput V)) (refs : List Ref) (w : W) :
    (GM.steps {} (uses ++ [.call args kwargs, .addOutput refs])).call sem w args' kwargs' = (GM.steps {} uses).call sem w args' kwargs' ∧
    ((∀ r ∈ refs, ∃ n ∈ (GM.steps {} uses).graph.nodes, r.unwrap = .node n.id) →
      (GM.steps {} (uses ++ [.call args kwargs, .addOutput refs])).graph.outputs = (GM.steps {} uses).graph.outputs ++ refs) := by
  have hs : GM.steps {} (uses ++ [.call args kwargs, .addOutput refs]) = ((GM.steps {} uses).prepare.1).step (.addOutput refs : Use V) := by
    rw [steps_append]
    rfl
  obtain ⟨is, hpr, h2⟩ : ∃ is, (GM.steps {} uses).prepare.1.program = some is ∧ (GM.steps {} uses).prepare.2 = .ok is := by
    cases hp : (GM.steps {} uses).program with
    | some is =>
      refine ⟨is, ?_, ?_⟩
      · simp only [GM.prepare, hp]
      · simp only [GM.prepare, hp]
    | none =>
      refine ⟨schedule (GM.steps {} uses).graph order, ?_, ?_⟩
      · simp only [GM.prepare, hp, ht]
      · simp only [GM.prepare, hp, ht]
  constructor
  · rw [hs]
    unfold GM.call
    have hp' : (((GM.steps {} uses).prepare.1).step (.addOutput refs : Use V)).prepare.2 = .ok is := by
      have : (((GM.steps {} uses).prepare.1).step (.addOutput refs : Use V)).program = some is := hpr
      rw [GM.prepare, this]
    rw [hp', h2]
    have hin : (((GM.steps {} uses).prepare.1).step (.addOutput refs : Use V)).graph.inputs = (GM.steps {} uses).graph.inputs := by
      show (addOutputs (GM.steps {} uses).prepare.1.graph refs).inputs = _
      rw [(addOutputs_graph _ _).2.2, prepare_graph]
    rw [hin]
  · intro hr
    rw [hs]
    show (addOutputs (GM.steps {} uses).prepare.1.graph refs).outputs = _
    rw [prepare_graph]
    clear hs
    generalize (GM.steps {} uses).graph = g at hr
    induction refs generalizing g with
    | nil => simp [addOutputs]
    | cons r rs ih =>
      obtain ⟨n, hn, hrn⟩ := hr r (by simp)
      have : (g.find? n.id).isSome := by
        cases h : g.find? n.id with
        | none => exact absurd rfl (find_none_iff.1 h n hn)
        | some _ => rfl
      unfold addOutputs
      rw [hrn]
      simp only [this, if_true]
      rw [ih { g with outputs := g.outputs ++ [r] } fun r' h' => hr r' (by simp [h'])]
      simp

/-! ### Concrete cases -/

def callNode (id : ℕ) (args : List Ref) : Node where
  id := id
  name := toString id
  target := id
  isModule := true
  args := args
  kwargs := []

/-- A graph that is called, extended and called again. -/
def session : List (Use (List ℤ)) :=
  [.addInput "x", .addNode (callNode 0 [.input "x"]), .addOutput [.node 0], .call [.single [1]] [], .addNode (callNode 1 [.node 0]), .addOutput [.node 1]]

example : (GM.steps {} session).graph.outputs = [.node 0, .node 1] ∧ (GM.steps {} session).program = none := ⟨rfl, rfl⟩

example : FreshFolds {} session := ⟨trivial, trivial, trivial, trivial, trivial, trivial, trivial⟩

theorem session_up_to_date : NoLateOutput session := by
  intro before after args kwargs h
  rcases before with _ | ⟨_, _ | ⟨_, _ | ⟨_, _ | ⟨_, _ | ⟨_, _ | ⟨_, before⟩⟩⟩⟩⟩⟩ <;>
    simp only [session, List.nil_append, List.cons_append, List.cons.injEq, reduceCtorEq, false_and, and_false, List.nil_eq, List.append_eq_nil_iff] at h
  obtain ⟨rfl, rfl, rfl, _⟩ := h
  intro hn
  exact absurd (congrArg List.length hn) (by decide)

/-- The second call returns both outputs; two batches are returned together, one by itself. -/
example : (GM.steps {} session).call toySem 7 [.single [1]] [] = (7, .ok (.one [[1], [8]])) := by rfl

/-- An output added after a call. -/
example : let early : List (Use (List ℤ)) := [.addInput "x", .addNode (callNode 0 [.input "x"]), .addNode (callNode 1 [.node 0]), .addOutput [.node 0]]
    ((GM.steps {} (early ++ [.call [.single [1]] [], .addOutput [.node 1]])).call toySem 7 [.single [1]] []).2 = .ok (.one [[1]]) ∧
    ((GM.steps {} (early ++ [.addOutput [.node 1]])).call toySem 7 [.single [1]] []).2 = .ok (.one [[1], [8]]) := ⟨rfl, rfl⟩

end FF.Orch
