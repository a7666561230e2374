import Verif.Orch.ExecTotal

/-! # Concrete graphs for C20, and where the engine fails -/

namespace FF.Orch

/-- Values are lists of integers (a tensor, or a tuple of numbers); the state of the modules is one weight. Target 0 concatenates
its arguments, target 1 adds the weight, target 2 returns a pair; contexts other than the default negate. -/
def toySem : Sem (List ℤ) ℤ where
  constVal k := [k]
  item v a := match a with
    | .idx i => (v[i.toNat]?).map ([·])
    | .key _ => none
  getattr _ _ := none
  call w c m args kw :=
    let all := (args ++ kw.map (·.2)).flatten
    let out := match m with
      | 0 => all
      | 1 => all.map (· + w)
      | _ => all ++ all.map (· * 2)
    some (if c = 0 then out else out.map (- ·))
  optimize w fn _ bundles := some (w * 10 + fn + ((bundles.map fun b => b.args.flatten.flatten).flatten).sum)
  move _ v := v
  moveModule w _ _ := w

instance : DecidableEq (Out (List ℤ)) := fun a b => instDecidableEqList a b

/-- A check of two fields of `WellFormed`, used only for the concrete graphs below. -/
def argsScoped (g : Graph) : Bool := g.leaves.all fun n => n.allArgs.all fun r => match r.unwrap with
  | .input x => decide (x ∈ g.inputs)
  | .const k => decide (r = .const k)
  | _ => true

theorem wellFormed_of_checks (g : Graph) (order : List ℕ) (h1 : g.UniqueIds) (h2 : g.inputs.Nodup) (h3 : argsScoped g = true)
    (h4 : ∀ r ∈ g.outputs, ∃ n ∈ g.leafIds, r.unwrap = .node n) (h5 : topologicalSort g = .ok order)
    (h6 : ∀ n ∈ g.leafIds, propagateContexts g order n ≠ []) : WellFormed g where
  ids := h1
  names := h2
  inputs := by
    intro n hn r hr x hx
    have := List.all_eq_true.1 (List.all_eq_true.1 h3 n hn) r hr
    rw [hx] at this
    simpa using this
  consts := by
    intro n hn r hr x hx
    have := List.all_eq_true.1 (List.all_eq_true.1 h3 n hn) r hr
    rw [hx] at this
    simpa using this
  outputs := h4
  live := by
    intro n hn
    obtain ⟨c, hc⟩ := List.exists_mem_of_ne_nil _ (h6 n hn)
    exact ⟨c, (contexts_exact g h1 _ (topological_sort_valid g h1 order h5) c n).1 hc⟩

theorem diamond_wellFormed : WellFormed diamond :=
  wellFormed_of_checks diamond [0, 1, 2, 3] (by decide) (by decide) (by decide) (by decide) (by decide) (by decide)

/-- Two batches through the diamond. -/
example : runGraph toySem diamond [0, 1, 2, 3] 7 [.batches [[1], [2]]] [] =
    (7, .ok (some [(0, [[[8, 8, 5, 16, 10]], [[9, 9, 5, 18, 10]]])])) := by decide

/-- The diamond with a delegate at node 1 that wants activations in context 4 as well, and a second output. -/
def delegated : Graph where
  nodes := [
    { id := 0, name := "a", target := 1, isModule := true, args := [.input "x"], kwargs := [] },
    { id := 1, name := "b", target := 2, isModule := true, args := [.node 0, .input "y"], kwargs := [], delegate := some ⟨3, [4, 0]⟩ },
    { id := 2, name := "c", target := 0, isModule := true, args := [.attr (.node 1) (.idx 1)], kwargs := [("k", .const 5)] }]
  inputs := ["x", "y"]
  outputs := [.node 2, .attr (.node 1) (.idx 0)]

theorem delegated_wellFormed : WellFormed delegated :=
  wellFormed_of_checks delegated [0, 1, 2] (by decide) (by decide) (by decide) (by decide) (by decide) (by decide)

/-- Node 0 runs in both contexts, the others in the default context only. -/
example : propagateContexts delegated [0, 1, 2] 0 = [0, 4] ∧ propagateContexts delegated [0, 1, 2] 1 = [0] := by decide

example : (runGraph toySem delegated [0, 1, 2] 7 [.batches [[1], [2]]] [("y", .single [100])]) =
    (73 + 400, .ok (some [(0, [[[100, 5], [8]], [[100, 5], [9]]])])) := by decide

/-- A stream mismatch is reported as such. -/
example : (runGraph toySem delegated [0, 1, 2] 7 [.batches [[1], [2]]] [("y", .batches [[1], [2], [3]])]).2 = .error .valueError := by
  decide

/-! ### Where well-formedness is needed -/

/-- **C20, deviation.** Without the liveness condition the engine's own bookkeeping fails: a node whose result is not needed runs in no context, and
another such node that takes a nested attribute of it (`n[0][1]`) makes the run end in a `KeyError`, although the graph is acyclic, all
references are in scope and the output does not depend on either node. -/
theorem dead_nested_attribute_keyError :
    ∃ g : Graph, g.UniqueIds ∧ argsScoped g = true ∧ topologicalSort g = .ok [0, 1, 2] ∧
      (∀ r ∈ g.outputs, ∃ n ∈ g.leafIds, r.unwrap = .node n) ∧
      (runGraph toySem g [0, 1, 2] 7 [.single [1]] []).2 = .error .keyError :=
  ⟨{ nodes := [
      { id := 0, name := "a", target := 1, isModule := true, args := [.input "x"], kwargs := [] },
      { id := 1, name := "b", target := 2, isModule := true, args := [.input "x"], kwargs := [] },
      { id := 2, name := "c", target := 1, isModule := true, args := [.attr (.attr (.node 1) (.idx 0)) (.idx 1)], kwargs := [] }]
     inputs := ["x"]
     outputs := [.node 0] }, by decide, by decide, by decide, by decide, by decide⟩

/-- **C20, deviation.** An attribute of a constant never finishes loading: the engine iterates over the constant's reference, whose item access
succeeds for every index. -/
theorem const_attribute_diverges :
    ∃ g : Graph, g.UniqueIds ∧ topologicalSort g = .ok [0] ∧
      (runGraph toySem g [0] 7 [.single [1]] []).2 = .error .diverges :=
  ⟨{ nodes := [
      { id := 0, name := "a", target := 1, isModule := true, args := [.input "x", .attr (.const 3) (.idx 0)], kwargs := [] }]
     inputs := ["x"]
     outputs := [.node 0] }, by decide, by decide, by decide⟩

end FF.Orch
