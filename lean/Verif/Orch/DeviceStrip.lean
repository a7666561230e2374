/-!
# Devices in traced graphs

Models `_strip_hardcoded_device_placements` (`src/fastforward/_orchestration/trace.py:107-124`), and on which devices the values of a traced graph are when it is
run.

Simplifications: of values only the device is modelled; operations are casts, which put a copy of their first input on the device they are given, operations that
create tensors, and others, which need their inputs on one device and put the result there.
-/

namespace FF.DeviceStrip

/-! ## Model -/

/-- What an operation does with devices. -/
inductive Kind where
  | cast
  | create
  | other
  deriving DecidableEq

variable {D : Type} [DecidableEq D]

/-- A value of a keyword argument. -/
inductive Val (D : Type) where
  | device (d : D)
  | other (n : Nat)
  deriving DecidableEq

/-- A node: whether it is a `call_function` node, the operation, the nodes it takes, a device among its positional arguments, and its keyword arguments. -/
structure Node (D : Type) where
  isCall : Bool
  kind : Kind
  args : List Nat
  pos : Option D
  kwargs : List (String × Val D)
  deriving DecidableEq

/-- The loop body (trace.py:120-121). -/
def stripNode (n : Node D) : Node D :=
  if n.isCall ∧ "device" ∈ n.kwargs.map (·.1) ∧ "dtype" ∈ n.kwargs.map (·.1) then { n with kwargs := n.kwargs.filter fun k => k.1 ≠ "device" } else n

/-- One graph (trace.py:119-122). -/
def strip (g : List (Node D)) : List (Node D) := g.map stripNode

/-- All graphs of a module and its submodules; some have none (trace.py:114-117). -/
def stripAll (ms : List (Option (List (Node D)))) : List (Option (List (Node D))) := ms.map (Option.map strip)

/-! ## Specification -/

/-- The device a node is given: as a keyword argument, or as a positional one. -/
def Given (n : Node D) : Option D :=
  match n.kwargs.find? fun k => k.1 = "device" with
  | some (_, .device d) => some d
  | _ => n.pos

/-- The device of the result of a node, with `dflt` the default device; `none` if it is refused. -/
def result (dflt : D) (env : List D) (n : Node D) : Option D :=
  match n.kind, n.args.mapM fun i => env[i]? with
  | _, none => none
  | .cast, some [] => none
  | .cast, some (a :: _) => some ((Given n).getD a)
  | .create, some _ => some ((Given n).getD dflt)
  | .other, some [] => some dflt
  | .other, some (a :: as) => if ∀ b ∈ as, b = a then some a else none

/-- Running a graph: the devices of inputs and nodes. -/
def run (dflt : D) : List D → List (Node D) → Option (List D)
  | env, [] => some env
  | env, n :: g => match result dflt env n with
    | some d => run dflt (env ++ [d]) g
    | none => none

/-- The node is a cast to a type, or takes values and no device: what `torch.export` makes of code that does not speak of devices, except for positional arguments. -/
def Plain (n : Node D) : Prop :=
  n.args ≠ [] ∧ n.kind ≠ .create ∧ n.pos = none ∧ ("device" ∈ n.kwargs.map (·.1) → n.isCall = true ∧ "dtype" ∈ n.kwargs.map (·.1))

/-- Every node takes inputs and earlier nodes. -/
def Closed : Nat → List (Node D) → Prop
  | _, [] => True
  | k, n :: g => (∀ i ∈ n.args, i < k) ∧ Closed (k + 1) g

/-! ## Lemmas -/

omit [DecidableEq D] in
theorem given_none {n : Node D} (hp : n.pos = none) (hk : "device" ∉ n.kwargs.map (·.1)) : Given n = none := by
  unfold Given
  have : n.kwargs.find? (fun k => decide (k.1 = "device")) = none := by
    rw [List.find?_eq_none]
    intro x hx he
    simp only [decide_eq_true_eq] at he
    exact hk (List.mem_map.2 ⟨x, hx, he⟩)
  rw [this]
  exact hp

omit [DecidableEq D] in
theorem strip_given {n : Node D} (h : Plain n) : Given (stripNode n) = none := by
  obtain ⟨_, _, hp, hd⟩ := h
  unfold stripNode
  split
  · refine given_none hp ?_
    intro hm
    obtain ⟨x, hx, e⟩ := List.mem_map.1 hm
    have := (List.mem_filter.1 hx).2
    simp [e] at this
  · rename_i hc
    exact given_none hp fun hm => hc ⟨(hd hm).1, hm, (hd hm).2⟩

omit [DecidableEq D] in
theorem strip_rest (n : Node D) : (stripNode n).kind = n.kind ∧ (stripNode n).args = n.args ∧ (stripNode n).pos = n.pos ∧ (stripNode n).isCall = n.isCall := by
  unfold stripNode
  split <;> exact ⟨rfl, rfl, rfl, rfl⟩

omit [DecidableEq D] in
theorem mapM_on {d : D} {env : List D} (he : ∀ x ∈ env, x = d) : ∀ args : List Nat, (∀ i ∈ args, i < env.length) →
    args.mapM (fun i => env[i]?) = some (args.map fun _ => d)
  | [], _ => rfl
  | i :: l, h => by
    have hi : i < env.length := h i List.mem_cons_self
    have : env[i]? = some d := by
      rw [List.getElem?_eq_getElem hi, he _ (List.getElem_mem hi)]
    simp [List.mapM_cons, this, mapM_on he l fun j hj => h j (List.mem_cons_of_mem _ hj)]

theorem result_on {dflt d : D} {env : List D} (he : ∀ x ∈ env, x = d) (n : Node D) (ha : ∀ i ∈ n.args, i < env.length) (hne : n.args ≠ [] ∨ (dflt = d ∧ n.kind ≠ .cast))
    (hg : ∀ x, Given n = some x → x = d) (hc : n.kind = .create → dflt = d) : result dflt env n = some d := by
  unfold result
  rw [mapM_on he n.args ha]
  cases hn : n.args with
  | nil =>
    rcases hne with hne | ⟨e, hk⟩
    · exact absurd hn hne
    · subst e
      cases hkind : n.kind with
      | cast => exact absurd hkind hk
      | create =>
        cases hgi : Given n with
        | none => simp
        | some x => simp [hg x hgi]
      | other => simp
  | cons i l =>
    cases hkind : n.kind with
    | cast =>
      cases hgi : Given n with
      | none => simp
      | some x => simp [hg x hgi]
    | create =>
      cases hgi : Given n with
      | none => simp [hc hkind]
      | some x => simp [hg x hgi]
    | other => simp

/-! ## Properties -/

/-- **C142 (partial).** A graph traced on any device runs on every device: with all inputs on one device, it is not refused, and all values are on that device,
whatever devices were written into the graph and whatever the default device is.

Missing: nodes that create tensors, devices without a type, and positional devices (`created_on_default`, `device_alone_stays`, `positional_stays`). -/
theorem runs_anywhere_partial (dflt d : D) : ∀ (g : List (Node D)) (env : List D), (∀ n ∈ g, Plain n) → Closed env.length g → (∀ x ∈ env, x = d) →
    run dflt env (strip g) = some (env ++ List.replicate g.length d)
  | [], env, _, _, _ => by simp [run, strip]
  | n :: g, env, hp, hc, he => by
    have hr : result dflt env (stripNode n) = some d := by
      have hs := strip_rest n
      have hn := hp n List.mem_cons_self
      refine result_on he (stripNode n) (by rw [hs.2.1]; exact hc.1) (.inl (by rw [hs.2.1]; exact hn.1)) (fun x hx => ?_) (fun hk => absurd (hs.1 ▸ hk) hn.2.1)
      rw [strip_given hn] at hx
      cases hx
    have ih := runs_anywhere_partial dflt d g (env ++ [d]) (fun m hm => hp m (List.mem_cons_of_mem _ hm)) (by simpa using hc.2)
      (fun x hx => by exact (List.mem_append.1 hx).elim (he x) (by simp))
    simp only [strip, List.map_cons, run, hr]
    rw [strip] at ih
    rw [ih, List.append_assoc, List.length_cons, List.replicate_succ]
    rfl

/-- **C142.** On the device it was traced on, if that is the default device, the graph runs as before, whatever nodes there are. -/
theorem same_where_traced (d : D) : ∀ (g : List (Node D)) (env : List D), (∀ n ∈ g, (n.args ≠ [] ∨ n.kind ≠ .cast) ∧ (∀ k x, (k, Val.device x) ∈ n.kwargs → x = d) ∧
      ∀ x, n.pos = some x → x = d) → Closed env.length g → (∀ x ∈ env, x = d) →
    run d env (strip g) = run d env g ∧ run d env g = some (env ++ List.replicate g.length d)
  | [], env, _, _, _ => by simp [run, strip]
  | n :: g, env, hp, hc, he => by
    obtain ⟨h1, h2, h3⟩ := hp n List.mem_cons_self
    have hg : ∀ m : Node D, m.pos = n.pos → (∀ k, k ∈ m.kwargs → k ∈ n.kwargs) → ∀ x, Given m = some x → x = d := by
      intro m hpos hsub x hx
      unfold Given at hx
      split at hx
      · rename_i k y hf
        cases hx
        exact h2 k _ (hsub _ (List.mem_of_find?_eq_some hf))
      · exact h3 x (by rw [← hpos]; exact hx)
    have hs := strip_rest n
    have hsub : ∀ k, k ∈ (stripNode n).kwargs → k ∈ n.kwargs := by
      intro k hk
      unfold stripNode at hk
      split at hk
      · exact (List.mem_filter.1 hk).1
      · exact hk
    have r1 : result d env n = some d := result_on he n hc.1 (h1.imp id fun h => ⟨rfl, h⟩) (hg n rfl fun _ h => h) fun _ => rfl
    have r2 : result d env (stripNode n) = some d :=
      result_on he (stripNode n) (by rw [hs.2.1]; exact hc.1) (by rw [hs.2.1, hs.1]; exact h1.imp id fun h => ⟨rfl, h⟩) (hg _ hs.2.2.1 hsub) fun _ => rfl
    obtain ⟨i1, i2⟩ := same_where_traced d g (env ++ [d]) (fun m hm => hp m (List.mem_cons_of_mem _ hm)) (by simpa using hc.2)
      (fun x hx => by exact (List.mem_append.1 hx).elim (he x) (by simp))
    simp only [strip, List.map_cons, run, r1, r2]
    rw [strip] at i1
    refine ⟨i1, ?_⟩
    rw [i2, List.append_assoc, List.length_cons, List.replicate_succ]
    rfl

omit [DecidableEq D] in
/-- **C142.** Only devices are taken out, in the graphs of all submodules; operations, inputs and other arguments stay. -/
theorem rest_stays (ms : List (Option (List (Node D)))) (i j : Nat) (g : List (Node D)) (n : Node D) (hg : ms[i]? = some (some g)) (hn : g[j]? = some n) :
    ∃ g' n', (stripAll ms)[i]? = some (some g') ∧ g'.length = g.length ∧ g'[j]? = some n' ∧ n'.kind = n.kind ∧ n'.args = n.args ∧ n'.pos = n.pos ∧
      ∀ k, k.1 ≠ "device" → (k ∈ n'.kwargs ↔ k ∈ n.kwargs) := by
  refine ⟨strip g, stripNode n, by simp [stripAll, hg], by simp [strip], by simp [strip, hn], (strip_rest n).1, (strip_rest n).2.1, (strip_rest n).2.2.1, fun k hk => ?_⟩
  unfold stripNode
  split
  · simp [List.mem_filter, hk]
  · rfl

/-! ## Deviations -/

/-- **C142, deviation.** A tensor that the model creates on its own device, with a type, is created on the default device instead, and using it with an input is
refused. -/
theorem created_on_default (dflt d : D) (h : dflt ≠ d) :
    let g : List (Node D) := [⟨true, .create, [], none, [("dtype", .other 0), ("device", .device d)]⟩, ⟨true, .other, [0, 1], none, []⟩]
    run dflt [d] g = some [d, d, d] ∧ run dflt [d] (strip g) = none := by
  simp [run, strip, stripNode, result, Given, h]

/-- **C142, deviation.** A device without a type stays: a graph traced on `c` with such a cast is refused on `d`. -/
theorem device_alone_stays (dflt c d : D) (h : c ≠ d) :
    let g : List (Node D) := [⟨true, .cast, [0], none, [("device", .device c)]⟩, ⟨true, .other, [0, 1], none, []⟩]
    strip g = g ∧ run dflt [d] g = none := by
  simp [run, strip, stripNode, result, Given, h]

/-- **C142, deviation.** A positional device stays. -/
theorem positional_stays (dflt c d : D) (h : c ≠ d) :
    let g : List (Node D) := [⟨true, .cast, [0], some c, [("dtype", .other 0)]⟩, ⟨true, .other, [0, 1], none, []⟩]
    strip g = g ∧ run dflt [d] g = none := by
  simp [run, strip, stripNode, result, Given, h]

/-! ## Concrete cases -/

/-- `x.float() + x`, traced on device 0, on device 1. -/
def traced : List (Node Nat) := [⟨true, .cast, [0], none, [("dtype", .other 0), ("device", .device 0)]⟩, ⟨true, .other, [1, 0], none, []⟩]

example : (∀ n ∈ traced, Plain n) ∧ Closed 1 traced := by
  unfold traced Plain
  simp [Closed]

example : run 0 [1] traced = none ∧ run 0 [1] (strip traced) = some [1, 1, 1] := by decide

end FF.DeviceStrip
