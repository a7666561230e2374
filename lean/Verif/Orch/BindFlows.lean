import Verif.Orch.ReduceProps

/-!
# Binding data flows to a graph (C79)

Models `bind_flows` and `_ancestors_of` of `/repo/src/fastforward/_orchestration/scheduler.py` (40-125).

Sets of nodes are lists; `iter` is the order in which a set is iterated.
-/

namespace FF.Orch

/-! ### Model -/

/-- The kinds of `DataFlow` (`data_flow.py:120-141`); `other` is a subclass that the scheduler does not know. -/
inductive FlowKind where
  | input
  | output
  | other
  deriving DecidableEq, Repr

/-- `DataFlow` (`data_flow.py:120-131`): the generator is named by a number. -/
structure Flow where
  kind : FlowKind
  generator : ℕ
  cache : Bool
  deriving DecidableEq, Repr

/-- `FlowPlan` (40-68). -/
structure Plan where
  flow : Flow
  nodes : List ℕ
  reads : List Ref := []
  readKwargs : List (String × Ref) := []
  deriving DecidableEq, Repr

/-- `_ancestors_of` (115-125). -/
def ancestorsOf (g : Graph) (region : ℕ) (includeRegion : Bool) : Except GErr (List ℕ) := do
  let (nodes, _) ← ancestors g region
  .ok (if includeRegion then nodes else nodes.filter (· ≠ region))

/-- `sorted(node_set, key=lambda ref: topo_index[ref.id])` (103). -/
def inTopoOrder (topo ids : List ℕ) : Except GErr (List ℕ) := do
  let keyed ← ids.mapM fun id => if id ∈ topo then .ok (topo.idxOf id, id) else .error .keyError
  .ok ((sortKeyed keyed).map (·.2))

/-- One flow (88-111). -/
def bindFlow (g : Graph) (iter : List ℕ → List ℕ) (topo : List ℕ) (region : ℕ) (node : Node) (flow : Flow) : Except GErr Plan :=
  match flow.kind with
  | .input => do
    let ids ← ancestorsOf g region false
    let nodes ← inTopoOrder topo (iter ids)
    .ok { flow, nodes, reads := node.args, readKwargs := node.kwargs }
  | .output => do
    let ids ← ancestorsOf g region true
    let nodes ← inTopoOrder topo (iter ids)
    .ok { flow, nodes, reads := [.node region] }
  | .other => .error .typeError

/-- `bind_flows` (81-112). -/
def bindFlows (g : Graph) (iter : List ℕ → List ℕ) (region : ℕ) (flows : List Flow) : Except GErr (List Plan) := do
  let topo ← topologicalSort g
  match g.find? region with
  | none => .error .keyError
  | some node => flows.mapM (bindFlow g iter topo region node)

/-! ### Specification -/

/-- The nodes that run before the data of a flow can be read: all that the region depends on, and the region itself for its output. -/
def RunsFor (g : Graph) (region : ℕ) : FlowKind → ℕ → Prop
  | .output, n => n = region ∨ Relation.TransGen (Uses g) region n
  | _, n => Relation.TransGen (Uses g) region n

/-- What is read: the region's arguments, or its result. -/
def ReadsFor (region : Node) : FlowKind → List Ref → List (String × Ref) → Prop
  | .output, reads, kw => reads = [.node region.id] ∧ kw = []
  | _, reads, kw => reads = region.args ∧ kw = region.kwargs

/-- A plan for a flow at a region. -/
structure Serves (g : Graph) (region : Node) (flow : Flow) (p : Plan) : Prop where
  declared : p.flow = flow
  reads : ReadsFor region flow.kind p.reads p.readKwargs
  /-- exactly the nodes needed … -/
  needed : ∀ n, n ∈ p.nodes ↔ RunsFor g region.id flow.kind n
  /-- … each once … -/
  once : p.nodes.Nodup
  /-- … and after all that it uses -/
  inOrder : ∀ pre n post, p.nodes = pre ++ n :: post → ∀ m, Uses g n m → m ∈ pre
  /-- what is read has been computed -/
  available : ∀ r ∈ p.reads ++ p.readKwargs.map (·.2), ∀ m, r.unwrap = .node m → m ∈ p.nodes

/-! ### Lemmas -/

theorem insertKeyed_sorted {α : Type} (x : ℕ × α) (l : List (ℕ × α)) (h : l.Pairwise fun a b => a.1 ≤ b.1) :
    (insertKeyed x l).Pairwise fun a b => a.1 ≤ b.1 := by
  induction l with
  | nil => simp [insertKeyed]
  | cons y l ih =>
    unfold insertKeyed
    rw [List.pairwise_cons] at h
    by_cases hx : x.1 ≤ y.1
    · rw [if_pos hx]
      refine List.pairwise_cons.2 ⟨fun z hz => ?_, List.pairwise_cons.2 h⟩
      rcases List.mem_cons.1 hz with rfl | hz
      · exact hx
      · exact Nat.le_trans hx (h.1 z hz)
    · rw [if_neg hx]
      refine List.pairwise_cons.2 ⟨fun z hz => ?_, ih h.2⟩
      rcases List.mem_cons.1 ((insertKeyed_perm x l).mem_iff.1 hz) with rfl | hz
      · omega
      · exact h.1 z hz

theorem sortKeyed_sorted {α : Type} (l : List (ℕ × α)) : (sortKeyed l).Pairwise fun a b => a.1 ≤ b.1 := by
  unfold sortKeyed
  induction l with
  | nil => exact .nil
  | cons x l ih => exact insertKeyed_sorted x _ ih

theorem inTopoOrder_ok {topo ids : List ℕ} (h : ∀ id ∈ ids, id ∈ topo) :
    ∃ l, inTopoOrder topo ids = .ok l ∧ l.Perm ids ∧ l.Pairwise fun a b => topo.idxOf a ≤ topo.idxOf b := by
  have hm : (ids.mapM fun id => if id ∈ topo then (.ok (topo.idxOf id, id) : Except GErr (ℕ × ℕ)) else .error .keyError) =
      .ok (ids.map fun id => (topo.idxOf id, id)) := by
    induction ids with
    | nil => rfl
    | cons a ids ih =>
      rw [List.mapM_cons, if_pos (h a (by simp)), ih (fun id hid => h id (by simp [hid]))]
      rfl
  refine ⟨_, by unfold inTopoOrder; rw [hm]; rfl, ?_, ?_⟩
  · have := (sortKeyed_perm (ids.map fun id => (topo.idxOf id, id))).map (·.2)
    simpa [List.map_map, Function.comp_def] using this
  · have hs := sortKeyed_sorted (ids.map fun id => (topo.idxOf id, id))
    rw [List.pairwise_map]
    refine hs.imp_of_mem fun {a b} ha hb hab => ?_
    obtain ⟨x, _, rfl⟩ := List.mem_map.1 ((sortKeyed_perm _).mem_iff.1 ha)
    obtain ⟨y, _, rfl⟩ := List.mem_map.1 ((sortKeyed_perm _).mem_iff.1 hb)
    exact hab

theorem inTopoOrder_missing {topo ids : List ℕ} {x : ℕ} (hx : x ∈ ids) (h : x ∉ topo) : inTopoOrder topo ids = .error .keyError := by
  have hm : (ids.mapM fun id => if id ∈ topo then (.ok (topo.idxOf id, id) : Except GErr (ℕ × ℕ)) else .error .keyError) = .error .keyError := by
    induction ids with
    | nil => simp at hx
    | cons a ids ih =>
      rw [List.mapM_cons]
      by_cases ha : a ∈ topo
      · have : x ∈ ids := by
          rcases List.mem_cons.1 hx with rfl | hx
          · exact absurd ha h
          · exact hx
        rw [if_pos ha, ih this]
        rfl
      · rw [if_neg ha]
        rfl
  unfold inTopoOrder
  rw [hm]
  rfl

theorem inTopoOrder_perm {topo l l' : List ℕ} (h : l.Perm l') : inTopoOrder topo l = inTopoOrder topo l' := by
  by_cases hm : ∀ id ∈ l, id ∈ topo
  · obtain ⟨k, h1, h2, h3⟩ := inTopoOrder_ok hm
    obtain ⟨k', h1', h2', h3'⟩ := inTopoOrder_ok (topo := topo) (ids := l') fun id hid => hm id (h.mem_iff.2 hid)
    rw [h1, h1']
    congr 1
    refine List.Perm.eq_of_pairwise (le := fun a b => topo.idxOf a ≤ topo.idxOf b) ?_ h3 h3' (h2.trans (h.trans h2'.symm))
    intro a b ha hb hab hba
    have ha' := hm a (h2.mem_iff.1 ha)
    exact (List.idxOf_inj ha').1 (Nat.le_antisymm hab hba)
  · obtain ⟨x, hx⟩ := not_forall.1 hm
    obtain ⟨hx, hxt⟩ := Classical.not_imp.1 hx
    rw [inTopoOrder_missing hx hxt, inTopoOrder_missing (h.mem_iff.1 hx) hxt]

theorem ancestorsLoop_nodup {g : Graph} {stop : Option ℕ} : ∀ {fuel : ℕ} {fr c : List ℕ} {r : Bool} {c' : List ℕ} {r' : Bool},
    c.Nodup → ancestorsLoop g stop fuel fr c r = .ok (c', r') → c'.Nodup
  | 0, _, _, _, _, _, hc, h => by
    simp only [ancestorsLoop, Except.ok.injEq, Prod.mk.injEq] at h
    exact h.1 ▸ hc
  | _ + 1, [], _, _, _, _, hc, h => by
    simp only [ancestorsLoop, Except.ok.injEq, Prod.mk.injEq] at h
    exact h.1 ▸ hc
  | fuel + 1, x :: fr, c, r, c', r', hc, h => by
    unfold ancestorsLoop at h
    by_cases hx : x ∈ c
    · rw [if_pos hx] at h
      exact ancestorsLoop_nodup hc h
    · rw [if_neg hx] at h
      have hc' : (x :: c).Nodup := List.nodup_cons.2 ⟨hx, hc⟩
      by_cases hs : some x = stop
      · rw [if_pos hs] at h
        exact ancestorsLoop_nodup hc' h
      · rw [if_neg hs] at h
        cases hn : g.nodeInputs x with
        | error e => rw [hn] at h; simp at h
        | ok ins =>
          rw [hn] at h
          exact ancestorsLoop_nodup hc' h

theorem ancestors_nodup {g : Graph} {node : ℕ} {c : List ℕ} {b : Bool} (h : ancestors g node = .ok (c, b)) : c.Nodup := by
  unfold ancestors at h
  simp only [Option.isNone_none, Bool.false_and, Bool.false_eq_true, if_false, Bool.not_false, if_true] at h
  cases hl : ancestorsLoop g none g.edgeBound [node] [] true with
  | error e => rw [hl] at h; simp at h
  | ok p =>
    obtain ⟨c', b'⟩ := p
    rw [hl] at h
    simp only [Except.ok.injEq, Prod.mk.injEq] at h
    exact h.1 ▸ ancestorsLoop_nodup .nil hl

/-- In a valid order what a node uses has a smaller index. -/
theorem valid_idx {g : Graph} {order : List ℕ} (hv : ValidOrder g order) {n m : ℕ} (hn : n ∈ order) (hu : Uses g n m) :
    m ∈ order ∧ order.idxOf m < order.idxOf n := by
  obtain ⟨pre, post, he, hnp⟩ := List.eq_append_cons_of_mem hn
  have hm := hv.2 pre n post he m hu
  refine ⟨by rw [he]; simp [hm], ?_⟩
  rw [he, List.idxOf_append_of_mem hm, List.idxOf_append_of_notMem hnp]
  have := List.idxOf_lt_length_of_mem hm
  omega

theorem valid_trans {g : Graph} {order : List ℕ} (hv : ValidOrder g order) {n m : ℕ} (hn : n ∈ order) (hu : Relation.TransGen (Uses g) n m) :
    m ∈ order ∧ order.idxOf m < order.idxOf n := by
  induction hu with
  | single h => exact valid_idx hv hn h
  | tail _ h ih =>
    have := valid_idx hv ih.1 h
    exact ⟨this.1, by omega⟩

theorem depends_cases {g : Graph} {a b : ℕ} : DependsOn g a b ↔ b = a ∨ Relation.TransGen (Uses g) a b := by
  exact Relation.reflTransGen_iff_eq_or_transGen

/-- The order of a plan. -/
theorem plan_in_order {g : Graph} {order l : List ℕ} (hv : ValidOrder g order) (hl : l.Pairwise fun a b => order.idxOf a ≤ order.idxOf b)
    (hmem : ∀ n ∈ l, n ∈ order) (hcl : ∀ n ∈ l, ∀ m, Uses g n m → m ∈ l) :
    ∀ pre n post, l = pre ++ n :: post → ∀ m, Uses g n m → m ∈ pre := by
  intro pre n post he m hu
  have hn : n ∈ l := by rw [he]; simp
  have hlt := (valid_idx hv (hmem n hn) hu).2
  have hm := hcl n hn m hu
  rw [he] at hm
  rcases List.mem_append.1 hm with h | h
  · exact h
  · rcases List.mem_cons.1 h with rfl | h
    · omega
    · rw [he] at hl
      have := (List.pairwise_cons.1 (List.pairwise_append.1 hl).2.1).1 m h
      omega

/-- One flow. -/
theorem bindFlow_serves {g : Graph} (hg : g.Closed) {iter : List ℕ → List ℕ} (hiter : ∀ l, (iter l).Perm l) {order : List ℕ}
    (hv : ValidOrder g order) {region : Node} (hr : region ∈ g.nodes) (hlf : ∀ m, Uses g region.id m → m ∉ g.folds) {flow : Flow}
    (hk : flow.kind ≠ .other) (hf : flow.kind = .output → region.id ∉ g.folds) :
    ∃ p, bindFlow g iter order region.id region flow = .ok p ∧ Serves g region flow p := by
  have hfind := find_of_mem hg.ids hr
  obtain ⟨c, hc, hmem⟩ := ancestors_all g hg.ids (uses_closed hg) region.id (by rw [hfind]; rfl)
  have hnd := ancestors_nodup hc
  have hord : ∀ n, n ∈ order ↔ ∃ k ∈ g.nodes, k.id = n ∧ n ∉ g.folds := fun n => hv.1.mem_iff.trans mem_leafIds
  -- what the region depends on are leaves
  have hanc : ∀ n, Relation.TransGen (Uses g) region.id n → n ∈ order := by
    intro n hn
    rcases Relation.TransGen.head'_iff.1 hn with ⟨k, hk, hkn⟩
    have hk' : k ∈ order := by
      obtain ⟨x, hx⟩ := Option.isSome_iff_exists.1 (uses_closed hg _ _ hk)
      exact (hord k).2 ⟨x, (mem_of_find hx).1, (mem_of_find hx).2, hlf k hk⟩
    rcases depends_cases.1 hkn with rfl | hkn
    · exact hk'
    · exact (valid_trans hv hk' hkn).1
  have hself : ¬ Relation.TransGen (Uses g) region.id region.id := by
    intro h
    have := valid_trans hv (hanc _ h) h
    omega
  have hstep : ∀ n m, Relation.TransGen (Uses g) region.id n → Uses g n m → Relation.TransGen (Uses g) region.id m := fun n m h1 h2 => h1.tail h2
  have huses : ∀ r ∈ region.args ++ region.kwargs.map (·.2), ∀ m, r.unwrap = .node m → Relation.TransGen (Uses g) region.id m := by
    intro r hr' m hm
    refine .single ⟨region, hr, rfl, r, ?_, hm⟩
    rcases List.mem_append.1 hr' with h | h
    · exact Or.inl h
    · obtain ⟨⟨k, r'⟩, hkr, rfl⟩ := List.mem_map.1 h
      exact Or.inr ⟨k, hkr⟩
  obtain ⟨kind, gen, cache⟩ := flow
  cases kind with
  | other => exact absurd rfl hk
  | input =>
    have hset : ∀ n, n ∈ iter (c.filter (· ≠ region.id)) ↔ Relation.TransGen (Uses g) region.id n := by
      intro n
      rw [(hiter _).mem_iff, List.mem_filter, hmem, depends_cases]
      simp only [ne_eq, decide_not, Bool.not_eq_eq_eq_not, Bool.not_true, decide_eq_false_iff_not]
      constructor
      · rintro ⟨rfl | h, hne⟩
        · exact absurd rfl hne
        · exact h
      · intro h
        exact ⟨Or.inr h, fun he => hself (he ▸ h)⟩
    obtain ⟨l, h1, h2, h3⟩ := inTopoOrder_ok (topo := order) (ids := iter (c.filter (· ≠ region.id))) fun n hn => hanc n ((hset n).1 hn)
    have hl : ∀ n, n ∈ l ↔ Relation.TransGen (Uses g) region.id n := fun n => h2.mem_iff.trans (hset n)
    refine ⟨{ flow := ⟨.input, gen, cache⟩, nodes := l, reads := region.args, readKwargs := region.kwargs }, ?_, rfl, ⟨rfl, rfl⟩, hl, ?_, ?_, ?_⟩
    · simp only [bindFlow, ancestorsOf, hc, bind, Except.bind, Bool.false_eq_true, if_false, h1]
    · exact h2.nodup_iff.2 ((hiter _).nodup_iff.2 (hnd.filter _))
    · exact plan_in_order hv h3 (fun n hn => hanc n ((hl n).1 hn)) fun n hn m hu => (hl m).2 (hstep n m ((hl n).1 hn) hu)
    · exact fun r hr' m hm => (hl m).2 (huses r hr' m hm)
  | output =>
    have hset : ∀ n, n ∈ iter c ↔ n = region.id ∨ Relation.TransGen (Uses g) region.id n := by
      intro n
      rw [(hiter _).mem_iff, hmem, depends_cases]
    have hin : ∀ n, n = region.id ∨ Relation.TransGen (Uses g) region.id n → n ∈ order := by
      rintro n (rfl | h)
      · exact (hord _).2 ⟨region, hr, rfl, hf rfl⟩
      · exact hanc n h
    obtain ⟨l, h1, h2, h3⟩ := inTopoOrder_ok (topo := order) (ids := iter c) fun n hn => hin n ((hset n).1 hn)
    have hl : ∀ n, n ∈ l ↔ n = region.id ∨ Relation.TransGen (Uses g) region.id n := fun n => h2.mem_iff.trans (hset n)
    refine ⟨{ flow := ⟨.output, gen, cache⟩, nodes := l, reads := [.node region.id] }, ?_, rfl, ⟨rfl, rfl⟩, hl, ?_, ?_, ?_⟩
    · simp only [bindFlow, ancestorsOf, hc, bind, Except.bind, if_true, h1]
    · exact h2.nodup_iff.2 ((hiter _).nodup_iff.2 hnd)
    · refine plan_in_order hv h3 (fun n hn => hin n ((hl n).1 hn)) fun n hn m hu => (hl m).2 (Or.inr ?_)
      rcases (hl n).1 hn with rfl | h
      · exact .single hu
      · exact hstep n m h hu
    · intro r hr' m hm
      simp only [List.map_nil, List.append_nil, List.mem_singleton] at hr'
      subst hr'
      simp only [Ref.unwrap, Ref.node.injEq] at hm
      subst hm
      exact (hl _).2 (Or.inl rfl)

/-! ### Properties -/

/-- **C79 (partial).** Binding flows to a node of an acyclic graph gives one plan for each flow: the plan runs exactly the nodes that the data
needs, each once and after all that it uses, and what it reads (the arguments of the node, or its result) has been computed by
then; whatever the order in which sets are iterated. A node that only groups others has plans for what arrives at it.

Missing: what leaves a node that groups others, or arrives from one, for which the statement fails (`output_of_fold_fails`). -/
theorem bind_flows_plans_partial (g : Graph) (hg : g.Closed) (order : List ℕ) (hv : ValidOrder g order) (iter : List ℕ → List ℕ)
    (hiter : ∀ l, (iter l).Perm l) (region : Node) (hr : region ∈ g.nodes) (hlf : ∀ m, Uses g region.id m → m ∉ g.folds)
    (flows : List Flow) (hk : ∀ f ∈ flows, f.kind ≠ .other) (hf : region.id ∈ g.folds → ∀ f ∈ flows, f.kind ≠ .output) :
    ∃ plans, bindFlows g iter region.id flows = .ok plans ∧ List.Forall₂ (Serves g region) flows plans := by
  obtain ⟨o, ho⟩ := topological_sort_complete g hg.ids order hv
  have hv' := topological_sort_valid g hg.ids o ho
  unfold bindFlows
  simp only [ho, find_of_mem hg.ids hr, bind, Except.bind]
  induction flows with
  | nil => exact ⟨[], rfl, .nil⟩
  | cons f fs ih =>
    obtain ⟨p, h1, h2⟩ := bindFlow_serves hg hiter hv' hr hlf (hk f (by simp)) (fun he hm => hf hm f (by simp) he)
    obtain ⟨ps, h3, h4⟩ := ih (fun f' h => hk f' (by simp [h])) (fun hm f' h => hf hm f' (by simp [h]))
    refine ⟨p :: ps, ?_, .cons h2 h4⟩
    rw [List.mapM_cons, h1, h3]
    rfl

/-- **C79.** The plans, or the error, do not depend on the order in which sets are iterated. -/
theorem bind_flows_deterministic (g : Graph) (iter iter' : List ℕ → List ℕ) (hiter : ∀ l, (iter l).Perm l) (hiter' : ∀ l, (iter' l).Perm l)
    (region : ℕ) (flows : List Flow) : bindFlows g iter region flows = bindFlows g iter' region flows := by
  have h : ∀ topo node, bindFlow g iter topo region node = bindFlow g iter' topo region node := by
    intro topo node
    funext flow
    have : ∀ ids, inTopoOrder topo (iter ids) = inTopoOrder topo (iter' ids) := fun ids => inTopoOrder_perm ((hiter ids).trans (hiter' ids).symm)
    unfold bindFlow
    simp only [this]
  unfold bindFlows
  simp only [h]

/-- **C79.** A graph with a cycle is refused, a node that the graph does not have too, and so is a kind of flow that the scheduler does not
know. -/
theorem bind_flows_refuses (g : Graph) (hg : g.Closed) (iter : List ℕ → List ℕ) (hiter : ∀ l, (iter l).Perm l) (flows : List Flow) :
    (∀ region, (∃ n ∈ g.leafIds, Relation.TransGen (Uses g) n n) → (∀ n ∈ g.leafIds, ∀ m, Uses g n m → m ∈ g.leafIds) →
      bindFlows g iter region flows = .error .valueError) ∧
    (∀ region, (∃ order, ValidOrder g order) → (∀ n ∈ g.nodes, n.id ≠ region) → bindFlows g iter region flows = .error .keyError) ∧
    (∀ region ∈ g.nodes, (∃ order, ValidOrder g order) → region.id ∉ g.folds → (∃ f ∈ flows, f.kind = .other) →
      bindFlows g iter region.id flows = .error .typeError) := by
  refine ⟨?_, ?_, ?_⟩
  · intro region hc hin
    unfold bindFlows
    rw [(topological_sort_iff_acyclic g hg.ids hin).2 hc]
    rfl
  · rintro region ⟨order, hv⟩ hn
    obtain ⟨o, ho⟩ := topological_sort_complete g hg.ids order hv
    have : g.find? region = none := find_none_iff.2 hn
    unfold bindFlows
    simp only [ho, this, bind, Except.bind]
  · rintro region hr ⟨order, hv⟩ hf ho
    obtain ⟨o, hto⟩ := topological_sort_complete g hg.ids order hv
    have hv' := topological_sort_valid g hg.ids o hto
    have hlf : ∀ m, Uses g region.id m → m ∉ g.folds := by
      intro m hm
      have hreg : region.id ∈ o := hv'.1.mem_iff.2 (mem_leafIds.2 ⟨region, hr, rfl, hf⟩)
      obtain ⟨_, _, _, h⟩ := mem_leafIds.1 (hv'.1.mem_iff.1 (valid_idx hv' hreg hm).1)
      exact h
    unfold bindFlows
    simp only [hto, find_of_mem hg.ids hr, bind, Except.bind]
    induction flows with
    | nil => simp at ho
    | cons f fs ih =>
      rw [List.mapM_cons]
      by_cases hk : f.kind = .other
      · have : bindFlow g iter o region.id region f = .error .typeError := by
          unfold bindFlow
          rw [hk]
        rw [this]
        rfl
      · obtain ⟨p, h1, _⟩ := bindFlow_serves hg hiter hv' hr hlf hk fun _ => hf
        obtain ⟨f', hf', hk'⟩ := ho
        have hm : ∃ f ∈ fs, f.kind = .other := by
          rcases List.mem_cons.1 hf' with rfl | hf'
          · exact absurd hk' hk
          · exact ⟨f', hf', hk'⟩
        rw [h1, ih hm]
        rfl

/-! ### Deviations -/

/-- **C79, deviation.** What leaves a node that groups others cannot be bound: every such request ends in a `KeyError`, because the
order of execution has no such nodes. -/
theorem output_of_fold_fails (g : Graph) (hg : g.Closed) (order : List ℕ) (hv : ValidOrder g order) (iter : List ℕ → List ℕ)
    (hiter : ∀ l, (iter l).Perm l) (region : Node) (hr : region ∈ g.nodes) (hf : region.id ∈ g.folds) (gen : ℕ) (cache : Bool) :
    bindFlows g iter region.id [⟨.output, gen, cache⟩] = .error .keyError := by
  obtain ⟨o, ho⟩ := topological_sort_complete g hg.ids order hv
  have hv' := topological_sort_valid g hg.ids o ho
  obtain ⟨c, hc, hmem⟩ := ancestors_all g hg.ids (uses_closed hg) region.id (by rw [find_of_mem hg.ids hr]; rfl)
  have hno : region.id ∉ o := by
    intro h
    obtain ⟨_, _, _, h'⟩ := mem_leafIds.1 (hv'.1.mem_iff.1 h)
    exact h' hf
  have hmiss := inTopoOrder_missing (topo := o) (ids := iter c) (x := region.id) ((hiter c).mem_iff.2 ((hmem _).2 .refl)) hno
  unfold bindFlows
  simp only [ho, find_of_mem hg.ids hr, bind, Except.bind, List.mapM_cons, bindFlow, ancestorsOf, hc, if_true, hmiss]

/-! ### Concrete cases -/

/-- Two branches that meet in `c`, a node `d` after it, and a fold `f` of `c` and `d`. -/
def boundGraph : Graph where
  nodes := [⟨4, "d", 4, true, [.node 3], [], none, some 9⟩, ⟨9, "f", 9, true, [.node 1, .node 2], [], none, none⟩,
    ⟨3, "c", 3, true, [.node 2], [("y", .attr (.node 1) (.idx 0))], none, some 9⟩, ⟨1, "a", 1, true, [.input "x"], [], none, none⟩,
    ⟨2, "b", 2, true, [.input "x"], [], none, none⟩, ⟨5, "e", 5, true, [.node 4], [], none, none⟩]
  folds := [9]
  inputs := ["x"]
  outputs := [.node 5]

theorem boundGraph_closed : boundGraph.Closed := graph_closed_of_check (by decide) (by decide) (by decide) (by decide) (by decide) (by decide)

example : topologicalSort boundGraph = .ok [1, 2, 3, 4, 5] := by rfl

theorem boundGraph_order : ValidOrder boundGraph [1, 2, 3, 4, 5] := topological_sort_valid _ boundGraph_closed.ids _ rfl

/-- `c`: its inputs need `a` and `b`, its output `c` too. -/
example : (bindFlows boundGraph id 3 [⟨.input, 0, true⟩, ⟨.output, 1, false⟩]).toOption = some
    [{ flow := ⟨.input, 0, true⟩, nodes := [1, 2], reads := [.node 2], readKwargs := [("y", .attr (.node 1) (.idx 0))] },
     { flow := ⟨.output, 1, false⟩, nodes := [1, 2, 3], reads := [.node 3] }] := by decide +kernel

/-- Nothing runs for the inputs of `a`. -/
example : (bindFlows boundGraph id 1 [⟨.input, 0, true⟩]).toOption = some [{ flow := ⟨.input, 0, true⟩, nodes := [], reads := [.input "x"] }] := by
  decide +kernel

/-- The inputs of the fold. -/
example : (bindFlows boundGraph List.reverse 9 [⟨.input, 0, true⟩]).toOption =
    some [{ flow := ⟨.input, 0, true⟩, nodes := [1, 2], reads := [.node 1, .node 2] }] := by decide +kernel

/-- The hypotheses hold at `c` and at the fold. -/
example : (∀ m, Uses boundGraph 3 m → m ∉ boundGraph.folds) ∧ (∀ m, Uses boundGraph 9 m → m ∉ boundGraph.folds) := by
  have h : ∀ n m, (n = 3 ∨ n = 9) → Uses boundGraph n m → m ∉ boundGraph.folds := by
    intro n m hn hu
    rw [uses_iff boundGraph_closed.ids] at hu
    rcases hn with rfl | rfl
    · have : m ∈ [2, 1] := hu
      revert m
      decide
    · have : m ∈ [1, 2] := hu
      revert m
      decide
  exact ⟨fun m => h 3 m (Or.inl rfl), fun m => h 9 m (Or.inr rfl)⟩

/-- What leaves the fold. -/
example : (bindFlows boundGraph id 9 [⟨.output, 0, true⟩]) = .error .keyError :=
  output_of_fold_fails boundGraph boundGraph_closed _ boundGraph_order id (fun _ => .refl _) _ (by simp [boundGraph]; exact Or.inr (Or.inl rfl)) (by decide) 0 true

end FF.Orch
