import Verif.Orch.Reduce
import Verif.Orch.BatchProps
import Verif.Orch.AncestorProps

/-! # Reducing a graph: values (C78) -/

namespace FF.Orch

variable {V W : Type}

/-! ### Specification -/

/-- Node `id` lies inside fold `f`, at any depth. -/
inductive Inside (g : Graph) (f : ℕ) : ℕ → Prop
  | child {n : Node} : n ∈ g.nodes → n.parent = some f → Inside g f n.id
  | deeper {n : Node} {p : ℕ} : Inside g f p → n ∈ g.nodes → n.parent = some p → Inside g f n.id

/-- A node that is no fold. -/
def Graph.IsLeaf (g : Graph) (id : ℕ) : Prop := ∃ n ∈ g.nodes, n.id = id ∧ id ∉ g.folds

/-- A leaf inside the fold that a leaf outside uses, or that an output of the graph refers to. -/
def GivesOut (g : Graph) (f id : ℕ) : Prop :=
  g.IsLeaf id ∧ Inside g f id ∧
    ((∃ m, g.IsLeaf m ∧ ¬ Inside g f m ∧ Uses g m id) ∨ ∃ r ∈ g.outputs, r.unwrap = .node id)

/-- `ls` are the leaves that a fold gives to the outside, in the order of the graph's nodes. -/
def Outlets (g : Graph) (f : ℕ) (ls : List ℕ) : Prop := ls.Sublist (g.nodes.map (·.id)) ∧ ∀ id, id ∈ ls ↔ GivesOut g f id

/-- The value of a reference for one batch of inputs. -/
def Val (sem : Sem V W) (g : Graph) (w : W) (c : Ctx) (b : String → V) (r : Ref) (v : V) : Prop :=
  Den sem g (fun x => [b x]) (fun _ => w) c r [v]

/-- A module that returns one value for one outlet, and a tuple for several. -/
def Packs (sem : Sem V W) (u : V) (vs : List V) : Prop :=
  (vs.length = 1 → vs = [u]) ∧ (vs.length ≠ 1 → ∀ (i : ℕ) (v : V), vs[i]? = some v → sem.item u (.idx i) = some v)

/-- Every fold's module, called on the fold's arguments, returns what its outlets compute. -/
def FoldsCompute (sem : Sem V W) (g : Graph) (w : W) (c : Ctx) (b : String → V) : Prop :=
  ∀ f ∈ g.folds, ∀ ls vs, Outlets g f ls → List.Forall₂ (fun l v => Val sem g w c b (.node l) v) ls vs →
    ∃ u, Val sem g w c b (.node f) u ∧ Packs sem u vs

/-- Module `t` is the graph `sub`: called on a value for each input it returns the values of the outputs. -/
def IsGraphModule (sem : Sem V W) (w : W) (c : Ctx) (t : ℕ) (sub : Graph) : Prop :=
  ∀ (b : String → V) (vs : List V), List.Forall₂ (Val sem sub w c b) sub.outputs vs →
    ∃ u, sem.call w c t (sub.inputs.map b) [] = some u ∧ Packs sem u vs

/-- Every node has a name of its own, which is no input's, and no name contains a bracket. -/
structure Tidy (g : Graph) : Prop where
  closed : g.Closed
  names : (g.nodes.map (·.name)).Nodup
  apart : ∀ n ∈ g.nodes, n.name ∉ g.inputs
  plain : ∀ n ∈ g.nodes, '[' ∉ n.name.toList
  plainInputs : ∀ x ∈ g.inputs, '[' ∉ x.toList

/-- Arguments are nodes, inputs or constants, or parts of them, but not parts of parts; and parts have no names that are numbers or
attributes of references. -/
def SimpleParts (parseInt : String → Option Int) (g : Graph) : Prop :=
  ∀ n ∈ g.nodes, ∀ r ∈ n.allArgs, ∀ q a, r = .attr q a → q.unwrap = q ∧ ∀ k, a = .key k → parseInt k = none ∧ k ∉ ownAttributes

/-- `int(str(i)) == i`. -/
def ParsesInts (parseInt : String → Option Int) : Prop := ∀ i : Int, parseInt (toString i) = some i

/-- The nodes of a region: the first node with the module; everything on a path; the first node of each module. -/
def InRegion (g : Graph) : Region → ℕ → Prop
  | .module t, id => ∃ n, g.nodes.find? (fun n => n.target == t) = some n ∧ n.id = id
  | .span s e, id => ∃ a b, g.nodes.find? (fun n => n.target == s) = some a ∧ g.nodes.find? (fun n => n.target == e) = some b ∧
      DependsOn g b.id id ∧ DependsOn g id a.id
  | .group ts, id => ∃ t ∈ ts, ∃ n, g.nodes.find? (fun n => n.target == t) = some n ∧ n.id = id

/-- The module made of the graph of each path or group of siblings behaves like that graph. -/
def RegionModules (sem : Sem V W) (g : Graph) (w : W) (c : Ctx) (modOf : Graph → ℕ) (specs : List Spec) : Prop :=
  ∀ s ∈ specs, (∀ t, s.region ≠ .module t) → ∀ path sub, (∀ id, id ∈ path ↔ InRegion g s.region id) → createSubgraph g path = .ok sub →
    IsGraphModule sem w c (modOf sub) sub

/-- An output of the graph that refers into a path or to siblings refers to a whole node. -/
def WholeOutputs (g : Graph) (specs : List Spec) : Prop :=
  ∀ s ∈ specs, (∀ t, s.region ≠ .module t) → ∀ r ∈ g.outputs, ∀ id, r.unwrap = .node id → InRegion g s.region id → r = .node id

/-! ### Lemmas: folds -/

theorem mem_children {g : Graph} {p : Option ℕ} {id : ℕ} : id ∈ g.children p ↔ ∃ n ∈ g.nodes, n.parent = p ∧ n.id = id := by
  unfold Graph.children
  simp [and_assoc]

theorem insideLoop_walk (g : Graph) (fuel : ℕ) (stack result : List ℕ) :
    walk (fun x => some (g.children (some x)).reverse) fuel stack result = some (g.insideLoop fuel stack result) := by
  induction fuel generalizing stack result with
  | zero => rfl
  | succ fuel ih =>
    cases stack with
    | nil => rfl
    | cons x stack =>
      unfold walk Graph.insideLoop
      by_cases hx : x ∈ result
      · rw [if_pos hx, if_pos hx, ih]
      · rw [if_neg hx, if_neg hx]
        exact ih _ _

theorem inside_node {g : Graph} {f id : ℕ} (h : Inside g f id) : ∃ n ∈ g.nodes, n.id = id := by
  cases h with
  | child hn _ => exact ⟨_, hn, rfl⟩
  | deeper _ hn _ => exact ⟨_, hn, rfl⟩

theorem mem_insideLoop {g : Graph} (f : ℕ) (id : ℕ) :
    id ∈ g.insideLoop (g.nodes.length + g.nodes.length * g.nodes.length + 1) (g.children (some f)).reverse [] ↔ Inside g f id := by
  have hlen : ∀ p, (g.children p).length ≤ g.nodes.length := by
    intro p
    unfold Graph.children
    rw [List.length_map]
    exact List.length_filter_le _ _
  have hU : ∀ x ∈ g.nodes.map (·.id), ∃ l, (fun x => some (g.children (some x)).reverse) x = some l ∧ ∀ y ∈ l, y ∈ g.nodes.map (·.id) := by
    intro x _
    refine ⟨_, rfl, fun y hy => ?_⟩
    obtain ⟨n, hn, _, rfl⟩ := mem_children.1 (List.mem_reverse.1 hy)
    exact List.mem_map.2 ⟨n, hn, rfl⟩
  have hcost : ∀ U : List ℕ, outCost (fun x => some (g.children (some x)).reverse) U [] ≤ U.length * g.nodes.length := by
    intro U
    unfold outCost
    induction U with
    | nil => simp
    | cons x U ih =>
      simp only [List.not_mem_nil, not_false_eq_true, decide_true, List.filter_true, List.map_cons, List.sum_cons, Option.getD_some,
        List.length_reverse, List.length_cons] at ih ⊢
      have := hlen (some x)
      have e : (U.length + 1) * g.nodes.length = U.length * g.nodes.length + g.nodes.length := Nat.succ_mul _ _
      omega
  have hc := hcost (g.nodes.map (·.id))
  rw [List.length_map] at hc
  obtain ⟨r, h1, _, h3, h4, h5⟩ := walk_spec (fun x => some (g.children (some x)).reverse) (g.nodes.map (·.id)) hU
    (g.nodes.length + g.nodes.length * g.nodes.length + 1) (g.children (some f)).reverse [] (fun x hx => by
      obtain ⟨n, hn, _, rfl⟩ := mem_children.1 (List.mem_reverse.1 hx)
      exact List.mem_map.2 ⟨n, hn, rfl⟩) (by simp) (by
      have := hlen (some f)
      rw [List.length_reverse]
      omega)
  rw [insideLoop_walk] at h1
  obtain rfl := Option.some.inj h1
  constructor
  · intro hid
    rcases h5 id hid with h | ⟨s, hs, h⟩
    · simp at h
    · have hs' : Inside g f s := by
        obtain ⟨n, hn, hp, rfl⟩ := mem_children.1 (List.mem_reverse.1 hs)
        exact .child hn hp
      clear hid
      induction h with
      | refl => exact hs'
      | tail _ h ih =>
        obtain ⟨l, hl, hb⟩ := h
        obtain rfl := Option.some.inj hl
        obtain ⟨n, hn, hp, rfl⟩ := mem_children.1 (List.mem_reverse.1 hb)
        exact .deeper ih hn hp
  · intro h
    induction h with
    | child hn hp => exact h3 _ (List.mem_reverse.2 (mem_children.2 ⟨_, hn, hp, rfl⟩))
    | deeper _ hn hp ih => exact h4 _ ih _ rfl _ (List.mem_reverse.2 (mem_children.2 ⟨_, hn, hp, rfl⟩))

theorem mem_leafNodes {g : Graph} {f id : ℕ} : id ∈ g.leafNodes f ↔ Inside g f id ∧ id ∉ g.folds := by
  unfold Graph.leafNodes
  rw [List.mem_filter, mem_insideLoop]
  simp

theorem foldOutputs_outlets {g : Graph} (hu : g.UniqueIds) (f : ℕ) : Outlets g f (g.foldOutputs f) := by
  unfold Graph.foldOutputs
  refine ⟨List.Sublist.map _ List.filter_sublist, fun id => ?_⟩
  simp only [List.mem_map, List.mem_filter, Bool.and_eq_true, List.contains_iff_mem, mem_leafNodes, Bool.or_eq_true, List.any_eq_true,
    beq_iff_eq]
  have hbase : ∀ (r : Ref) (id : ℕ), r.baseNode? = some id ↔ r.unwrap = .node id := by
    intro r id
    unfold Ref.baseNode?
    cases r.unwrap <;> simp
  have hext : ∀ n : Node, g.feedsExternal (g.leafNodes f) n.id = true ↔ ∃ m, g.IsLeaf m ∧ ¬ Inside g f m ∧ Uses g m n.id := by
    intro n
    unfold Graph.feedsExternal
    simp only [List.any_eq_true, List.mem_filter, Bool.not_eq_true', Bool.or_eq_false_iff, beq_iff_eq]
    constructor
    · rintro ⟨m, ⟨hm, r, hr, hb⟩, h1, h2⟩
      have h2' : m.id ∉ g.folds := by simpa using h2
      have h1' : m.id ∉ g.leafNodes f := by simpa using h1
      exact ⟨m.id, ⟨m, hm, rfl, h2'⟩, fun hi => h1' (mem_leafNodes.2 ⟨hi, h2'⟩), m, hm, rfl, r, mem_allArgs hr, (hbase r n.id).1 hb⟩
    · rintro ⟨m, ⟨m', hm, rfl, hnf⟩, hni, m2, hm2, he, r, hr, hb⟩
      have : m2 = m' := by
        have h1 := find_of_mem hu hm2
        rw [he, find_of_mem hu hm] at h1
        exact (Option.some.inj h1).symm
      subst this
      refine ⟨m2, ⟨hm2, r, ?_, (hbase r n.id).2 hb⟩, ?_, by simpa using hnf⟩
      · unfold Node.allArgs
        rcases hr with hr | ⟨k, hr⟩
        · simp [hr]
        · simp only [List.mem_append, List.mem_map]
          exact Or.inr ⟨_, hr, rfl⟩
      · simp only [List.contains_eq_mem, decide_eq_false_iff_not]
        intro h
        exact hni (mem_leafNodes.1 h).1
  constructor
  · rintro ⟨n, ⟨hn, ⟨hi, hnf⟩, h⟩, rfl⟩
    refine ⟨⟨n, hn, rfl, hnf⟩, hi, ?_⟩
    rcases h with h | ⟨r, hr, hb⟩
    · exact Or.inl ((hext n).1 h)
    · exact Or.inr ⟨r, hr, (hbase r n.id).1 hb⟩
  · rintro ⟨⟨n, hn, rfl, hnf⟩, hi, h⟩
    refine ⟨n, ⟨hn, ⟨hi, hnf⟩, ?_⟩, rfl⟩
    rcases h with h | ⟨r, hr, hb⟩
    · exact Or.inl ((hext n).2 h)
    · exact Or.inr ⟨r, hr, (hbase r n.id).2 hb⟩

/-! ### Lemmas: regions -/

theorem nodeRef_ok {g : Graph} {t id : ℕ} (h : g.nodeRef t = .ok id) : ∃ n, g.nodes.find? (fun n => n.target == t) = some n ∧ n.id = id := by
  unfold Graph.nodeRef at h
  cases hn : g.nodes.find? (fun n => n.target == t) with
  | none => rw [hn] at h; simp at h
  | some n =>
    rw [hn] at h
    exact ⟨n, rfl, Except.ok.inj h⟩

theorem uses_closed {g : Graph} (hg : g.Closed) : g.Total := by
  rintro n m ⟨k, hk, rfl, r, hr, hu⟩
  have hr' : r ∈ k.allArgs := by
    unfold Node.allArgs
    rcases hr with hr | ⟨x, hr⟩
    · simp [hr]
    · simp only [List.mem_append, List.mem_map]
      exact Or.inr ⟨_, hr, rfl⟩
  obtain ⟨q, hq, rfl⟩ := (hg.args k hk r hr').1 m hu
  rw [find_of_mem hg.ids hq]
  rfl

/-- What a region resolves to. -/
theorem resolve_ok {g : Graph} (hg : g.Closed) (hac : ∀ n, ¬ Relation.TransGen (Uses g) n n) {iter : List ℕ → List ℕ}
    (hiter : ∀ l, (iter l).Perm l) {r : Region} {nodes : List ℕ} {sub : Option Graph} (h : g.resolve iter r = .ok (nodes, sub)) :
    (∀ id, id ∈ nodes ↔ InRegion g r id) ∧ (∀ s, sub = some s → createSubgraph g nodes = .ok s) ∧
      (sub = none ↔ ∃ t, r = .module t) ∧ ∀ id ∈ nodes, ∃ n ∈ g.nodes, n.id = id := by
  cases r with
  | module t =>
    unfold Graph.resolve at h
    obtain ⟨id, h1, h2⟩ := bind_ok h
    obtain ⟨n, h3, rfl⟩ := nodeRef_ok h1
    simp only [Except.ok.injEq, Prod.mk.injEq] at h2
    obtain ⟨rfl, rfl⟩ := h2
    refine ⟨fun id => ?_, by simp, by simp, ?_⟩
    · show id ∈ [n.id] ↔ ∃ n, g.nodes.find? (fun n => n.target == t) = some n ∧ n.id = id
      rw [h3]
      simp [eq_comm]
    · intro id hid
      rw [List.mem_singleton.1 hid]
      exact ⟨n, List.mem_of_find?_eq_some h3, rfl⟩
  | span s e =>
    unfold Graph.resolve at h
    obtain ⟨a, h1, h⟩ := bind_ok h
    obtain ⟨b, h2, h⟩ := bind_ok h
    obtain ⟨⟨path, reached⟩, h3, h⟩ := bind_ok h
    obtain ⟨na, e1, rfl⟩ := nodeRef_ok h1
    obtain ⟨nb, e2, rfl⟩ := nodeRef_ok h2
    have hnb := List.mem_of_find?_eq_some e2
    have hna := List.mem_of_find?_eq_some e1
    obtain ⟨c', b', h4, h5, h6⟩ := ancestors_strict g hg.ids (uses_closed hg) hac nb.id na.id (by rw [find_of_mem hg.ids hnb]; rfl)
    rw [h4] at h3
    simp only [Except.ok.injEq, Prod.mk.injEq] at h3
    obtain ⟨rfl, rfl⟩ := h3
    dsimp only at h
    by_cases hr : (!b') = true
    · rw [if_pos hr] at h; simp at h
    · rw [if_neg hr] at h
      obtain ⟨sub', h7, h8⟩ := bind_ok h
      simp only [Except.ok.injEq, Prod.mk.injEq] at h8
      obtain ⟨rfl, rfl⟩ := h8
      have hmem : ∀ id, id ∈ iter c' ↔ DependsOn g nb.id id ∧ DependsOn g id na.id := fun id => by rw [(hiter c').mem_iff, h5]
      refine ⟨fun id => ?_, fun s hs => by rw [← Option.some.inj hs]; exact h7, by simp, ?_⟩
      · rw [hmem]
        unfold InRegion
        constructor
        · intro h; exact ⟨na, nb, e1, e2, h⟩
        · rintro ⟨a, b, f1, f2, h⟩
          rw [e1] at f1
          rw [e2] at f2
          rw [Option.some.inj f1, Option.some.inj f2]
          exact h
      · intro id hid
        have := ((hmem id).1 hid).1
        rcases Relation.ReflTransGen.cases_tail this with rfl | ⟨x, _, hx⟩
        · exact ⟨nb, hnb, rfl⟩
        · have := uses_closed hg x id hx
          obtain ⟨n, hn⟩ := Option.isSome_iff_exists.1 this
          exact ⟨n, mem_of_find hn⟩
  | group ts =>
    unfold Graph.resolve at h
    obtain ⟨ids, h1, h⟩ := bind_ok h
    obtain ⟨_, _, h⟩ := bind_ok h
    obtain ⟨sub', h3, h⟩ := bind_ok h
    simp only [Except.ok.injEq, Prod.mk.injEq] at h
    obtain ⟨rfl, rfl⟩ := h
    have hf := mapM_ok_inv h1
    have hmem : ∀ id, id ∈ iter (dedupe [] ids) ↔ id ∈ ids := by
      intro id
      rw [(hiter _).mem_iff]
      simp [mem_dedupe]
    refine ⟨fun id => ?_, fun s hs => by rw [← Option.some.inj hs]; exact h3, by simp, ?_⟩
    · rw [hmem]
      unfold InRegion
      constructor
      · intro hid
        obtain ⟨t, ht, h4⟩ := forall2_mem hf.flip hid
        obtain ⟨n, h5, h6⟩ := nodeRef_ok h4
        exact ⟨t, ht, n, h5, h6⟩
      · rintro ⟨t, ht, n, h5, rfl⟩
        obtain ⟨id, hid, h4⟩ := forall2_mem hf ht
        obtain ⟨n', h6, rfl⟩ := nodeRef_ok h4
        rw [h5] at h6
        rw [Option.some.inj h6]
        exact hid
    · intro id hid
      obtain ⟨t, _, h4⟩ := forall2_mem hf.flip ((hmem id).1 hid)
      obtain ⟨n, h5, h6⟩ := nodeRef_ok h4
      exact ⟨n, List.mem_of_find?_eq_some h5, h6⟩

/-! ### Lemmas: values in a growing graph -/

theorem den_grow {sem : Sem V W} {g g' : Graph} {inp : String → List V} {wAt : ℕ → W} {c : Ctx} {r : Ref} {d : List V}
    (hf : ∀ id n, g.find? id = some n → ∃ n', g'.find? id = some n' ∧ n'.target = n.target ∧ n'.args = n.args ∧ n'.kwargs = n.kwargs)
    (hi : ∀ x ∈ g.inputs, x ∈ g'.inputs) (h : Den sem g inp wAt c r d) : Den sem g' inp wAt c r d := by
  induction h with
  | input hx => exact .input (hi _ hx)
  | const => exact .const
  | attr _ ha ih => exact .attr ih ha
  | @node id n ads out hn hl _ hc ih =>
    obtain ⟨n', h1, h2, h3, h4⟩ := hf id n hn
    have he : n'.allArgs = n.allArgs := by unfold Node.allArgs; rw [h3, h4]
    refine .node (ads := ads) h1 (by rw [he]; exact hl) (fun i r d e1 e2 => ih i r d (by rw [← he]; exact e1) e2) ?_
    rw [h2, h3, h4]
    exact hc

theorem den_single {sem : Sem V W} {g : Graph} {b : String → V} {wAt : ℕ → W} {c : Ctx} {r : Ref} {d : List V}
    (h : Den sem g (fun x => [b x]) wAt c r d) : ∃ v, d = [v] := by
  suffices d.length = 1 from List.length_eq_one_iff.1 this
  induction h with
  | input _ => rfl
  | const => rfl
  | attr _ ha ih => rw [access_length ha]; exact ih
  | @node id n ads out hn hl _ hc ih =>
    have hla : ∀ d ∈ ads, d.length = 1 ∨ d.length = 1 := by
      intro d hd
      obtain ⟨i, hi, rfl⟩ := List.getElem_of_mem hd
      exact Or.inl (ih i _ _ (List.getElem?_eq_getElem (by omega)) (List.getElem?_eq_getElem hi))
    rcases (call_at hc (N := 1) (j := 0) (by omega) hla).1 with h | h <;> exact h

theorem val_unique {sem : Sem V W} {g : Graph} {w : W} {c : Ctx} {b : String → V} {r : Ref} {v v' : V} (h : Val sem g w c b r v)
    (h' : Val sem g w c b r v') : v = v' := by simpa using denotation_unique h h'

theorem val_attr {sem : Sem V W} {g : Graph} {w : W} {c : Ctx} {b : String → V} {r : Ref} {a : Attr} {v : V}
    (h : Val sem g w c b (.attr r a) v) : ∃ u, Val sem g w c b r u ∧ Access sem a [u] [v] := by
  cases h with
  | attr h1 h2 =>
    obtain ⟨u, rfl⟩ := den_single h1
    exact ⟨u, h1, h2⟩

/-- The value of a node, from those of its arguments. -/
theorem val_node {sem : Sem V W} {g : Graph} {w : W} {c : Ctx} {b : String → V} {id : ℕ} {v : V} (h : Val sem g w c b (.node id) v) :
    ∃ n vs, g.find? id = some n ∧ List.Forall₂ (Val sem g w c b) n.allArgs vs ∧
      sem.call w c n.target (vs.take n.args.length) ((n.kwargs.map (·.1)).zip (vs.drop n.args.length)) = some v := by
  cases h with
  | @node _ n ads _ hf hl ha hc =>
    have hvs : ∃ vs : List V, ads = vs.map fun v => [v] := by
      have : ∀ l : List (List V), (∀ d ∈ l, ∃ v, d = [v]) → ∃ vs : List V, l = vs.map fun v => [v] := by
        intro l
        induction l with
        | nil => intro _; exact ⟨[], rfl⟩
        | cons d l ih =>
          intro h
          obtain ⟨v, rfl⟩ := h d (by simp)
          obtain ⟨vs, rfl⟩ := ih fun x hx => h x (by simp [hx])
          exact ⟨v :: vs, rfl⟩
      refine this ads fun d hd => ?_
      obtain ⟨i, hi, rfl⟩ := List.getElem_of_mem hd
      exact den_single (ha i _ _ (List.getElem?_eq_getElem (by omega)) (List.getElem?_eq_getElem hi))
    obtain ⟨vs, rfl⟩ := hvs
    rw [List.length_map] at hl
    refine ⟨n, vs, hf, List.forall₂_iff_get.2 ⟨hl.symm, fun i h1 h2 => ?_⟩, ?_⟩
    · exact ha i _ _ (List.getElem?_eq_getElem h1) (by rw [List.getElem?_map, List.getElem?_eq_getElem h2]; rfl)
    · by_cases hne : vs = []
      · subst hne
        rcases hc with ⟨_, u, h1, h2⟩ | ⟨_, _, _, hal, _⟩
        · have : v = u := by simpa using h2
          subst this
          simpa using h1
        · obtain ⟨_, h1, _⟩ := hal.2.1
          simp at h1
      · obtain ⟨u, h1, h2⟩ := call_one_inv hne hc
        have : v = u := by simpa using h1
        subst this
        exact h2

theorem node_val {sem : Sem V W} {g : Graph} {w : W} {c : Ctx} {b : String → V} {id : ℕ} {n : Node} {vs : List V} {v : V}
    (hf : g.find? id = some n) (hv : List.Forall₂ (Val sem g w c b) n.allArgs vs)
    (hc : sem.call w c n.target (vs.take n.args.length) ((n.kwargs.map (·.1)).zip (vs.drop n.args.length)) = some v) :
    Val sem g w c b (.node id) v := by
  refine .node (ads := vs.map fun v => [v]) hf (by rw [List.length_map]; exact hv.length_eq.symm) (fun i r d h1 h2 => ?_) ?_
  · rw [List.getElem?_map] at h2
    cases hx : vs[i]? with
    | none => rw [hx] at h2; simp at h2
    | some x =>
      rw [hx] at h2
      simp only [Option.map_some, Option.some.injEq] at h2
      subst h2
      obtain ⟨p1, q1⟩ := List.getElem?_eq_some_iff.1 h1
      obtain ⟨p2, q2⟩ := List.getElem?_eq_some_iff.1 hx
      have := (List.forall₂_iff_get.1 hv).2 i p1 p2
      simp only [List.get_eq_getElem, q1, q2] at this
      exact this
  · by_cases hne : vs = []
    · subst hne
      exact Or.inl ⟨rfl, v, by simpa using hc, rfl⟩
    · exact call_one hne hc

/-! ### Lemmas: the invariant of the second loop -/

/-- What holds while the new graph is built: a name stands for an input, or for a reference with the value of the node of that name. -/
structure Sound (sem : Sem V W) (g : Graph) (w : W) (c : Ctx) (b : String → V) (s : Rewired) : Prop where
  inputs : s.graph.inputs = g.inputs
  ids : ∀ n ∈ s.graph.nodes, n.id < s.graph.nodes.length
  ctx : ∀ name r', Dict.get s.ctx name = some r' → (name ∈ g.inputs ∧ r' = .input name) ∨
    ∃ n ∈ g.nodes, n.name = name ∧ ∀ v, Val sem g w c b (.node n.id) v → Val sem s.graph w c b r' v

theorem name_inj {g : Graph} (ht : Tidy g) {n m : Node} (hn : n ∈ g.nodes) (hm : m ∈ g.nodes) (h : n.name = m.name) : n = m := by
  have := ht.names
  revert hn hm this
  induction g.nodes with
  | nil => intro hn; simp at hn
  | cons a l ih =>
    intro hn hm hnd
    rw [List.map_cons, List.nodup_cons] at hnd
    rcases List.mem_cons.1 hn with rfl | hn'
    · rcases List.mem_cons.1 hm with rfl | hm'
      · rfl
      · exact absurd (List.mem_map.2 ⟨m, hm', h.symm⟩) hnd.1
    · rcases List.mem_cons.1 hm with rfl | hm'
      · exact absurd (List.mem_map.2 ⟨n, hn', h⟩) hnd.1
      · exact ih hn' hm' hnd.2

theorem ctxGet_ok {ctx : List (String × Ref)} {x : String} {r : Ref} (h : ctxGet ctx x = .ok r) : Dict.get ctx x = some r := by
  unfold ctxGet at h
  cases hg : Dict.get ctx x with
  | none => rw [hg] at h; simp at h
  | some q => rw [hg] at h; rw [Except.ok.inj h]

theorem bracket_mem (x : String) (a : Attr) : '[' ∈ (liftedKey x a).toList := by
  unfold liftedKey
  simp [String.toList_append]

theorem get_bracket {sem : Sem V W} {g : Graph} {w : W} {c : Ctx} {b : String → V} {s : Rewired} (ht : Tidy g) (hs : Sound sem g w c b s)
    (x : String) (a : Attr) : Dict.get s.ctx (liftedKey x a) = none := by
  cases h : Dict.get s.ctx (liftedKey x a) with
  | none => rfl
  | some r =>
    rcases hs.ctx _ _ h with ⟨h1, _⟩ | ⟨n, hn, h1, _⟩
    · exact absurd (bracket_mem x a) (ht.plainInputs _ h1)
    · exact absurd (h1 ▸ bracket_mem x a) (ht.plain n hn)

theorem get_node {sem : Sem V W} {g : Graph} {w : W} {c : Ctx} {b : String → V} {s : Rewired} (ht : Tidy g) (hs : Sound sem g w c b s)
    {n : Node} (hn : n ∈ g.nodes) {r' : Ref} (h : Dict.get s.ctx n.name = some r') {v : V} (hv : Val sem g w c b (.node n.id) v) :
    Val sem s.graph w c b r' v := by
  rcases hs.ctx _ _ h with ⟨h1, _⟩ | ⟨m, hm, h1, h2⟩
  · exact absurd h1 (ht.apart n hn)
  · rw [name_inj ht hn hm h1.symm] at hv
    exact h2 v hv

theorem get_input {sem : Sem V W} {g : Graph} {w : W} {c : Ctx} {b : String → V} {s : Rewired} (ht : Tidy g) (hs : Sound sem g w c b s)
    {x : String} (hx : x ∈ g.inputs) {r' : Ref} (h : Dict.get s.ctx x = some r') {v : V} (hv : Val sem g w c b (.input x) v) :
    Val sem s.graph w c b r' v := by
  rcases hs.ctx _ _ h with ⟨_, rfl⟩ | ⟨m, hm, rfl, _⟩
  · cases hv
    exact .input (hs.inputs ▸ hx)
  · exact absurd hx (ht.apart m hm)

theorem remap_val {sem : Sem V W} {g : Graph} {w : W} {c : Ctx} {b : String → V} {s : Rewired} (ht : Tidy g) (hs : Sound sem g w c b s)
    {r r' : Ref} (hc : r.Closed g) (h : remap g.nameOf s.ctx [] r = .ok r') {v : V} (hv : Val sem g w c b r v) :
    Val sem s.graph w c b r' v := by
  induction r generalizing r' v with
  | node id =>
    obtain ⟨n, hn, rfl⟩ := hc.1 id rfl
    unfold remap at h
    rw [if_neg (by simp), nameOf_eq ht.closed.ids hn] at h
    exact get_node ht hs hn (ctxGet_ok h) hv
  | input x => exact get_input ht hs (hc.2 x rfl) (ctxGet_ok h) hv
  | const k =>
    unfold remap at h
    obtain rfl := Except.ok.inj h
    cases hv
    exact .const
  | attr r a ih =>
    obtain ⟨u, h1, h2⟩ := val_attr hv
    have hl : lifted g.nameOf s.ctx [] r.unwrap a = none := by
      unfold lifted
      cases r.unwrap with
      | node id => simp [get_bracket ht hs]
      | input x => exact get_bracket ht hs _ _
      | const k => rfl
      | attr q a => rfl
    unfold remap at h
    rw [hl] at h
    dsimp only at h
    cases hr : remap g.nameOf s.ctx [] r with
    | error e => rw [hr] at h; simp at h
    | ok q =>
      rw [hr] at h
      obtain rfl := Except.ok.inj h
      exact .attr (ih hc hr h1) h2

end FF.Orch
