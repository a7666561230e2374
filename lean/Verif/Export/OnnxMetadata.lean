import Verif.Export.Encodings

/-!
# Which items of an ONNX graph get which quantization

Models `OnnxQuantMetadataAnnotator` in `/repo/src/fastforward/export/stages/onnx/onnx_export_stages.py:222-324`: the nodes of the captured graph
carry quantization specs, and the items of the ONNX graph that was made from it get them as metadata, from which the encodings are extracted.
-/

namespace FF.OnnxMeta

open FF.Enc (Spec Proto Schema)

/-! ### Model -/

/-- A node of the captured graph: its name, the parameter it reads if it is a `get_attr` node, and its spec. -/
structure Fx (σ : Type) where
  name : String
  target : Option String
  spec : Option σ

/-- Where the exporter says an ONNX item comes from: the node of the graph it lowered (after decomposition), and the names of the nodes that this
node was derived from, oldest first (`meta["node"]`, `meta["from_node"]`). -/
structure Origin where
  node : Option String
  chain : List String
  deriving DecidableEq

/-- A node or a value of the ONNX graph. `outputs` are the values a node computes; a value has none. `props` is the quantization metadata.
Simplified: a spec is written as a whole (`_apply_quant_spec_metadata`, 300-324). -/
structure Item (σ : Type) where
  name : Option String
  origin : Option Origin
  outputs : List String
  props : Option σ
  deriving DecidableEq

/-- The ONNX graph. Outputs come with the name of the node that computes them, if a node does and has one. -/
structure Onnx (σ : Type) where
  nodes : List (Item σ)
  inputs : List (Item σ)
  outputs : List (Item σ × Option String)
  inits : List (Item σ)

variable {σ : Type}

/-- `_fx_quant_specs` (229, 233-235): specs by name of the node; a later entry replaces an earlier one. -/
def specOf (fxs : List (Fx σ)) (n : String) : Option σ := (fxs.reverse.find? fun f => f.name = n ∧ f.spec.isSome).bind (·.spec)

/-- `_fx_node_by_target` (230, 236-237). -/
def attrOf (fxs : List (Fx σ)) (t : String) : Option (Fx σ) := fxs.reverse.find? fun f => f.target = some t

/-- The lookups by the name of the item and by the names of its outputs (290-298). -/
def byName (fxs : List (Fx σ)) (x : Item σ) : Option σ :=
  match x.name.bind (specOf fxs) with
  | some s => some s
  | none => x.outputs.findSome? (specOf fxs)

/-- The node looked at first (273-281): that of the origin, unless it has no spec and the name of the item is that of a parameter with one. -/
def startNode (fxs : List (Fx σ)) (x : Item σ) (o : Origin) : Option String :=
  o.node.map fun f =>
    if (specOf fxs f).isNone then
      match x.name.bind (attrOf fxs) with
      | some m => if (specOf fxs m.name).isSome then m.name else f
      | none => f
    else f

/-- `_quant_spec_for_onnx_item` (271-298). -/
def quantSpec (fxs : List (Fx σ)) (x : Item σ) : Option σ :=
  match x.origin with
  | none => byName fxs x
  | some o =>
    match (startNode fxs x o).bind (specOf fxs) with
    | some s => some s
    | none =>
      match o.chain.reverse.findSome? (specOf fxs) with
      | some s => some s
      | none => byName fxs x

/-- `_annotate_item` (266-269). -/
def mark (fxs : List (Fx σ)) (x : Item σ) : Item σ :=
  match quantSpec fxs x with
  | some s => { x with props := some s }
  | none => x

/-- Annotating the node with a name: the last one (239-241, 255-264). -/
def markNamed (fxs : List (Fx σ)) (p : String) (nodes : List (Item σ)) : List (Item σ) :=
  match nodes.reverse.findIdx? fun x => x.name = some p with
  | none => nodes
  | some i => (nodes.reverse.modify i (mark fxs)).reverse

/-- The loop over the outputs (250-252): the nodes as they are then, and the outputs. -/
def markOutputs (fxs : List (Fx σ)) : List (Item σ) → List (Item σ × Option String) → List (Item σ) × List (Item σ × Option String)
  | nodes, [] => (nodes, [])
  | nodes, (x, p) :: os =>
    let nodes' := match p with
      | none => nodes
      | some p => markNamed fxs p nodes
    let r := markOutputs fxs nodes' os
    (r.1, (mark fxs x, p) :: r.2)

/-- `annotate` (243-256). -/
def annotate (fxs : List (Fx σ)) (g : Onnx σ) : Onnx σ :=
  let r := markOutputs fxs (g.nodes.map (mark fxs)) g.outputs
  ⟨r.1, g.inputs.map (mark fxs), r.2, g.inits.map (mark fxs)⟩

/-- The written graph: names with metadata. Items in these places have names. -/
def toProto (g : Onnx Spec) : Proto :=
  ⟨g.inits.map fun x => (x.name.getD "", x.props), g.inputs.map fun x => (x.name.getD "", x.props),
    g.nodes.map fun x => (x.outputs, x.props), g.outputs.map fun x => (x.1.name.getD "", x.1.props)⟩

/-! ### Specification -/

/-- Names of nodes are unique, and each parameter is read by one node. -/
structure WellNamed (fxs : List (Fx σ)) : Prop where
  names : (fxs.map (·.name)).Nodup
  targets : fxs.Pairwise fun a b => a.target ≠ none → a.target ≠ b.target

/-- The tensor computed by the node named `f` is quantized with `s`. -/
def Quantized (fxs : List (Fx σ)) (f : String) (s : σ) : Prop := ∃ x ∈ fxs, x.name = f ∧ x.spec = some s

/-- The parameter `t` is quantized with `s`. -/
def ParamQuantized (fxs : List (Fx σ)) (t : String) (s : σ) : Prop := ∃ x ∈ fxs, x.target = some t ∧ x.spec = some s

/-- No quantized tensor has that name. -/
def Plain (fxs : List (Fx σ)) (f : String) : Prop := ∀ s, ¬ Quantized fxs f s

/-- All names an item mentions. -/
def Mentions (x : Item σ) (n : String) : Prop :=
  x.name = some n ∨ n ∈ x.outputs ∨ ∃ o, x.origin = some o ∧ (o.node = some n ∨ n ∈ o.chain)

/-- The same item apart from its metadata. -/
def SameItem (x y : Item σ) : Prop := y.name = x.name ∧ y.origin = x.origin ∧ y.outputs = x.outputs

/-! ### Lemmas -/

theorem specOf_some {fxs : List (Fx σ)} {n : String} {s : σ} (h : specOf fxs n = some s) : Quantized fxs n s := by
  unfold specOf at h
  obtain ⟨f, h1, h2⟩ := Option.bind_eq_some_iff.1 h
  have hm := List.mem_of_find?_eq_some h1
  have hp := List.find?_some h1
  simp only [decide_eq_true_eq] at hp
  exact ⟨f, List.mem_reverse.1 hm, hp.1, h2⟩

theorem nodup_unique {α β : Type} {g : α → β} {l : List α} (h : (l.map g).Nodup) {a b : α} (ha : a ∈ l) (hb : b ∈ l) (he : g a = g b) : a = b :=
  List.inj_on_of_nodup_map h ha hb he

theorem specOf_iff {fxs : List (Fx σ)} (hw : WellNamed fxs) {n : String} {s : σ} : specOf fxs n = some s ↔ Quantized fxs n s := by
  refine ⟨specOf_some, ?_⟩
  rintro ⟨x, hx, rfl, hs⟩
  unfold specOf
  cases hf : fxs.reverse.find? fun f => f.name = x.name ∧ f.spec.isSome with
  | none =>
    have := List.find?_eq_none.1 hf x (List.mem_reverse.2 hx)
    simp [hs] at this
  | some f =>
    have hm := List.mem_reverse.1 (List.mem_of_find?_eq_some hf)
    have hp := List.find?_some hf
    simp only [decide_eq_true_eq] at hp
    rw [nodup_unique hw.names hm hx hp.1]
    exact hs

theorem specOf_none {fxs : List (Fx σ)} {n : String} : specOf fxs n = none ↔ Plain fxs n := by
  constructor
  · rintro h s ⟨x, hx, hn, hs⟩
    unfold specOf at h
    rw [Option.bind_eq_none_iff] at h
    cases hf : fxs.reverse.find? fun f => f.name = n ∧ f.spec.isSome with
    | none =>
      have := List.find?_eq_none.1 hf x (List.mem_reverse.2 hx)
      simp [hs, hn] at this
    | some f =>
      have hp := List.find?_some hf
      simp only [decide_eq_true_eq] at hp
      rw [h f hf] at hp
      simp at hp
  · intro h
    cases hs : specOf fxs n with
    | none => rfl
    | some s => exact absurd (specOf_some hs) (h s)

theorem attrOf_some {fxs : List (Fx σ)} {t : String} {f : Fx σ} (h : attrOf fxs t = some f) : f ∈ fxs ∧ f.target = some t := by
  have hp := List.find?_some h
  simp only [decide_eq_true_eq] at hp
  exact ⟨List.mem_reverse.1 (List.mem_of_find?_eq_some h), hp⟩

theorem pairwise_unique {fxs : List (Fx σ)} (h : fxs.Pairwise fun a b => a.target ≠ none → a.target ≠ b.target) {a b : Fx σ} (ha : a ∈ fxs)
    (hb : b ∈ fxs) (hn : a.target ≠ none) (he : a.target = b.target) : a = b := by
  induction fxs with
  | nil => cases ha
  | cons c fxs ih =>
    rw [List.pairwise_cons] at h
    rcases List.mem_cons.1 ha with ha | ha <;> rcases List.mem_cons.1 hb with hb | hb
    · rw [ha, hb]
    · rw [ha] at he hn; exact absurd he (h.1 b hb hn)
    · rw [hb] at he; exact absurd he.symm (h.1 a ha (he ▸ hn))
    · exact ih h.2 ha hb

theorem attrOf_eq {fxs : List (Fx σ)} (hw : WellNamed fxs) {x : Fx σ} (hx : x ∈ fxs) {t : String} (ht : x.target = some t) : attrOf fxs t = some x := by
  cases hf : attrOf fxs t with
  | none =>
    have := List.find?_eq_none.1 hf x (List.mem_reverse.2 hx)
    simp [ht] at this
  | some f =>
    obtain ⟨h1, h2⟩ := attrOf_some hf
    rw [pairwise_unique hw.targets h1 hx (by rw [h2]; simp) (by rw [h2, ht])]

theorem quantSpec_props (fxs : List (Fx σ)) (x : Item σ) (p : Option σ) : quantSpec fxs { x with props := p } = quantSpec fxs x := rfl

theorem mark_mark (fxs : List (Fx σ)) (x : Item σ) : mark fxs (mark fxs x) = mark fxs x := by
  unfold mark
  cases h : quantSpec fxs x with
  | none => simp only [h]
  | some s => simp only [quantSpec_props, h]

theorem mark_same (fxs : List (Fx σ)) (x : Item σ) : SameItem x (mark fxs x) := by
  unfold mark
  cases quantSpec fxs x <;> exact ⟨rfl, rfl, rfl⟩

theorem modify_marked (fxs : List (Fx σ)) (l : List (Item σ)) (h : ∀ x ∈ l, mark fxs x = x) (i : ℕ) : l.modify i (mark fxs) = l := by
  induction l generalizing i with
  | nil => cases i <;> rfl
  | cons x l ih =>
    cases i with
    | zero => simp [h x List.mem_cons_self]
    | succ i => simp [ih (fun y hy => h y (List.mem_cons_of_mem _ hy)) i]

theorem markNamed_marked (fxs : List (Fx σ)) (p : String) (l : List (Item σ)) (h : ∀ x ∈ l, mark fxs x = x) : markNamed fxs p l = l := by
  unfold markNamed
  split
  · rfl
  · rw [modify_marked fxs _ (fun x hx => h x (List.mem_reverse.1 hx)), List.reverse_reverse]

theorem markOutputs_eq (fxs : List (Fx σ)) (os : List (Item σ × Option String)) (l : List (Item σ)) (h : ∀ x ∈ l, mark fxs x = x) :
    markOutputs fxs l os = (l, os.map fun o => (mark fxs o.1, o.2)) := by
  induction os with
  | nil => rfl
  | cons o os ih =>
    obtain ⟨x, p⟩ := o
    have : (match p with
      | none => l
      | some p => markNamed fxs p l) = l := by
      cases p with
      | none => rfl
      | some p => exact markNamed_marked fxs p l h
    simp only [markOutputs, this, ih, List.map_cons]

theorem findSome_plain {fxs : List (Fx σ)} {l : List String} (h : ∀ n ∈ l, Plain fxs n) : l.findSome? (specOf fxs) = none := by
  rw [List.findSome?_eq_none_iff]
  exact fun n hn => specOf_none.2 (h n hn)

theorem mark_of {fxs : List (Fx σ)} {x : Item σ} {s : σ} (h : quantSpec fxs x = some s) : (mark fxs x).props = some s := by
  unfold mark; rw [h]

/-! ### Properties -/

/-- **C116.** Every item of the ONNX graph is looked at, once and for all: after annotating each of them carries the spec found for it, or what it carried
before if none is found; the graph is otherwise unchanged, and which nodes compute the outputs makes no difference. -/
theorem every_item_annotated (fxs : List (Fx σ)) (g : Onnx σ) :
    (annotate fxs g).nodes = g.nodes.map (mark fxs) ∧ (annotate fxs g).inputs = g.inputs.map (mark fxs)
      ∧ (annotate fxs g).outputs = g.outputs.map (fun o => (mark fxs o.1, o.2)) ∧ (annotate fxs g).inits = g.inits.map (mark fxs)
      ∧ ∀ x, SameItem x (mark fxs x) ∧ mark fxs (mark fxs x) = mark fxs x := by
  have h := markOutputs_eq fxs g.outputs (g.nodes.map (mark fxs)) (by
    intro x hx
    obtain ⟨y, _, rfl⟩ := List.mem_map.1 hx
    exact mark_mark fxs y)
  refine ⟨?_, rfl, ?_, rfl, fun x => ⟨mark_same fxs x, mark_mark fxs x⟩⟩ <;> simp only [annotate, h]

/-- **C116.** An item that the exporter says was lowered from a quantized node carries the spec of that node. -/
theorem spec_of_own_node (fxs : List (Fx σ)) (hw : WellNamed fxs) (x : Item σ) (f : String) (chain : List String) (s : σ)
    (ho : x.origin = some ⟨some f, chain⟩) (hq : Quantized fxs f s) : (mark fxs x).props = some s := by
  apply mark_of
  have hs := (specOf_iff hw).2 hq
  simp [quantSpec, ho, startNode, hs]

/-- **C116.** A weight, which the exporter attributes to a node without quantization, carries the spec of the parameter it is named after. -/
theorem spec_of_parameter (fxs : List (Fx σ)) (hw : WellNamed fxs) (x : Item σ) (f t : String) (chain : List String) (s : σ)
    (ho : x.origin = some ⟨some f, chain⟩) (hp : Plain fxs f) (hn : x.name = some t) (hq : ParamQuantized fxs t s) : (mark fxs x).props = some s := by
  apply mark_of
  obtain ⟨y, hy, ht, hs⟩ := hq
  have h1 := attrOf_eq hw hy ht
  have h2 := (specOf_iff hw).2 ⟨y, hy, rfl, hs⟩
  simp [quantSpec, ho, startNode, specOf_none.2 hp, hn, h1, h2]

/-- **C116.** An item whose own node is not quantized and that is no quantized parameter carries the spec of the closest quantized node that its node was derived from. -/
theorem spec_of_closest_ancestor (fxs : List (Fx σ)) (hw : WellNamed fxs) (x : Item σ) (node : Option String) (old new : List String) (a : String) (s : σ)
    (ho : x.origin = some ⟨node, old ++ a :: new⟩) (hp : ∀ f, node = some f → Plain fxs f) (hn : ∀ t, x.name = some t → ∀ r, ¬ ParamQuantized fxs t r)
    (hq : Quantized fxs a s) (hnew : ∀ b ∈ new, Plain fxs b) : (mark fxs x).props = some s := by
  apply mark_of
  have hstart : (startNode fxs x ⟨node, old ++ a :: new⟩).bind (specOf fxs) = none := by
    cases node with
    | none => rfl
    | some f =>
      have hf := specOf_none.2 (hp f rfl)
      simp only [startNode, Option.map_some, hf, Option.isNone_none, if_true, Option.bind_some]
      cases hm : x.name.bind (attrOf fxs) with
      | none => exact hf
      | some m =>
        obtain ⟨t, ht, hm⟩ := Option.bind_eq_some_iff.1 hm
        obtain ⟨h1, h2⟩ := attrOf_some hm
        have : specOf fxs m.name = none := by
          cases hs : specOf fxs m.name with
          | none => rfl
          | some r =>
            obtain ⟨y, hy, hyn, hys⟩ := specOf_some hs
            rw [nodup_unique hw.names hy h1 hyn] at hys
            exact absurd ⟨m, h1, h2, hys⟩ (hn t ht r)
        simp [this, hf]
  have hchain : (old ++ a :: new).reverse.findSome? (specOf fxs) = some s := by
    rw [List.reverse_append, List.reverse_cons, List.append_assoc, List.findSome?_append,
      findSome_plain (fun n hn => hnew n (List.mem_reverse.1 hn))]
    simp [(specOf_iff hw).2 hq]
  unfold quantSpec
  rw [ho]
  simp only [hstart, hchain]

/-- **C116.** Specs are not invented: an item carries what it carried before, or the spec of a quantized node or parameter that it mentions. -/
theorem only_specs_of_mentioned (fxs : List (Fx σ)) (hw : WellNamed fxs) (x : Item σ) :
    mark fxs x = x ∨ ∃ s n, (mark fxs x).props = some s ∧ Mentions x n ∧ (Quantized fxs n s ∨ ParamQuantized fxs n s) := by
  cases h : quantSpec fxs x with
  | none => left; unfold mark; rw [h]
  | some s =>
    right
    refine ⟨s, ?_⟩
    rw [mark_of h]
    have hb : byName fxs x = some s → ∃ n, Mentions x n ∧ (Quantized fxs n s ∨ ParamQuantized fxs n s) := by
      intro h
      unfold byName at h
      split at h
      · rename_i r hr
        obtain rfl := Option.some.inj h
        obtain ⟨n, hn, hr⟩ := Option.bind_eq_some_iff.1 hr
        exact ⟨n, .inl hn, .inl (specOf_some hr)⟩
      · obtain ⟨n, hn, hr⟩ := List.exists_of_findSome?_eq_some h
        exact ⟨n, .inr (.inl hn), .inl (specOf_some hr)⟩
    suffices ∃ n, Mentions x n ∧ (Quantized fxs n s ∨ ParamQuantized fxs n s) by
      obtain ⟨n, h1, h2⟩ := this; exact ⟨n, rfl, h1, h2⟩
    unfold quantSpec at h
    cases ho : x.origin with
    | none => rw [ho] at h; exact hb h
    | some o =>
      rw [ho] at h
      simp only at h
      split at h
      · rename_i r hr
        obtain rfl := Option.some.inj h
        obtain ⟨f, hf, hr⟩ := Option.bind_eq_some_iff.1 hr
        unfold startNode at hf
        obtain ⟨f0, hf0, hf⟩ := Option.map_eq_some_iff.1 hf
        have own : f0 = f → ∃ n, Mentions x n ∧ (Quantized fxs n r ∨ ParamQuantized fxs n r) := by
          rintro rfl
          exact ⟨f0, .inr (.inr ⟨o, ho, .inl hf0⟩), .inl (specOf_some hr)⟩
        split at hf
        · split at hf
          · rename_i m hm
            obtain ⟨t, ht, hm⟩ := Option.bind_eq_some_iff.1 hm
            obtain ⟨h1, h2⟩ := attrOf_some hm
            split at hf
            · subst hf
              obtain ⟨y, hy, hyn, hys⟩ := specOf_some hr
              rw [nodup_unique hw.names hy h1 hyn] at hys
              exact ⟨t, .inl ht, .inr ⟨m, h1, h2, hys⟩⟩
            · exact own hf
          · exact own hf
        · exact own hf
      · split at h
        · rename_i r hr
          obtain rfl := Option.some.inj h
          obtain ⟨n, hn, hr⟩ := List.exists_of_findSome?_eq_some hr
          exact ⟨n, .inr (.inr ⟨o, ho, .inr (List.mem_reverse.1 hn)⟩), .inl (specOf_some hr)⟩
        · exact hb h

/-- **C116.** An item that mentions no quantized node and no quantized parameter is unchanged. -/
theorem unquantized_unchanged (fxs : List (Fx σ)) (hw : WellNamed fxs) (x : Item σ)
    (h : ∀ n, Mentions x n → Plain fxs n ∧ ∀ s, ¬ ParamQuantized fxs n s) : mark fxs x = x := by
  rcases only_specs_of_mentioned fxs hw x with h1 | ⟨s, n, _, h2, h3 | h3⟩
  · exact h1
  · exact absurd h3 ((h n h2).1 s)
  · exact absurd h3 ((h n h2).2 s)

theorem find_mid {β : Type} {o : String} {e : β} {l r : List (String × β)} (hm : (o, e) ∈ l) (hu : ∀ e', (o, e') ∈ l → e' = e) :
    (l ++ r).find? (fun p => p.1 == o) = some (o, e) := by
  rw [List.find?_append]
  cases hf : l.find? (fun p => p.1 == o) with
  | none =>
    have := List.find?_eq_none.1 hf _ hm
    simp at this
  | some p =>
    obtain ⟨n, e'⟩ := p
    have h1 := List.find?_some hf
    simp only [beq_iff_eq] at h1
    subst h1
    rw [hu e' (List.mem_of_find?_eq_some hf)]
    rfl

/-- **C116 (partial).** In the encodings extracted from the annotated graph, the result of every node lowered from a quantized tensor has the encoding of
that tensor, if no other item of the graph has its name. Missing: nodes inside a lowering, see `inner_nodes_get_output_spec`. -/
theorem encoding_of_node_output_partial (fxs : List (Fx Spec)) (hw : WellNamed fxs) (g : Onnx Spec) (sch : Schema) (st st' : Enc.State)
    (h : Enc.extract sch st (toProto (annotate fxs g)) = .ok st') (x : Item Spec) (hx : x ∈ g.nodes) (f : String) (chain : List String) (s : Spec)
    (ho : x.origin = some ⟨some f, chain⟩) (hq : Quantized fxs f s) (n : String) (hn : n ∈ x.outputs)
    (hu : ∀ y ∈ g.nodes, n ∈ y.outputs → y = x) (hi : ∀ y ∈ g.inputs ++ g.inits, y.name ≠ some n) (hne : n ≠ "") :
    ∃ e, Enc.encodingOf sch s = some e ∧ (Enc.exported st' false).find? (fun p => p.1 == n) = some (n, e) := by
  have hm : (mark fxs x).props = some s := spec_of_own_node fxs hw x f chain s ho hq
  obtain ⟨hN, hI, hO, hT, _⟩ := every_item_annotated fxs g
  have hall := Enc.extract_first_wins sch st st' _ h false
  have hcall : (n, s, false) ∈ Enc.allCalls (toProto (annotate fxs g)) := by
    unfold Enc.allCalls
    refine List.mem_append_left _ (List.mem_append_right _ ?_)
    refine List.mem_filterMap.2 ⟨(n, some s), List.mem_flatMap.2 ⟨((mark fxs x).outputs, some s), ?_, ?_⟩, rfl⟩
    · simp only [toProto, hN, List.mem_map]
      exact ⟨mark fxs x, ⟨x, hx, rfl⟩, by rw [hm]⟩
    · rw [(mark_same fxs x).2.2]
      exact List.mem_map.2 ⟨n, hn, rfl⟩
  have hsome := (hall.2 _ hcall).1
  obtain ⟨e, he⟩ := Option.isSome_iff_exists.1 hsome
  refine ⟨e, he, ?_⟩
  rw [hall.1.2.2 n]
  unfold Enc.visited Enc.allCalls
  rw [List.filterMap_append]
  refine find_mid ?_ ?_
  · refine List.mem_filterMap.2 ⟨(n, s, false), ?_, ?_⟩
    · refine List.mem_append_right _ (List.mem_filterMap.2 ⟨(n, some s), List.mem_flatMap.2 ⟨((mark fxs x).outputs, some s), ?_, ?_⟩, rfl⟩)
      · simp only [toProto, hN, List.mem_map]
        exact ⟨mark fxs x, ⟨x, hx, rfl⟩, by rw [hm]⟩
      · rw [(mark_same fxs x).2.2]
        exact List.mem_map.2 ⟨n, hn, rfl⟩
    · simp [he]
  · intro e' he'
    obtain ⟨c, hc, hce⟩ := List.mem_filterMap.1 he'
    obtain ⟨cn, cs, cb⟩ := c
    have hname : cn = n ∧ Enc.encodingOf sch cs = some e' := by
      split at hce
      · obtain ⟨e2, h2, h3⟩ := Option.map_eq_some_iff.1 hce
        obtain ⟨h4, h5⟩ := Prod.mk.inj h3
        exact ⟨h4, by rw [← h5]; exact h2⟩
      · cases hce
    obtain ⟨rfl, hen⟩ := hname
    have named : ∀ (y : Item Spec), y ∈ g.inputs ++ g.inits → (mark fxs y).name.getD "" ≠ cn := by
      intro y hy
      rw [(mark_same fxs y).1]
      have := hi y hy
      cases hyn : y.name with
      | none => exact fun e => hne e.symm
      | some z => rw [hyn] at this; simpa using this
    have : cs = s := by
      rcases List.mem_append.1 hc with hc | hc
      · exfalso
        rcases List.mem_append.1 hc with hc | hc
        · obtain ⟨p, hp, hpe⟩ := List.mem_filterMap.1 hc
          simp only [toProto, hT, List.mem_map] at hp
          obtain ⟨_, ⟨y, hy, rfl⟩, rfl⟩ := hp
          obtain ⟨m, _, hme⟩ := Option.map_eq_some_iff.1 hpe
          exact named y (List.mem_append_right _ hy) (Prod.mk.inj hme).1
        · obtain ⟨p, hp, hpe⟩ := List.mem_filterMap.1 hc
          have hp := (List.mem_filter.1 hp).1
          simp only [toProto, hI, List.mem_map] at hp
          obtain ⟨_, ⟨y, hy, rfl⟩, rfl⟩ := hp
          obtain ⟨m, _, hme⟩ := Option.map_eq_some_iff.1 hpe
          exact named y (List.mem_append_left _ hy) (Prod.mk.inj hme).1
      · obtain ⟨p, hp, hpe⟩ := List.mem_filterMap.1 hc
        obtain ⟨q, hq', hpq⟩ := List.mem_flatMap.1 hp
        simp only [toProto, hN, List.mem_map] at hq'
        obtain ⟨_, ⟨y, hy, rfl⟩, rfl⟩ := hq'
        obtain ⟨nn, hnn, rfl⟩ := List.mem_map.1 hpq
        obtain ⟨m, hm', hme⟩ := Option.map_eq_some_iff.1 hpe
        have hcn : nn = cn := (Prod.mk.inj hme).1
        rw [(mark_same fxs y).2.2, hcn] at hnn
        rw [hu y hy hnn] at hm'
        have : m = s := by
          have h2 : (mark fxs x).props = some m := hm'
          rw [hm] at h2
          exact (Option.some.inj h2).symm
        rw [← this]
        exact ((Prod.mk.inj (Prod.mk.inj hme).2).1).symm
    rw [this] at hen
    rw [he] at hen
    exact (Option.some.inj hen).symm

/-! ### Deviations -/

/-- **C116, deviation.** All ONNX nodes that one quantized node is lowered to carry the spec of its result, also those that compute something else on the way. -/
theorem inner_nodes_get_output_spec (fxs : List (Fx σ)) (hw : WellNamed fxs) (f : String) (s : σ) (hq : Quantized fxs f s) (inner last : Item σ)
    (chain chain' : List String) (h1 : inner.origin = some ⟨some f, chain⟩) (h2 : last.origin = some ⟨some f, chain'⟩) (g : Onnx σ)
    (hg : g.nodes = [inner, last]) : (annotate fxs g).nodes.map (·.props) = [some s, some s] := by
  rw [(every_item_annotated fxs g).1, hg]
  simp [spec_of_own_node fxs hw inner f chain s h1 hq, spec_of_own_node fxs hw last f chain' s h2 hq]

/-- **C116, deviation.** So do nodes that come from a decomposition: the transposed weight of a linear layer is taken to be quantized like the
output of the layer. -/
theorem decomposed_gets_output_spec (s : σ) (out : Option String) :
    (mark [⟨"linear", none, some s⟩] ⟨out, some ⟨some "permute", ["linear"]⟩, ["permute"], none⟩).props = some s := by
  apply mark_of
  have h1 : specOf [(⟨"linear", none, some s⟩ : Fx σ)] "linear" = some s := by simp [specOf]
  have h2 : specOf [(⟨"linear", none, some s⟩ : Fx σ)] "permute" = none := by simp [specOf]
  have h3 : ∀ t, attrOf [(⟨"linear", none, some s⟩ : Fx σ)] t = none := by simp [attrOf]
  simp [quantSpec, startNode, h1, h2, h3]

/-- **C116, deviation.** A node that is named like a quantized node of the captured graph by coincidence, because names are given anew when the graph is decomposed, carries the spec of that node. -/
theorem spec_of_namesake (fxs : List (Fx σ)) (hw : WellNamed fxs) (x : Item σ) (n : String) (s : σ) (ho : x.origin = none) (hn : x.name = some n)
    (hq : Quantized fxs n s) : (mark fxs x).props = some s := by
  apply mark_of
  simp [quantSpec, ho, byName, hn, (specOf_iff hw).2 hq]

/-- **C116, deviation.** All results of a node with several get the spec of the node. -/
theorem all_results_get_spec (s : Spec) (a b : String) (rest : Proto) (h : rest.nodes = [([a, b], some s)]) (sch : Schema) (st st' : Enc.State)
    (he : Enc.extract sch st rest = .ok st') : a ∈ (Enc.exported st' false).map Prod.fst ∧ b ∈ (Enc.exported st' false).map Prod.fst := by
  have := (Enc.extract_covers sch st st' rest he).2.2.1 ([a, b], some s) (by rw [h]; simp) rfl
  exact ⟨this a (by simp), this b (by simp)⟩

/-! ### Concrete cases -/

/-- A quantized weight, a quantized input and a quantized linear layer. -/
def exFx : List (Fx ℕ) := [⟨"x", none, some 1⟩, ⟨"p_weight", some "weight", some 2⟩, ⟨"linear", none, some 3⟩, ⟨"relu", none, none⟩]

example : WellNamed exFx := ⟨by decide, by simp [exFx]⟩

def exOnnx : Onnx ℕ :=
  ⟨[⟨some "node_gemm", some ⟨some "linear", []⟩, ["linear"], none⟩, ⟨some "node_relu", some ⟨some "relu", []⟩, ["relu"], none⟩],
    [⟨some "x", none, [], none⟩], [(⟨some "relu", none, [], none⟩, some "node_relu")],
    [⟨some "weight", some ⟨some "arg", []⟩, [], none⟩]⟩

example : (annotate exFx exOnnx).nodes.map (·.props) = [some 3, none] := by decide +kernel

example : (annotate exFx exOnnx).inputs.map (·.props) = [some 1] ∧ (annotate exFx exOnnx).inits.map (·.props) = [some 2] := by decide +kernel

end FF.OnnxMeta
