import Verif.Orch.Trace

/-! # Tracing: the graph while it is built -/

namespace FF.Trace

open FF.Orch

variable {V W : Type}

/-! ### Well-formed graphs under construction -/

/-- Leaves only use leaves that are there before them. -/
def Ordered (folds : List ℕ) : List ℕ → List Node → Prop
  | _, [] => True
  | seen, n :: ns => (n.id ∉ folds → ∀ m, Ref.node m ∈ n.allArgs → m ∈ seen ∧ m ∉ folds) ∧ Ordered folds (n.id :: seen) ns

/-- A reference to an input, a constant or a leaf of the graph. -/
def Fine (g : Graph) (r : Ref) : Prop := r.unwrap = r ∧ r.Closed g ∧ ∀ m, r = .node m → m ∉ g.folds

/-- A graph whose ids are below `k`. -/
structure GraphOk (g : Graph) (k : ℕ) : Prop where
  closed : g.Closed
  plain : g.Plain
  fresh : ∀ n ∈ g.nodes, n.id < k
  simple : ∀ n ∈ g.nodes, ∀ r ∈ n.allArgs, r.unwrap = r
  ordered : Ordered g.folds [] g.nodes

/-- `g'` has all that is in `g`, and leaves stay leaves. -/
structure Ext (g g' : Graph) : Prop where
  inputs : ∀ x ∈ g.inputs, x ∈ g'.inputs
  find : ∀ id n, g.find? id = some n → g'.find? id = some n
  leaf : ∀ n ∈ g.nodes, n.id ∈ g'.folds → n.id ∈ g.folds

/-- Every leaf has a value. -/
def Live (sem : Sem V W) (w : W) (c : Ctx) (b : String → V) (g : Graph) : Prop := ∀ n ∈ g.nodes, n.id ∉ g.folds → ∃ v, Val sem g w c b (.node n.id) v

theorem ordered_append {folds seen : List ℕ} {a b : List Node} :
    Ordered folds seen (a ++ b) ↔ Ordered folds seen a ∧ Ordered folds ((a.map (·.id)).reverse ++ seen) b := by
  induction a generalizing seen with
  | nil => simp [Ordered]
  | cons n a ih => simp [Ordered, ih, and_assoc]

theorem ordered_mono {folds folds' seen seen' : List ℕ} {a : List Node} (hs : ∀ m ∈ seen, m ∉ folds → m ∈ seen' ∧ m ∉ folds')
    (hf : ∀ n ∈ a, n.id ∈ folds' ↔ n.id ∈ folds) (h : Ordered folds seen a) : Ordered folds' seen' a := by
  induction a generalizing seen seen' with
  | nil => trivial
  | cons n a ih =>
    refine ⟨fun hn m hm => ?_, ih ?_ (fun x hx => hf x (by simp [hx])) h.2⟩
    · obtain ⟨h1, h2⟩ := h.1 (fun hc => hn ((hf n (by simp)).2 hc)) m hm
      exact hs m h1 h2
    · intro m hm hnf
      rcases List.mem_cons.1 hm with rfl | hm
      · exact ⟨by simp, fun hc => hnf ((hf n (by simp)).1 hc)⟩
      · exact ⟨List.mem_cons_of_mem _ (hs m hm hnf).1, (hs m hm hnf).2⟩

theorem ordered_split {folds seen : List ℕ} {l p q : List Node} {n : Node} (h : Ordered folds seen l) (hl : l = p ++ n :: q) (hn : n.id ∉ folds) {m : ℕ}
    (hm : Ref.node m ∈ n.allArgs) : (m ∈ p.map (·.id) ∨ m ∈ seen) ∧ m ∉ folds := by
  subst hl
  rw [ordered_append] at h
  obtain ⟨h1, h2⟩ := h.2.1 hn m hm
  refine ⟨?_, h2⟩
  rcases List.mem_append.1 h1 with h1 | h1
  · exact Or.inl (List.mem_reverse.1 h1)
  · exact Or.inr h1

/-! ### Extensions -/

theorem Ext.refl (g : Graph) : Ext g g := ⟨fun _ h => h, fun _ _ h => h, fun _ _ h => h⟩

theorem exists_find {g : Graph} {id : ℕ} : (∃ n ∈ g.nodes, n.id = id) ↔ ∃ n, g.find? id = some n := by
  constructor
  · rintro ⟨n, hn, rfl⟩
    cases hf : g.find? n.id with
    | none => exact absurd rfl (find_none_iff.1 hf n hn)
    | some m => exact ⟨m, rfl⟩
  · rintro ⟨n, hn⟩
    exact ⟨n, (mem_of_find hn).1, (mem_of_find hn).2⟩

theorem Ext.exists {g g' : Graph} (h : Ext g g') {id : ℕ} (hi : ∃ n ∈ g.nodes, n.id = id) : ∃ n ∈ g'.nodes, n.id = id := by
  obtain ⟨n, hn⟩ := exists_find.1 hi
  exact exists_find.2 ⟨n, h.find id n hn⟩

theorem Ext.notFold {g g' : Graph} (h : Ext g g') {id : ℕ} (hi : ∃ n ∈ g.nodes, n.id = id) (hf : id ∉ g.folds) : id ∉ g'.folds := by
  obtain ⟨n, hn, rfl⟩ := hi
  exact fun hc => hf (h.leaf n hn hc)

theorem Ext.trans {g g' g'' : Graph} (h : Ext g g') (h' : Ext g' g'') : Ext g g'' := by
  refine ⟨fun x hx => h'.inputs x (h.inputs x hx), fun id n hn => h'.find id n (h.find id n hn), fun n hn hc => ?_⟩
  obtain ⟨n', hn', hid⟩ := h.exists ⟨n, hn, rfl⟩
  exact h.leaf n hn (hid ▸ h'.leaf n' hn' (hid ▸ hc))

theorem closed_ext {g g' : Graph} (h : Ext g g') {r : Ref} (hr : r.Closed g) : r.Closed g' :=
  ⟨fun id hid => h.exists (hr.1 id hid), fun x hx => h.inputs x (hr.2 x hx)⟩

theorem fine_ext {g g' : Graph} (h : Ext g g') {r : Ref} (hr : Fine g r) : Fine g' r := by
  refine ⟨hr.1, closed_ext h hr.2.1, fun m hm => ?_⟩
  subst hm
  exact h.notFold (hr.2.1.1 m rfl) (hr.2.2 m rfl)

theorem val_ext {sem : Sem V W} {w : W} {c : Ctx} {b : String → V} {g g' : Graph} (h : Ext g g') {r : Ref} {v : V} (hv : Val sem g w c b r v) :
    Val sem g' w c b r v := den_grow (fun id n hn => ⟨n, h.find id n hn, rfl, rfl, rfl⟩) h.inputs hv

theorem fine_const (g : Graph) (k : ℕ) : Fine g (.const k) := ⟨rfl, ⟨nofun, nofun⟩, nofun⟩

/-! ### Adding a node -/

theorem add_graph {g : Graph} {k : ℕ} (hg : GraphOk g k) (n : Node) (hid : n.id = k) (hd : n.delegate = none) (hr : ∀ r ∈ n.allArgs, Fine g r) :
    GraphOk { g with nodes := g.nodes ++ [n] } (k + 1) ∧ Ext g { g with nodes := g.nodes ++ [n] } ∧ Fine { g with nodes := g.nodes ++ [n] } (.node k) := by
  have hnew : ∀ m ∈ g.nodes, m.id ≠ n.id := fun m hm => by have := hg.fresh m hm; omega
  have hext : Ext g { g with nodes := g.nodes ++ [n] } := ⟨fun x hx => hx, fun id m hm => find_append rfl hm, fun m _ hc => hc⟩
  have hnf : k ∉ g.folds := fun hc => by
    obtain ⟨m, hm, hmk⟩ := hg.closed.folds k hc
    have := hg.fresh m hm
    omega
  refine ⟨⟨⟨?_, hg.closed.names, ?_, ?_, ?_, ?_⟩, ?_, ?_, ?_, ?_⟩, hext, rfl, ⟨?_, nofun⟩, ?_⟩
  · show ((g.nodes ++ [n]).map (·.id)).Nodup
    rw [List.map_append]
    refine List.nodup_append'.2 ⟨hg.closed.ids, by simp, ?_⟩
    intro id h1 h2
    obtain ⟨m, hm, rfl⟩ := List.mem_map.1 h1
    exact hnew m hm (by simpa using h2)
  · intro m hm r hr'
    rcases List.mem_append.1 hm with hm | hm
    · exact closed_ext hext (hg.closed.args m hm r hr')
    · rw [List.mem_singleton.1 hm] at hr'
      exact closed_ext hext (hr r hr').2.1
  · exact fun r hr' => closed_ext hext (hg.closed.outputs r hr')
  · exact fun p hp r hr' => closed_ext hext (hg.closed.bindings p hp r hr')
  · exact fun f hf => hext.exists (hg.closed.folds f hf)
  · intro m hm
    rcases List.mem_append.1 hm with hm | hm
    · exact hg.plain m hm
    · rw [List.mem_singleton.1 hm, hd]
  · intro m hm
    rcases List.mem_append.1 hm with hm | hm
    · have := hg.fresh m hm
      omega
    · rw [List.mem_singleton.1 hm, hid]
      omega
  · intro m hm r hr'
    rcases List.mem_append.1 hm with hm | hm
    · exact hg.simple m hm r hr'
    · rw [List.mem_singleton.1 hm] at hr'
      exact (hr r hr').1
  · show Ordered g.folds [] (g.nodes ++ [n])
    rw [ordered_append]
    refine ⟨hg.ordered, fun _ m hm => ?_, trivial⟩
    have h1 := hr _ hm
    obtain ⟨m', h2, h3⟩ := h1.2.1.1 m rfl
    exact ⟨by simp only [List.append_nil, List.mem_reverse, List.mem_map]; exact ⟨m', h2, h3⟩, h1.2.2 m rfl⟩
  · intro id h
    obtain rfl : k = id := by simpa [Ref.unwrap] using h
    exact ⟨n, by simp, hid⟩
  · rintro m h
    obtain rfl : k = m := by simpa using h
    exact hnf

theorem same_keys {α β : Type} {R : α → β → Prop} {l : List (String × α)} {m : List (String × β)} (h : List.Forall₂ (fun p q => p.1 = q.1 ∧ R p.2 q.2) l m) :
    l.map (·.1) = m.map (·.1) := by
  induction h with
  | nil => rfl
  | cons h _ ih => simp [h.1, ih]

/-- The new node has the value of its call. -/
theorem added_val {sem : Sem V W} {w : W} {c : Ctx} {b : String → V} {g : Graph} {k : ℕ} (hg : GraphOk g k) (n : Node) (hid : n.id = k)
    (hext : Ext g { g with nodes := g.nodes ++ [n] }) {vs : List V} {kvs : List (String × V)} {v : V}
    (ha : List.Forall₂ (Val sem g w c b) n.args vs) (hk : List.Forall₂ (fun p q => p.1 = q.1 ∧ Val sem g w c b p.2 q.2) n.kwargs kvs)
    (hc : sem.call w c n.target vs kvs = some v) (hl : Live sem w c b g) :
    Live sem w c b { g with nodes := g.nodes ++ [n] } ∧ Val sem { g with nodes := g.nodes ++ [n] } w c b (.node k) v := by
  have hfind : Graph.find? { g with nodes := g.nodes ++ [n] } k = some n := by
    unfold Graph.find?
    rw [List.find?_append]
    have : g.nodes.find? (fun m => m.id == k) = none := by
      rw [List.find?_eq_none]
      intro m hm
      have := hg.fresh m hm
      simp only [beq_iff_eq]
      omega
    rw [this]
    simp [hid]
  have hkeys : n.kwargs.map (·.1) = kvs.map (·.1) := same_keys hk
  have hvals : List.Forall₂ (Val sem g w c b) (n.kwargs.map (·.2)) (kvs.map (·.2)) := by
    rw [List.forall₂_map_left_iff, List.forall₂_map_right_iff]
    exact hk.imp fun _ _ h => h.2
  have hval : Val sem { g with nodes := g.nodes ++ [n] } w c b (.node k) v := by
    refine node_val (vs := vs ++ kvs.map (·.2)) hfind ?_ ?_
    · exact List.rel_append (ha.imp fun _ _ h => val_ext hext h) (hvals.imp fun _ _ h => val_ext hext h)
    · have hlen : n.args.length = vs.length := ha.length_eq
      rw [hlen, List.take_left, List.drop_left, hkeys]
      have : (kvs.map (·.1)).zip (kvs.map (·.2)) = kvs := by
        clear hk hkeys hvals hc
        induction kvs with
        | nil => rfl
        | cons p kvs ih => simp [ih]
      rw [this]
      exact hc
  refine ⟨fun m hm hf => ?_, hval⟩
  rcases List.mem_append.1 hm with hm | hm
  · obtain ⟨u, hu⟩ := hl m hm hf
    exact ⟨u, val_ext hext hu⟩
  · rw [List.mem_singleton.1 hm, hid]
    exact ⟨v, hval⟩

/-! ### Inlining a graph -/

theorem subst_fine {sub g : Graph} {σ : String → Ref} (hσ : ∀ x ∈ sub.inputs, Fine g (σ x)) {r : Ref} (hu : r.unwrap = r) (hc : r.Closed sub) :
    (r.subst σ).unwrap = r.subst σ ∧ (∀ m, r.subst σ = .node m → r = .node m ∨ ∃ x ∈ sub.inputs, r = .input x ∧ σ x = .node m) ∧
      (∀ y, r.subst σ = .input y → y ∈ g.inputs) := by
  cases r with
  | node id => exact ⟨rfl, fun m h => Or.inl h, nofun⟩
  | const k => exact ⟨rfl, nofun, nofun⟩
  | input x =>
    have hx := hc.2 x rfl
    refine ⟨(hσ x hx).1, fun m h => Or.inr ⟨x, hx, rfl, h⟩, fun y h => (hσ x hx).2.1.2 y ?_⟩
    have h : σ x = .input y := h
    rw [h]
    rfl
  | attr q a =>
    exfalso
    have : ∀ r : Ref, ∀ q a, r.unwrap ≠ .attr q a := by
      intro r
      induction r with
      | attr r _ ih => exact fun q a => ih q a
      | _ => exact fun q a => nofun
    exact this _ _ _ hu

theorem mem_set_or {α : Type} {d : List (ℕ × α)} {k : ℕ} {v : α} {p : ℕ × α} (hp : p ∈ Dict.set d k v) : p ∈ d ∨ p = (k, v) := by
  induction d with
  | nil => exact Or.inr (by simpa [Dict.set] using hp)
  | cons q d ihd =>
    unfold Dict.set at hp
    split at hp
    · rcases List.mem_cons.1 hp with hp | hp
      · exact Or.inr hp
      · exact Or.inl (by simp [hp])
    · rcases List.mem_cons.1 hp with hp | hp
      · exact Or.inl (by simp [hp])
      · rcases ihd hp with h | h
        · exact Or.inl (by simp [h])
        · exact Or.inr h

/-- What holds of all bindings, after inlining. -/
theorem inlineAll_bindings {sub : Graph} {b : List (String × Ref)} {name : String} {fold : Option ℕ} {Q : Ref → Prop}
    (hb : ∀ p ∈ sub.bindings, ∀ rs', p.2.mapM (sub.remapIn b) = .ok rs' → ∀ r ∈ rs', Q r) (ns : List Node) (g g' : Graph)
    (hg : ∀ p ∈ g.bindings, ∀ r ∈ p.2, Q r) (h : sub.inlineAll b name fold ns g = (g', none)) : ∀ p ∈ g'.bindings, ∀ r ∈ p.2, Q r := by
  induction ns generalizing g with
  | nil =>
    simp only [Graph.inlineAll, Prod.mk.injEq, and_true] at h
    rw [← h]
    exact hg
  | cons n ns ih =>
    simp only [Graph.inlineAll] at h
    cases h1 : sub.inlined b name fold n with
    | error e => rw [h1] at h; simp at h
    | ok n' =>
      rw [h1] at h
      simp only at h
      cases h2 : g.addNode n' with
      | error e => rw [h2] at h; simp at h
      | ok g1 =>
        rw [h2] at h
        simp only at h
        have hg1 : ∀ p ∈ g1.bindings, ∀ r ∈ p.2, Q r := by
          unfold Graph.addNode at h2
          split at h2
          · simp at h2
          · rw [← Except.ok.inj h2]
            exact hg
        cases h3 : sub.copyFold b n g1 with
        | error e => rw [h3] at h; simp at h
        | ok g2 =>
          rw [h3] at h
          refine ih g2 ?_ h
          unfold Graph.copyFold at h3
          split at h3
          · cases h4 : Dict.get sub.bindings n.id with
            | none =>
              rw [h4] at h3
              rw [← Except.ok.inj h3]
              exact hg1
            | some rs =>
              rw [h4] at h3
              simp only at h3
              cases h5 : rs.mapM (sub.remapIn b) with
              | error e => rw [h5] at h3; simp at h3
              | ok rs' =>
                rw [h5] at h3
                rw [← Except.ok.inj h3]
                intro p hp r hr
                have hp : p ∈ Dict.set g1.bindings n.id rs' := hp
                have hor := mem_set_or hp
                rcases hor with hp | rfl
                · exact hg1 p hp r hr
                · exact hb _ (Dict.get_mem h4) rs' h5 r hr
          · rw [← Except.ok.inj h3]
            exact hg1

/-- The bindings after inlining refer to what is in the graph. -/
theorem addSubgraph_bindings {g sub g' : Graph} {name : String} {args : List Ref} {kwargs : List (String × Ref)} {original : Option (ℕ × ℕ)} {outs : List Ref}
    (hs : sub.Closed) (hp : PartFree sub.inputs) (h : g.addSubgraph name sub args kwargs original = (g', .ok outs)) {Q : Ref → Prop}
    (hg : ∀ p ∈ g.bindings, ∀ r ∈ p.2, Q r) (hsub : ∀ p ∈ sub.bindings, ∀ r ∈ p.2, Q (r.subst (sigma sub.inputs args kwargs)))
    (hin : ∀ x r, Bound sub.inputs args kwargs x r → Q r) : ∀ p ∈ g'.bindings, ∀ r ∈ p.2, Q r := by
  unfold Graph.addSubgraph at h
  split_ifs at h with ho
  · simp at h
  · cases hb : bindSub sub.inputs args kwargs with
    | error e => rw [hb] at h; simp at h
    | ok b =>
      rw [hb] at h
      simp only at h
      obtain ⟨hacc, rfl⟩ := bindSub_iff.1 hb
      cases hi : sub.inlineAll (sub.inputs.zip args ++ kwargs) name (original.map (·.1)) sub.foldsFirst
          (g.addFold sub (sub.inputs.zip args ++ kwargs) name kwargs original) with
      | mk g1 e =>
        rw [hi] at h
        cases e with
        | some e => simp at h
        | none =>
          simp only [Prod.mk.injEq] at h
          obtain ⟨rfl, h⟩ := h
          refine inlineAll_bindings (Q := Q) ?_ _ _ _ ?_ hi
          · intro p hpm rs' hrs r hr
            rw [mapM_ok_of (k := Ref.subst (sigma sub.inputs args kwargs)) fun r hr => remap_subst (bound_keys hs.names hacc).2 hp r (hs.bindings p hpm r hr)] at hrs
            rw [← Except.ok.inj hrs] at hr
            obtain ⟨q, hq, rfl⟩ := List.mem_map.1 hr
            exact hsub p hpm q hq
          · cases original with
            | none => exact hg
            | some o =>
              intro p hpm r hr
              have hpm : p ∈ Dict.set g.bindings o.1 (sub.inputs.filterMap (Dict.get (sub.inputs.zip args ++ kwargs))) := hpm
              rcases mem_set_or hpm with hpm | rfl
              · exact hg p hpm r hr
              · obtain ⟨x, _, hx⟩ := List.mem_filterMap.1 hr
                exact hin x r ((get_bound hs.names hacc).1 hx)

theorem ordered_leaves {folds : List ℕ} {l : List Node} {seen seen' : List ℕ} (hs : ∀ m ∈ seen, m ∉ folds → m ∈ seen') (h : Ordered folds seen l) :
    Ordered folds seen' (l.filter fun n => !folds.contains n.id) := by
  induction l generalizing seen seen' with
  | nil => trivial
  | cons n l ih =>
    rw [List.filter_cons]
    by_cases hn : n.id ∈ folds
    · rw [if_neg (by simp [hn])]
      refine ih ?_ h.2
      intro m hm hnf
      rcases List.mem_cons.1 hm with rfl | hm
      · exact absurd hn hnf
      · exact hs m hm hnf
    · rw [if_pos (by simp [hn])]
      refine ⟨fun h1 m hm => ?_, ih ?_ h.2⟩
      · obtain ⟨h2, h3⟩ := h.1 h1 m hm
        exact ⟨hs m h2 h3, h3⟩
      · intro m hm hnf
        rcases List.mem_cons.1 hm with rfl | hm
        · simp
        · exact List.mem_cons_of_mem _ (hs m hm hnf)

theorem ordered_folds {folds : List ℕ} {l : List Node} (seen : List ℕ) (h : ∀ n ∈ l, n.id ∈ folds) : Ordered folds seen l := by
  induction l generalizing seen with
  | nil => trivial
  | cons n l ih => exact ⟨fun hn => absurd (h n (by simp)) hn, ih _ fun m hm => h m (by simp [hm])⟩

theorem addSubgraph_nodes {g sub g' : Graph} {name : String} {args : List Ref} {kwargs : List (String × Ref)} {fid target : ℕ} {outs : List Ref}
    (hs : sub.Closed) (hp : PartFree sub.inputs) (h : g.addSubgraph name sub args kwargs (some (fid, target)) = (g', .ok outs)) :
    g'.nodes = g.nodes ++ sub.foldNode (sub.inputs.zip args ++ kwargs) name kwargs fid target ::
      sub.foldsFirst.map (substNode (sigma sub.inputs args kwargs) name (some fid)) := by
  unfold Graph.addSubgraph at h
  split_ifs at h with ho
  · simp at h
  · cases hb : bindSub sub.inputs args kwargs with
    | error e => rw [hb] at h; simp at h
    | ok b =>
      rw [hb] at h
      simp only at h
      obtain ⟨hacc, rfl⟩ := bindSub_iff.1 hb
      have hremap : ∀ r : Ref, r.Closed sub → sub.remapIn (sub.inputs.zip args ++ kwargs) r = .ok (r.subst (sigma sub.inputs args kwargs)) :=
        fun r hr => remap_subst (bound_keys hs.names hacc).2 hp r hr
      obtain ⟨_, hres⟩ := inlineAll_spec (name := name) (fold := some fid) (fun p hpm r hr => hremap r (hs.bindings p hpm r hr))
        sub.foldsFirst (fun n hn r hr => hremap r (hs.args n (foldsFirst_mem.1 hn) r hr))
        (g.addFold sub (sub.inputs.zip args ++ kwargs) name kwargs (some (fid, target)))
      cases hi : sub.inlineAll (sub.inputs.zip args ++ kwargs) name (some fid) sub.foldsFirst
          (g.addFold sub (sub.inputs.zip args ++ kwargs) name kwargs (some (fid, target))) with
      | mk g1 e =>
        rw [show Option.map (fun x : ℕ × ℕ => x.1) (some (fid, target)) = some fid from rfl, hi] at h
        cases e with
        | some e => simp at h
        | none =>
          simp only [Prod.mk.injEq] at h
          obtain ⟨rfl, _⟩ := h
          rw [(hres g1 hi).1]
          simp [Graph.addFold]

/-- Inlining a graph: what is built stays well formed, and its outputs and all its leaves have their values. -/
theorem inline_ok {g sub g' : Graph} {k : ℕ} (hg : GraphOk g k) (hs : GraphOk sub k) (hout : ∀ r ∈ sub.outputs, Fine sub r) (hp : PartFree sub.inputs)
    {name : String} {args : List Ref} {kwargs : List (String × Ref)} {target : ℕ} {outs : List Ref} (hargs : ∀ r ∈ args, Fine g r)
    (hkwargs : ∀ p ∈ kwargs, Fine g p.2) (h : g.addSubgraph name sub args kwargs (some (k, target)) = (g', .ok outs)) :
    GraphOk g' (k + 1) ∧ Ext g g' ∧ g'.inputs = g.inputs ∧ g'.outputs = g.outputs ∧ (∀ r ∈ outs, Fine g' r) ∧ sub.outputs ≠ [] ∧
    ∀ (sem : Sem V W) (w : W) (c : Ctx) (b b' : String → V), (∀ x r, Bound sub.inputs args kwargs x r → Val sem g w c b r (b' x)) →
      Live sem w c b g → Live sem w c b' sub → Live sem w c b g' ∧
      List.Forall₂ (fun r r' => ∀ v, Val sem sub w c b' r v → Val sem g' w c b r' v) sub.outputs outs := by
  obtain ⟨hacc, houts, hinp, ho, hdis, _, hfolds⟩ := addSubgraph_spec hs.closed hp h
  have hnodes := addSubgraph_nodes hs.closed hp h
  have hfresh : FreshFold g sub (some (k, target)) := by
    intro p hpe
    cases hpe
    exact ⟨fun n hn => by have := hg.fresh n hn; simp only; omega, fun n hn => by have := hs.fresh n hn; simp only; omega⟩
  obtain ⟨f1, f2⟩ := addSubgraph_find hs.closed hp hfresh h
  have hne : sub.outputs ≠ [] := ((inlining_accepted_iff g sub name args kwargs (some (k, target)) hs.closed hp hfresh).1.1 ⟨outs, by rw [h]⟩).1
  have hbound : ∀ x r, Bound sub.inputs args kwargs x r → Fine g r := by
    intro x r hb
    cases hb with
    | pos _ h2 => exact hargs r (List.mem_of_getElem? h2)
    | kw h1 => exact hkwargs _ h1
  set σ := sigma sub.inputs args kwargs with hσdef
  have hσ : ∀ x ∈ sub.inputs, Bound sub.inputs args kwargs x (σ x) := fun x hx => sigma_bound hs.closed.names hacc hx
  have hσf : ∀ x ∈ sub.inputs, Fine g (σ x) := fun x hx => hbound x _ (hσ x hx)
  -- folds
  have hfoldmem : ∀ id, id ∈ g'.folds ↔ id ∈ g.folds ∨ id = k ∨ id ∈ sub.folds := by
    intro id
    rw [hfolds]
    simp only [List.mem_append, Option.map_some, Option.toList_some, List.mem_singleton, List.mem_map, List.mem_filter, or_assoc]
    constructor
    · rintro (h | h | ⟨n, ⟨_, h⟩, rfl⟩)
      · exact Or.inl h
      · exact Or.inr (Or.inl h)
      · exact Or.inr (Or.inr (by simpa using h))
    · rintro (h | h | h)
      · exact Or.inl h
      · exact Or.inr (Or.inl h)
      · obtain ⟨n, hn, rfl⟩ := hs.closed.folds id h
        exact Or.inr (Or.inr ⟨n, ⟨foldsFirst_mem.2 hn, by simpa using h⟩, rfl⟩)
  have hdisj : ∀ n ∈ g.nodes, ∀ m ∈ sub.nodes, n.id ≠ m.id := fun n hn m hm => find_none_iff.1 (hdis m hm) n hn
  have hgleaf : ∀ n ∈ g.nodes, n.id ∈ g'.folds ↔ n.id ∈ g.folds := by
    intro n hn
    rw [hfoldmem]
    constructor
    · rintro (h | h | h)
      · exact h
      · have := hg.fresh n hn
        omega
      · obtain ⟨m, hm, he⟩ := hs.closed.folds _ h
        exact absurd he.symm (hdisj n hn m hm)
    · exact Or.inl
  have hsleaf : ∀ n ∈ sub.nodes, n.id ∈ g'.folds ↔ n.id ∈ sub.folds := by
    intro n hn
    rw [hfoldmem]
    constructor
    · rintro (h | h | h)
      · obtain ⟨m, hm, he⟩ := hg.closed.folds _ h
        exact absurd he (hdisj m hm n hn)
      · have := hs.fresh n hn
        omega
      · exact h
    · exact fun h => Or.inr (Or.inr h)
  have hext : Ext g g' := by
    refine ⟨fun x hx => hinp ▸ hx, fun id n hn => ?_, fun n hn hc => (hgleaf n hn).1 hc⟩
    rw [f1 id (exists_find.2 ⟨n, hn⟩)]
    exact hn
  have hsubin : ∀ n ∈ sub.nodes, ∃ m ∈ g'.nodes, m.id = n.id := by
    intro n hn
    refine ⟨substNode σ name (some k) n, ?_, rfl⟩
    rw [hnodes]
    simp only [List.mem_append, List.mem_cons, List.mem_map]
    exact Or.inr (Or.inr ⟨n, foldsFirst_mem.2 hn, rfl⟩)
  have hsubst : ∀ r : Ref, r.unwrap = r → r.Closed sub → (r.subst σ).Closed g' := by
    intro r hu hc
    obtain ⟨h1, h2, h3⟩ := subst_fine hσf hu hc
    refine ⟨fun id hid => ?_, fun x hx => ?_⟩
    · rw [h1] at hid
      rcases h2 id hid with rfl | ⟨x, hx, _, hx2⟩
      · obtain ⟨n, hn, he⟩ := hc.1 id rfl
        exact he ▸ hsubin n hn
      · exact hext.exists ((hσf x hx).2.1.1 id (by rw [hx2]; rfl))
    · rw [h1] at hx
      rw [hinp]
      exact h3 x hx
  have hsubstfine : ∀ r : Ref, Fine sub r → Fine g' (r.subst σ) := by
    intro r hr
    obtain ⟨h1, h2, _⟩ := subst_fine hσf hr.1 hr.2.1
    refine ⟨h1, hsubst r hr.1 hr.2.1, fun m hm => ?_⟩
    rcases h2 m hm with rfl | ⟨x, hx, _, hx2⟩
    · obtain ⟨n, hn, rfl⟩ := hr.2.1.1 m rfl
      exact fun hc => hr.2.2 _ rfl ((hsleaf n hn).1 hc)
    · exact (fine_ext hext (hσf x hx)).2.2 m hx2
  have hfoldargs : ∀ r ∈ (sub.foldNode (sub.inputs.zip args ++ kwargs) name kwargs k target).allArgs, Fine g r := by
    intro r hr
    rcases List.mem_append.1 hr with hr | hr
    · obtain ⟨x, _, hx⟩ := List.mem_filterMap.1 hr
      exact hbound x r ((get_bound hs.closed.names hacc).1 hx)
    · obtain ⟨p, hp, rfl⟩ := List.mem_map.1 hr
      exact hkwargs p hp
  have hmem : ∀ n ∈ g'.nodes, n ∈ g.nodes ∨ n = sub.foldNode (sub.inputs.zip args ++ kwargs) name kwargs k target ∨
      ∃ m ∈ sub.nodes, n = substNode σ name (some k) m := by
    intro n hn
    rw [hnodes] at hn
    rcases List.mem_append.1 hn with hn | hn
    · exact Or.inl hn
    · rcases List.mem_cons.1 hn with hn | hn
      · exact Or.inr (Or.inl hn)
      · obtain ⟨m, hm, rfl⟩ := List.mem_map.1 hn
        exact Or.inr (Or.inr ⟨m, foldsFirst_mem.1 hm, rfl⟩)
  have hargs' : ∀ n ∈ g'.nodes, ∀ r ∈ n.allArgs, r.unwrap = r ∧ r.Closed g' := by
    intro n hn r hr
    rcases hmem n hn with hn | rfl | ⟨m, hm, rfl⟩
    · exact ⟨hg.simple n hn r hr, closed_ext hext (hg.closed.args n hn r hr)⟩
    · exact ⟨(hfoldargs r hr).1, closed_ext hext (hfoldargs r hr).2.1⟩
    · rw [substNode_allArgs] at hr
      obtain ⟨q, hq, rfl⟩ := List.mem_map.1 hr
      have h1 := hs.simple m hm q hq
      have h2 := hs.closed.args m hm q hq
      exact ⟨(subst_fine hσf h1 h2).1, hsubst q h1 h2⟩
  have hids : (sub.foldsFirst.map (substNode σ name (some k))).map (·.id) = sub.foldsFirst.map (·.id) := by simp [substNode]
  refine ⟨⟨⟨?_, by rw [hinp]; exact hg.closed.names, fun n hn r hr => (hargs' n hn r hr).2, ?_, ?_, ?_⟩, ?_, ?_, fun n hn r hr => (hargs' n hn r hr).1, ?_⟩,
    hext, hinp, ho, ?_, hne, ?_⟩
  · show (g'.nodes.map (·.id)).Nodup
    rw [hnodes, List.map_append, List.map_cons, hids]
    have hnd : (sub.foldsFirst.map (·.id)).Nodup := ((foldsFirst_perm sub).map _).nodup_iff.2 hs.closed.ids
    refine List.nodup_append'.2 ⟨hg.closed.ids, List.nodup_cons.2 ⟨?_, hnd⟩, ?_⟩
    · intro hc
      obtain ⟨m, hm, he⟩ := List.mem_map.1 hc
      have he : m.id = k := he
      have := hs.fresh m (foldsFirst_mem.1 hm)
      omega
    · intro id h1 h2
      obtain ⟨n, hn, rfl⟩ := List.mem_map.1 h1
      rcases List.mem_cons.1 h2 with h2 | h2
      · have h2 : n.id = k := h2
        have := hg.fresh n hn
        omega
      · obtain ⟨m, hm, he⟩ := List.mem_map.1 h2
        exact hdisj n hn m (foldsFirst_mem.1 hm) he.symm
  · rw [ho]
    exact fun r hr => closed_ext hext (hg.closed.outputs r hr)
  · refine addSubgraph_bindings hs.closed hp h (fun p hpm r hr => closed_ext hext (hg.closed.bindings p hpm r hr)) (fun p hpm r hr => ?_)
      fun x r hb => closed_ext hext (hbound x r hb).2.1
    -- bindings of folds refer to what is in the subgraph
    have hc := hs.closed.bindings p hpm r hr
    clear h hpm hr
    have key : ∀ r : Ref, r.Closed sub → (r.subst σ).Closed g' := by
      intro r
      induction r with
      | attr q a ih => exact fun hq => ih hq
      | _ => exact fun hq => hsubst _ rfl hq
    exact key r hc
  · intro f hf
    rcases (hfoldmem f).1 hf with hf | rfl | hf
    · exact hext.exists (hg.closed.folds f hf)
    · exact ⟨sub.foldNode (sub.inputs.zip args ++ kwargs) name kwargs f target, by rw [hnodes]; simp, rfl⟩
    · obtain ⟨n, hn, rfl⟩ := hs.closed.folds f hf
      exact hsubin n hn
  · intro n hn
    rcases hmem n hn with hn | rfl | ⟨m, hm, rfl⟩
    · exact hg.plain n hn
    · rfl
    · rfl
  · intro n hn
    rcases hmem n hn with hn | rfl | ⟨m, hm, rfl⟩
    · have := hg.fresh n hn
      omega
    · show k < k + 1
      omega
    · have := hs.fresh m hm
      show m.id < k + 1
      omega
  · rw [hnodes, ordered_append]
    refine ⟨ordered_mono (by simp) hgleaf hg.ordered, fun hn => absurd ((hfoldmem _).2 (Or.inr (Or.inl rfl))) hn, ?_⟩
    unfold Graph.foldsFirst
    rw [List.map_append, ordered_append]
    refine ⟨ordered_folds _ fun n hn => ?_, ?_⟩
    · obtain ⟨m, hm, rfl⟩ := List.mem_map.1 hn
      obtain ⟨h1, h2⟩ := List.mem_filter.1 hm
      exact (hsleaf m h1).2 (by simpa using h2)
    · have hord := ordered_leaves (seen' := []) (by simp) hs.ordered
      have hall : ∀ n ∈ sub.nodes.filter (fun n => !sub.folds.contains n.id), n ∈ sub.nodes ∧ n.id ∉ sub.folds := by
        intro n hn
        obtain ⟨h1, h2⟩ := List.mem_filter.1 hn
        exact ⟨h1, by simpa using h2⟩
      have key : ∀ (l : List Node) (seen seen' : List ℕ), (∀ n ∈ l, n ∈ sub.nodes ∧ n.id ∉ sub.folds) →
          (∀ m ∈ seen, m ∈ seen') → (∀ n ∈ g.nodes, n.id ∈ seen') → Ordered sub.folds seen l →
          Ordered g'.folds seen' (l.map (substNode σ name (some k))) := by
        intro l
        induction l with
        | nil => exact fun _ _ _ _ _ _ => trivial
        | cons n l ih =>
          intro seen seen' hl h1 h2 h3
          refine ⟨fun _ m hm => ?_, ih (n.id :: seen) (n.id :: seen') (fun x hx => hl x (by simp [hx])) ?_ ?_ h3.2⟩
          · rw [substNode_allArgs] at hm
            obtain ⟨q, hq, he⟩ := List.mem_map.1 hm
            obtain ⟨hn1, hn2⟩ := hl n (by simp)
            obtain ⟨_, q2, _⟩ := subst_fine hσf (hs.simple n hn1 q hq) (hs.closed.args n hn1 q hq)
            rcases q2 m he with rfl | ⟨x, hx, _, hx2⟩
            · obtain ⟨a1, a2⟩ := h3.1 hn2 m hq
              obtain ⟨n', hn', rfl⟩ := (hs.closed.args n hn1 _ hq).1 m rfl
              exact ⟨h1 _ a1, fun hc => a2 ((hsleaf n' hn').1 hc)⟩
            · have hf := hσf x hx
              obtain ⟨n', hn', he'⟩ := hf.2.1.1 m (by rw [hx2]; rfl)
              refine ⟨he' ▸ h2 n' hn', fun hc => hf.2.2 m hx2 ?_⟩
              rw [← he'] at hc ⊢
              exact (hgleaf n' hn').1 hc
          · intro m hm
            rcases List.mem_cons.1 hm with rfl | hm
            · simp
            · exact List.mem_cons_of_mem _ (h1 m hm)
          · exact fun x hx => List.mem_cons_of_mem _ (h2 x hx)
      refine key _ [] _ hall (by simp) (fun n hn => ?_) hord
      simp only [List.mem_append, List.mem_reverse, List.mem_map, List.mem_cons]
      exact Or.inr (Or.inr (Or.inl ⟨n, hn, rfl⟩))
  · intro r hr
    rw [houts] at hr
    obtain ⟨q, hq, rfl⟩ := List.mem_map.1 hr
    exact hsubstfine q (hout q hq)
  · intro sem w c b b' hin hl hls
    have hden : ∀ x ∈ sub.inputs, Den sem g' (fun x => [b x]) (fun _ => w) c (σ x) [b' x] := fun x hx => val_ext hext (hin x _ (hσ x hx))
    have hv : ∀ r : Ref, r.Closed sub → ∀ v, Val sem sub w c b' r v → Val sem g' w c b (r.subst σ) v := fun r hr v h =>
      (den_subst hs.closed f2 (inp' := fun x => [b' x]) hden hr).2 h
    refine ⟨fun n hn hf => ?_, ?_⟩
    · rcases hmem n hn with hn | rfl | ⟨m, hm, rfl⟩
      · obtain ⟨v, h⟩ := hl n hn fun hc => hf ((hgleaf n hn).2 hc)
        exact ⟨v, val_ext hext h⟩
      · exact absurd ((hfoldmem _).2 (Or.inr (Or.inl rfl))) hf
      · obtain ⟨v, h⟩ := hls m hm fun hc => hf ((hsleaf m hm).2 hc)
        exact ⟨v, hv (.node m.id) ⟨fun id hid => ⟨m, hm, by simpa [Ref.unwrap] using hid⟩, nofun⟩ v h⟩
    · rw [houts, List.forall₂_map_right_iff, List.forall₂_same]
      exact fun r hr => hv r (hout r hr).2.1

end FF.Trace
