import Verif.Orch.Extract
import Verif.Orch.SubgraphProps

/-! # Extracting a part of a graph (C76) -/

namespace FF.Orch

variable {V W : Type}

/-! ### Specification -/

/-- The reference is to something outside the chosen nodes: an input of the graph, another node, or a part of one. -/
def FromOutside (path : List ℕ) (r : Ref) : Prop := (∃ x, r.unwrap = .input x) ∨ ∃ id, r.unwrap = .node id ∧ id ∉ path

/-- A reference that a chosen node takes from outside. -/
def TakesFromOutside (g : Graph) (path : List ℕ) (r : Ref) : Prop :=
  ∃ id ∈ path, ∃ n ∈ g.nodes, n.id = id ∧ r ∈ n.allArgs ∧ FromOutside path r

/-- The name of a node or of an input. -/
inductive Named (g : Graph) : Ref → String → Prop
  | input {x : String} : Named g (.input x) x
  | node {n : Node} : n ∈ g.nodes → Named g (.node n.id) n.name

/-- The name of the input that stands for a reference: the name of the node or input, or that name with the attribute in brackets. -/
inductive StandsFor (g : Graph) : String → Ref → Prop
  | whole {r : Ref} {x : String} : Named g r x → StandsFor g x r
  | idx {r : Ref} {x : String} {i : ℤ} : Named g r.unwrap x → StandsFor g (x ++ "[" ++ toString i ++ "]") (.attr r (.idx i))
  | key {r : Ref} {x k : String} : Named g r.unwrap x → StandsFor g (x ++ "[" ++ k ++ "]") (.attr r (.key k))

/-- No node outside has the name of a chosen node. -/
def NamesApart (g : Graph) (path : List ℕ) : Prop := ∀ n ∈ g.nodes, ∀ m ∈ g.nodes, n.id ∈ path → m.id ∉ path → n.name ≠ m.name

/-! ### Lemmas -/

theorem externalRef_iff {path : List ℕ} {r : Ref} : externalRef path r = true ↔ FromOutside path r := by
  unfold externalRef FromOutside
  cases h : r.unwrap with
  | input x => simp
  | node id => simp
  | const k => simp
  | attr r a => simp

theorem unwrap_unwrap (r : Ref) : r.unwrap.unwrap = r.unwrap := by
  induction r with
  | attr r a ih => exact ih
  | _ => rfl

theorem nameOf_eq {g : Graph} (hu : g.UniqueIds) {n : Node} (hn : n ∈ g.nodes) : g.nameOf n.id = n.name := by
  unfold Graph.nameOf
  rw [find_of_mem hu hn]
  rfl

theorem foldl_appendNew {α : Type} [DecidableEq α] (l acc : List α) : (∀ x, x ∈ l.foldl appendNew acc ↔ x ∈ acc ∨ x ∈ l) ∧
    (acc.Nodup → (l.foldl appendNew acc).Nodup) := by
  induction l generalizing acc with
  | nil => simp
  | cons y l ih =>
    obtain ⟨h1, h2⟩ := ih (appendNew acc y)
    have hm : ∀ x, x ∈ appendNew acc y ↔ x ∈ acc ∨ x = y := by
      intro x
      unfold appendNew
      by_cases hy : y ∈ acc
      · rw [if_pos hy]
        constructor
        · exact Or.inl
        · rintro (h | rfl)
          · exact h
          · exact hy
      · rw [if_neg hy]; simp
    refine ⟨fun x => ?_, fun hn => h2 ?_⟩
    · rw [List.foldl_cons, h1, hm]
      simp [or_assoc]
    · unfold appendNew
      by_cases hy : y ∈ acc
      · rw [if_pos hy]; exact hn
      · rw [if_neg hy]
        exact List.nodup_append'.2 ⟨hn, by simp, by simpa using hy⟩

theorem get_self {names : List String} {x : String} (h : x ∈ names) : Dict.get (names.map fun x => (x, Ref.input x)) x = some (.input x) := by
  induction names with
  | nil => simp at h
  | cons y names ih =>
    rw [List.map_cons]
    unfold Dict.get
    by_cases hy : y = x
    · rw [if_pos hy, hy]
    · rw [if_neg hy]
      exact ih (by simpa [Ne.symm hy] using h)

/-- A reference in the extracted graph. -/
def lift (nameOf : ℕ → String) (path : List ℕ) : Ref → Ref
  | .attr r a => if externalRef path (.attr r a) then .input (depLabel nameOf (.attr r a)) else .attr (lift nameOf path r) a
  | r => if externalRef path r then .input (depLabel nameOf r) else r

theorem lift_external {nameOf : ℕ → String} {path : List ℕ} {r : Ref} (h : externalRef path r = true) :
    lift nameOf path r = .input (depLabel nameOf r) := by
  cases r <;> (unfold lift; rw [if_pos h])

theorem lift_node {nameOf : ℕ → String} {path : List ℕ} {id : ℕ} (h : id ∈ path) : lift nameOf path (.node id) = .node id := by
  unfold lift
  rw [if_neg]
  simp [externalRef, Ref.unwrap, h]

theorem remap_lift {nameOf : ℕ → String} {path : List ℕ} {names : List String} {r : Ref}
    (hin : externalRef path r = true → depLabel nameOf r ∈ names)
    (hap : ∀ id, r.unwrap = .node id → id ∉ path → nameOf id ∉ path.map nameOf) :
    remap nameOf (names.map fun x => (x, Ref.input x)) (path.map nameOf) r = .ok (lift nameOf path r) := by
  induction r with
  | node id =>
    unfold remap
    by_cases hp : id ∈ path
    · rw [if_pos (List.mem_map.2 ⟨id, hp, rfl⟩), lift_node hp]
    · rw [if_neg (hap id rfl hp)]
      have he : externalRef path (.node id) = true := by simp [externalRef, Ref.unwrap, hp]
      have := hin he
      rw [lift_external he]
      unfold ctxGet
      rw [show nameOf id = depLabel nameOf (.node id) from rfl, get_self this]
  | input x =>
    unfold remap ctxGet
    have he : externalRef path (.input x) = true := by simp [externalRef, Ref.unwrap]
    have := hin he
    have h2 := get_self this
    rw [lift_external he]
    have h3 : Dict.get (names.map fun x => (x, Ref.input x)) x = some (.input (depLabel nameOf (.input x))) := h2
    rw [h3]
  | const k => rfl
  | attr r a ih =>
    unfold remap
    by_cases he : externalRef path (.attr r a) = true
    · have hmem := hin he
      have hl : lifted nameOf (names.map fun x => (x, Ref.input x)) (path.map nameOf) r.unwrap a =
          some (.input (depLabel nameOf (.attr r a))) := by
        have hd : ∀ s, baseName nameOf (.attr r a) = s → liftedKey s a = depLabel nameOf (.attr r a) := by
          rintro s rfl; rfl
        have hb : baseName nameOf (.attr r a) = match r.unwrap with
          | .input x => x
          | .node id => nameOf id
          | _ => "" := rfl
        cases hu : r.unwrap with
        | node id =>
          rw [hu] at hb
          have hnp : id ∉ path := by
            intro hp
            have : (Ref.attr r a).unwrap = .node id := hu
            simp [externalRef, this, hp] at he
          unfold lifted
          simp only
          rw [if_neg (hap id hu hnp), hd _ hb, get_self hmem]
        | input x =>
          rw [hu] at hb
          unfold lifted
          simp only
          rw [hd _ hb, get_self hmem]
        | const k =>
          have : (Ref.attr r a).unwrap = .const k := hu
          simp [externalRef, this] at he
        | attr r' a' => exact absurd hu (unwrap_not_attr r r' a')
      rw [hl, lift_external he]
    · have hl : lifted nameOf (names.map fun x => (x, Ref.input x)) (path.map nameOf) r.unwrap a = none := by
        cases hu : r.unwrap with
        | node id =>
          have hp : id ∈ path := by
            by_contra hp
            have : (Ref.attr r a).unwrap = .node id := hu
            simp [externalRef, this, hp] at he
          unfold lifted
          simp only
          rw [if_pos (List.mem_map.2 ⟨id, hp, rfl⟩)]
        | input x =>
          have : (Ref.attr r a).unwrap = .input x := hu
          simp [externalRef, this] at he
        | const k => rfl
        | attr r' a' => rfl
      have he' : externalRef path r ≠ true := he
      rw [hl]
      simp only
      rw [ih (fun h => absurd h he') hap]
      simp only
      rw [show lift nameOf path (.attr r a) = .attr (lift nameOf path r) a by rw [lift, if_neg he]]

/-- A node of the extracted graph. -/
def liftNode (nameOf : ℕ → String) (path : List ℕ) (n : Node) : Node where
  id := n.id
  name := n.name
  target := n.target
  isModule := n.isModule
  args := n.args.map (lift nameOf path)
  kwargs := n.kwargs.map fun kv => (kv.1, lift nameOf path kv.2)

theorem liftNode_allArgs {nameOf : ℕ → String} {path : List ℕ} (n : Node) :
    (liftNode nameOf path n).allArgs = n.allArgs.map (lift nameOf path) := by
  unfold Node.allArgs liftNode
  simp

theorem bind_ok {α β : Type} {x : Except GErr α} {f : α → Except GErr β} {b : β} (h : (x >>= f) = .ok b) : ∃ a, x = .ok a ∧ f a = .ok b := by
  cases x with
  | error e => simp [bind, Except.bind] at h
  | ok a => exact ⟨a, rfl, h⟩

theorem mapM_ok_inv {α β : Type} {f : α → Except GErr β} {l : List α} {r : List β} (h : l.mapM f = .ok r) :
    List.Forall₂ (fun a b => f a = .ok b) l r := by
  induction l generalizing r with
  | nil =>
    rw [List.mapM_nil] at h
    simp only [pure, Except.pure, Except.ok.injEq] at h
    subst h
    exact .nil
  | cons a l ih =>
    rw [List.mapM_cons] at h
    obtain ⟨b, hb, h⟩ := bind_ok h
    obtain ⟨bs, hbs, h⟩ := bind_ok h
    simp only [pure, Except.pure, Except.ok.injEq] at h
    subst h
    exact .cons hb (ih hbs)

theorem forall2_mem {α β : Type} {R : α → β → Prop} {l : List α} {m : List β} (h : List.Forall₂ R l m) {a : α} (ha : a ∈ l) :
    ∃ b ∈ m, R a b := by
  induction h with
  | nil => simp at ha
  | cons h _ ih =>
    rcases List.mem_cons.1 ha with rfl | ha
    · exact ⟨_, by simp, h⟩
    · obtain ⟨b, hb, hr⟩ := ih ha
      exact ⟨b, by simp [hb], hr⟩

theorem getNode_ok {g : Graph} {id : ℕ} {n : Node} (h : g.getNode id = .ok n) : g.find? id = some n := by
  unfold Graph.getNode at h
  cases hf : g.find? id with
  | none => rw [hf] at h; simp at h
  | some m => rw [hf] at h; simp only [Except.ok.injEq] at h; rw [h]

theorem getNode_of_mem {g : Graph} (hu : g.UniqueIds) {n : Node} (hn : n ∈ g.nodes) : g.getNode n.id = .ok n := by
  unfold Graph.getNode
  rw [find_of_mem hu hn]

theorem extInputs_ok {g : Graph} {path : List ℕ} {names : List String} (h : g.extInputs path = .ok names) :
    names.Nodup ∧ (∀ id ∈ path, ∃ n, g.find? id = some n) ∧
    ∀ x, x ∈ names ↔ ∃ id ∈ path, ∃ n, g.find? id = some n ∧ ∃ r ∈ n.allArgs, externalRef path r = true ∧ depLabel g.nameOf r = x := by
  unfold Graph.extInputs at h
  obtain ⟨ns, hns, h⟩ := bind_ok h
  simp only [Except.ok.injEq] at h
  obtain ⟨h1, h2⟩ := foldl_appendNew (ns.flatMap (externalDeps g.nameOf path)) []
  rw [h] at h1 h2
  have hf := mapM_ok_inv hns
  have hl : ∀ id ∈ path, ∃ n ∈ ns, g.find? id = some n := by
    intro id hid
    obtain ⟨n, hn, he⟩ := forall2_mem hf hid
    exact ⟨n, hn, getNode_ok he⟩
  have hr : ∀ n ∈ ns, ∃ id ∈ path, g.find? id = some n := by
    intro n hn
    obtain ⟨id, hid, he⟩ := forall2_mem hf.flip hn
    exact ⟨id, hid, getNode_ok he⟩
  refine ⟨h2 List.nodup_nil, fun id hid => (hl id hid).imp fun n hn => hn.2, fun x => ?_⟩
  rw [h1]
  simp only [List.not_mem_nil, false_or, List.mem_flatMap, externalDeps, List.mem_map, List.mem_filter]
  constructor
  · rintro ⟨n, hn, r, ⟨hr1, hr2⟩, rfl⟩
    obtain ⟨id, hid, hf⟩ := hr n hn
    exact ⟨id, hid, n, hf, r, hr1, hr2, rfl⟩
  · rintro ⟨id, hid, n, hf, r, hr1, hr2, rfl⟩
    obtain ⟨m, hm, hf'⟩ := hl id hid
    rw [hf] at hf'
    cases hf'
    exact ⟨n, hm, r, ⟨hr1, hr2⟩, rfl⟩

theorem extOutputs_ok {g : Graph} {path : List ℕ} {outs : List Ref} (h : g.extOutputs path = .ok outs) :
    outs.Nodup ∧ (∀ r, r ∈ outs ↔ (r ∈ g.outputs ∧ ∃ id ∈ path, r.unwrap = .node id) ∨
      ∃ id ∈ path, r = .node id ∧ ∃ m, m ∉ path ∧ Uses g m id) := by
  unfold Graph.extOutputs at h
  obtain ⟨h1, h2⟩ := foldl_appendNew (g.outputs.filter (producedIn path)) []
  generalize (g.outputs.filter (producedIn path)).foldl appendNew [] = acc at h h1 h2
  have h2 := h2 List.nodup_nil
  have h1' : ∀ r, r ∈ acc ↔ r ∈ g.outputs ∧ ∃ id ∈ path, r.unwrap = .node id := by
    intro r
    rw [h1]
    simp only [List.not_mem_nil, false_or, List.mem_filter, and_congr_right_iff]
    intro _
    unfold producedIn
    cases hr : r.unwrap <;> simp
  have hdep : ∀ id deps, g.nodeOutputs id = .ok deps → ((deps.any fun m => !path.contains m) = true ↔ ∃ m, m ∉ path ∧ Uses g m id) := by
    intro id deps hd
    unfold Graph.nodeOutputs at hd
    cases hf : g.find? id with
    | none => rw [hf] at hd; simp at hd
    | some n =>
      rw [hf] at hd
      simp only [Except.ok.injEq] at hd
      subst hd
      simp only [List.any_eq_true, List.mem_map, List.mem_filter, Bool.not_eq_true', List.contains_eq_mem, decide_eq_false_iff_not,
        exists_exists_and_eq_and, beq_iff_eq]
      constructor
      · rintro ⟨m, ⟨hm, r, hr, hb⟩, hp⟩
        refine ⟨m.id, hp, m, hm, rfl, r, mem_allArgs hr, ?_⟩
        unfold Ref.baseNode? at hb
        cases hu : r.unwrap <;> rw [hu] at hb <;> simp at hb
        rw [hb]
      · rintro ⟨_, hp, m, hm, rfl, r, hr, hb⟩
        refine ⟨m, ⟨hm, r, ?_, ?_⟩, hp⟩
        · unfold Node.allArgs
          rcases hr with hr | ⟨k, hk⟩
          · simp [hr]
          · simp only [List.mem_append, List.mem_map]
            exact Or.inr ⟨(k, r), hk, rfl⟩
        · unfold Ref.baseNode?
          rw [hb]
  have gen : ∀ (l : List ℕ) (acc outs : List Ref), acc.Nodup → l.foldlM (fun acc id => do
      let deps ← g.nodeOutputs id
      .ok (if deps.any fun m => !path.contains m then appendNew acc (.node id) else acc)) acc = .ok outs →
      outs.Nodup ∧ ∀ r, r ∈ outs ↔ r ∈ acc ∨ ∃ id ∈ l, r = .node id ∧ ∃ m, m ∉ path ∧ Uses g m id := by
    intro l
    induction l with
    | nil =>
      intro acc outs hn h
      simp only [List.foldlM_nil, pure, Except.pure, Except.ok.injEq] at h
      subst h
      simpa using hn
    | cons id l ih =>
      intro acc outs hn h
      rw [List.foldlM_cons] at h
      obtain ⟨acc', ha, h⟩ := bind_ok h
      obtain ⟨deps, hd, ha⟩ := bind_ok ha
      simp only [Except.ok.injEq] at ha
      obtain ⟨h3, h4⟩ := foldl_appendNew [Ref.node id] acc
      simp only [List.foldl_cons, List.foldl_nil] at h3 h4
      by_cases hx : (deps.any fun m => !path.contains m) = true
      · rw [if_pos hx] at ha
        subst ha
        obtain ⟨h5, h6⟩ := ih _ outs (h4 hn) h
        refine ⟨h5, fun r => ?_⟩
        have := (hdep id deps hd).1 hx
        rw [h6, h3, List.exists_mem_cons_iff, List.mem_singleton, or_assoc]
        have h7 : (r = Ref.node id ∧ ∃ m, m ∉ path ∧ Uses g m id) ↔ r = Ref.node id := and_iff_left this
        rw [h7]
      · rw [if_neg hx] at ha
        subst ha
        obtain ⟨h5, h6⟩ := ih _ outs hn h
        refine ⟨h5, fun r => ?_⟩
        have : ¬ (r = Ref.node id ∧ ∃ m, m ∉ path ∧ Uses g m id) := fun hm => hx ((hdep id deps hd).2 hm.2)
        rw [h6, List.exists_mem_cons_iff, or_iff_right (a := r = Ref.node id ∧ ∃ m, m ∉ path ∧ Uses g m id) this]
  obtain ⟨h5, h6⟩ := gen path acc outs h2 h
  exact ⟨h5, fun r => by rw [h6, h1']⟩

theorem apart_of {g : Graph} (hg : g.Closed) {path : List ℕ} (hpath : ∀ id ∈ path, ∃ n ∈ g.nodes, n.id = id) (hap : NamesApart g path)
    {id : ℕ} (hid : ∃ n ∈ g.nodes, n.id = id) (hp : id ∉ path) : g.nameOf id ∉ path.map g.nameOf := by
  obtain ⟨n, hn, rfl⟩ := hid
  rw [nameOf_eq hg.ids hn]
  intro hm
  obtain ⟨j, hj, he⟩ := List.mem_map.1 hm
  obtain ⟨m, hm', rfl⟩ := hpath j hj
  rw [nameOf_eq hg.ids hm'] at he
  exact hap m hm' n hn hj hp he

/-- The extracted graph. -/
theorem create_spec {g sub : Graph} (hg : g.Closed) {path : List ℕ} (hap : NamesApart g path) (h : createSubgraph g path = .ok sub) :
    (∀ id ∈ path, ∃ n ∈ g.nodes, n.id = id) ∧ sub.inputs.Nodup ∧
    (∀ x, x ∈ sub.inputs ↔ ∃ id ∈ path, ∃ n, g.find? id = some n ∧ ∃ r ∈ n.allArgs, externalRef path r = true ∧ depLabel g.nameOf r = x) ∧
    List.Forall₂ (fun id n' => ∃ n, g.find? id = some n ∧ n' = liftNode g.nameOf path n) path sub.nodes ∧
    sub.outputs.Nodup ∧ (∀ r, r ∈ sub.outputs ↔ (r ∈ g.outputs ∧ ∃ id ∈ path, r.unwrap = .node id) ∨
      ∃ id ∈ path, r = .node id ∧ ∃ m, m ∉ path ∧ Uses g m id) ∧ sub.folds = [] := by
  unfold createSubgraph at h
  obtain ⟨names, hi, h⟩ := bind_ok h
  obtain ⟨outs, ho, h⟩ := bind_ok h
  obtain ⟨nodes, hn, h⟩ := bind_ok h
  obtain ⟨outs', ho', h⟩ := bind_ok h
  simp only [Except.ok.injEq] at h
  subst h
  obtain ⟨i1, i2, i3⟩ := extInputs_ok hi
  obtain ⟨o1, o2⟩ := extOutputs_ok ho
  have hpath : ∀ id ∈ path, ∃ n ∈ g.nodes, n.id = id := by
    intro id hid
    obtain ⟨n, hn⟩ := i2 id hid
    exact ⟨n, (mem_of_find hn).1, (mem_of_find hn).2⟩
  have houts : outs' = outs := by
    have hm : ∀ r ∈ outs, remap g.nameOf (names.map fun x => (x, Ref.input x)) (path.map g.nameOf) r = .ok (_root_.id r) := by
      intro r hr
      have hu : ∃ id ∈ path, r.unwrap = .node id := by
        rcases (o2 r).1 hr with ⟨_, h⟩ | ⟨id, hid, rfl, _⟩
        · exact h
        · exact ⟨id, hid, rfl⟩
      obtain ⟨id, hid, hu⟩ := hu
      have he : ∀ q : Ref, q.unwrap = .node id → externalRef path q ≠ true := by
        intro q hq
        simp [externalRef, hq, hid]
      rw [remap_lift (fun h => absurd h (he r hu)) (fun j hj hnj => ?_)]
      · congr 1
        clear hr
        induction r with
        | node j => exact lift_node (by cases hu; exact hid)
        | input x => simp [Ref.unwrap] at hu
        | const k => simp [Ref.unwrap] at hu
        | attr r a ih => rw [lift, if_neg (he (.attr r a) hu), ih hu]; rfl
      · rw [hu] at hj
        cases hj
        exact absurd hid hnj
    rw [mapM_ok_of hm] at ho'
    simpa using ho'.symm
  subst houts
  refine ⟨hpath, i1, i3, ?_, o1, o2, rfl⟩
  refine forall2_imp_mem (mapM_ok_inv hn) fun id n' hid he => ?_
  unfold Graph.extracted at he
  obtain ⟨n, hf, he⟩ := bind_ok he
  have hf := getNode_ok hf
  refine ⟨n, hf, ?_⟩
  have hr : ∀ r ∈ n.allArgs, remap g.nameOf (names.map fun x => (x, Ref.input x)) (path.map g.nameOf) r = .ok (lift g.nameOf path r) := by
    intro r hr
    refine remap_lift (fun he => (i3 _).2 ⟨id, hid, n, hf, r, hr, he, rfl⟩) (fun j hj hnj => ?_)
    exact apart_of hg hpath hap ((hg.args n (mem_of_find hf).1 r hr).1 j hj) hnj
  rw [mapM_ok_of fun r h => hr r (by unfold Node.allArgs; simp [h])] at he
  have hk : ∀ kv ∈ n.kwargs, (remap g.nameOf (names.map fun x => (x, Ref.input x)) (path.map g.nameOf) kv.2).map (kv.1, ·) =
      .ok (kv.1, lift g.nameOf path kv.2) := by
    intro kv hkv
    rw [hr kv.2 (by unfold Node.allArgs; simp only [List.mem_append, List.mem_map]; exact Or.inr ⟨kv, hkv, rfl⟩)]
    rfl
  rw [mapM_ok_of hk] at he
  simp only [bind, Except.bind, Except.ok.injEq] at he
  exact he.symm

theorem named_unique {g : Graph} (hu : g.UniqueIds) {r : Ref} {x : String} (h : Named g r x) : r.unwrap = r ∧ baseName g.nameOf r = x := by
  cases h with
  | input => exact ⟨rfl, rfl⟩
  | node hn => exact ⟨rfl, nameOf_eq hu hn⟩

theorem named_base {g : Graph} (hu : g.UniqueIds) {path : List ℕ} {r : Ref} (hc : r.Closed g) (he : FromOutside path r) :
    Named g r.unwrap (baseName g.nameOf r) := by
  unfold baseName
  rcases he with ⟨x, hx⟩ | ⟨id, hid, _⟩
  · rw [hx]; exact .input
  · obtain ⟨n, hn, rfl⟩ := hc.1 id hid
    rw [hid]
    simp only
    rw [nameOf_eq hu hn]
    exact .node hn

theorem standsFor_iff {g : Graph} (hu : g.UniqueIds) {path : List ℕ} {r : Ref} (hc : r.Closed g) (he : FromOutside path r) (x : String) :
    StandsFor g x r ↔ depLabel g.nameOf r = x := by
  have hn := named_base hu hc he
  have hb : ∀ q : Ref, q.unwrap = r.unwrap → baseName g.nameOf q = baseName g.nameOf r := by
    intro q hq
    unfold baseName
    rw [hq]
  constructor
  · intro h
    cases h with
    | whole h =>
      obtain ⟨h1, h2⟩ := named_unique hu h
      cases r with
      | attr r a => exact absurd h1 (unwrap_not_attr _ _ _)
      | _ => exact h2
    | @idx q y i h =>
      have := (named_unique hu h).2
      rw [hb q.unwrap (unwrap_unwrap q)] at this
      show liftedKey (baseName g.nameOf (.attr q (.idx i))) (.idx i) = _
      rw [this]
      rfl
    | @key q y k h =>
      have := (named_unique hu h).2
      rw [hb q.unwrap (unwrap_unwrap q)] at this
      show liftedKey (baseName g.nameOf (.attr q (.key k))) (.key k) = _
      rw [this]
      rfl
  · rintro rfl
    cases r with
    | attr q a =>
      cases a with
      | idx i => exact .idx hn
      | key k => exact .key hn
    | node id => exact .whole hn
    | input x => exact .whole hn
    | const k =>
      rcases he with ⟨x, hx⟩ | ⟨id, hid, _⟩
      · simp [Ref.unwrap] at hx
      · simp [Ref.unwrap] at hid

theorem find_lift {g sub : Graph} {path : List ℕ}
    (h : List.Forall₂ (fun id n' => ∃ n, g.find? id = some n ∧ n' = liftNode g.nameOf path n) path sub.nodes) {id : ℕ} (hid : id ∈ path) :
    ∃ n, g.find? id = some n ∧ sub.find? id = some (liftNode g.nameOf path n) := by
  unfold Graph.find?
  have gen : ∀ (l : List ℕ) (ns : List Node), List.Forall₂ (fun id n' => ∃ n, g.find? id = some n ∧ n' = liftNode g.nameOf path n) l ns →
      id ∈ l → ∃ n, g.find? id = some n ∧ ns.find? (fun n => n.id == id) = some (liftNode g.nameOf path n) := by
    intro l ns h
    induction h with
    | nil => simp
    | @cons j n' l ns hj _ ih =>
      intro hm
      obtain ⟨n, hf, rfl⟩ := hj
      have hnid : n.id = j := (mem_of_find hf).2
      rw [List.find?_cons]
      by_cases he : j = id
      · subst he
        have : ((liftNode g.nameOf path n).id == j) = true := by simp [liftNode, hnid]
        rw [this]
        exact ⟨n, hf, rfl⟩
      · have : ((liftNode g.nameOf path n).id == id) = false := by simp [liftNode, hnid, he]
        rw [this]
        exact ih (by simpa [Ne.symm he] using hm)
  exact gen path sub.nodes h hid

theorem den_lift {sem : Sem V W} {g sub : Graph} {path : List ℕ}
    (hf : ∀ id ∈ path, ∃ n, g.find? id = some n ∧ sub.find? id = some (liftNode g.nameOf path n)) {inp inp' : String → List V} {wAt : ℕ → W} {c : Ctx}
    (hin : ∀ id ∈ path, ∀ n, g.find? id = some n → ∀ r ∈ n.allArgs, externalRef path r = true →
      depLabel g.nameOf r ∈ sub.inputs ∧ Den sem g inp wAt c r (inp' (depLabel g.nameOf r))) {r : Ref}
    (hr : externalRef path r = true → depLabel g.nameOf r ∈ sub.inputs ∧ Den sem g inp wAt c r (inp' (depLabel g.nameOf r))) {d : List V} :
    Den sem sub inp' wAt c (lift g.nameOf path r) d ↔ Den sem g inp wAt c r d := by
  have hlk : ∀ n : Node, (liftNode g.nameOf path n).args.length = n.args.length ∧ (liftNode g.nameOf path n).kwargs.map (·.1) = n.kwargs.map (·.1) := by
    intro n
    unfold liftNode
    simp
  constructor
  · intro h
    generalize hr' : lift g.nameOf path r = r' at h
    induction h generalizing r with
    | @input x hx =>
      by_cases he : externalRef path r = true
      · rw [lift_external he] at hr'
        cases hr'
        exact (hr he).2
      · cases r with
        | input y => simp [externalRef, Ref.unwrap] at he
        | node id => unfold lift at hr'; rw [if_neg he] at hr'; cases hr'
        | const k => unfold lift at hr'; rw [if_neg he] at hr'; cases hr'
        | attr q a => rw [lift, if_neg he] at hr'; cases hr'
    | @const k =>
      by_cases he : externalRef path r = true
      · rw [lift_external he] at hr'; cases hr'
      · cases r with
        | input y => unfold lift at hr'; rw [if_neg he] at hr'; cases hr'
        | node id => unfold lift at hr'; rw [if_neg he] at hr'; cases hr'
        | const k => unfold lift at hr'; rw [if_neg he] at hr'; cases hr'; exact .const
        | attr q a => rw [lift, if_neg he] at hr'; cases hr'
    | @attr r1 a d1 d2 h1 hx ih =>
      by_cases he : externalRef path r = true
      · rw [lift_external he] at hr'; cases hr'
      · cases r with
        | input y => unfold lift at hr'; rw [if_neg he] at hr'; cases hr'
        | node id => unfold lift at hr'; rw [if_neg he] at hr'; cases hr'
        | const k => unfold lift at hr'; rw [if_neg he] at hr'; cases hr'
        | attr q b =>
          rw [lift, if_neg he] at hr'
          cases hr'
          have he' : externalRef path q ≠ true := he
          exact .attr (ih (fun h => absurd h he') rfl) hx
    | @node id n' ads out hfn hl _ hc ih =>
      by_cases he : externalRef path r = true
      · rw [lift_external he] at hr'; cases hr'
      · cases r with
        | input y => unfold lift at hr'; rw [if_neg he] at hr'; cases hr'
        | const k => unfold lift at hr'; rw [if_neg he] at hr'; cases hr'
        | attr q b => rw [lift, if_neg he] at hr'; cases hr'
        | node j =>
          unfold lift at hr'; rw [if_neg he] at hr'
          cases hr'
          have hp : id ∈ path := by simpa [externalRef, Ref.unwrap] using he
          obtain ⟨n, hg1, hs1⟩ := hf id hp
          rw [hs1] at hfn
          cases hfn
          rw [liftNode_allArgs, List.length_map] at hl
          rw [(hlk n).1, (hlk n).2] at hc
          refine .node hg1 hl (fun i r d h1 h2 => ?_) hc
          exact ih i (lift g.nameOf path r) d (by rw [liftNode_allArgs, List.getElem?_map, h1]; rfl) h2
            (hin id hp n hg1 r (List.mem_of_getElem? h1)) rfl
  · intro h
    induction h with
    | @input x hx =>
      have he : externalRef path (.input x) = true := by simp [externalRef, Ref.unwrap]
      obtain ⟨h1, h2⟩ := hr he
      rw [lift_external he, denotation_unique (Den.input hx) h2]
      exact .input h1
    | @const k => exact .const
    | @attr r a d1 d2 h1 hx ih =>
      by_cases he : externalRef path (.attr r a) = true
      · obtain ⟨h2, h3⟩ := hr he
        rw [lift_external he, denotation_unique (Den.attr h1 hx) h3]
        exact .input h2
      · rw [lift, if_neg he]
        have he' : externalRef path r ≠ true := he
        exact .attr (ih fun h => absurd h he') hx
    | @node id n ads out hfn hl ha hc ih =>
      by_cases he : externalRef path (.node id) = true
      · obtain ⟨h2, h3⟩ := hr he
        rw [lift_external he, denotation_unique (Den.node hfn hl ha hc) h3]
        exact .input h2
      · have hp : id ∈ path := by simpa [externalRef, Ref.unwrap] using he
        obtain ⟨m, hg1, hs1⟩ := hf id hp
        rw [hfn] at hg1
        cases hg1
        rw [lift_node hp]
        refine .node (ads := ads) hs1 (by rw [liftNode_allArgs, List.length_map]; exact hl) (fun i r d h1 h2 => ?_) (by rw [(hlk n).1, (hlk n).2]; exact hc)
        rw [liftNode_allArgs, List.getElem?_map] at h1
        cases hn : n.allArgs[i]? with
        | none => rw [hn] at h1; simp at h1
        | some q =>
          rw [hn] at h1
          simp only [Option.map_some, Option.some.injEq] at h1
          subst h1
          exact ih i q d hn h2 (hin id hp n hfn q (List.mem_of_getElem? hn))

/-! ### Properties -/

/-- **C76 (partial).** The extracted graph computes, for every chosen node and for each of its outputs, the value that it has in the
original graph, provided each input is given the value of the references it stands for. Missing: a node outside with the name of a chosen
node (`name_clash_captures`); and if one input stands for two different references, no value will do (`parts_share_input`). -/
theorem extracted_values_partial (sem : Sem V W) (g sub : Graph) (hg : g.Closed) (path : List ℕ) (hap : NamesApart g path)
    (h : createSubgraph g path = .ok sub) (inp inp' : String → List V) (wAt : ℕ → W) (c : Ctx)
    (hin : ∀ x r, TakesFromOutside g path r → StandsFor g x r → Den sem g inp wAt c r (inp' x)) (r : Ref)
    (hr : r ∈ sub.outputs ∨ ∃ id ∈ path, r = .node id) (d : List V) :
    Den sem sub inp' wAt c r d ↔ Den sem g inp wAt c r d := by
  obtain ⟨h1, _, h3, h4, _, h6, _⟩ := create_spec hg hap h
  have hu : ∃ id ∈ path, r.unwrap = .node id := by
    rcases hr with hr | ⟨id, hid, rfl⟩
    · rcases (h6 r).1 hr with ⟨_, h⟩ | ⟨id, hid, rfl, _⟩
      · exact h
      · exact ⟨id, hid, rfl⟩
    · exact ⟨id, hid, rfl⟩
  obtain ⟨id, hid, hu⟩ := hu
  have he : ∀ q : Ref, q.unwrap = .node id → externalRef path q ≠ true := by
    intro q hq
    simp [externalRef, hq, hid]
  have hl : lift g.nameOf path r = r := by
    clear hr
    induction r with
    | node j => exact lift_node (by cases hu; exact hid)
    | input x => simp [Ref.unwrap] at hu
    | const k => simp [Ref.unwrap] at hu
    | attr r a ih => rw [lift, if_neg (he (.attr r a) hu), ih hu]
  have := den_lift (sem := sem) (wAt := wAt) (c := c) (inp := inp) (inp' := inp') (fun id hid => find_lift h4 hid)
    (fun id hid n hf r hr he => ⟨(h3 _).2 ⟨id, hid, n, hf, r, hr, he, rfl⟩, ?_⟩) (r := r) (fun h => absurd h (he r hu)) (d := d)
  · rw [hl] at this
    exact this
  · have hm := (mem_of_find hf).1
    have ho := externalRef_iff.1 he
    exact hin _ r ⟨id, hid, n, hm, (mem_of_find hf).2, hr, ho⟩ ((standsFor_iff hg.ids (hg.args n hm r hr) ho _).2 rfl)

/-- **C76.** What the extracted graph takes and gives: its inputs are the names of what the chosen nodes take from outside, each once; its
nodes are the chosen nodes, with their targets; and its outputs are the graph's outputs that chosen nodes produce and the chosen nodes
that others use, each once. -/
theorem extracted_interface (g sub : Graph) (hg : g.Closed) (path : List ℕ) (hap : NamesApart g path) (h : createSubgraph g path = .ok sub) :
    sub.inputs.Nodup ∧ (∀ x, x ∈ sub.inputs ↔ ∃ r, TakesFromOutside g path r ∧ StandsFor g x r) ∧
    sub.nodes.map (·.id) = path ∧ (∀ n' ∈ sub.nodes, ∃ n ∈ g.nodes, n'.id = n.id ∧ n'.name = n.name ∧ n'.target = n.target ∧
      n'.args.length = n.args.length ∧ n'.kwargs.map (·.1) = n.kwargs.map (·.1)) ∧
    sub.outputs.Nodup ∧ (∀ r, r ∈ sub.outputs ↔ (r ∈ g.outputs ∧ ∃ id ∈ path, r.unwrap = .node id) ∨
      ∃ id ∈ path, r = .node id ∧ ∃ m, m ∉ path ∧ Uses g m id) := by
  obtain ⟨h1, h2, h3, h4, h5, h6, _⟩ := create_spec hg hap h
  refine ⟨h2, fun x => ?_, ?_, ?_, h5, h6⟩
  · rw [h3]
    constructor
    · rintro ⟨id, hid, n, hf, r, hr, he, rfl⟩
      have hm := (mem_of_find hf).1
      have ho := externalRef_iff.1 he
      exact ⟨r, ⟨id, hid, n, hm, (mem_of_find hf).2, hr, ho⟩, (standsFor_iff hg.ids (hg.args n hm r hr) ho _).2 rfl⟩
    · rintro ⟨r, ⟨id, hid, n, hm, rfl, hr, ho⟩, hs⟩
      exact ⟨n.id, hid, n, find_of_mem hg.ids hm, r, hr, externalRef_iff.2 ho, (standsFor_iff hg.ids (hg.args n hm r hr) ho _).1 hs⟩
  · clear h3 h6 hap h h1
    have gen : ∀ (l : List ℕ) (ns : List Node), List.Forall₂ (fun id n' => ∃ n, g.find? id = some n ∧ n' = liftNode g.nameOf path n) l ns →
        ns.map (·.id) = l := by
      intro l ns h
      induction h with
      | nil => rfl
      | cons hj _ ih =>
        obtain ⟨n, hf, rfl⟩ := hj
        rw [List.map_cons, ih]
        have := (mem_of_find hf).2
        simp [liftNode, this]
    exact gen path sub.nodes h4
  · intro n' hn'
    obtain ⟨id, _, n, hf, rfl⟩ := forall2_mem h4.flip hn'
    exact ⟨n, (mem_of_find hf).1, rfl, rfl, rfl, by simp [liftNode], by simp [liftNode]⟩

/-- **C76.** Extraction succeeds for every selection of nodes of the graph, even if nothing is taken from outside, in which case the
documentation announces a `ValueError`. -/
theorem extraction_succeeds (g : Graph) (hg : g.Closed) (path : List ℕ) (hap : NamesApart g path) :
    (∃ sub, createSubgraph g path = .ok sub) ↔ ∀ id ∈ path, ∃ n ∈ g.nodes, n.id = id := by
  constructor
  · rintro ⟨sub, h⟩
    exact (create_spec hg hap h).1
  · intro hpath
    have hgn : ∀ id ∈ path, ∃ n, g.find? id = some n := by
      intro id hid
      obtain ⟨n, hn, rfl⟩ := hpath id hid
      exact ⟨n, find_of_mem hg.ids hn⟩
    have hi : ∃ names, g.extInputs path = .ok names := by
      unfold Graph.extInputs
      rw [mapM_ok_of (k := fun id => ((g.find? id).getD ⟨0, "", 0, false, [], [], none, none⟩)) fun id hid => by
        obtain ⟨n, hn⟩ := hgn id hid
        unfold Graph.getNode
        rw [hn]
        rfl]
      exact ⟨_, rfl⟩
    have ho : ∃ outs, g.extOutputs path = .ok outs := by
      unfold Graph.extOutputs
      generalize (g.outputs.filter (producedIn path)).foldl appendNew [] = acc
      have gen : ∀ (l : List ℕ) (acc : List Ref), (∀ id ∈ l, ∃ n, g.find? id = some n) → ∃ outs, l.foldlM (fun acc id => do
          let deps ← g.nodeOutputs id
          .ok (if deps.any fun m => !path.contains m then appendNew acc (.node id) else acc)) acc = Except.ok outs := by
        intro l
        induction l with
        | nil => intro acc _; exact ⟨acc, rfl⟩
        | cons id l ih =>
          intro acc hl
          obtain ⟨n, hn⟩ := hl id (by simp)
          rw [List.foldlM_cons]
          have : g.nodeOutputs id = .ok ((g.nodes.filter fun m => m.allArgs.any fun r => r.baseNode? == some id).map (·.id)) := by
            unfold Graph.nodeOutputs
            rw [hn]
          rw [this]
          exact ih _ fun j hj => hl j (by simp [hj])
      exact gen path acc hgn
    obtain ⟨names, hi⟩ := hi
    obtain ⟨outs, ho⟩ := ho
    obtain ⟨i1, i2, i3⟩ := extInputs_ok hi
    obtain ⟨o1, o2⟩ := extOutputs_ok ho
    unfold createSubgraph
    rw [hi, ho]
    simp only [bind, Except.bind]
    have hremap : ∀ id ∈ path, ∀ n, g.find? id = some n → ∀ r ∈ n.allArgs,
        remap g.nameOf (names.map fun x => (x, Ref.input x)) (path.map g.nameOf) r = .ok (lift g.nameOf path r) := by
      intro id hid n hf r hr
      refine remap_lift (fun he => (i3 _).2 ⟨id, hid, n, hf, r, hr, he, rfl⟩) (fun j hj hnj => ?_)
      exact apart_of hg hpath hap ((hg.args n (mem_of_find hf).1 r hr).1 j hj) hnj
    have hnodes : ∀ id ∈ path, g.extracted (names.map fun x => (x, Ref.input x)) (path.map g.nameOf) id =
        .ok (liftNode g.nameOf path ((g.find? id).getD ⟨0, "", 0, false, [], [], none, none⟩)) := by
      intro id hid
      obtain ⟨n, hf⟩ := hgn id hid
      unfold Graph.extracted Graph.getNode
      rw [hf]
      simp only [Option.getD_some, bind, Except.bind]
      have hr := hremap id hid n hf
      rw [mapM_ok_of fun r h => hr r (by unfold Node.allArgs; simp [h])]
      have hk : ∀ kv ∈ n.kwargs, (remap g.nameOf (names.map fun x => (x, Ref.input x)) (path.map g.nameOf) kv.2).map (kv.1, ·) =
          .ok (kv.1, lift g.nameOf path kv.2) := by
        intro kv hkv
        rw [hr kv.2 (by unfold Node.allArgs; simp only [List.mem_append, List.mem_map]; exact Or.inr ⟨kv, hkv, rfl⟩)]
        rfl
      rw [mapM_ok_of hk]
      rfl
    rw [mapM_ok_of hnodes]
    simp only
    rw [mapM_ok_of (k := lift g.nameOf path) fun r hr => ?_]
    · exact ⟨_, rfl⟩
    · have hu : ∃ id ∈ path, r.unwrap = .node id := by
        rcases (o2 r).1 hr with ⟨_, h⟩ | ⟨id, hid, rfl, _⟩
        · exact h
        · exact ⟨id, hid, rfl⟩
      obtain ⟨id, hid, hu⟩ := hu
      refine remap_lift (fun h => ?_) (fun j hj hnj => ?_)
      · simp [externalRef, hu, hid] at h
      · rw [hu] at hj
        cases hj
        exact absurd hid hnj

/-! ### Deviations -/

/-- Node 1 uses `x[0][1]` and `x[1]`. -/
def nestedParts : Graph where
  nodes := [
    { id := 1, name := "n", target := 0, isModule := true, args := [.attr (.attr (.input "x") (.idx 0)) (.idx 1), .attr (.input "x") (.idx 1)],
      kwargs := [] }]
  inputs := ["x"]
  outputs := [.node 1]

/-- **C76, deviation.** A part of a part gets the name of a part: `x[0][1]` and `x[1]` both become the input `x[1]`, so the extracted node
gets one value for both. -/
theorem parts_share_input :
    nestedParts.Closed ∧ NamesApart nestedParts [1] ∧ ∃ sub, createSubgraph nestedParts [1] = .ok sub ∧ sub.inputs = ["x[1]"] ∧
      (sub.find? 1).map (·.args) = some [.input "x[1]", .input "x[1]"] := by
  refine ⟨graph_closed_of_check (by decide) (by decide) (by decide) (by decide) (by decide) (by decide), ?_,
    { nodes := [{ id := 1, name := "n", target := 0, isModule := true, args := [.input "x[1]", .input "x[1]"], kwargs := [] }],
      inputs := ["x[1]"], outputs := [.node 1] }, ?_, rfl, by decide +kernel⟩
  · unfold NamesApart
    decide
  · rfl

/-- Two nodes named `n`. -/
def sameNames : Graph where
  nodes := [
    { id := 1, name := "n", target := 1, isModule := true, args := [.input "x"], kwargs := [] },
    { id := 2, name := "n", target := 1, isModule := true, args := [.node 1], kwargs := [] }]
  inputs := ["x"]
  outputs := [.node 2]

/-- **C76, deviation.** A node outside with the name of a chosen node is taken for it: the extracted graph refers to a node it does not
contain. -/
theorem name_clash_captures :
    sameNames.Closed ∧ ∃ sub, createSubgraph sameNames [2] = .ok sub ∧ sub.nodes.map (·.id) = [2] ∧
      (sub.find? 2).map (·.args) = some [.node 1] := by
  refine ⟨graph_closed_of_check (by decide) (by decide) (by decide) (by decide) (by decide) (by decide),
    { nodes := [{ id := 2, name := "n", target := 1, isModule := true, args := [.node 1], kwargs := [] }],
      inputs := ["n"], outputs := [.node 2] }, ?_, by decide, by decide⟩
  rfl

/-- A node that takes a constant only. -/
def constantOnly : Graph where
  nodes := [{ id := 1, name := "n", target := 1, isModule := true, args := [.const 5], kwargs := [] }]
  outputs := [.node 1]

/-- **C76, deviation.** Nodes that take nothing from outside are extracted, although the documentation says that this raises a
`ValueError`. -/
theorem no_inputs_accepted : ∃ sub, createSubgraph constantOnly [1] = .ok sub ∧ sub.inputs = [] := ⟨constantOnly, rfl, rfl⟩

/-! ### Concrete cases -/

/-- The nodes 1 and 2 of the diamond. -/
def diamondPart : Graph where
  nodes := [
    { id := 1, name := "b", target := 2, isModule := true, args := [.input "a", .input "a"], kwargs := [] },
    { id := 2, name := "c", target := 3, isModule := true, args := [.input "a", .const 5], kwargs := [] }]
  inputs := ["a"]
  outputs := [.node 1, .node 2]

example : createSubgraph diamond [1, 2] = .ok diamondPart := by rfl

example : diamond.Closed ∧ NamesApart diamond [1, 2] :=
  ⟨graph_closed_of_check (by decide) (by decide) (by decide) (by decide) (by decide) (by decide), by unfold NamesApart; decide⟩

/-- The value of the input is that of node 0. -/
example (inp : String → List (List ℤ)) (hx : inp "x" = [[1], [2]]) :
    ∀ x r, TakesFromOutside diamond [1, 2] r → StandsFor diamond x r → Den toySem diamond inp (fun _ => 7) 0 r ((fun _ => [[8], [9]]) x) := by
  rintro x r ⟨id, hid, n, hn, rfl, hr, ho⟩ -
  have hr : r = .node 0 := by
    have h1 : n ∈ diamond.nodes.filter fun n => n.id = 1 ∨ n.id = 2 := by
      rw [List.mem_filter]
      exact ⟨hn, by simpa using hid⟩
    have h2 : diamond.nodes.filter (fun n => n.id = 1 ∨ n.id = 2) = [
      { id := 1, name := "b", target := 2, isModule := true, args := [.node 0, .node 0], kwargs := [], parent := some 9 },
      { id := 2, name := "c", target := 3, isModule := true, args := [.node 0, .const 5], kwargs := [], parent := some 9 }] := by rfl
    rw [h2] at h1
    simp only [List.mem_cons, List.not_mem_nil, or_false] at h1
    rcases h1 with rfl | rfl
    · simpa [Node.allArgs] using hr
    · simp only [Node.allArgs, List.map_nil, List.append_nil, List.mem_cons, List.not_mem_nil, or_false] at hr
      rcases hr with h | h
      · exact h
      · subst h
        rcases ho with ⟨x, hx⟩ | ⟨id, hx, _⟩ <;> simp [Ref.unwrap] at hx
  subst hr
  refine .node (n := { id := 0, name := "a", target := 1, isModule := true, args := [.input "x"], kwargs := [], parent := some 9 })
    (ads := [[[1], [2]]]) rfl rfl (fun i r d h1 h2 => ?_) ?_
  · match i with
    | 0 =>
      simp only [Node.allArgs, List.map_nil, List.append_nil, List.getElem?_cons_zero, Option.some.injEq] at h1 h2
      subst h1 h2
      rw [← hx]
      exact .input (by decide)
    | i + 1 => simp at h2
  · refine Or.inr ⟨[[[1], [2]]], 2, [[[1]], [[2]]], ⟨rfl, ⟨_, List.mem_singleton.2 rfl, rfl⟩, fun i d o h1 h2 => ?_⟩,
      ⟨by simp, by simp, fun i j d row h1 h2 => ?_⟩, rfl, fun j row v h1 h2 => ?_⟩
    · match i with
      | 0 =>
        simp only [List.getElem?_cons_zero, Option.some.injEq] at h1 h2
        subst h1 h2
        exact Or.inl ⟨rfl, rfl⟩
      | i + 1 => simp at h1
    · match j with
      | 0 =>
        simp only [List.getElem?_cons_zero, Option.some.injEq] at h1
        subst h1
        match i with
        | 0 =>
          simp only [List.getElem?_cons_zero, Option.some.injEq] at h2
          subst h2
          rfl
        | 1 =>
          simp only [List.getElem?_cons_succ, List.getElem?_cons_zero, Option.some.injEq] at h2
          subst h2
          rfl
        | i + 2 => simp at h2
      | j + 1 => simp at h1
    · match j with
      | 0 =>
        simp only [List.getElem?_cons_zero, Option.some.injEq] at h1 h2
        subst h1 h2
        rfl
      | 1 =>
        simp only [List.getElem?_cons_succ, List.getElem?_cons_zero, Option.some.injEq] at h1 h2
        subst h1 h2
        rfl
      | j + 2 => simp at h1

end FF.Orch
