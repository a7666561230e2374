import Verif.Orch.ReduceValues

/-! # Reducing a graph: one step of the loop, and the values of the result (C78) -/

namespace FF.Orch

variable {V W : Type}

/-! ### Lemmas: names of parts -/

theorem takeWhile_bracket {l r : List Char} (h : '[' ∉ l) : (l ++ '[' :: r).takeWhile (· ≠ '[') = l := by
  induction l with
  | nil => simp
  | cons a l ih =>
    rw [List.mem_cons, not_or] at h
    rw [List.cons_append, List.takeWhile_cons_of_pos (by simpa using Ne.symm h.1), ih h.2]

theorem takeWhile_plain {l : List Char} (h : '[' ∉ l) : l.takeWhile (· ≠ '[') = l := by
  induction l with
  | nil => rfl
  | cons a l ih =>
    rw [List.mem_cons, not_or] at h
    rw [List.takeWhile_cons_of_pos (by simpa using Ne.symm h.1), ih h.2]

theorem resolveInput_plain (parseInt : String → Option Int) (ctx : List (String × Ref)) {x : String} (h : '[' ∉ x.toList) :
    resolveInput parseInt ctx x = ctxGet ctx x := by
  unfold resolveInput
  dsimp only
  rw [takeWhile_plain h]
  simp

theorem resolveInput_part (parseInt : String → Option Int) (ctx : List (String × Ref)) {x : String} (h : '[' ∉ x.toList) (a : Attr) :
    resolveInput parseInt ctx (liftedKey x a) = (do
      let r ← ctxGet ctx x
      match parseInt a.text with
      | some i => .ok (.attr r (.idx i))
      | none => if a.text ∈ ownAttributes then .error .typeError else .ok (.attr r (.key a.text))) := by
  have hl : (liftedKey x a).toList = x.toList ++ '[' :: (a.text.toList ++ [']']) := by
    unfold liftedKey
    simp [String.toList_append]
  unfold resolveInput
  dsimp only
  rw [hl, takeWhile_bracket h]
  have hd : (x.toList ++ '[' :: (a.text.toList ++ [']'])).drop (x.toList.length + 1) = a.text.toList ++ [']'] := by
    rw [show x.toList ++ '[' :: (a.text.toList ++ [']']) = (x.toList ++ ['[']) ++ (a.text.toList ++ [']']) by simp]
    rw [show x.toList.length + 1 = (x.toList ++ ['[']).length by simp, List.drop_left]
  rw [hd, if_neg (by simp), List.dropLast_concat]
  simp only [String.ofList_toList]
  cases ctxGet ctx x with
  | error e => rfl
  | ok r => cases parseInt a.text <;> simp only [bind, Except.bind]

theorem resolve_val {sem : Sem V W} {g : Graph} {w : W} {c : Ctx} {b : String → V} {s : Rewired} (ht : Tidy g) (hs : Sound sem g w c b s)
    {parseInt : String → Option Int} (hp : ParsesInts parseInt) (hsp : SimpleParts parseInt g) {n : Node} (hn : n ∈ g.nodes) {r : Ref}
    (hr : r ∈ n.allArgs) {path : List ℕ} (he : externalRef path r = true) {r' : Ref}
    (h : resolveInput parseInt s.ctx (depLabel g.nameOf r) = .ok r') {v : V} (hv : Val sem g w c b r v) : Val sem s.graph w c b r' v := by
  have hc := ht.closed.args n hn r hr
  have base : ∀ q r' : Ref, q.unwrap = q → q.Closed g → externalRef path q = true → ∀ v, Val sem g w c b q v →
      ctxGet s.ctx (baseName g.nameOf q) = .ok r' → '[' ∉ (baseName g.nameOf q).toList ∧ Val sem s.graph w c b r' v := by
    intro q r' hq hc he v hv h
    cases q with
    | node id =>
      obtain ⟨m, hm, rfl⟩ := hc.1 id rfl
      have e : baseName g.nameOf (.node m.id) = m.name := nameOf_eq ht.closed.ids hm
      rw [e] at h ⊢
      exact ⟨ht.plain m hm, get_node ht hs hm (ctxGet_ok h) hv⟩
    | input x => exact ⟨ht.plainInputs x (hc.2 x rfl), get_input ht hs (hc.2 x rfl) (ctxGet_ok h) hv⟩
    | const k => simp [externalRef, Ref.unwrap] at he
    | attr q a => exact absurd hq (unwrap_not_attr _ _ _)
  have plain : ∀ q : Ref, q.Closed g → externalRef path q = true → '[' ∉ (baseName g.nameOf q).toList := by
    intro q hc he
    unfold baseName
    unfold externalRef at he
    cases hu : q.unwrap with
    | node id =>
      obtain ⟨m, hm, rfl⟩ := hc.1 id hu
      dsimp only
      rw [nameOf_eq ht.closed.ids hm]
      exact ht.plain m hm
    | input x => exact ht.plainInputs x (hc.2 x hu)
    | const k => simp
    | attr q a => simp
  cases r with
  | node id =>
    have e : depLabel g.nameOf (.node id) = baseName g.nameOf (.node id) := rfl
    rw [e, resolveInput_plain _ _ (plain _ hc he)] at h
    exact (base _ _ rfl hc he v hv h).2
  | input x =>
    have e : depLabel g.nameOf (.input x) = baseName g.nameOf (.input x) := rfl
    rw [e, resolveInput_plain _ _ (plain _ hc he)] at h
    exact (base _ _ rfl hc he v hv h).2
  | const k => simp [externalRef, Ref.unwrap] at he
  | attr q a =>
    obtain ⟨hq, hk⟩ := hsp n hn _ hr q a rfl
    have e : depLabel g.nameOf (.attr q a) = liftedKey (baseName g.nameOf q) a := rfl
    rw [e, resolveInput_part _ _ (plain q hc he)] at h
    obtain ⟨q', h1, h2⟩ := bind_ok h
    obtain ⟨u, h3, h4⟩ := val_attr hv
    have h5 := (base q q' hq hc he u h3 h1).2
    cases a with
    | idx i =>
      have e : (Attr.idx i).text = toString i := rfl
      rw [e, hp i] at h2
      obtain rfl := Except.ok.inj h2
      exact .attr h5 h4
    | key k =>
      obtain ⟨h6, h7⟩ := hk k rfl
      have e : (Attr.key k).text = k := rfl
      rw [e, h6] at h2
      dsimp only at h2
      rw [if_neg h7] at h2
      obtain rfl := Except.ok.inj h2
      exact .attr h5 h4

/-! ### Lemmas: binding outputs -/

theorem get_bindOutputs {ctx : List (String × Ref)} {ref : Ref} {n : ℕ} {l : List (ℕ × String)} {x : String} {r : Ref}
    (h : Dict.get (bindOutputs ctx ref n l) x = some r) :
    Dict.get ctx x = some r ∨ ∃ i, (i, x) ∈ l ∧ r = if n = 1 then ref else .attr ref (.idx i) := by
  induction l generalizing ctx with
  | nil => exact Or.inl h
  | cons p l ih =>
    obtain ⟨i, name⟩ := p
    rcases ih h with hq | ⟨j, hj, he⟩
    · rw [Dict.get_set] at hq
      by_cases hx : name = x
      · rw [if_pos hx] at hq
        subst hx
        exact Or.inr ⟨i, by simp, (Option.some.inj hq).symm⟩
      · rw [if_neg hx] at hq
        exact Or.inl hq
    · exact Or.inr ⟨j, by simp [hj], he⟩

theorem mem_outputNames {g : Graph} {outs : List Ref} {i : ℕ} {x : String} :
    (i, x) ∈ g.outputNames outs ↔ ∃ r id, outs[i]? = some r ∧ r.baseNode? = some id ∧ g.nameOf id = x := by
  unfold Graph.outputNames
  simp only [List.mem_filterMap, Option.map_eq_some_iff, Prod.mk.injEq]
  constructor
  · rintro ⟨⟨r, k⟩, hm, id, hid, rfl, rfl⟩
    exact ⟨r, id, List.mem_zipIdx_iff_getElem?.1 hm, hid, rfl⟩
  · rintro ⟨r, id, hm, hid, rfl⟩
    exact ⟨(r, i), List.mem_zipIdx_iff_getElem?.2 hm, id, hid, rfl, rfl⟩

/-! ### Lemmas: one part -/

theorem addNode_ok {g g' : Graph} {n : Node} (h : g.addNode n = .ok g') :
    g' = { g with nodes := g.nodes ++ [{ n with delegate := none }] } ∧ g.find? n.id = none := by
  unfold Graph.addNode at h
  cases hf : g.find? n.id with
  | some m => rw [hf, Option.isSome_some, if_pos rfl] at h; simp at h
  | none =>
    rw [hf, Option.isSome_none, if_neg (by simp)] at h
    exact ⟨(Except.ok.inj h).symm, rfl⟩

/-- A node is added: what had a value keeps it, and the new node computes its call. -/
theorem added {sem : Sem V W} {w : W} {c : Ctx} {b : String → V} {g g' : Graph} {n : Node} (h : g.addNode n = .ok g') :
    (∀ r v, Val sem g w c b r v → Val sem g' w c b r v) ∧
    (∀ vs v, List.Forall₂ (Val sem g w c b) n.allArgs vs →
      sem.call w c n.target (vs.take n.args.length) ((n.kwargs.map (·.1)).zip (vs.drop n.args.length)) = some v → Val sem g' w c b (.node n.id) v) ∧
    g'.inputs = g.inputs ∧ g'.nodes = g.nodes ++ [{ n with delegate := none }] := by
  obtain ⟨rfl, hf⟩ := addNode_ok h
  have grow : ∀ r v, Val sem g w c b r v → Val sem { g with nodes := g.nodes ++ [{ n with delegate := none }] } w c b r v := by
    intro r v hv
    refine den_grow (g := g) (fun id m hm => ⟨m, ?_, rfl, rfl, rfl⟩) (fun x hx => hx) hv
    unfold Graph.find? at hm ⊢
    rw [List.find?_append, hm]
    rfl
  refine ⟨grow, fun vs v h1 h2 => ?_, rfl, rfl⟩
  refine node_val (n := { n with delegate := none }) ?_ (List.Forall₂.imp (fun r v hv => grow r v hv) h1) h2
  unfold Graph.find? at hf ⊢
  rw [List.find?_append, hf]
  simp

/-- The parts that are handled: nodes, and graphs made of a region whose outputs are whole nodes. -/
def GoodPart (sem : Sem V W) (g : Graph) (w : W) (c : Ctx) (modOf : Graph → ℕ) : Part → Prop
  | .node _ => True
  | .sub sub => ∃ path, createSubgraph g path = .ok sub ∧ (∀ r ∈ sub.outputs, ∃ id, r = .node id) ∧ IsGraphModule sem w c (modOf sub) sub

theorem forall2_val {sem : Sem V W} {g : Graph} {w : W} {c : Ctx} {b : String → V} {rs : List Ref} (h : ∀ r ∈ rs, ∃ v, Val sem g w c b r v) :
    ∃ vs, List.Forall₂ (Val sem g w c b) rs vs := by
  induction rs with
  | nil => exact ⟨[], .nil⟩
  | cons r rs ih =>
    obtain ⟨v, hv⟩ := h r (by simp)
    obtain ⟨vs, hvs⟩ := ih fun r hr => h r (by simp [hr])
    exact ⟨v :: vs, .cons hv hvs⟩

theorem forall2_get {α β : Type} {R : α → β → Prop} {l : List α} {m : List β} (h : List.Forall₂ R l m) {i : ℕ} {a : α} (ha : l[i]? = some a) :
    ∃ b, m[i]? = some b ∧ R a b := by
  obtain ⟨p, q⟩ := List.getElem?_eq_some_iff.1 ha
  have hl : i < m.length := by rw [← h.length_eq]; exact p
  refine ⟨m[i], List.getElem?_eq_getElem hl, ?_⟩
  have := (List.forall₂_iff_get.1 h).2 i p hl
  simp only [List.get_eq_getElem, q] at this
  exact this

/-- References bound to the results of a node that packs the values of `outs`. -/
theorem packed_val {sem : Sem V W} {g g' : Graph} {w : W} {c : Ctx} {b : String → V} {ref : Ref} {u : V} {outs : List Ref} {vs : List V}
    (hu : Val sem g' w c b ref u) (hv : List.Forall₂ (Val sem g w c b) outs vs) (hp : Packs sem u vs) {i : ℕ} {r : Ref} (hi : outs[i]? = some r)
    {v : V} (hr : Val sem g w c b r v) : Val sem g' w c b (if outs.length = 1 then ref else .attr ref (.idx i)) v := by
  obtain ⟨v', h1, h2⟩ := forall2_get hv hi
  obtain rfl := val_unique hr h2
  by_cases hl : outs.length = 1
  · rw [if_pos hl]
    have hvs := hp.1 (hv.length_eq ▸ hl)
    rw [hvs] at h1
    have : v = u := by
      have hi0 : i = 0 := by
        obtain ⟨p, _⟩ := List.getElem?_eq_some_iff.1 h1
        simpa using p
      subst hi0
      simpa using h1.symm
    rw [this]
    exact hu
  · rw [if_neg hl]
    have := hp.2 (hv.length_eq ▸ hl) i v h1
    exact .attr hu (.cons this .nil)

theorem sound_rewire {sem : Sem V W} {g : Graph} {w : W} {c : Ctx} {b : String → V} {s s' : Rewired} (ht : Tidy g) (hs : Sound sem g w c b s)
    {parseInt : String → Option Int} (hp : ParsesInts parseInt) (hsp : SimpleParts parseInt g) (hdef : ∀ n ∈ g.nodes, ∃ v, Val sem g w c b (.node n.id) v)
    (hfold : FoldsCompute sem g w c b) {modOf : Graph → ℕ} {part : Part}
    (hgp : GoodPart sem g w c modOf part)
    (h : g.rewire parseInt modOf s part = .ok s') : Sound sem g w c b s' := by
  have hargs : ∀ n ∈ g.nodes, ∀ r ∈ n.allArgs, ∃ v, Val sem g w c b r v := by
    intro n hn r hr
    obtain ⟨v, hv⟩ := hdef n hn
    obtain ⟨n', vs, h1, h2, _⟩ := val_node hv
    rw [find_of_mem ht.closed.ids hn] at h1
    rw [← Option.some.inj h1] at h2
    obtain ⟨v', _, h3⟩ := forall2_mem h2 hr
    exact ⟨v', h3⟩
  cases part with
  | node nid =>
    unfold Graph.rewire at h
    obtain ⟨n, h1, h⟩ := bind_ok h
    obtain ⟨args, h2, h⟩ := bind_ok h
    obtain ⟨kwargs, h3, h⟩ := bind_ok h
    obtain ⟨graph, h4, h⟩ := bind_ok h
    obtain ⟨hn, rfl⟩ := mem_of_find (getNode_ok h1)
    obtain ⟨a1, a2, a3, a4⟩ := added (sem := sem) (w := w) (c := c) (b := b) h4
    have hnew : ∀ v, Val sem g w c b (.node n.id) v → Val sem graph w c b (.node s.graph.nodes.length) v := by
      intro v hv
      obtain ⟨n', vs, e1, e2, e3⟩ := val_node hv
      rw [find_of_mem ht.closed.ids hn] at e1
      obtain rfl := Option.some.inj e1
      have q1 := mapM_ok_inv h2
      have q2 := mapM_ok_inv h3
      have hk : kwargs.map (·.1) = n.kwargs.map (·.1) := by
        have : ∀ (l : List (String × Ref)) (m : List (String × Ref)), List.Forall₂ (fun kv kv' => (remap g.nameOf s.ctx [] kv.2).map (kv.1, ·) = Except.ok kv') l m →
            m.map (·.1) = l.map (·.1) := by
          intro l m h
          induction h with
          | nil => rfl
          | @cons x y l m h _ ih =>
            cases hx : remap g.nameOf s.ctx [] x.2 with
            | error e => rw [hx] at h; simp [Except.map] at h
            | ok q =>
              rw [hx] at h
              simp only [Except.map, Except.ok.injEq] at h
              rw [← h, List.map_cons, List.map_cons, ih]
        exact this _ _ q2
      have hall : List.Forall₂ (fun r r' => remap g.nameOf s.ctx [] r = Except.ok r') n.allArgs (args ++ kwargs.map (·.2)) := by
        unfold Node.allArgs
        refine List.rel_append q1 ?_
        rw [List.forall₂_map_left_iff, List.forall₂_map_right_iff]
        refine q2.imp fun x y hxy => ?_
        cases hx : remap g.nameOf s.ctx [] x.2 with
        | error e => rw [hx] at hxy; simp [Except.map] at hxy
        | ok q =>
          rw [hx] at hxy
          simp only [Except.map, Except.ok.injEq] at hxy
          rw [← hxy]
      refine a2 vs v ?_ ?_
      · show List.Forall₂ _ (args ++ kwargs.map (·.2)) vs
        rw [List.forall₂_iff_get]
        refine ⟨by rw [← hall.length_eq, e2.length_eq], fun i p1 p2 => ?_⟩
        have p0 : i < n.allArgs.length := by rw [hall.length_eq]; exact p1
        have t1 := (List.forall₂_iff_get.1 hall).2 i p0 p1
        have t2 := (List.forall₂_iff_get.1 e2).2 i p0 p2
        exact remap_val ht hs (ht.closed.args n hn _ (List.get_mem _ _)) t1 t2
      · show sem.call w c n.target (vs.take args.length) ((kwargs.map (·.1)).zip (vs.drop args.length)) = some v
        rw [hk, ← q1.length_eq]
        exact e3
    have hctx : ∀ name r', Dict.get (Dict.set s.ctx n.name (.node s.graph.nodes.length)) name = some r' → (name ∈ g.inputs ∧ r' = .input name) ∨
        ∃ n ∈ g.nodes, n.name = name ∧ ∀ v, Val sem g w c b (.node n.id) v → Val sem graph w c b r' v := by
      intro name r' hg
      rw [Dict.get_set] at hg
      by_cases hx : n.name = name
      · rw [if_pos hx] at hg
        rw [← Option.some.inj hg]
        exact Or.inr ⟨n, hn, hx, hnew⟩
      · rw [if_neg hx] at hg
        rcases hs.ctx _ _ hg with h | ⟨m, hm, h1, h2⟩
        · exact Or.inl h
        · exact Or.inr ⟨m, hm, h1, fun v hv => a1 _ _ (h2 v hv)⟩
    have hids : ∀ m ∈ graph.nodes, m.id < graph.nodes.length := by
      intro m hm
      rw [a4] at hm ⊢
      rw [List.length_append, List.length_singleton]
      rcases List.mem_append.1 hm with hm | hm
      · have := hs.ids m hm
        omega
      · rw [List.mem_singleton.1 hm]
        simp
    dsimp only at h
    by_cases hf : g.folds.contains n.id = true
    · rw [if_pos hf] at h
      obtain rfl := Except.ok.inj h
      refine ⟨a3.trans hs.inputs, hids, fun name r' hg => ?_⟩
      rcases get_bindOutputs hg with hg | ⟨i, hi, rfl⟩
      · exact hctx name r' hg
      · right
        obtain ⟨r, id, h5, h6, h7⟩ := mem_outputNames.1 hi
        have hol := foldOutputs_outlets ht.closed.ids n.id
        have hout : ∀ l ∈ g.foldOutputs n.id, ∃ m ∈ g.nodes, m.id = l := by
          intro l hl
          obtain ⟨⟨m, hm, h, _⟩, _⟩ := (hol.2 l).1 hl
          exact ⟨m, hm, h⟩
        obtain ⟨vs, hvs⟩ := forall2_val (sem := sem) (g := g) (w := w) (c := c) (b := b) (rs := (g.foldOutputs n.id).map .node) (by
          intro r hr
          obtain ⟨l, hl, rfl⟩ := List.mem_map.1 hr
          obtain ⟨m, hm, rfl⟩ := hout l hl
          exact hdef m hm)
        obtain ⟨u, hu, hpk⟩ := hfold n.id (by simpa using hf) _ vs hol (by rw [List.forall₂_map_left_iff] at hvs; exact hvs)
        have h5' := h5
        rw [List.getElem?_map, Option.map_eq_some_iff] at h5
        obtain ⟨l, hl, rfl⟩ := h5
        obtain ⟨m, hm, rfl⟩ := hout l (List.mem_of_getElem? hl)
        have : m.id = id := by simpa [Ref.baseNode?, Ref.unwrap] using h6
        subst this
        refine ⟨m, hm, by rw [← h7, nameOf_eq ht.closed.ids hm], fun v hv => ?_⟩
        have := packed_val (hnew u hu) hvs hpk h5' hv
        rw [List.length_map] at this
        exact this
    · rw [if_neg hf] at h
      obtain rfl := Except.ok.inj h
      exact ⟨a3.trans hs.inputs, hids, hctx⟩
  | sub sub =>
    obtain ⟨path, hcr, hwh, hmod⟩ := hgp
    have hap : NamesApart g path := by
      intro n hn m hm h1 h2 h3
      exact h2 (name_inj ht hn hm h3 ▸ h1)
    obtain ⟨c1, c2, c3, c4, c5, c6, c7⟩ := create_spec ht.closed hap hcr
    unfold Graph.rewire at h
    obtain ⟨args, h2, h⟩ := bind_ok h
    obtain ⟨graph, h4, h⟩ := bind_ok h
    obtain rfl := Except.ok.inj h
    obtain ⟨a1, a2, a3, a4⟩ := added (sem := sem) (w := w) (c := c) (b := b) h4
    have q := mapM_ok_inv h2
    -- the value of each input of the new graph
    have hval : ∀ x ∈ sub.inputs, ∃ r', resolveInput parseInt s.ctx x = .ok r' ∧ ∃ v, Val sem s.graph w c b r' v := by
      intro x hx
      obtain ⟨r', _, hr'⟩ := forall2_mem q hx
      obtain ⟨id, hid, n, hn, r, hr, he, rfl⟩ := (c3 x).1 hx
      obtain ⟨v, hv⟩ := hargs n (mem_of_find hn).1 r hr
      exact ⟨r', hr', v, resolve_val ht hs hp hsp (mem_of_find hn).1 hr he hr' hv⟩
    have hb : ∃ b' : String → V, ∀ x ∈ sub.inputs, ∀ r', resolveInput parseInt s.ctx x = .ok r' → Val sem s.graph w c b r' (b' x) := by
      have : ∀ x, ∃ v, x ∈ sub.inputs → ∀ r', resolveInput parseInt s.ctx x = .ok r' → Val sem s.graph w c b r' v := by
        intro x
        by_cases hx : x ∈ sub.inputs
        · obtain ⟨r', h1, v, hv⟩ := hval x hx
          refine ⟨v, fun _ r'' h2 => ?_⟩
          rw [h1] at h2
          rw [← Except.ok.inj h2]
          exact hv
        · exact ⟨b "", fun h => absurd h hx⟩
      choose b' hb' using this
      exact ⟨b', hb'⟩
    obtain ⟨b', hb'⟩ := hb
    have hin : ∀ x r, TakesFromOutside g path r → StandsFor g x r → Den sem g (fun x => [b x]) (fun _ => w) c r [b' x] := by
      rintro x r ⟨id, hid, n, hn, rfl, hr, he⟩ hsf
      have hx := (standsFor_iff ht.closed.ids (ht.closed.args n hn r hr) he x).1 hsf
      have he' := externalRef_iff.2 he
      have hx' : x ∈ sub.inputs := (c3 x).2 ⟨n.id, hid, n, find_of_mem ht.closed.ids hn, r, hr, he', hx⟩
      obtain ⟨v, hv⟩ := hargs n hn r hr
      obtain ⟨r', h1, _⟩ := hval x hx'
      have h2 := hb' x hx' r' h1
      rw [← hx] at h1
      have h3 := resolve_val ht hs hp hsp hn hr he' h1 hv
      rw [← val_unique h3 h2]
      exact hv
    have hout : ∀ r ∈ sub.outputs, ∃ m ∈ g.nodes, r = .node m.id := by
      intro r hr
      obtain ⟨id, rfl⟩ := hwh r hr
      have : id ∈ path := by
        rcases (c6 _).1 hr with ⟨_, j, hj, he⟩ | ⟨j, hj, he, _⟩
        · have : id = j := by simpa [Ref.unwrap] using he
          exact this ▸ hj
        · have : id = j := by simpa using he
          exact this ▸ hj
      obtain ⟨m, hm, rfl⟩ := c1 id this
      exact ⟨m, hm, rfl⟩
    obtain ⟨vs, hvs⟩ := forall2_val (sem := sem) (g := g) (w := w) (c := c) (b := b) (rs := sub.outputs) (by
      intro r hr
      obtain ⟨m, hm, rfl⟩ := hout r hr
      exact hdef m hm)
    have hvs' : List.Forall₂ (Val sem sub w c b') sub.outputs vs := by
      rw [List.forall₂_iff_get] at hvs ⊢
      refine ⟨hvs.1, fun i p1 p2 => ?_⟩
      exact (extracted_values_partial sem g sub ht.closed path hap hcr (fun x => [b x]) (fun x => [b' x]) (fun _ => w) c hin _
        (Or.inl (List.get_mem _ _)) _).2 (hvs.2 i p1 p2)
    obtain ⟨u, hcall, hpk⟩ := hmod b' vs hvs'
    have hu : Val sem graph w c b (.node s.graph.nodes.length) u := by
      have hlen : args.length = (sub.inputs.map b').length := by rw [List.length_map, q.length_eq]
      refine a2 (sub.inputs.map b') u ?_ ?_
      · show List.Forall₂ _ (args ++ []) _
        rw [List.append_nil, List.forall₂_map_right_iff]
        rw [List.forall₂_iff_get] at q ⊢
        refine ⟨q.1.symm, fun i p1 p2 => ?_⟩
        exact hb' _ (List.get_mem _ _) _ (q.2 i p2 p1)
      · show sem.call w c (modOf sub) ((sub.inputs.map b').take args.length) (([] : List String).zip _) = some u
        rw [hlen, List.take_length, List.zip_nil_left]
        exact hcall
    refine ⟨a3.trans hs.inputs, ?_, fun name r' hg => ?_⟩
    · intro m hm
      rw [a4] at hm ⊢
      rw [List.length_append, List.length_singleton]
      rcases List.mem_append.1 hm with hm | hm
      · have := hs.ids m hm
        omega
      · rw [List.mem_singleton.1 hm]
        simp
    · rcases get_bindOutputs hg with hg | ⟨i, hi, rfl⟩
      · rcases hs.ctx _ _ hg with h | ⟨m, hm, h1, h2⟩
        · exact Or.inl h
        · exact Or.inr ⟨m, hm, h1, fun v hv => a1 _ _ (h2 v hv)⟩
      · right
        obtain ⟨r, id, h5, h6, h7⟩ := mem_outputNames.1 hi
        obtain ⟨m, hm, rfl⟩ := hout r (List.mem_of_getElem? h5)
        have : m.id = id := by simpa [Ref.baseNode?, Ref.unwrap] using h6
        subst this
        exact ⟨m, hm, by rw [← h7, nameOf_eq ht.closed.ids hm], fun v hv => packed_val hu hvs hpk h5 hv⟩

end FF.Orch
