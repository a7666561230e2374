import Verif.Orch.TraceProps

/-! # Tracing: every exported graph in scope is built (C84) -/

namespace FF.Trace

open FF.Orch

/-! ### Specification -/

mutual

/-- All nodes of the argument are among these. -/
def Arg.In (ids : List ℕ) : Arg → Prop
  | .node i => i ∈ ids
  | .const _ => True
  | .tuple l => AllIn ids l
  | .list l => AllIn ids l
  | .slice a b c => a.In ids ∧ b.In ids ∧ c.In ids
  | .dict _ l => AllIn ids l

def AllIn (ids : List ℕ) : List Arg → Prop
  | [] => True
  | a :: l => a.In ids ∧ AllIn ids l

end

/-- The node that a step of an exported graph gives, and whether it is computed: it is not an input or a constant. -/
def Fx.gives (onOriginal : String → Bool) (pre : String) : Fx → List (ℕ × Bool)
  | .placeholder id _ => [(id, false)]
  | .getAttr id _ target lifted => [(id, lifted.isNone || onOriginal (absolute pre target))]
  | .callModule id .. => [(id, true)]
  | .callFunction id .. => [(id, true)]
  | .callMethod id .. => [(id, true)]
  | .skipped _ => []

/-- The arguments of a call fit the inputs: one for each, none twice. -/
def Fits (names : List String) (args : ℕ) (keys : List String) : Prop :=
  args + keys.length = names.length ∧ keys.Nodup ∧ ∀ k ∈ keys, k ∈ names ∧ k ∉ names.take args

mutual

/-- A node in scope, after the nodes `seen`: it uses nodes that are there. If it calls a module that calls modules, that module's graph is in scope, its
arguments fit, and its output is computed there. -/
def NodeScoped (onOriginal : String → Bool) (pre : String) (seen : List (ℕ × Bool)) : Fx → Prop
  | .placeholder _ _ => True
  | .getAttr .. => True
  | .callModule _ _ target _ body out args kwargs =>
    AllIn (seen.map (·.1)) args ∧ AllIn (seen.map (·.1)) (kwargs.map (·.2)) ∧
      (¬ LeafBody body → Scoped onOriginal (absolute pre target) [] body ∧ (placeholders body).Nodup ∧ Fits (placeholders body) args.length (kwargs.map (·.1)) ∧
        ∀ a ∈ out.items, ∀ i, a = .node i → (i, true) ∈ body.flatMap (Fx.gives onOriginal (absolute pre target)))
  | .callFunction _ _ _ args kwargs => AllIn (seen.map (·.1)) args ∧ AllIn (seen.map (·.1)) (kwargs.map (·.2))
  | .callMethod _ _ _ args kwargs => AllIn (seen.map (·.1)) args ∧ AllIn (seen.map (·.1)) (kwargs.map (·.2))
  | .skipped _ => True

/-- Every node is in scope and given once. -/
def Scoped (onOriginal : String → Bool) (pre : String) (seen : List (ℕ × Bool)) : List Fx → Prop
  | [] => True
  | n :: ns => NodeScoped onOriginal pre seen n ∧ (∀ p ∈ n.gives onOriginal pre, p.1 ∉ seen.map (·.1)) ∧ Scoped onOriginal pre (seen ++ n.gives onOriginal pre) ns

end

/-! ### Lemmas -/

/-- The builder knows the nodes seen, and those that are computed as nodes. -/
def Knows (seen : List (ℕ × Bool)) (s : Builder) : Prop := ∀ i c, (i, c) ∈ seen → ∃ r, Dict.get s.refs i = some r ∧ (c = true → isNodeRef r = true)

/-- Nodes that are added have ids from `k` on. -/
def Low (k : ℕ) (s s' : Builder) : Prop := ∀ n ∈ s'.graph.nodes, (∃ m ∈ s.graph.nodes, m.id = n.id) ∨ k ≤ n.id

theorem Low.refl (k : ℕ) (s : Builder) : Low k s s := fun n hn => Or.inl ⟨n, hn, rfl⟩

theorem Low.trans {k k' : ℕ} {s s' s'' : Builder} (h : Low k s s') (h' : Low k' s' s'') (hk : k ≤ k') : Low k s s'' := by
  intro n hn
  rcases h' n hn with ⟨m, hm, he⟩ | hl
  · rcases h m hm with ⟨m', hm', he'⟩ | hl
    · exact Or.inl ⟨m', hm', he'.trans he⟩
    · exact Or.inr (he ▸ hl)
  · exact Or.inr (by omega)

theorem knows_refs {seen : List (ℕ × Bool)} {s s' : Builder} (h : Knows seen s) (he : s'.refs = s.refs) : Knows seen s' := by
  unfold Knows
  rw [he]
  exact h

theorem knows_mem {seen : List (ℕ × Bool)} {s : Builder} (h : Knows seen s) {i : ℕ} (hi : i ∈ seen.map (·.1)) : ∃ r, Dict.get s.refs i = some r := by
  obtain ⟨⟨j, c⟩, hp, rfl⟩ := List.mem_map.1 hi
  obtain ⟨r, hr, _⟩ := h j c hp
  exact ⟨r, hr⟩

theorem add_total {s : Builder} (hs : Ok s) (name : String) (target : ℕ) (m : Bool) (args : List Ref) (kwargs : List (String × Ref)) :
    ∃ s' r, s.add name target m args kwargs = .ok (s', r) ∧ Low s.next s s' ∧ isNodeRef r = true := by
  have hf : s.graph.find? s.next = none := find_none_iff.2 fun n hn => by have := hs.graph.fresh n hn; omega
  unfold Builder.add Graph.addNode
  simp only [hf, Option.isSome_none, Bool.false_eq_true, if_false]
  refine ⟨_, _, rfl, ?_, rfl⟩
  intro n hn
  simp only [List.mem_append, List.mem_singleton] at hn
  rcases hn with hn | rfl
  · exact Or.inl ⟨n, hn, rfl⟩
  · exact Or.inr le_rfl

mutual

theorem convert_total (t : Callables) (seen : List (ℕ × Bool)) : ∀ (a : Arg) (name : String) (s : Builder), Ok s → Knows seen s → a.In (seen.map (·.1)) →
    ∃ s' r, convert t a name s = .ok (s', r) ∧ Low s.next s s'
  | .node i, name, s, hs, hk, ha => by
    obtain ⟨r, hr⟩ := knows_mem hk ha
    exact ⟨s, r, by simp only [convert, hr], Low.refl _ _⟩
  | .const k, name, s, hs, hk, ha => ⟨s, _, rfl, Low.refl _ _⟩
  | .tuple l, name, s, hs, hk, ha => by
    simp only [convert]
    split_ifs with hn
    · obtain ⟨s1, rs, h1, hl1⟩ := convertAll_total t seen l ((List.range l.length).map fun i => s!"{name}_{i}") s hs hk ha
      have st : ConvertAllOk ℕ ℕ t l s s1 rs := convertAll_ok t l _ s s1 rs hs h1
      obtain ⟨s2, r, h2, hl2, _⟩ := add_total st.1.ok (name ++ "__make_tuple") t.tuple false rs []
      rw [h1]
      exact ⟨s2, r, h2, hl1.trans hl2 st.1.next⟩
    · exact ⟨s, _, rfl, Low.refl _ _⟩
  | .list l, name, s, hs, hk, ha => by
    simp only [convert]
    split_ifs with hn
    · obtain ⟨s1, rs, h1, hl1⟩ := convertAll_total t seen l ((List.range l.length).map fun i => s!"{name}_{i}") s hs hk ha
      have st : ConvertAllOk ℕ ℕ t l s s1 rs := convertAll_ok t l _ s s1 rs hs h1
      obtain ⟨s2, r, h2, hl2, _⟩ := add_total st.1.ok (name ++ "__make_list") t.list false rs []
      rw [h1]
      exact ⟨s2, r, h2, hl1.trans hl2 st.1.next⟩
    · exact ⟨s, _, rfl, Low.refl _ _⟩
  | .slice a b c, name, s, hs, hk, ha => by
    simp only [convert]
    split_ifs with hn
    · obtain ⟨s1, r1, h1, l1⟩ := convert_total t seen a (name ++ "_start") s hs hk ha.1
      have st1 : ConvertOk ℕ ℕ t a s s1 r1 := convert_ok t a _ s s1 r1 hs h1
      obtain ⟨s2, r2, h2, l2⟩ := convert_total t seen b (name ++ "_stop") s1 st1.1.ok (knows_refs hk st1.1.refs) ha.2.1
      have st2 : ConvertOk ℕ ℕ t b s1 s2 r2 := convert_ok t b _ s1 s2 r2 st1.1.ok h2
      obtain ⟨s3, r3, h3, l3⟩ := convert_total t seen c (name ++ "_step") s2 st2.1.ok (knows_refs hk (st2.1.refs.trans st1.1.refs)) ha.2.2
      have st3 : ConvertOk ℕ ℕ t c s2 s3 r3 := convert_ok t c _ s2 s3 r3 st2.1.ok h3
      obtain ⟨s4, r, h4, l4, _⟩ := add_total st3.1.ok (name ++ "_make_slice") t.slice false [] [("start", r1), ("stop", r2), ("step", r3)]
      rw [h1]
      simp only
      rw [h2]
      simp only
      rw [h3]
      exact ⟨s4, r, h4, ((l1.trans l2 st1.1.next).trans l3 (st1.1.next.trans st2.1.next)).trans l4 ((st1.1.next.trans st2.1.next).trans st3.1.next)⟩
    · exact ⟨s, _, rfl, Low.refl _ _⟩
  | .dict keys l, name, s, hs, hk, ha => by
    simp only [convert]
    split_ifs with hn
    · obtain ⟨s1, rs, h1, hl1⟩ := convertAll_total t seen l (keys.map fun k => s!"{name}_{k}") s hs hk ha
      have st : ConvertAllOk ℕ ℕ t l s s1 rs := convertAll_ok t l _ s s1 rs hs h1
      obtain ⟨s2, r, h2, hl2, _⟩ := add_total st.1.ok (name ++ "_make_dict") t.dict false [] (keys.zip rs)
      rw [h1]
      exact ⟨s2, r, h2, hl1.trans hl2 st.1.next⟩
    · exact ⟨s, _, rfl, Low.refl _ _⟩

theorem convertAll_total (t : Callables) (seen : List (ℕ × Bool)) : ∀ (l : List Arg) (names : List String) (s : Builder), Ok s → Knows seen s →
    AllIn (seen.map (·.1)) l → ∃ s' rs, convertAll t l names s = .ok (s', rs) ∧ Low s.next s s'
  | [], names, s, hs, hk, ha => ⟨s, [], rfl, Low.refl _ _⟩
  | a :: l, names, s, hs, hk, ha => by
    obtain ⟨s1, r1, h1, l1⟩ := convert_total t seen a (names.headD "") s hs hk ha.1
    have st1 : ConvertOk ℕ ℕ t a s s1 r1 := convert_ok t a _ s s1 r1 hs h1
    obtain ⟨s2, rs, h2, l2⟩ := convertAll_total t seen l names.tail s1 st1.1.ok (knows_refs hk st1.1.refs) ha.2
    simp only [convertAll]
    rw [h1]
    simp only
    rw [h2]
    exact ⟨s2, _, rfl, l1.trans l2 st1.1.next⟩

end

theorem convertArgs_total {t : Callables} {seen : List (ℕ × Bool)} {s : Builder} (hs : Ok s) (hk : Knows seen s) {args : List Arg} {kwargs : List (String × Arg)}
    (ha : AllIn (seen.map (·.1)) args) (hkw : AllIn (seen.map (·.1)) (kwargs.map (·.2))) (name : String) :
    ∃ s' rs ks, convertArgs t name args kwargs s = .ok (s', rs, ks) ∧ Low s.next s s' ∧ rs.length = args.length ∧ ks.map (·.1) = kwargs.map (·.1) := by
  obtain ⟨s1, rs, h1, l1⟩ := convertAll_total t seen args ((List.range args.length).map fun i => s!"{name}_arg{i}") s hs hk ha
  have st1 : ConvertAllOk ℕ ℕ t args s s1 rs := convertAll_ok t args _ s s1 rs hs h1
  obtain ⟨s2, ks, h2, l2⟩ := convertAll_total t seen (kwargs.map (·.2)) (kwargs.map fun p => s!"{name}_{p.1}") s1 st1.1.ok (knows_refs hk st1.1.refs) hkw
  have st2 : ConvertAllOk ℕ ℕ t _ s1 s2 ks := convertAll_ok t _ _ s1 s2 ks st1.1.ok h2
  unfold convertArgs
  rw [h1]
  simp only
  rw [h2]
  refine ⟨s2, rs, _, rfl, l1.trans l2 st1.1.next, st1.2.2.1, ?_⟩
  rw [List.map_fst_zip]
  rw [st2.2.2.1, List.length_map, List.length_map]

theorem addOp_total {t : Callables} {seen : List (ℕ × Bool)} {s : Builder} (hs : Ok s) (hk : Knows seen s) {args : List Arg} {kwargs : List (String × Arg)}
    (ha : AllIn (seen.map (·.1)) args) (hkw : AllIn (seen.map (·.1)) (kwargs.map (·.2))) (fxName name : String) (target : ℕ) (m : Bool) :
    ∃ s' r, addOp t fxName name target m args kwargs s = .ok (s', r) ∧ Low s.next s s' ∧ isNodeRef r = true ∧ s'.refs = s.refs := by
  obtain ⟨s1, rs, ks, h1, l1, _, _⟩ := convertArgs_total (t := t) hs hk ha hkw fxName
  obtain ⟨st, _, _, _⟩ := convertArgs_ok (V := ℕ) (W := ℕ) hs h1
  obtain ⟨s2, r, h2, l2, hr⟩ := add_total st.ok name target m rs ks
  have h : addOp t fxName name target m args kwargs s = .ok (s2, r) := by
    unfold addOp
    rw [h1]
    exact h2
  exact ⟨s2, r, h, l1.trans l2 st.next, hr, (addOp_ok (V := ℕ) (W := ℕ) hs h).1.refs⟩

theorem bind_knows {seen : List (ℕ × Bool)} {s s1 : Builder} {r : Ref} {id : ℕ} {c : Bool} (hk : Knows seen s) (he : s1.refs = s.refs) (hid : id ∉ seen.map (·.1))
    (hr : c = true → isNodeRef r = true) : Knows (seen ++ [(id, c)]) (Builder.bind id (s1, r)) := by
  intro i c' hi
  simp only [Builder.bind]
  rcases List.mem_append.1 hi with hi | hi
  · have hne : id ≠ i := by
      rintro rfl
      exact hid (List.mem_map.2 ⟨_, hi, rfl⟩)
    rw [Dict.get_set_ne _ _ hne, he]
    exact hk i c' hi
  · simp only [List.mem_singleton, Prod.mk.injEq] at hi
    obtain ⟨rfl, rfl⟩ := hi
    exact ⟨r, Dict.get_set_self .., hr⟩

theorem flatRefs_total {s : Builder} {l : List Arg} (h : ∀ a ∈ l, ∀ i, a = .node i → ∃ r, Dict.get s.refs i = some r ∧ isNodeRef r = true) :
    ∃ rs, flatRefs s.refs l = .ok rs ∧ (∀ r ∈ rs, isNodeRef r = true) ∧ ((∃ i, Arg.node i ∈ l) → rs ≠ []) := by
  induction l with
  | nil => exact ⟨[], rfl, by simp, by simp⟩
  | cons a l ih =>
    obtain ⟨rs, h1, h2, h3⟩ := ih fun a ha => h a (by simp [ha])
    cases a with
    | node i =>
      obtain ⟨r, hr, hn⟩ := h (.node i) (by simp) i rfl
      refine ⟨r :: rs, by simp [flatRefs, hr, h1, Except.map], ?_, by simp⟩
      intro q hq
      rcases List.mem_cons.1 hq with rfl | hq
      · exact hn
      · exact h2 q hq
    | _ => exact ⟨rs, by simpa [flatRefs] using h1, h2, fun ⟨i, hi⟩ => h3 ⟨i, by simpa using hi⟩⟩

theorem allIn_length {t : Callables} {l : List Arg} {names : List String} {s s' : Builder} {rs : List Ref} (hs : Ok s) (h : convertAll t l names s = .ok (s', rs)) :
    rs.length = l.length := (convertAll_ok (V := ℕ) (W := ℕ) t l names s s' rs hs h).2.2.1

/-- Inlining is accepted. -/
theorem inlineCall_total {t : Callables} {seen : List (ℕ × Bool)} {s : Builder} (hs : Ok s) (hk : Knows seen s) {args : List Arg} {kwargs : List (String × Arg)}
    (ha : AllIn (seen.map (·.1)) args) (hkw : AllIn (seen.map (·.1)) (kwargs.map (·.2))) (path name target : String) {sub : Graph} (hsub : GraphOk sub s.next)
    (hout : ∀ r ∈ sub.outputs, Fine sub r) (hno : ∀ r ∈ sub.outputs, isNodeRef r = true) (hne : sub.outputs ≠ []) (hp : PartFree sub.inputs)
    (hfit : Fits sub.inputs args.length (kwargs.map (·.1))) (hdis : ∀ n ∈ sub.nodes, ∀ m ∈ s.graph.nodes, m.id ≠ n.id) :
    ∃ s' r, inlineCall t path name target sub args kwargs s = .ok (s', r) ∧ isNodeRef r = true ∧ s'.refs = s.refs ∧
      ∀ n ∈ s'.graph.nodes, (∃ m ∈ s.graph.nodes, m.id = n.id) ∨ (∃ m ∈ sub.nodes, m.id = n.id) ∨ s.next ≤ n.id := by
  obtain ⟨s1, rs, ks, h1, l1, hlen, hkeys⟩ := convertArgs_total (t := t) hs hk ha hkw name
  obtain ⟨st, hf, hkf, _⟩ := convertArgs_ok (V := ℕ) (W := ℕ) hs h1
  have hsub' := graphOk_mono hsub st.next
  have hfresh : FreshFold s1.graph sub (some (s1.next, t.original path)) := by
    intro p hpe
    cases hpe
    exact ⟨fun n hn => by have := st.ok.graph.fresh n hn; simp only; omega, fun n hn => by have := hsub'.fresh n hn; simp only; omega⟩
  have hacc : AcceptsArgs sub.inputs rs ks := by
    obtain ⟨f1, f2, f3⟩ := hfit
    unfold AcceptsArgs
    have : ks.length = (kwargs.map (·.1)).length := by rw [← hkeys, List.length_map]
    rw [hkeys, hlen]
    exact ⟨by rw [this]; exact f1, f2, f3⟩
  obtain ⟨outs, h2⟩ := (inlining_accepted_iff s1.graph sub target rs ks (some (s1.next, t.original path)) hsub'.closed hp hfresh).1.2 ⟨hne, hacc, by
    intro n hn m hm
    rcases l1 m hm with ⟨m', hm', he⟩ | hl
    · exact he ▸ hdis n hn m' hm'
    · have := hsub.fresh n hn
      omega⟩
  obtain ⟨g, e, h3⟩ : ∃ g e, s1.graph.addSubgraph target sub rs ks (some (s1.next, t.original path)) = (g, e) := ⟨_, _, rfl⟩
  rw [h3] at h2
  simp only at h2
  subst h2
  obtain ⟨hg, hext, hin, ho, hfo, _, _⟩ := inline_ok (V := ℕ) (W := ℕ) st.ok.graph hsub' hout hp hf hkf h3
  obtain ⟨_, houts, _⟩ := addSubgraph_spec hsub'.closed hp h3
  have hnodes := addSubgraph_nodes hsub'.closed hp h3
  have st1 : Step s1 { s1 with graph := g, next := s1.next + 1 } :=
    ⟨⟨hg, fun i q hq => fine_ext hext (st.ok.refs i q hq)⟩, Nat.le_succ _, hext, hin, ho, rfl⟩
  have hnew : ∀ n ∈ g.nodes, (∃ m ∈ s.graph.nodes, m.id = n.id) ∨ (∃ m ∈ sub.nodes, m.id = n.id) ∨ s.next ≤ n.id := by
    intro n hn
    rw [hnodes] at hn
    simp only [List.mem_append, List.mem_cons, List.mem_map] at hn
    rcases hn with hn | rfl | ⟨m, hm, rfl⟩
    · rcases l1 n hn with h | h
      · exact Or.inl h
      · exact Or.inr (Or.inr h)
    · exact Or.inr (Or.inr st.next)
    · exact Or.inr (Or.inl ⟨m, foldsFirst_mem.1 hm, rfl⟩)
  have hnode : ∀ r ∈ outs, isNodeRef r = true := by
    intro r hr
    rw [houts] at hr
    obtain ⟨q, hq, rfl⟩ := List.mem_map.1 hr
    have := hno q hq
    cases q with
    | node i => rfl
    | _ => simp [isNodeRef] at this
  unfold inlineCall
  rw [h1]
  simp only
  rw [h3]
  simp only
  unfold packed
  match outs, hnode with
  | [r], hnode => exact ⟨_, r, rfl, hnode r (by simp), st.refs, hnew⟩
  | [], _ =>
    exfalso
    exact hne (by simpa using houts)
  | r :: r' :: outs, hnode =>
    obtain ⟨s2, q, h4, l4, hq⟩ := add_total st1.ok (target ++ "_pack_outputs") t.tuple false (r :: r' :: outs) []
    obtain ⟨st2, _, _, _⟩ := add_ok (V := ℕ) (W := ℕ) st1.ok hfo (by simp) h4
    refine ⟨s2, q, h4, hq, st2.refs.trans st.refs, fun n hn => ?_⟩
    rcases l4 n hn with ⟨m, hm, he⟩ | hl
    · exact he ▸ hnew m hm
    · have := st.next
      have hl : s1.next + 1 ≤ n.id := hl
      exact Or.inr (Or.inr (by omega))

theorem nodup_mid {l l' : List String} {x : String} (h : (l ++ x :: l').Nodup) : x ∉ l ∧ ((l ++ [x]) ++ l').Nodup := by
  refine ⟨fun hx => ?_, by simpa using h⟩
  have := List.nodup_append.1 h
  exact this.2.2 x hx x (by simp) rfl

theorem regular_head {pre : String} {n : Fx} {ns : List Fx} (h : Regular pre (n :: ns)) : Regular pre [n] := by
  intro path required body out provided hc
  refine h path required body out provided ?_
  cases hc with
  | here hm => exact .here (by rw [List.mem_singleton.1 hm]; simp)
  | inside hm hc => exact .inside (by rw [List.mem_singleton.1 hm]; simp) hc

mutual

theorem buildNode_total (t : Callables) (onOriginal : String → Bool) : ∀ (n : Fx) (rename : String → String) (pre : String) (seen : List (ℕ × Bool)) (s : Builder),
    Ok s → Knows seen s → Regular pre [n] → NodeScoped onOriginal pre seen n → (∀ p ∈ n.gives onOriginal pre, p.1 ∉ seen.map (·.1)) →
    (s.graph.inputs ++ (placeholders [n]).map rename).Nodup →
    ∃ s', buildNode t onOriginal rename pre n s = .ok s' ∧ Knows (seen ++ n.gives onOriginal pre) s' ∧ Low s.next s s'
  | .placeholder id name, rename, pre, seen, s, hs, hk, hreg, hsc, hnew, hin => by
    have hx : rename name ∉ s.graph.inputs := (nodup_mid (by simpa [placeholders] using hin)).1
    simp only [buildNode]
    rw [if_neg hx]
    refine ⟨_, rfl, ?_, Low.refl _ _⟩
    exact bind_knows (s1 := { s with graph := { s.graph with inputs := s.graph.inputs ++ [rename name] } }) hk rfl (hnew (id, false) (by simp [Fx.gives])) nofun
  | .getAttr id name target lifted, rename, pre, seen, s, hs, hk, hreg, hsc, hnew, hin => by
    have hid := hnew (id, lifted.isNone || onOriginal (absolute pre target)) (by simp [Fx.gives])
    simp only [buildNode]
    split
    · rename_i k ho
      exact ⟨_, rfl, bind_knows hk rfl hid (by simp [ho]), Low.refl _ _⟩
    · obtain ⟨s', r, h, hl, hr⟩ := add_total hs (name ++ "_get_attr") (t.getter (absolute pre target)) false [] []
      obtain ⟨st, _⟩ := add_ok (V := ℕ) (W := ℕ) hs (by simp) (by simp) h
      rw [h]
      exact ⟨_, rfl, bind_knows hk st.refs hid fun _ => hr, hl⟩
  | .callModule id name target required body out args kwargs, rename, pre, seen, s, hs, hk, hreg, hsc, hnew, hin => by
    have hid := hnew (id, true) (by simp [Fx.gives])
    simp only [NodeScoped] at hsc
    obtain ⟨ha, hkw, hsub⟩ := hsc
    simp only [buildNode]
    by_cases hcall : body.any Fx.isCall = true
    · rw [if_pos hcall]
      have hleaf : ¬ LeafBody body := by rw [leafBody_iff, hcall]; simp
      obtain ⟨hsc, hnd, hfit, hout⟩ := hsub hleaf
      have hreg' : Regular (absolute pre target) body := fun _ _ _ _ _ hc => hreg _ _ _ _ _ (.inside (List.mem_singleton_self _) hc)
      obtain ⟨hshape, hnames⟩ := hreg _ _ _ _ _ (.here (List.mem_singleton_self _)) hleaf
      obtain ⟨sub, h0, hk0, hl0⟩ := buildNodes_total t onOriginal body _root_.id (absolute pre target) [] { next := s.next } (empty_ok s.next) nofun hreg' hsc
        (by simpa using hnd)
      obtain ⟨hb0, -⟩ := buildNodes_ok (V := ℕ) (W := ℕ) t onOriginal body _root_.id (absolute pre target) { next := s.next } sub (empty_ok s.next) hreg' h0
      obtain ⟨rs, h1, hn1, hne1⟩ := flatRefs_total (s := sub) (l := out.items) fun a ha' i hi => by
        obtain ⟨r, hr, hn⟩ := hk0 i true (by simpa using hout a ha' i hi)
        exact ⟨r, hr, hn rfl⟩
      have hne : rs ≠ [] := by
        refine hne1 ?_
        rcases hshape with ⟨i, rfl⟩ | ⟨is, hlen, rfl⟩
        · exact ⟨i, by simp [Arg.items]⟩
        · cases is with
          | nil => simp at hlen
          | cons i is => exact ⟨i, by simp [Arg.items]⟩
      have hfine := flatRefs_fine hb0.ok h1
      have heo := ext_outputs sub.graph rs
      have hin0 : sub.graph.inputs = placeholders body := by simpa using hb0.inputs
      have hout0 : sub.graph.outputs = [] := hb0.outputs
      obtain ⟨s', r, h2, hr, href, hlow⟩ := inlineCall_total (t := t) (s := { s with next := sub.next }) (sub := { sub.graph with outputs := rs }) (hs.mono hb0.next)
        (seen := seen) (knows_refs hk rfl) ha hkw (absolute pre target) name target (graphOk_outputs hb0.ok.graph hfine) (fun r hr => fine_ext heo (hfine r hr)) hn1 hne
        (by show PartFree sub.graph.inputs; rw [hin0]; exact partFree_of hnames) (by show Fits sub.graph.inputs _ _; rw [hin0]; exact hfit) (by
          intro n hn m hm he
          have hm' := hs.graph.fresh m hm
          rcases hl0 n hn with ⟨q, hq, _⟩ | hl
          · simp at hq
          · have hl : s.next ≤ n.id := hl
            omega)
      rw [h0]
      simp only [outputs]
      rw [h1]
      simp only
      rw [if_pos (List.all_eq_true.2 hn1)]
      simp only [hout0, List.nil_append]
      rw [h2]
      refine ⟨_, rfl, bind_knows hk href hid fun _ => hr, fun n hn => ?_⟩
      rcases hlow n hn with h | ⟨m, hm, he⟩ | h
      · exact Or.inl h
      · rcases hl0 m hm with ⟨q, hq, _⟩ | hl
        · simp at hq
        · exact Or.inr (he ▸ hl)
      · exact Or.inr (hb0.next.trans h)
    · rw [if_neg hcall]
      obtain ⟨s', r, h, hl, hr, href⟩ := addOp_total (t := t) hs hk ha hkw name target
        (if canCallOriginal required (args.length + kwargs.length) out then t.original (absolute pre target) else t.traced (absolute pre target)) true
      rw [h]
      exact ⟨_, rfl, bind_knows hk href hid fun _ => hr, hl⟩
  | .callFunction id name fn args kwargs, rename, pre, seen, s, hs, hk, hreg, hsc, hnew, hin => by
    simp only [NodeScoped] at hsc
    obtain ⟨s', r, h, hl, hr, href⟩ := addOp_total (t := t) hs hk hsc.1 hsc.2 name (name ++ "_call_function") (t.func fn) false
    simp only [buildNode]
    rw [h]
    exact ⟨_, rfl, bind_knows hk href (hnew (id, true) (by simp [Fx.gives])) fun _ => hr, hl⟩
  | .callMethod id name method args kwargs, rename, pre, seen, s, hs, hk, hreg, hsc, hnew, hin => by
    simp only [NodeScoped] at hsc
    obtain ⟨s', r, h, hl, hr, href⟩ := addOp_total (t := t) hs hk hsc.1 hsc.2 name (name ++ "_call_method") (t.method method) false
    simp only [buildNode]
    rw [h]
    exact ⟨_, rfl, bind_knows hk href (hnew (id, true) (by simp [Fx.gives])) fun _ => hr, hl⟩
  | .skipped _, rename, pre, seen, s, hs, hk, hreg, hsc, hnew, hin => ⟨s, rfl, by simpa [Fx.gives] using hk, Low.refl _ _⟩

theorem buildNodes_total (t : Callables) (onOriginal : String → Bool) : ∀ (ns : List Fx) (rename : String → String) (pre : String) (seen : List (ℕ × Bool))
    (s : Builder), Ok s → Knows seen s → Regular pre ns → Scoped onOriginal pre seen ns → (s.graph.inputs ++ (placeholders ns).map rename).Nodup →
    ∃ s', buildNodes t onOriginal rename pre ns s = .ok s' ∧ Knows (seen ++ ns.flatMap (Fx.gives onOriginal pre)) s' ∧ Low s.next s s'
  | [], rename, pre, seen, s, hs, hk, hreg, hsc, hin => ⟨s, rfl, by simpa using hk, Low.refl _ _⟩
  | n :: ns, rename, pre, seen, s, hs, hk, hreg, hsc, hin => by
    simp only [Scoped] at hsc
    have hpl : placeholders (n :: ns) = placeholders [n] ++ placeholders ns := by
      unfold placeholders
      rw [← List.filterMap_append]
      rfl
    rw [hpl, List.map_append, ← List.append_assoc] at hin
    obtain ⟨s1, h1, hk1, l1⟩ := buildNode_total t onOriginal n rename pre seen s hs hk (regular_head hreg) hsc.1 hsc.2.1 (List.nodup_append.1 hin).1
    obtain ⟨hb1, -⟩ := buildNode_ok (V := ℕ) (W := ℕ) t onOriginal n rename pre s s1 hs (regular_head hreg) h1
    have hreg' : Regular pre ns := by
      intro path required body out provided hc
      refine hreg path required body out provided ?_
      cases hc with
      | here hm => exact .here (List.mem_cons_of_mem _ hm)
      | inside hm hc => exact .inside (List.mem_cons_of_mem _ hm) hc
    obtain ⟨s2, h2, hk2, l2⟩ := buildNodes_total t onOriginal ns rename pre (seen ++ n.gives onOriginal pre) s1 hb1.ok hk1 hreg' hsc.2.2 (by
      rw [hb1.inputs]
      exact hin)
    simp only [buildNodes]
    rw [h1]
    simp only
    rw [h2]
    exact ⟨s2, rfl, by simpa [List.flatMap_cons, List.append_assoc] using hk2, l1.trans l2 hb1.next⟩

end

/-! ### Properties -/

/-- **C84 (partial).** Tracing an exported model succeeds: every node is in scope, the names of the inputs are distinct and what the model returns is computed.

Missing: modules that call modules and do not return one value or several (`Regular`), and exporting itself. -/
theorem traced_built_partial (t : Callables) (onOriginal : String → Bool) (rename : String → String) (nodes : List Fx) (out : Arg) (hreg : Regular "" nodes)
    (hsc : Scoped onOriginal "" [] nodes) (hin : ((placeholders nodes).map rename).Nodup)
    (hout : ∀ i, Arg.node i ∈ out.items → (i, true) ∈ nodes.flatMap (Fx.gives onOriginal "")) :
    ∃ g, build t onOriginal rename nodes out = .ok g ∧ g.inputs = (placeholders nodes).map rename ∧ ∃ i, g.outputs = [.node i] := by
  obtain ⟨s, h1, hk, -⟩ := buildNodes_total t onOriginal nodes rename "" [] {} (empty_ok 0) nofun hreg hsc (by simpa using hin)
  obtain ⟨hb, -⟩ := buildNodes_ok (V := ℕ) (W := ℕ) t onOriginal nodes rename "" {} s (empty_ok 0) hreg h1
  obtain ⟨rs, h2, hn, -⟩ := flatRefs_total (s := s) (l := out.items) fun a ha i hi => by
    obtain ⟨r, hr, hn⟩ := hk i true (by simpa using hout i (hi ▸ ha))
    exact ⟨r, hr, hn rfl⟩
  obtain ⟨s', r, h3, _, hr⟩ := add_total hb.ok "_prepare_output" t.unflatten false rs []
  have h : build t onOriginal rename nodes out = .ok { s'.graph with outputs := s'.graph.outputs ++ [r] } := by
    unfold build rootOutput
    rw [h1]
    simp only
    rw [h2]
    simp only
    rw [if_pos (List.all_eq_true.2 hn), h3]
    rfl
  obtain ⟨k, _, hi, r', ho, _, hnr, _⟩ := build_ok (V := ℕ) (W := ℕ) hreg h
  refine ⟨_, h, hi, ?_⟩
  rw [ho]
  cases r' with
  | node i => exact ⟨i, rfl⟩
  | _ => simp [isNodeRef] at hnr

/-- **C84 (partial).** Tracing succeeds and the graph has the model's value for every input.

Missing: as for `traced_built_partial` and `traced_value_partial`. -/
theorem traced_total_partial {V W : Type} (t : Callables) (onOriginal : String → Bool) (rename : String → String) (nodes : List Fx) (out : Arg)
    (hreg : Regular "" nodes) (hsc : Scoped onOriginal "" [] nodes) (hin : ((placeholders nodes).map rename).Nodup)
    (hitems : ∀ a ∈ out.items, ∃ i, a = .node i) (hout : ∀ i, Arg.node i ∈ out.items → (i, true) ∈ nodes.flatMap (Fx.gives onOriginal "")) :
    ∃ g r, build t onOriginal rename nodes out = .ok g ∧ g.outputs = [r] ∧
      ∀ (sem : Sem V W) (w : W) (c : Ctx) (P : Lang V), Behaves t sem w c P → Faithful t sem w c P onOriginal "" nodes →
        ∀ (b : String → V) (v : V), modelValue P onOriginal nodes out (fun x => b (rename x)) = some v → Val sem g w c b r v := by
  obtain ⟨g, h, _, i, ho⟩ := traced_built_partial t onOriginal rename nodes out hreg hsc hin hout
  refine ⟨g, .node i, h, ho, fun sem w c P hb hf b v hv => ?_⟩
  obtain ⟨_, r, hr, hval, _⟩ := traced_value_partial t onOriginal rename nodes out g hreg hitems h sem w c P hb hf b v hv
  rw [ho, List.cons.injEq] at hr
  exact hr.1 ▸ hval

/-- **C84.** A module in nested modules is found in the original model by the names of all of them, joined by dots. -/
theorem module_paths : ∀ (names : List String) (pre : String), pre ≠ "" →
    names.foldl absolute pre = names.foldl (fun path x => path ++ "." ++ x) pre ∧ (∀ x, (x :: names).foldl absolute "" = names.foldl absolute x)
  | [], pre, _ => by simp [absolute]
  | y :: names, pre, hp => by
    have hne : pre ++ "." ++ y ≠ "" := by
      intro he
      have := congrArg String.toList he
      simp at this
    have ih := module_paths names (pre ++ "." ++ y) hne
    constructor
    · simp only [List.foldl_cons, absolute, hp, if_false]
      exact ih.1
    · intro x
      simp [absolute]

/-! ### Concrete cases -/

example : ["block", "inc", "linear"].foldl absolute "" = "block.inc.linear" := by decide +kernel

theorem toy_scoped : Scoped (fun _ => true) "" [] toyModel := by
  simp [toyModel, blockBody, incBody, Scoped, NodeScoped, AllIn, Arg.In, Fx.gives, LeafBody, Fits, placeholders, Arg.items]

example : ∃ g, build toyCallables (fun _ => true) (unmangle ["x"]) toyModel (.tuple [.node 4]) = .ok g := by
  obtain ⟨g, h, _⟩ := traced_built_partial toyCallables (fun _ => true) (unmangle ["x"]) toyModel (.tuple [.node 4]) toy_regular toy_scoped (by decide +kernel)
    (by simp [toyModel, Fx.gives, Arg.items])
  exact ⟨g, h⟩

end FF.Trace
