import Verif.Orch.Subgraph
import Verif.Orch.ExecTotal
import Verif.Orch.ExecCases

/-! # Inlining a graph into another (C26) -/

namespace FF.Orch

variable {V W : Type}

/-! ### Specification -/

/-- What is passed for an input: the argument at its position, or the keyword argument of its name. -/
inductive Bound (names : List String) (args : List Ref) (kwargs : List (String × Ref)) : String → Ref → Prop
  | pos {i : ℕ} {x : String} {r : Ref} : names[i]? = some x → args[i]? = some r → Bound names args kwargs x r
  | kw {x : String} {r : Ref} : (x, r) ∈ kwargs → Bound names args kwargs x r

/-- A reference to a node or input of the graph, or to a constant, or to a part of one. -/
def Ref.Closed (g : Graph) (r : Ref) : Prop :=
  (∀ id, r.unwrap = .node id → ∃ n ∈ g.nodes, n.id = id) ∧ ∀ x, r.unwrap = .input x → x ∈ g.inputs

/-- Every reference in the graph is one of its own. -/
structure Graph.Closed (g : Graph) : Prop where
  ids : g.UniqueIds
  names : g.inputs.Nodup
  args : ∀ n ∈ g.nodes, ∀ r ∈ n.allArgs, r.Closed g
  outputs : ∀ r ∈ g.outputs, r.Closed g
  bindings : ∀ p ∈ g.bindings, ∀ r ∈ p.2, r.Closed g
  folds : ∀ f ∈ g.folds, ∃ n ∈ g.nodes, n.id = f

/-- No input is named like a part of another input, as `x[0]` beside `x`. -/
def PartFree (names : List String) : Prop := ∀ x ∈ names, ∀ y ∈ names, ∀ s : String, x ≠ y ++ "[" ++ s ++ "]"

/-- The reference with the inputs replaced. -/
def Ref.subst (σ : String → Ref) : Ref → Ref
  | .node id => .node id
  | .input x => σ x
  | .const k => .const k
  | .attr r a => .attr (r.subst σ) a

/-- The arguments are accepted: as many as there are inputs, keywords name inputs that are not given by position, none twice. -/
def AcceptsArgs (names : List String) (args : List Ref) (kwargs : List (String × Ref)) : Prop :=
  args.length + kwargs.length = names.length ∧ (kwargs.map (·.1)).Nodup ∧
  ∀ k ∈ kwargs.map (·.1), k ∈ names ∧ k ∉ names.take args.length

/-! ### Lemmas: binding -/

theorem bind_fold {names : List String} {kwargs b0 : List (String × Ref)} {b : List (String × Ref)} :
    kwargs.foldlM (fun b kv =>
      if kv.1 ∉ names then Except.error GErr.valueError
      else if (Dict.get b kv.1).isSome then .error .valueError
      else .ok (Dict.set b kv.1 kv.2)) b0 = .ok b ↔
    (∀ kv ∈ kwargs, kv.1 ∈ names ∧ kv.1 ∉ Dict.keys b0) ∧ (kwargs.map (·.1)).Nodup ∧ b = b0 ++ kwargs := by
  induction kwargs generalizing b0 with
  | nil =>
    simp only [List.foldlM_nil, pure, Except.pure, Except.ok.injEq, List.not_mem_nil, false_imp_iff, implies_true, List.map_nil,
      List.nodup_nil, List.append_nil, true_and]
    exact eq_comm
  | cons kv kwargs ih =>
    rw [List.foldlM_cons]
    by_cases h1 : kv.1 ∉ names
    · rw [if_pos h1]
      simp only [bind, Except.bind, reduceCtorEq, false_iff]
      rintro ⟨h, _⟩
      exact h1 (h kv (by simp)).1
    · rw [if_neg h1]
      by_cases h2 : (Dict.get b0 kv.1).isSome
      · rw [if_pos h2]
        simp only [bind, Except.bind, reduceCtorEq, false_iff]
        rintro ⟨h, _⟩
        exact (h kv (by simp)).2 (Dict.get_isSome_iff.1 h2)
      · rw [if_neg h2]
        have h3 : kv.1 ∉ Dict.keys b0 := fun h => h2 (Dict.get_isSome_iff.2 h)
        simp only [bind, Except.bind]
        rw [ih, Dict.set_new h3]
        have hk : ∀ k, k ∈ Dict.keys (b0 ++ [(kv.1, kv.2)]) ↔ k ∈ Dict.keys b0 ∨ k = kv.1 := by
          intro k
          simp [Dict.keys]
        simp only [hk, not_or, List.mem_cons, forall_eq_or_imp, List.map_cons, List.nodup_cons, List.mem_map, not_exists, not_and]
        constructor
        · rintro ⟨h4, h5, h6⟩
          exact ⟨⟨⟨not_not.1 h1, h3⟩, fun p hp => ⟨(h4 p hp).1, (h4 p hp).2.1⟩⟩, ⟨fun p hp => (h4 p hp).2.2, h5⟩, by simpa using h6⟩
        · rintro ⟨⟨_, h4⟩, ⟨h5, h6⟩, h7⟩
          exact ⟨fun p hp => ⟨(h4 p hp).1, (h4 p hp).2, h5 p hp⟩, h6, by simpa using h7⟩

theorem keys_zip {names : List String} {args : List Ref} (h : args.length ≤ names.length) : Dict.keys (names.zip args) = names.take args.length := by
  unfold Dict.keys
  induction names generalizing args with
  | nil => cases args with
    | nil => rfl
    | cons _ _ => simp at h
  | cons x names ih =>
    cases args with
    | nil => rfl
    | cons r args => simp only [List.zip_cons_cons, List.map_cons, List.length_cons, List.take_succ_cons]; rw [ih (by simpa using h)]

theorem bindSub_iff {names : List String} {args : List Ref} {kwargs b : List (String × Ref)} :
    bindSub names args kwargs = .ok b ↔ AcceptsArgs names args kwargs ∧ b = names.zip args ++ kwargs := by
  unfold bindSub AcceptsArgs
  by_cases h : args.length + kwargs.length ≠ names.length
  · rw [if_pos h]
    simp only [reduceCtorEq, false_iff]
    rintro ⟨⟨h', _⟩, _⟩
    exact h h'
  · rw [if_neg h, bind_fold, keys_zip (by omega)]
    have h : args.length + kwargs.length = names.length := not_not.1 h
    simp only [List.mem_map, forall_exists_index, and_imp, forall_apply_eq_imp_iff₂, h, true_and]
    constructor
    · rintro ⟨h1, h2, h3⟩; exact ⟨⟨h2, h1⟩, h3⟩
    · rintro ⟨⟨h2, h1⟩, h3⟩; exact ⟨h1, h2, h3⟩

/-- All inputs are bound. -/
theorem bound_keys {names : List String} {args : List Ref} {kwargs : List (String × Ref)} (hn : names.Nodup)
    (h : AcceptsArgs names args kwargs) :
    (Dict.keys (names.zip args ++ kwargs)).Nodup ∧ ∀ x, x ∈ Dict.keys (names.zip args ++ kwargs) ↔ x ∈ names := by
  obtain ⟨h1, h2, h3⟩ := h
  have he : Dict.keys (names.zip args ++ kwargs) = names.take args.length ++ kwargs.map (·.1) := by
    rw [← keys_zip (by omega)]
    simp [Dict.keys]
  rw [he]
  have hnd : (names.take args.length ++ kwargs.map (·.1)).Nodup := by
    rw [List.nodup_append]
    refine ⟨(List.take_sublist _ _).nodup hn, h2, ?_⟩
    rintro x hx y hy rfl
    exact (h3 x hy).2 hx
  have hsub : ∀ x ∈ names.take args.length ++ kwargs.map (·.1), x ∈ names := by
    intro x hx
    rcases List.mem_append.1 hx with hx | hx
    · exact List.mem_of_mem_take hx
    · exact (h3 x hx).1
  refine ⟨hnd, fun x => ⟨hsub x, fun hx => ?_⟩⟩
  have hp := (List.subperm_of_subset hnd hsub).perm_of_length_le (by simp; omega)
  exact hp.mem_iff.2 hx

theorem get_bound {names : List String} {args : List Ref} {kwargs : List (String × Ref)} (hn : names.Nodup)
    (h : AcceptsArgs names args kwargs) {x : String} {r : Ref} :
    Dict.get (names.zip args ++ kwargs) x = some r ↔ Bound names args kwargs x r := by
  rw [Dict.get_eq_some_iff (bound_keys hn h).1, List.mem_append]
  constructor
  · rintro (hm | hm)
    · obtain ⟨i, hi⟩ := List.mem_iff_getElem?.1 hm
      rw [List.getElem?_zip_eq_some] at hi
      exact .pos hi.1 hi.2
    · exact .kw hm
  · intro hb
    cases hb with
    | pos h1 h2 =>
      left
      rename_i i
      exact List.mem_iff_getElem?.2 ⟨i, List.getElem?_zip_eq_some.2 ⟨h1, h2⟩⟩
    | kw hm => exact Or.inr hm

/-! ### Lemmas: references -/

theorem closed_attr {g : Graph} {r : Ref} {a : Attr} : (Ref.attr r a).Closed g ↔ r.Closed g := Iff.rfl

theorem nameOf_mem {g : Graph} {id : ℕ} (h : ∃ n ∈ g.nodes, n.id = id) : g.nameOf id ∈ g.nodes.map (·.name) := by
  obtain ⟨n, hn, hid⟩ := h
  unfold Graph.nameOf
  cases hf : g.find? id with
  | none =>
    unfold Graph.find? at hf
    rw [List.find?_eq_none] at hf
    exact absurd (hf n hn) (by simp [hid])
  | some m => exact List.mem_map.2 ⟨m, (mem_of_find hf).1, rfl⟩

theorem remap_subst {sub : Graph} {b : List (String × Ref)} (hb : ∀ x, x ∈ Dict.keys b ↔ x ∈ sub.inputs) (hp : PartFree sub.inputs)
    (r : Ref) (hr : r.Closed sub) : sub.remapIn b r = .ok (r.subst fun x => (Dict.get b x).getD (.input x)) := by
  unfold Graph.remapIn
  have hget : ∀ x ∈ sub.inputs, ctxGet b x = .ok ((Dict.get b x).getD (.input x)) := by
    intro x hx
    have := Dict.get_isSome_iff.2 ((hb x).2 hx)
    unfold ctxGet
    cases hg : Dict.get b x with
    | none => rw [hg] at this; simp at this
    | some r => rfl
  induction r with
  | node id =>
    unfold remap
    rw [if_pos (nameOf_mem (hr.1 id rfl))]
    rfl
  | input x => exact hget x (hr.2 x rfl)
  | const k => rfl
  | attr r a ih =>
    have hr : r.Closed sub := hr
    unfold remap
    have hl : lifted sub.nameOf b (sub.nodes.map (·.name)) r.unwrap a = none := by
      unfold lifted
      cases hu : r.unwrap with
      | node id => simp only; rw [if_pos (nameOf_mem (hr.1 id hu))]
      | input x =>
        simp only
        rw [Dict.get_none_iff]
        intro hk
        exact hp _ ((hb _).1 hk) x (hr.2 x hu) a.text rfl
      | const k => rfl
      | attr r' a' => rfl
    rw [hl]
    simp only
    rw [ih hr]
    rfl

/-! ### Lemmas: the loop -/

/-- A node of the subgraph after inlining. -/
def substNode (σ : String → Ref) (name : String) (fold : Option ℕ) (n : Node) : Node where
  id := n.id
  name := name ++ "." ++ n.name
  target := n.target
  isModule := n.isModule
  args := n.args.map (Ref.subst σ)
  kwargs := n.kwargs.map fun kv => (kv.1, kv.2.subst σ)
  parent := n.parent.or fold

theorem mapM_ok_of {α β : Type} {f : α → Except GErr β} {k : α → β} {l : List α} (h : ∀ a ∈ l, f a = .ok (k a)) : l.mapM f = .ok (l.map k) := by
  induction l with
  | nil => rfl
  | cons a l ih =>
    rw [List.mapM_cons, h a (by simp), ih fun x hx => h x (by simp [hx])]
    rfl

theorem inlined_eq {sub : Graph} {b : List (String × Ref)} {name : String} {fold : Option ℕ} {n : Node} {σ : String → Ref}
    (h : ∀ r ∈ n.allArgs, sub.remapIn b r = .ok (r.subst σ)) : sub.inlined b name fold n = .ok (substNode σ name fold n) := by
  unfold Graph.inlined
  rw [mapM_ok_of (k := Ref.subst σ) fun r hr => h r (by simp [Node.allArgs, hr])]
  rw [mapM_ok_of (k := fun kv => (kv.1, kv.2.subst σ))]
  · rfl
  · intro kv hkv
    rw [h kv.2 (List.mem_append_right _ (List.mem_map.2 ⟨kv, hkv, rfl⟩))]
    rfl

theorem copyFold_eq {sub : Graph} {b : List (String × Ref)} {n : Node} {σ : String → Ref}
    (h : ∀ p ∈ sub.bindings, ∀ r ∈ p.2, sub.remapIn b r = .ok (r.subst σ)) (g : Graph) :
    ∃ g', sub.copyFold b n g = .ok g' ∧ g'.nodes = g.nodes ∧ g'.inputs = g.inputs ∧ g'.outputs = g.outputs ∧
      g'.folds = g.folds ++ if sub.folds.contains n.id then [n.id] else [] := by
  unfold Graph.copyFold
  by_cases hc : sub.folds.contains n.id = true
  · rw [if_pos hc, if_pos hc]
    cases hg : Dict.get sub.bindings n.id with
    | none => exact ⟨_, rfl, rfl, rfl, rfl, rfl⟩
    | some rs =>
      simp only
      rw [mapM_ok_of (k := Ref.subst σ) fun r hr => h _ (Dict.get_mem hg) r hr]
      exact ⟨_, rfl, rfl, rfl, rfl, rfl⟩
  · rw [if_neg hc, if_neg hc]
    exact ⟨g, rfl, rfl, rfl, rfl, by simp⟩

theorem inlineAll_spec {sub : Graph} {b : List (String × Ref)} {name : String} {fold : Option ℕ} {σ : String → Ref}
    (hb : ∀ p ∈ sub.bindings, ∀ r ∈ p.2, sub.remapIn b r = .ok (r.subst σ)) (ns : List Node)
    (h : ∀ n ∈ ns, ∀ r ∈ n.allArgs, sub.remapIn b r = .ok (r.subst σ)) (g : Graph) :
    ((sub.inlineAll b name fold ns g).2 = none ↔ (ns.map (·.id)).Nodup ∧ ∀ n ∈ ns, g.find? n.id = none) ∧
    ∀ g', sub.inlineAll b name fold ns g = (g', none) → g'.nodes = g.nodes ++ ns.map (substNode σ name fold) ∧ g'.inputs = g.inputs ∧
      g'.outputs = g.outputs ∧ g'.folds = g.folds ++ (ns.filter fun n => sub.folds.contains n.id).map (·.id) := by
  induction ns generalizing g with
  | nil =>
    refine ⟨by simp [Graph.inlineAll], ?_⟩
    intro g' hg'
    simp only [Graph.inlineAll, Prod.mk.injEq, and_true] at hg'
    subst hg'
    simp
  | cons n ns ih =>
    have ih := ih fun m hm => h m (by simp [hm])
    unfold Graph.inlineAll
    rw [inlined_eq (h n (by simp))]
    simp only
    have hid : (substNode σ name fold n).id = n.id := rfl
    have hadd : g.addNode (substNode σ name fold n) = if (g.find? n.id).isSome then .error .valueError else
        .ok { g with nodes := g.nodes ++ [substNode σ name fold n] } := rfl
    rw [hadd]
    by_cases hf : (g.find? n.id).isSome = true
    · rw [if_pos hf]
      refine ⟨?_, fun g' h => by simp at h⟩
      simp only [reduceCtorEq, false_iff]
      rintro ⟨_, h2⟩
      rw [h2 n (by simp)] at hf
      simp at hf
    · rw [if_neg hf]
      simp only
      have hnone : g.find? n.id = none := by simpa using hf
      obtain ⟨g2, e, e1, e2, e3, e4⟩ := copyFold_eq (n := n) hb { g with nodes := g.nodes ++ [substNode σ name fold n] }
      rw [e]
      simp only
      obtain ⟨ih1, ih2⟩ := ih g2
      have hfind : ∀ id, g2.find? id = none ↔ g.find? id = none ∧ n.id ≠ id := by
        intro id
        unfold Graph.find?
        rw [e1, List.find?_append]
        simp [hid]
      refine ⟨?_, ?_⟩
      · rw [ih1]
        simp only [List.map_cons, List.nodup_cons, List.mem_cons, forall_eq_or_imp, hfind, hnone, true_and, List.mem_map, not_exists, not_and]
        constructor
        · rintro ⟨h1, h2⟩
          exact ⟨⟨fun x hx he => (h2 x hx).2 he.symm, h1⟩, fun x hx => (h2 x hx).1⟩
        · rintro ⟨⟨h1, h2⟩, h3⟩
          exact ⟨h2, fun x hx => ⟨h3 x hx, fun he => h1 x hx he.symm⟩⟩
      · intro g' hg'
        obtain ⟨f1, f2, f3, f4⟩ := ih2 g' hg'
        rw [e1] at f1
        rw [e2] at f2
        rw [e3] at f3
        rw [e4] at f4
        refine ⟨by rw [f1]; simp, f2, f3, ?_⟩
        rw [f4, List.filter_cons]
        simp only
        split_ifs <;> simp

theorem inlineAll_error {sub : Graph} {b : List (String × Ref)} {name : String} {fold : Option ℕ} {σ : String → Ref}
    (hb : ∀ p ∈ sub.bindings, ∀ r ∈ p.2, sub.remapIn b r = .ok (r.subst σ)) (ns : List Node)
    (h : ∀ n ∈ ns, ∀ r ∈ n.allArgs, sub.remapIn b r = .ok (r.subst σ)) (g : Graph) :
    ∀ e, (sub.inlineAll b name fold ns g).2 = some e → e = .valueError := by
  induction ns generalizing g with
  | nil => simp [Graph.inlineAll]
  | cons n ns ih =>
    intro e
    unfold Graph.inlineAll
    rw [inlined_eq (h n (by simp))]
    simp only
    unfold Graph.addNode
    by_cases hf : (g.find? (substNode σ name fold n).id).isSome = true
    · rw [if_pos hf]
      simp only [Option.some.injEq]
      exact fun h => h.symm
    · rw [if_neg hf]
      simp only
      obtain ⟨g2, e', _⟩ := copyFold_eq (n := n) hb { g with nodes := g.nodes ++ [substNode σ name fold n] }
      have e' : sub.copyFold b n { g with nodes := g.nodes ++ [{ substNode σ name fold n with delegate := none }] } = .ok g2 := e'
      rw [e']
      exact ih (fun m hm => h m (by simp [hm])) g2 e

theorem foldsFirst_mem {sub : Graph} {n : Node} : n ∈ sub.foldsFirst ↔ n ∈ sub.nodes := by
  unfold Graph.foldsFirst
  simp only [List.mem_append, List.mem_filter]
  constructor
  · rintro (h | h) <;> exact h.1
  · intro h
    by_cases hc : sub.folds.contains n.id = true
    · exact Or.inl ⟨h, hc⟩
    · exact Or.inr ⟨h, by simpa using hc⟩

theorem foldsFirst_perm (sub : Graph) : sub.foldsFirst.Perm sub.nodes := List.filter_append_perm _ _

/-! ### Lemmas: values -/

/-- Nodes of a graph that has been extended denote the same values, if the added nodes' ids are new. -/
theorem den_extend {sem : Sem V W} {g g' : Graph} (hc : g.Closed) (hin : g'.inputs = g.inputs)
    (hf : ∀ id, (∃ n ∈ g.nodes, n.id = id) → g'.find? id = g.find? id) {inp : String → List V} {wAt : ℕ → W} {c : Ctx} {r : Ref}
    (hr : r.Closed g) {d : List V} : Den sem g' inp wAt c r d ↔ Den sem g inp wAt c r d := by
  constructor
  · intro h
    induction h with
    | input hx => exact .input (hin ▸ hx)
    | const => exact .const
    | attr _ hx ih => exact .attr (ih hr) hx
    | @node id n ads out hfind hlen _ hcall ih =>
      rw [hf id (hr.1 id rfl)] at hfind
      refine .node hfind hlen (fun i r d h1 h2 => ih i r d h1 h2 ?_) hcall
      exact hc.args n (mem_of_find hfind).1 r (List.mem_of_getElem? h1)
  · intro h
    induction h with
    | input hx => exact .input (hin.symm ▸ hx)
    | const => exact .const
    | attr _ hx ih => exact .attr (ih hr) hx
    | @node id n ads out hfind hlen _ hcall ih =>
      have := hfind
      rw [← hf id (hr.1 id rfl)] at hfind
      refine .node hfind hlen (fun i r d h1 h2 => ih i r d h1 h2 ?_) hcall
      exact hc.args n (mem_of_find this).1 r (List.mem_of_getElem? h1)

theorem substNode_allArgs (σ : String → Ref) (name : String) (fold : Option ℕ) (n : Node) :
    (substNode σ name fold n).allArgs = n.allArgs.map (Ref.subst σ) := by
  simp [Node.allArgs, substNode, Function.comp]

theorem substNode_keys (σ : String → Ref) (name : String) (fold : Option ℕ) (n : Node) :
    (substNode σ name fold n).kwargs.map (·.1) = n.kwargs.map (·.1) := by
  simp [substNode, Function.comp]

/-- A graph with substituted inputs denotes what it denotes on the values of what is substituted. -/
theorem den_subst {sem : Sem V W} {sub g' : Graph} (hc : sub.Closed) {σ : String → Ref} {name : String} {fold : Option ℕ}
    (hf : ∀ id n, sub.find? id = some n → g'.find? id = some (substNode σ name fold n)) {inp inp' : String → List V} {wAt : ℕ → W} {c : Ctx}
    (hin : ∀ x ∈ sub.inputs, Den sem g' inp wAt c (σ x) (inp' x)) {r : Ref} (hr : r.Closed sub) {d : List V} :
    Den sem g' inp wAt c (r.subst σ) d ↔ Den sem sub inp' wAt c r d := by
  have hfound : ∀ id, (∃ n ∈ sub.nodes, n.id = id) → ∃ n, sub.find? id = some n := by
    rintro id ⟨n, hn, rfl⟩
    exact ⟨n, find_of_mem hc.ids hn⟩
  constructor
  · intro h
    generalize hr' : r.subst σ = r' at h
    induction h generalizing r with
    | @input x hx =>
      cases r with
      | input y =>
        have h1 := hin y (hr.2 y rfl)
        simp only [Ref.subst] at hr'
        rw [hr'] at h1
        rw [denotation_unique (Den.input hx) h1]
        exact .input (hr.2 y rfl)
      | _ => simp [Ref.subst] at hr'
    | @const k =>
      cases r with
      | input y =>
        have h1 := hin y (hr.2 y rfl)
        simp only [Ref.subst] at hr'
        rw [hr'] at h1
        rw [denotation_unique Den.const h1]
        exact .input (hr.2 y rfl)
      | const k' => simp only [Ref.subst, Ref.const.injEq] at hr'; rw [hr']; exact .const
      | _ => simp [Ref.subst] at hr'
    | @attr r1 a d1 d2 h1 hx ih =>
      cases r with
      | input y =>
        have h2 := hin y (hr.2 y rfl)
        simp only [Ref.subst] at hr'
        rw [hr'] at h2
        rw [denotation_unique (Den.attr h1 hx) h2]
        exact .input (hr.2 y rfl)
      | attr r2 a2 =>
        simp only [Ref.subst, Ref.attr.injEq] at hr'
        obtain ⟨hr', rfl⟩ := hr'
        exact .attr (ih (closed_attr.1 hr) hr') hx
      | _ => simp [Ref.subst] at hr'
    | @node id n ads out hfind hlen hargs hcall ih =>
      cases r with
      | input y =>
        have h2 := hin y (hr.2 y rfl)
        simp only [Ref.subst] at hr'
        rw [hr'] at h2
        rw [denotation_unique (Den.node hfind hlen hargs hcall) h2]
        exact .input (hr.2 y rfl)
      | node id' =>
        simp only [Ref.subst, Ref.node.injEq] at hr'
        subst hr'
        obtain ⟨m, hm⟩ := hfound id' (hr.1 id' rfl)
        rw [hf id' m hm] at hfind
        obtain rfl := Option.some.inj hfind
        rw [substNode_allArgs, List.length_map] at hlen
        rw [substNode_keys] at hcall
        have hl : (substNode σ name fold m).args.length = m.args.length := by simp [substNode]
        rw [hl] at hcall
        refine .node hm hlen (fun i r1 d1 h1 h2 => ?_) hcall
        refine ih i (r1.subst σ) d1 ?_ h2 ?_ rfl
        · rw [substNode_allArgs, List.getElem?_map, h1]; rfl
        · exact hc.args m (mem_of_find hm).1 r1 (List.mem_of_getElem? h1)
      | _ => simp [Ref.subst] at hr'
  · intro h
    induction h with
    | @input x hx => exact hin x hx
    | const => exact .const
    | attr _ hx ih => exact .attr (ih hr) hx
    | @node id n ads out hfind hlen hargs hcall ih =>
      refine .node (hf id n hfind) ?_ ?_ ?_ (ads := ads)
      · rw [substNode_allArgs, List.length_map]; exact hlen
      · intro i r1 d1 h1 h2
        rw [substNode_allArgs, List.getElem?_map, Option.map_eq_some_iff] at h1
        obtain ⟨r0, h1, rfl⟩ := h1
        exact ih i r0 d1 h1 h2 (hc.args n (mem_of_find hfind).1 r0 (List.mem_of_getElem? h1))
      · rw [substNode_keys]
        have hl : (substNode σ name fold n).args.length = n.args.length := by simp [substNode]
        rw [hl]
        exact hcall

/-! ### Lemmas: the graph afterwards -/

/-- The binding as a function. -/
def sigma (names : List String) (args : List Ref) (kwargs : List (String × Ref)) (x : String) : Ref :=
  (Dict.get (names.zip args ++ kwargs) x).getD (.input x)

theorem sigma_bound {names : List String} {args : List Ref} {kwargs : List (String × Ref)} (hn : names.Nodup)
    (h : AcceptsArgs names args kwargs) {x : String} (hx : x ∈ names) : Bound names args kwargs x (sigma names args kwargs x) := by
  have := Dict.get_isSome_iff.2 (((bound_keys hn h).2 x).2 hx)
  unfold sigma
  cases hg : Dict.get (names.zip args ++ kwargs) x with
  | none => rw [hg] at this; simp at this
  | some r => exact (get_bound hn h).1 hg

/-- By position, the fold gets what was given by position. -/
theorem fold_args {names : List String} {args : List Ref} {kwargs : List (String × Ref)} (hn : names.Nodup) (h : AcceptsArgs names args kwargs) :
    (names.filter fun x => x ∉ kwargs.map (·.1)).filterMap (Dict.get (names.zip args ++ kwargs)) = args := by
  have hk := bound_keys hn h
  have hg := fun x r => get_bound hn h (x := x) (r := r)
  obtain ⟨h1, h2, h3⟩ := h
  have hsplit : names.filter (fun x => x ∉ kwargs.map (·.1)) = names.take args.length := by
    have e : names = names.take args.length ++ names.drop args.length := (List.take_append_drop _ _).symm
    have hd : (names.take args.length ++ names.drop args.length).Nodup := by rw [← e]; exact hn
    have hzk : Dict.keys (names.zip args ++ kwargs) = names.take args.length ++ kwargs.map (·.1) := by
      rw [← keys_zip (by omega)]; simp [Dict.keys]
    conv_lhs => rw [e, List.filter_append]
    rw [List.filter_eq_self.2, List.filter_eq_nil_iff.2, List.append_nil]
    · intro x hx
      have := (hk.2 x).2 (by rw [e]; exact List.mem_append_right _ hx)
      rw [hzk, List.mem_append] at this
      rcases this with h | h
      · exact absurd rfl ((List.nodup_append.1 hd).2.2 x h x hx)
      · simpa using h
    · intro x hx
      have : x ∉ kwargs.map (·.1) := fun hm => (h3 x hm).2 hx
      simpa using this
  rw [hsplit]
  apply List.ext_getElem?
  intro i
  have hmap : (names.take args.length).filterMap (Dict.get (names.zip args ++ kwargs)) = args := by
    have hm : (names.take args.length).map (Dict.get (names.zip args ++ kwargs)) = args.map some := by
      apply List.ext_getElem
      · simp; omega
      · intro j hj hj'
        simp only [List.getElem_map, List.getElem_take]
        rw [hg]
        exact .pos (List.getElem?_eq_getElem _) (List.getElem?_eq_getElem _)
    have : (names.take args.length).filterMap (Dict.get (names.zip args ++ kwargs)) = ((names.take args.length).map (Dict.get (names.zip args ++ kwargs))).filterMap id := by
      rw [List.filterMap_map]; rfl
    rw [this, hm, List.filterMap_map]
    simp
  rw [hmap]

theorem addFold_spec (g sub : Graph) (b : List (String × Ref)) (name : String) (kwargs : List (String × Ref)) (original : Option (ℕ × ℕ)) :
    (g.addFold sub b name kwargs original).inputs = g.inputs ∧ (g.addFold sub b name kwargs original).outputs = g.outputs ∧
    ∃ extra : List Node, (g.addFold sub b name kwargs original).nodes = g.nodes ++ extra ∧ (∀ n ∈ extra, original.map (·.1) = some n.id ∧ n.delegate = none) ∧
      (g.addFold sub b name kwargs original).folds = g.folds ++ extra.map (·.id) ∧ extra.map (·.id) = (original.map (·.1)).toList ∧
      extra = original.toList.map fun p => sub.foldNode b name kwargs p.1 p.2 := by
  cases original with
  | none => exact ⟨rfl, rfl, [], by simp [Graph.addFold], by simp, by simp [Graph.addFold], rfl, rfl⟩
  | some p => exact ⟨rfl, rfl, [sub.foldNode b name kwargs p.1 p.2], rfl, by simp [Graph.foldNode], rfl, rfl, rfl⟩

/-- The new fold's id is not in use. -/
def FreshFold (g sub : Graph) (original : Option (ℕ × ℕ)) : Prop :=
  ∀ p, original = some p → (∀ n ∈ g.nodes, n.id ≠ p.1) ∧ ∀ n ∈ sub.nodes, n.id ≠ p.1

theorem find_none_iff {g : Graph} {id : ℕ} : g.find? id = none ↔ ∀ n ∈ g.nodes, n.id ≠ id := by
  unfold Graph.find?
  simp

theorem find_append {g g' : Graph} {extra : List Node} (h : g'.nodes = g.nodes ++ extra) {id : ℕ} {n : Node} (hf : g.find? id = some n) :
    g'.find? id = some n := by
  unfold Graph.find? at *
  rw [h, List.find?_append, hf]
  rfl

theorem addSubgraph_spec {g sub g' : Graph} {name : String} {args : List Ref} {kwargs : List (String × Ref)} {original : Option (ℕ × ℕ)}
    {outs : List Ref} (hs : sub.Closed) (hp : PartFree sub.inputs)
    (h : g.addSubgraph name sub args kwargs original = (g', .ok outs)) :
    AcceptsArgs sub.inputs args kwargs ∧ outs = sub.outputs.map (Ref.subst (sigma sub.inputs args kwargs)) ∧
    g'.inputs = g.inputs ∧ g'.outputs = g.outputs ∧ (∀ n ∈ sub.nodes, g.find? n.id = none) ∧
    (∃ extra : List Node, g'.nodes = g.nodes ++ (extra ++ sub.foldsFirst.map (substNode (sigma sub.inputs args kwargs) name (original.map (·.1)))) ∧
      (∀ n ∈ extra, original.map (·.1) = some n.id ∧ n.delegate = none) ∧ extra.map (·.id) = (original.map (·.1)).toList ∧
      extra = original.toList.map fun p => sub.foldNode (sub.inputs.zip args ++ kwargs) name kwargs p.1 p.2) ∧
    g'.folds = g.folds ++ (original.map (·.1)).toList ++ (sub.foldsFirst.filter fun n => sub.folds.contains n.id).map (·.id) := by
  unfold Graph.addSubgraph at h
  split_ifs at h with ho
  · simp at h
  · cases hb : bindSub sub.inputs args kwargs with
    | error e => rw [hb] at h; simp at h
    | ok b =>
      rw [hb] at h
      simp only at h
      obtain ⟨hacc, rfl⟩ := bindSub_iff.1 hb
      have hremap : ∀ r : Ref, r.Closed sub → sub.remapIn (sub.inputs.zip args ++ kwargs) r = .ok (r.subst (sigma sub.inputs args kwargs)) :=
        fun r hr => remap_subst (bound_keys hs.names hacc).2 hp r hr
      obtain ⟨hnone, hres⟩ := inlineAll_spec (name := name) (fold := original.map (·.1)) (fun p hpm r hr => hremap r (hs.bindings p hpm r hr))
        sub.foldsFirst (fun n hn r hr => hremap r (hs.args n (foldsFirst_mem.1 hn) r hr))
        (g.addFold sub (sub.inputs.zip args ++ kwargs) name kwargs original)
      obtain ⟨a1, a2, extra, a3, a4, a5, a6, a7⟩ := addFold_spec g sub (sub.inputs.zip args ++ kwargs) name kwargs original
      cases hi : sub.inlineAll (sub.inputs.zip args ++ kwargs) name (original.map (·.1)) sub.foldsFirst
          (g.addFold sub (sub.inputs.zip args ++ kwargs) name kwargs original) with
      | mk g1 e =>
        rw [hi] at h hnone
        cases e with
        | some e => simp at h
        | none =>
          simp only [Prod.mk.injEq] at h
          obtain ⟨rfl, h⟩ := h
          rw [mapM_ok_of (k := Ref.subst (sigma sub.inputs args kwargs)) fun r hr => hremap r (hs.outputs r hr)] at h
          simp only [Except.ok.injEq] at h
          obtain ⟨r1, r2, r3, r4⟩ := hres g1 hi
          refine ⟨hacc, h.symm, by rw [r2, a1], by rw [r3, a2], ?_, ⟨extra, ?_, a4, a6, a7⟩, ?_⟩
          · intro n hn
            have := (hnone.1 rfl).2 n (foldsFirst_mem.2 hn)
            rw [find_none_iff] at this ⊢
            intro m hm
            exact this m (by rw [a3]; simp [hm])
          · rw [r1, a3, List.append_assoc]
          · rw [r4, a5, a6]

theorem addSubgraph_find {g sub g' : Graph} {name : String} {args : List Ref} {kwargs : List (String × Ref)} {original : Option (ℕ × ℕ)}
    {outs : List Ref} (hs : sub.Closed) (hp : PartFree sub.inputs) (hfresh : FreshFold g sub original)
    (h : g.addSubgraph name sub args kwargs original = (g', .ok outs)) :
    (∀ id, (∃ n ∈ g.nodes, n.id = id) → g'.find? id = g.find? id) ∧
    ∀ id n, sub.find? id = some n → g'.find? id = some (substNode (sigma sub.inputs args kwargs) name (original.map (·.1)) n) := by
  obtain ⟨_, _, _, _, hdis, ⟨extra, hn, hex, _⟩, _⟩ := addSubgraph_spec hs hp h
  refine ⟨?_, ?_⟩
  · rintro id ⟨n, hm, rfl⟩
    cases hf : g.find? n.id with
    | none => exact absurd rfl (find_none_iff.1 hf n hm)
    | some m => exact find_append hn hf
  · intro id n hf
    obtain ⟨hmem, rfl⟩ := mem_of_find hf
    have h1 := hdis n hmem
    unfold Graph.find? at h1 ⊢
    rw [hn, List.find?_append, h1, List.find?_append]
    have h2 : extra.find? (fun m => m.id == n.id) = none := by
      rw [List.find?_eq_none]
      intro m hm
      have := (hex m hm).1
      simp only [Option.map_eq_some_iff] at this
      obtain ⟨p, hp1, hp2⟩ := this
      have := (hfresh p hp1).2 n hmem
      simp only [beq_iff_eq]
      omega
    rw [h2]
    simp only [Option.none_or]
    have hnd : (sub.foldsFirst.map (·.id)).Nodup := ((foldsFirst_perm sub).map _).nodup_iff.2 hs.ids
    have hin := foldsFirst_mem.2 hmem
    generalize sub.foldsFirst = l at hnd hin
    induction l with
    | nil => simp at hin
    | cons m l ih =>
      rw [List.map_cons, List.find?_cons]
      rcases List.mem_cons.1 hin with rfl | hin
      · simp [substNode]
      · have hne : m.id ≠ n.id := fun he => (List.nodup_cons.1 hnd).1 (List.mem_map.2 ⟨n, hin, he.symm⟩)
        have : ((substNode (sigma sub.inputs args kwargs) name (Option.map (fun x => x.1) original) m).id == n.id) = false := by
          simp [substNode, hne]
        rw [this]
        exact ih (List.nodup_cons.1 hnd).2 hin

/-! ### Properties -/

/-- **C26.** Inlining a graph does not change the values of anything that was in the graph before. -/
theorem inlining_keeps_old_values (sem : Sem V W) (g sub g' : Graph) (name : String) (args : List Ref) (kwargs : List (String × Ref))
    (original : Option (ℕ × ℕ)) (outs : List Ref) (hg : g.Closed) (hs : sub.Closed) (hp : PartFree sub.inputs)
    (hfresh : FreshFold g sub original) (h : g.addSubgraph name sub args kwargs original = (g', .ok outs))
    (inp : String → List V) (wAt : ℕ → W) (c : Ctx) (r : Ref) (hr : r.Closed g) (d : List V) :
    Den sem g' inp wAt c r d ↔ Den sem g inp wAt c r d := by
  obtain ⟨_, _, hin, _⟩ := addSubgraph_spec hs hp h
  exact den_extend hg hin (addSubgraph_find hs hp hfresh h).1 hr

/-- **C26 (partial).** The outputs of the inlined graph have the values the graph computes by itself from the values of the references
passed for its inputs, whatever the modules' states, in every context. Missing: a graph with an input that is named like a part of
another input (`part_name_captures`). -/
theorem inlined_outputs_partial (sem : Sem V W) (g sub g' : Graph) (name : String) (args : List Ref) (kwargs : List (String × Ref))
    (original : Option (ℕ × ℕ)) (outs : List Ref) (hg : g.Closed) (hs : sub.Closed) (hp : PartFree sub.inputs)
    (hfresh : FreshFold g sub original) (h : g.addSubgraph name sub args kwargs original = (g', .ok outs))
    (hargs : ∀ x r, Bound sub.inputs args kwargs x r → r.Closed g)
    (inp inp' : String → List V) (wAt : ℕ → W) (c : Ctx) (hin : ∀ x r, Bound sub.inputs args kwargs x r → Den sem g inp wAt c r (inp' x)) :
    List.Forall₂ (fun r r' => ∀ d, Den sem g' inp wAt c r' d ↔ Den sem sub inp' wAt c r d) sub.outputs outs := by
  obtain ⟨hacc, houts, hinp, _⟩ := addSubgraph_spec hs hp h
  obtain ⟨f1, f2⟩ := addSubgraph_find hs hp hfresh h
  rw [houts, List.forall₂_map_right_iff, List.forall₂_same]
  intro r hr d
  refine den_subst hs f2 (fun x hx => ?_) (hs.outputs r hr)
  have hb := sigma_bound hs.names hacc hx
  exact (den_extend hg hinp f1 (hargs x _ hb)).2 (hin x _ hb)

/-- **C26.** When inlining is accepted: the graph has outputs, there is one argument for each input and no input is given twice, and none
of its nodes is in the graph already. Otherwise it is refused with a `ValueError`. -/
theorem inlining_accepted_iff (g sub : Graph) (name : String) (args : List Ref) (kwargs : List (String × Ref))
    (original : Option (ℕ × ℕ)) (hs : sub.Closed) (hp : PartFree sub.inputs) (hfresh : FreshFold g sub original) :
    ((∃ outs, (g.addSubgraph name sub args kwargs original).2 = .ok outs) ↔
      sub.outputs ≠ [] ∧ AcceptsArgs sub.inputs args kwargs ∧ ∀ n ∈ sub.nodes, ∀ m ∈ g.nodes, m.id ≠ n.id) ∧
    ∀ e, (g.addSubgraph name sub args kwargs original).2 = .error e → e = .valueError := by
  unfold Graph.addSubgraph
  by_cases ho : sub.outputs.isEmpty = true
  · rw [if_pos ho]
    have : sub.outputs = [] := by simpa using ho
    simp [this]
  · rw [if_neg ho]
    have ho : sub.outputs ≠ [] := by simpa using ho
    cases hb : bindSub sub.inputs args kwargs with
    | error e =>
      simp only [reduceCtorEq, exists_false, false_iff]
      refine ⟨?_, ?_⟩
      · rintro ⟨_, hacc, _⟩
        rw [bindSub_iff.2 ⟨hacc, rfl⟩] at hb
        simp at hb
      · intro e' he
        simp only [Except.error.injEq] at he
        subst he
        have : ∀ (l b0 : List (String × Ref)) e', l.foldlM (fun b kv =>
            if kv.1 ∉ sub.inputs then Except.error GErr.valueError
            else if (Dict.get b kv.1).isSome then .error .valueError
            else .ok (Dict.set b kv.1 kv.2)) b0 = .error e' → e' = GErr.valueError := by
          intro l
          induction l with
          | nil => intro b0 e' h; simp [pure, Except.pure] at h
          | cons kv l ih =>
            intro b0 e' h
            rw [List.foldlM_cons] at h
            by_cases h1 : kv.1 ∉ sub.inputs
            · rw [if_pos h1] at h
              simp only [bind, Except.bind, Except.error.injEq] at h; exact h.symm
            · rw [if_neg h1] at h
              by_cases h2 : (Dict.get b0 kv.1).isSome = true
              · rw [if_pos h2] at h
                simp only [bind, Except.bind, Except.error.injEq] at h; exact h.symm
              · rw [if_neg h2] at h
                exact ih _ _ h
        unfold bindSub at hb
        split_ifs at hb
        · simp only [Except.error.injEq] at hb; exact hb.symm
        · exact this _ _ _ hb
    | ok b =>
      simp only
      obtain ⟨hacc, rfl⟩ := bindSub_iff.1 hb
      have hremap : ∀ r : Ref, r.Closed sub → sub.remapIn (sub.inputs.zip args ++ kwargs) r = .ok (r.subst (sigma sub.inputs args kwargs)) :=
        fun r hr => remap_subst (bound_keys hs.names hacc).2 hp r hr
      obtain ⟨hnone, _⟩ := inlineAll_spec (name := name) (fold := original.map (·.1)) (fun p hpm r hr => hremap r (hs.bindings p hpm r hr))
        sub.foldsFirst (fun n hn r hr => hremap r (hs.args n (foldsFirst_mem.1 hn) r hr))
        (g.addFold sub (sub.inputs.zip args ++ kwargs) name kwargs original)
      have herr := inlineAll_error (name := name) (fold := original.map (·.1)) (fun p hpm r hr => hremap r (hs.bindings p hpm r hr))
        sub.foldsFirst (fun n hn r hr => hremap r (hs.args n (foldsFirst_mem.1 hn) r hr))
        (g.addFold sub (sub.inputs.zip args ++ kwargs) name kwargs original)
      obtain ⟨_, _, extra, a3, a4, _⟩ := addFold_spec g sub (sub.inputs.zip args ++ kwargs) name kwargs original
      have hnd : (sub.foldsFirst.map (·.id)).Nodup := ((foldsFirst_perm sub).map _).nodup_iff.2 hs.ids
      cases hi : sub.inlineAll (sub.inputs.zip args ++ kwargs) name (original.map (·.1)) sub.foldsFirst
          (g.addFold sub (sub.inputs.zip args ++ kwargs) name kwargs original) with
      | mk g1 e =>
        rw [hi] at hnone herr
        cases e with
        | some e =>
          simp only [reduceCtorEq, exists_false, false_iff, Except.error.injEq]
          refine ⟨?_, fun e' he => by rw [← he]; exact herr e rfl⟩
          rintro ⟨_, _, hdis⟩
          have : (some e : Option GErr) = none := hnone.2 ⟨hnd, fun n hn => ?_⟩
          · simp at this
          · rw [find_none_iff, a3]
            intro m hm
            rcases List.mem_append.1 hm with hm | hm
            · exact hdis n (foldsFirst_mem.1 hn) m hm
            · have := (a4 m hm).1
              simp only [Option.map_eq_some_iff] at this
              obtain ⟨p, hp1, hp2⟩ := this
              rw [← hp2]
              exact ((hfresh p hp1).2 n (foldsFirst_mem.1 hn)).symm
        | none =>
          simp only
          rw [mapM_ok_of (k := Ref.subst (sigma sub.inputs args kwargs)) fun r hr => hremap r (hs.outputs r hr)]
          refine ⟨⟨fun _ => ⟨ho, hacc, ?_⟩, fun _ => ⟨_, rfl⟩⟩, by simp⟩
          intro n hn m hm
          have := (hnone.1 rfl).2 n (foldsFirst_mem.2 hn)
          rw [find_none_iff, a3] at this
          exact this m (by simp [hm])

/-! ### Lemmas: running -/

/-- No node has a delegate. -/
def Graph.Plain (g : Graph) : Prop := ∀ n ∈ g.nodes, n.delegate = none

theorem plain_runs {sem : Sem V W} {g : Graph} {inp : String → List V} {wAt : ℕ → W} {w w' : W} {order : List ℕ} (hp : g.Plain)
    (h : RunsTo sem g inp wAt w order w') : w' = w ∧ ∀ id ∈ order, wAt id = w := by
  induction h with
  | nil => simp
  | plain hf _ hw _ ih =>
    refine ⟨ih.1, ?_⟩
    intro id hid
    rcases List.mem_cons.1 hid with rfl | hid
    · exact hw
    · exact ih.2 id hid
  | deleg hf hd => rw [hp _ (mem_of_find hf).1] at hd; simp at hd

theorem den_world {sem : Sem V W} {g : Graph} {inp : String → List V} {wAt wAt' : ℕ → W} {order : List ℕ} (hv : ValidOrder g order)
    (hw : ∀ id ∈ order, wAt id = wAt' id) {c : Ctx} {r : Ref} {d : List V} (hr : ∀ n, r.unwrap = .node n → n ∈ order)
    (h : Den sem g inp wAt c r d) : Den sem g inp wAt' c r d := by
  induction h with
  | input hx => exact .input hx
  | const => exact .const
  | attr _ ha ih => exact .attr (ih hr) ha
  | @node id n ads out hf hl _ hc ih =>
    have hid := hr id rfl
    refine .node hf hl (fun i r d h1 h2 => ih i r d h1 h2 fun m hm => ?_) (hw id hid ▸ hc)
    obtain ⟨pre, post, ho⟩ := List.append_of_mem hid
    have := hv.2 pre id post ho m ⟨n, (mem_of_find hf).1, (mem_of_find hf).2, r, mem_allArgs (List.mem_of_getElem? h1), hm⟩
    rw [ho]
    simp [this]

theorem plain_needed {g : Graph} (hp : g.Plain) {c : Ctx} {n : ℕ} (h : Needed g c n) : c = 0 := by
  induction h with
  | out => rfl
  | use _ _ _ ih => exact ih
  | deleg _ _ hf hd => rw [hp _ (mem_of_find hf).1] at hd; simp at hd

theorem plain_returns {sem : Sem V W} {g : Graph} {inp : String → List V} {wAt : ℕ → W} {out : Out V} (hp : g.Plain) (ho : g.outputs ≠ [])
    (hout : ∀ r ∈ g.outputs, ∃ n ∈ g.leafIds, r.unwrap = .node n) (h : Returns sem g inp wAt out) :
    ∃ rows ds, out = [(0, rows)] ∧ List.Forall₂ (Den sem g inp wAt 0) g.outputs ds ∧ Transposed ds rows := by
  classical
  obtain ⟨h1, h2, h3⟩ := h
  have hneed : ∀ r ∈ g.outputs, NeededRef g 0 r := by
    intro r hr
    obtain ⟨n, _, hn⟩ := hout r hr
    exact ⟨n, hn, .out hr hn⟩
  have h0 : ∀ c, c ∈ out.map (·.1) ↔ c = 0 := by
    intro c
    rw [h2]
    constructor
    · rintro ⟨r, _, n, _, hn⟩; exact plain_needed hp hn
    · rintro rfl
      obtain ⟨r, hr⟩ := List.exists_mem_of_ne_nil _ ho
      exact ⟨r, hr, hneed r hr⟩
  obtain ⟨rows, rfl⟩ : ∃ rows, out = [(0, rows)] := by
    cases out with
    | nil => exact absurd ((h0 0).2 rfl) (by simp)
    | cons p out =>
      have hp0 : p.1 = 0 := (h0 p.1).1 (by simp)
      cases out with
      | nil => exact ⟨p.2, by rw [← hp0]⟩
      | cons q out =>
        have hq0 : q.1 = 0 := (h0 q.1).1 (by simp)
        simp [hp0, hq0] at h1
  obtain ⟨ds, hds, ht⟩ := h3 (0, rows) (by simp)
  refine ⟨rows, ds, rfl, ?_, ht⟩
  rw [List.filter_eq_self.2 fun r hr => by simpa using hneed r hr] at hds
  exact hds

theorem subst_node {σ : String → Ref} {r : Ref} {n : ℕ} (h : r.unwrap = .node n) : (r.subst σ).unwrap = .node n := by
  induction r with
  | node id => simpa [Ref.subst, Ref.unwrap] using h
  | input x => simp [Ref.unwrap] at h
  | const k => simp [Ref.unwrap] at h
  | attr r a ih => exact ih h

theorem den_outputs {sem : Sem V W} {g g1 : Graph} (hn : g1.nodes = g.nodes) (hi : g1.inputs = g.inputs) {inp : String → List V} {wAt : ℕ → W}
    {c : Ctx} {r : Ref} {d : List V} (h : Den sem g inp wAt c r d) : Den sem g1 inp wAt c r d := by
  induction h with
  | input hx => exact .input (hi ▸ hx)
  | const => exact .const
  | attr _ ha ih => exact .attr ih ha
  | node hf hl _ hc ih => exact .node (by unfold Graph.find? at hf ⊢; rw [hn]; exact hf) hl ih hc

theorem forall2_imp_mem {α β : Type} {R S : α → β → Prop} {l : List α} {m : List β} (h : List.Forall₂ R l m)
    (hi : ∀ a b, a ∈ l → R a b → S a b) : List.Forall₂ S l m := by
  induction h with
  | nil => exact .nil
  | cons h1 _ ih => exact .cons (hi _ _ (by simp) h1) (ih fun a b ha => hi a b (by simp [ha]))

theorem forall2_agree {sem : Sem V W} {g g' : Graph} {inp inp' : String → List V} {wAt : ℕ → W} {c : Ctx} {rs rs' : List Ref}
    (h : List.Forall₂ (fun r r' => ∀ d, Den sem g' inp wAt c r' d ↔ Den sem g inp' wAt c r d) rs rs') {ds ds' : List (List V)}
    (h1 : List.Forall₂ (Den sem g' inp wAt c) rs' ds) (h2 : List.Forall₂ (Den sem g inp' wAt c) rs ds') : ds = ds' := by
  induction h generalizing ds ds' with
  | nil => cases h1; cases h2; rfl
  | cons h _ ih =>
    cases h1 with
    | cons a1 b1 => cases h2 with
      | cons a2 b2 => rw [ih b1 b2, denotation_unique ((h _).1 a1) a2]

/-! ### Properties: running the graph -/

/-- **C26.** The nodes afterwards: those from before, unchanged and first; the fold of the original module, if there is one, called with the arguments that were given; and one
node for each node of the inlined graph, with its id, target and keyword names, no delegate, its arguments with the inputs replaced by
what was passed for them, and, if it had no parent, the new fold as parent. The graph's inputs and outputs stay as they were. -/
theorem inlined_structure (g sub g' : Graph) (name : String) (args : List Ref) (kwargs : List (String × Ref)) (original : Option (ℕ × ℕ))
    (outs : List Ref) (hs : sub.Closed) (hp : PartFree sub.inputs) (h : g.addSubgraph name sub args kwargs original = (g', .ok outs)) :
    g'.inputs = g.inputs ∧ g'.outputs = g.outputs ∧ g.folds <+: g'.folds ∧
    ∃ σ : String → Ref, (∀ x ∈ sub.inputs, Bound sub.inputs args kwargs x (σ x)) ∧ outs = sub.outputs.map (Ref.subst σ) ∧
    ∃ fold copies : List Node, g'.nodes = g.nodes ++ (fold ++ copies) ∧ 
      fold = original.toList.map (fun p => { id := p.1, name := name, target := p.2, isModule := true, args := args, kwargs := kwargs }) ∧
      copies.Perm (sub.nodes.map fun n => { n with
        name := name ++ "." ++ n.name, args := n.args.map (Ref.subst σ), kwargs := n.kwargs.map (fun kv => (kv.1, kv.2.subst σ)),
        delegate := none, parent := match n.parent with
          | some q => some q
          | none => original.map (·.1) }) := by
  obtain ⟨hacc, ho, h1, h2, _, ⟨extra, hn, _, _, he⟩, hf⟩ := addSubgraph_spec hs hp h
  refine ⟨h1, h2, ⟨_, by rw [hf, List.append_assoc]⟩, sigma sub.inputs args kwargs, fun x hx => sigma_bound hs.names hacc hx, ho,
    extra, _, hn, by rw [he]; simp only [Graph.foldNode, fold_args hs.names hacc], ?_⟩
  refine ((foldsFirst_perm sub).map _).trans (List.Perm.of_eq ?_)
  apply List.map_congr_left
  intro n _
  unfold substNode
  cases n.parent <;> rfl

/-- **C26 (partial).** Running the graph after inlining, for the inlined outputs, gives the result of running the inlined graph by itself on
the values of what was passed for its inputs. Missing: inputs named like parts of others (`part_name_captures`) and delegates, which
inlining drops (`delegates_dropped`). -/
theorem inlined_run_partial (sem : Sem V W) (g sub g' : Graph) (name : String) (args : List Ref) (kwargs : List (String × Ref))
    (original : Option (ℕ × ℕ)) (outs : List Ref) (hg : g.Closed) (hs : sub.Closed) (hp : PartFree sub.inputs)
    (hfresh : FreshFold g sub original) (h : g.addSubgraph name sub args kwargs original = (g', .ok outs))
    (hargs : ∀ x r, Bound sub.inputs args kwargs x r → r.Closed g) (hpg : g.Plain) (hps : sub.Plain)
    (houts : ∀ r ∈ sub.outputs, ∃ n ∈ sub.leafIds, r.unwrap = .node n)
    (order order' : List ℕ) (hv : ValidOrder { g' with outputs := outs } order) (hv' : ValidOrder sub order')
    (w w1 w2 : W) (xs xs' : List (RawInput V)) (kxs kxs' : List (String × RawInput V)) (hk : (kxs.map (·.1)).Nodup)
    (hk' : (kxs'.map (·.1)).Nodup) (inp inp' : String → List V)
    (hinp : ∀ x v, Gives g.inputs xs kxs x v → inp x = v.dataset) (hinp' : ∀ x v, Gives sub.inputs xs' kxs' x v → inp' x = v.dataset)
    (hin : ∀ x r, Bound sub.inputs args kwargs x r → Den sem g inp (fun _ => w) 0 r (inp' x))
    (res res' : Option (Out V)) (hrun : runGraph sem { g' with outputs := outs } order w xs kxs = (w1, .ok res))
    (hrun' : runGraph sem sub order' w xs' kxs' = (w2, .ok res')) : w1 = w2 ∧ res = res' := by
  obtain ⟨hacc, ho, h1, h2, hdis, ⟨extra, hn, hex, he⟩, hf⟩ := addSubgraph_spec hs hp h
  set top : Graph := { g' with outputs := outs } with htop
  have hne : sub.outputs ≠ [] := fun hne => by
    have := ((inlining_accepted_iff g sub name args kwargs original hs hp hfresh).1.1 ⟨outs, by rw [h]⟩).1
    exact this hne
  have hne' : top.outputs ≠ [] := by simp [htop, ho, hne]
  have hplain : top.Plain := by
    intro n hmem
    have hmem : n ∈ g'.nodes := hmem
    rw [hn] at hmem
    rcases List.mem_append.1 hmem with hm | hm
    · exact hpg n hm
    rcases List.mem_append.1 hm with hm | hm
    · exact (hex n hm).2
    · obtain ⟨m, _, rfl⟩ := List.mem_map.1 hm
      rfl
  have huniq : top.UniqueIds := by
    unfold Graph.UniqueIds
    show (g'.nodes.map (·.id)).Nodup
    rw [hn, List.map_append, List.map_append, he.1]
    have hids : (sub.foldsFirst.map (substNode (sigma sub.inputs args kwargs) name (original.map (·.1)))).map (·.id) =
        sub.foldsFirst.map (·.id) := by simp [substNode]
    rw [hids]
    have hnd : (sub.foldsFirst.map (·.id)).Nodup := ((foldsFirst_perm sub).map _).nodup_iff.2 hs.ids
    refine List.nodup_append'.2 ⟨hg.ids, List.nodup_append'.2 ⟨?_, hnd, ?_⟩, ?_⟩
    · cases original <;> simp
    · intro id h3 h4
      obtain ⟨n, hn4, rfl⟩ := List.mem_map.1 h4
      cases original with
      | none => simp at h3
      | some p =>
        simp only [Option.map_some, Option.toList_some, List.mem_singleton] at h3
        exact (hfresh p rfl).2 n (foldsFirst_mem.1 hn4) h3
    · intro id h3 h4
      obtain ⟨m, hm3, rfl⟩ := List.mem_map.1 h3
      rcases List.mem_append.1 h4 with h4 | h4
      · cases original with
        | none => simp at h4
        | some p =>
          simp only [Option.map_some, Option.toList_some, List.mem_singleton] at h4
          exact (hfresh p rfl).1 m hm3 h4
      · obtain ⟨n, hn4, h5⟩ := List.mem_map.1 h4
        exact find_none_iff.1 (hdis n (foldsFirst_mem.1 hn4)) m hm3 h5.symm
  have hleaf : ∀ n ∈ sub.leafIds, n ∈ top.leafIds := by
    intro id hid
    unfold Graph.leafIds Graph.leaves at hid ⊢
    simp only [List.mem_map, List.mem_filter] at hid ⊢
    obtain ⟨n, ⟨hm, hnf⟩, rfl⟩ := hid
    refine ⟨substNode (sigma sub.inputs args kwargs) name (original.map (·.1)) n, ⟨?_, ?_⟩, rfl⟩
    · show _ ∈ g'.nodes
      rw [hn]
      simp only [List.mem_append]
      exact Or.inr (Or.inr (List.mem_map.2 ⟨n, foldsFirst_mem.2 hm, rfl⟩))
    · show (!g'.folds.contains n.id) = true
      rw [hf]
      simp only [Bool.not_eq_true', List.contains_eq_mem, decide_eq_false_iff_not, List.mem_append, not_or] at hnf ⊢
      refine ⟨⟨?_, ?_⟩, ?_⟩
      · intro hfg
        obtain ⟨m, hm1, hm2⟩ := hg.folds _ hfg
        exact find_none_iff.1 (hdis n hm) m hm1 hm2
      · cases original with
        | none => simp
        | some p =>
          simp only [Option.map_some, Option.toList_some, List.mem_singleton]
          exact (hfresh p rfl).2 n hm
      · intro hx
        obtain ⟨m, hm1, hm2⟩ := List.mem_map.1 hx
        have := (List.mem_filter.1 hm1).2
        simp only [decide_eq_true_eq] at this
        exact hnf (hm2 ▸ this)
  have htout : ∀ r ∈ top.outputs, ∃ n ∈ top.leafIds, r.unwrap = .node n := by
    intro r hr
    have hr : r ∈ outs := hr
    rw [ho] at hr
    obtain ⟨q, hq, rfl⟩ := List.mem_map.1 hr
    obtain ⟨n, hn1, hn2⟩ := houts q hq
    exact ⟨n, hleaf n hn1, subst_node hn2⟩
  have hti : top.inputs = g.inputs := h1
  obtain ⟨wA, hrA, _, hA0⟩ := scheduled_run_denotes sem top huniq (by rw [hti]; exact hg.names) order hv htout xs kxs hk inp
    (by rw [hti]; exact hinp) w w1 res hrun
  obtain ⟨wB, hrB, _, hB0⟩ := scheduled_run_denotes sem sub hs.ids hs.names order' hv' houts xs' kxs' hk' inp' hinp' w w2 res' hrun'
  obtain ⟨outA, rfl, hA⟩ := hA0 hne'
  obtain ⟨outB, rfl, hB⟩ := hB0 hne
  obtain ⟨rfl, hwA⟩ := plain_runs hplain hrA
  obtain ⟨rfl, hwB⟩ := plain_runs hps hrB
  obtain ⟨rowsA, dsA, rfl, hdA, htA⟩ := plain_returns hplain hne' htout hA
  obtain ⟨rowsB, dsB, rfl, hdB, htB⟩ := plain_returns hps hne houts hB
  refine ⟨rfl, ?_⟩
  have hio := inlined_outputs_partial sem g sub g' name args kwargs original outs hg hs hp hfresh h hargs inp inp' (fun _ => w2) 0 hin
  have hds : dsA = dsB := by
    have hA2 : List.Forall₂ (Den sem g' inp (fun _ => w2) 0) outs dsA := by
      have : List.Forall₂ (Den sem top inp wA 0) outs dsA := hdA
      have hmem : ∀ r ∈ outs, ∀ n, r.unwrap = .node n → n ∈ order := by
        intro r hr n hrn
        obtain ⟨m, hm1, hm2⟩ := htout r hr
        rw [hrn] at hm2
        cases hm2
        exact hv.1.mem_iff.2 hm1
      refine forall2_imp_mem this fun r d hr h3 => ?_
      exact den_outputs (g := top) (g1 := g') rfl rfl (den_world hv (wAt' := fun _ => w2) hwA (hmem r hr) h3)
    have hB2 : List.Forall₂ (Den sem sub inp' (fun _ => w2) 0) sub.outputs dsB := by
      refine forall2_imp_mem hdB fun r d hr h3 => ?_
      refine den_world hv' (wAt' := fun _ => w2) hwB (fun n hrn => ?_) h3
      obtain ⟨m, hm1, hm2⟩ := houts r hr
      rw [hrn] at hm2
      cases hm2
      exact hv'.1.mem_iff.2 hm1
    exact forall2_agree hio hA2 hB2
  subst hds
  rw [transposed_unique (fun hd => ?_) htA htB]
  subst hd
  exact hne (by simpa using hdB)

/-! ### Deviations -/

/-- A graph with inputs `x` and `x[0]`; its node takes the first part of `x`. -/
def bracketed : Graph where
  nodes := [{ id := 5, name := "n", target := 0, isModule := true, args := [.attr (.input "x") (.idx 0)], kwargs := [] }]
  inputs := ["x", "x[0]"]
  outputs := [.node 5]

/-- A graph with two inputs and nothing else. -/
def twoInputs : Graph where
  inputs := ["a", "b"]

theorem closed_iff_check (g : Graph) : g.Closed ↔ g.UniqueIds ∧ g.inputs.Nodup ∧
    (∀ n ∈ g.nodes, ∀ r ∈ n.allArgs, r.Closed g) ∧ (∀ r ∈ g.outputs, r.Closed g) ∧ (∀ p ∈ g.bindings, ∀ r ∈ p.2, r.Closed g) ∧
    ∀ f ∈ g.folds, ∃ n ∈ g.nodes, n.id = f :=
  ⟨fun h => ⟨h.1, h.2, h.3, h.4, h.5, h.6⟩, fun h => ⟨h.1, h.2.1, h.2.2.1, h.2.2.2.1, h.2.2.2.2.1, h.2.2.2.2.2⟩⟩

/-- The check of `Ref.Closed` used for the concrete graphs below. -/
def Ref.closedB (g : Graph) (r : Ref) : Bool :=
  match r.unwrap with
  | .node id => g.nodes.any fun n => n.id == id
  | .input x => decide (x ∈ g.inputs)
  | _ => true

theorem closed_of_check {g : Graph} {r : Ref} (h : r.closedB g = true) : r.Closed g := by
  unfold Ref.closedB at h
  constructor
  · intro id hid
    rw [hid] at h
    simpa using h
  · intro x hx
    rw [hx] at h
    simpa using h

theorem graph_closed_of_check {g : Graph} (h1 : g.UniqueIds) (h2 : g.inputs.Nodup)
    (h3 : (g.nodes.all fun n => n.allArgs.all (Ref.closedB g)) = true) (h4 : g.outputs.all (Ref.closedB g) = true)
    (h5 : (g.bindings.all fun p => p.2.all (Ref.closedB g)) = true) (h6 : ∀ f ∈ g.folds, ∃ n ∈ g.nodes, n.id = f) : g.Closed where
  ids := h1
  names := h2
  args := fun n hn r hr => closed_of_check (List.all_eq_true.1 (List.all_eq_true.1 h3 n hn) r hr)
  outputs := fun r hr => closed_of_check (List.all_eq_true.1 h4 r hr)
  bindings := fun p hp r hr => closed_of_check (List.all_eq_true.1 (List.all_eq_true.1 h5 p hp) r hr)
  folds := h6

/-- **C26, deviation.** An input named `x[0]` is used for the first part of input `x`: with `a` passed for `x` and `b` for `x[0]`, the inlined
node takes `b`, where the graph run by itself takes the first part of `a`. -/
theorem part_name_captures :
    bracketed.Closed ∧ ((twoInputs.addSubgraph "s" bracketed [.input "a", .input "b"] [] none).1.find? 5).map (·.args) = some [.input "b"] ∧
    (runGraph toySem { (twoInputs.addSubgraph "s" bracketed [.input "a", .input "b"] [] none).1 with outputs := [.node 5] } [5] 0
      [.single [1, 2], .single [7]] []).2 = .ok (some [(0, [[[7]]])]) ∧
    (runGraph toySem bracketed [5] 0 [.single [1, 2], .single [7]] []).2 = .ok (some [(0, [[[1]]])]) := by
  refine ⟨graph_closed_of_check (by decide) (by decide) (by decide) (by decide) (by decide) (by decide), ?_, ?_, ?_⟩ <;> decide +kernel

/-- A graph with one node. -/
def oneNode : Graph where
  nodes := [{ id := 5, name := "n", target := 0, isModule := true, args := [.input "x"], kwargs := [] }]
  inputs := ["x"]
  outputs := [.node 5]

/-- A graph in which it has been inlined. -/
def once : Graph where
  nodes := [{ id := 5, name := "s.n", target := 0, isModule := true, args := [.input "a"], kwargs := [] }]
  inputs := ["a"]
  outputs := [.node 5]

theorem partFree_of_short {names : List String} (h : ∀ x ∈ names, x.length = 1) : PartFree names := by
  intro x hx y hy s e
  have hl := congrArg String.length e
  rw [String.length_append, String.length_append, String.length_append, h x hx, h y hy] at hl
  have : "[".length = 1 := by decide
  omega

/-- **C26, deviation.** Inlining that fails leaves something behind: inlining the same graph a second time, with its original module, is
refused with a `ValueError`, but the graph then holds a fold for it that has no members. -/
theorem failed_inlining_leaves_fold :
    ∃ g sub : Graph, ∃ args : List Ref, g.Closed ∧ sub.Closed ∧ PartFree sub.inputs ∧ (∀ r ∈ args, r.Closed g) ∧
      (g.addSubgraph "s" sub args [] (some (9, 3))).2 = .error .valueError ∧
      (g.addSubgraph "s" sub args [] (some (9, 3))).1.folds = g.folds ++ [9] ∧
      ∀ n ∈ (g.addSubgraph "s" sub args [] (some (9, 3))).1.nodes, n.parent ≠ some 9 := by
  refine ⟨once, oneNode, [.input "a"],
    graph_closed_of_check (by decide) (by decide) (by decide) (by decide) (by decide) (by decide),
    graph_closed_of_check (by decide) (by decide) (by decide) (by decide) (by decide) (by decide), ?_, ?_, by decide +kernel, by decide +kernel,
    by decide +kernel⟩
  · exact partFree_of_short (by decide)
  · intro r hr
    exact closed_of_check (by revert r; decide)

/-- **C26, deviation.** Delegates of the inlined graph are dropped: a graph whose run optimizes a module no longer does so after it has
been inlined. -/
theorem delegates_dropped :
    ∃ sub : Graph, sub.Closed ∧ (∃ n ∈ sub.nodes, n.delegate ≠ none) ∧
      (∀ n ∈ (twoInputs.addSubgraph "s" sub [.input "a"] [("y", .input "b")] none).1.nodes, n.delegate = none) ∧
      (runGraph toySem sub [0, 1, 2] 7 [.batches [[1], [2]]] [("y", .single [100])]).1 ≠
      (runGraph toySem { (twoInputs.addSubgraph "s" sub [.input "a"] [("y", .input "b")] none).1 with
        outputs := [.node 2, .attr (.node 1) (.idx 0)] } [0, 1, 2] 7 [.batches [[1], [2]]] [("b", .single [100])]).1 := by
  refine ⟨delegated, graph_closed_of_check (by decide) (by decide) (by decide) (by decide) (by decide) (by decide), by decide,
    by decide +kernel, by decide +kernel⟩

/-! ### Concrete cases -/

/-- A graph that uses its first input and a part of its second. -/
def inner : Graph where
  nodes := [
    { id := 5, name := "n", target := 1, isModule := true, args := [.input "x"], kwargs := [("k", .attr (.input "y") (.idx 1))], parent := some 8 },
    { id := 8, name := "f", target := 4, isModule := true, args := [.input "x"], kwargs := [] },
    { id := 6, name := "m", target := 0, isModule := true, args := [.node 5, .const 3], kwargs := [] }]
  folds := [8]
  inputs := ["x", "y"]
  outputs := [.node 6, .attr (.node 5) (.idx 0)]
  bindings := [(8, [.input "x"])]

/-- The graph it is inlined into. -/
def outer : Graph where
  nodes := [{ id := 0, name := "a", target := 2, isModule := true, args := [.input "u"], kwargs := [] }]
  inputs := ["u"]
  outputs := [.node 0]

theorem inner_closed : inner.Closed := graph_closed_of_check (by decide) (by decide) (by decide) (by decide) (by decide) (by decide)
theorem outer_closed : outer.Closed := graph_closed_of_check (by decide) (by decide) (by decide) (by decide) (by decide) (by decide)

theorem inner_partFree : PartFree inner.inputs := partFree_of_short (by decide)

/-- The hypotheses of the theorems hold for inlining `inner` with a node and a part of one as arguments. -/
example : (outer.addSubgraph "s" inner [.node 0] [("y", .attr (.node 0) (.idx 1))] (some (9, 4))).2 =
    .ok [.node 6, .attr (.node 5) (.idx 0)] := by decide +kernel

example : FreshFold outer inner (some (9, 4)) := by
  intro p hp
  cases hp
  decide

example : ∀ x r, Bound inner.inputs [.node 0] [("y", .attr (.node 0) (.idx 1))] x r → r.Closed outer := by
  intro x r h
  cases h with
  | @pos i _ _ h1 h2 =>
    have : r ∈ [Ref.node 0] := List.mem_of_getElem? h2
    simp only [List.mem_singleton] at this
    subst this
    exact closed_of_check (by decide)
  | kw h =>
    simp only [List.mem_singleton, Prod.mk.injEq] at h
    obtain ⟨rfl, rfl⟩ := h
    exact closed_of_check (by decide)

/-- The nodes afterwards, in order, with their parents: the fold, the inner fold inside it, and the nodes. -/
example : ((outer.addSubgraph "s" inner [.node 0] [("y", .attr (.node 0) (.idx 1))] (some (9, 4))).1.nodes.map fun n => (n.id, n.parent)) =
    [(0, none), (9, none), (8, some 9), (5, some 8), (6, some 9)] := by decide +kernel

/-- Both runs, on the values the arguments have: equal results. -/
example :
    (runGraph toySem { (outer.addSubgraph "s" inner [.node 0] [("y", .node 0)] (some (9, 4))).1 with
      outputs := [.node 6, .attr (.node 5) (.idx 0)] } [0, 5, 6] 7 [.batches [[1], [2]]] []).2 =
      .ok (some [(0, [[[8, 9, 9, 3], [8]], [[9, 11, 11, 3], [9]]])]) ∧
    (runGraph toySem inner [5, 6] 7 [.batches [[1, 2], [2, 4]], .batches [[1, 2], [2, 4]]] []).2 =
      .ok (some [(0, [[[8, 9, 9, 3], [8]], [[9, 11, 11, 3], [9]]])]) := by
  decide +kernel

example : topologicalSort { (outer.addSubgraph "s" inner [.node 0] [("y", .node 0)] (some (9, 4))).1 with
      outputs := [.node 6, .attr (.node 5) (.idx 0)] } = .ok [0, 5, 6] ∧ topologicalSort inner = .ok [5, 6] := by decide +kernel

end FF.Orch
