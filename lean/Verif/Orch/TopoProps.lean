import Verif.Orch.TopoLemmas
import Mathlib.Logic.Relation
import Mathlib.Order.WellFounded
import Mathlib.Data.Set.Finite.Basic
import Mathlib.Data.Fintype.EquivFin

/-! # Execution order (C17) -/

namespace FF.Orch

/-! ### Specification -/

/-- Node `n` of the graph takes an argument (positional or by keyword, possibly an attribute of it) from node `m`. -/
def Uses (g : Graph) (n m : ℕ) : Prop :=
  ∃ node ∈ g.nodes, node.id = n ∧ ∃ r, (r ∈ node.args ∨ ∃ k, (k, r) ∈ node.kwargs) ∧ r.unwrap = .node m

/-- A valid execution order: every leaf exactly once, each after everything it uses. -/
def ValidOrder (g : Graph) (order : List ℕ) : Prop :=
  order.Perm g.leafIds ∧ ∀ pre n post, order = pre ++ n :: post → ∀ m, Uses g n m → m ∈ pre

/-! ### Lemmas -/

theorem uses_iff {g : Graph} (hu : g.UniqueIds) {n m : ℕ} : Uses g n m ↔ m ∈ g.ins n := by
  have hb : ∀ r : Ref, r.baseNode? = some m ↔ r.unwrap = .node m := by
    intro r
    unfold Ref.baseNode?
    cases r.unwrap <;> simp
  constructor
  · rintro ⟨node, hn, rfl, r, hr, he⟩
    unfold Graph.ins
    rw [find_of_mem hu hn]
    simp only [Option.elim]
    rw [mem_inputs]
    refine ⟨r, ?_, (hb r).2 he⟩
    unfold Node.allArgs
    rw [List.mem_append, List.mem_map]
    rcases hr with hr | ⟨k, hr⟩
    · exact Or.inl hr
    · exact Or.inr ⟨_, hr, rfl⟩
  · intro h
    unfold Graph.ins at h
    cases hf : g.find? n with
    | none => simp [hf] at h
    | some node =>
      rw [hf] at h
      simp only [Option.elim] at h
      rw [mem_inputs] at h
      obtain ⟨r, hr, he⟩ := h
      obtain ⟨h1, h2⟩ := mem_of_find hf
      refine ⟨node, h1, h2, r, ?_, (hb r).1 he⟩
      unfold Node.allArgs at hr
      rw [List.mem_append, List.mem_map] at hr
      rcases hr with hr | ⟨⟨k, r'⟩, hr, rfl⟩
      · exact Or.inl hr
      · exact Or.inr ⟨k, hr⟩

theorem topo_final {g : Graph} (hu : g.UniqueIds) :
    ∃ s, Kahn.run g (g.leafIds.length + 1) ⟨g.inDegree, g.leafIds.filter (fun id => g.inDegree id = 0), []⟩ = .ok s ∧
      KInv g s ∧ s.queue = [] :=
  kahn_fuel hu _ _ (kinv_init hu) (by simp)

theorem kinv_valid {g : Graph} (hu : g.UniqueIds) {s : Kahn} (h : KInv g s) (hl : s.order.length = g.leafIds.length) :
    ValidOrder g s.order := by
  have hnd : s.order.Nodup := h.nodup.sublist (List.sublist_append_left _ _)
  refine ⟨(hnd.subperm fun x hx => h.leaf x (by simp [hx])).perm_of_length_le (by omega), ?_⟩
  intro pre n post he m hm
  exact h.before pre n post he m ((uses_iff hu).1 hm)

theorem topo_cases {g : Graph} (hu : g.UniqueIds) :
    (∃ order, topologicalSort g = .ok order ∧ ValidOrder g order) ∨
    (topologicalSort g = .error .valueError ∧ ∃ stuck : List ℕ, stuck ≠ [] ∧ (∀ n ∈ stuck, n ∈ g.leafIds) ∧
      ∀ n ∈ stuck, ∃ m, Uses g n m ∧ (m ∈ g.leafIds → m ∈ stuck)) := by
  obtain ⟨s, hr, hi, hq⟩ := topo_final hu
  by_cases hl : s.order.length = g.leafIds.length
  · left
    refine ⟨s.order, ?_, kinv_valid hu hi hl⟩
    unfold topologicalSort
    simp only [hr]
    rw [if_neg (by simp [hl])]
  · right
    refine ⟨?_, g.leafIds.filter fun n => decide (n ∉ s.order), ?_, ?_, ?_⟩
    · unfold topologicalSort
      simp only [hr]
      rw [if_pos hl]
    · intro he
      rw [List.filter_eq_nil_iff] at he
      have hnd : s.order.Nodup := hi.nodup.sublist (List.sublist_append_left _ _)
      have h1 : s.order.length ≤ g.leafIds.length := (hnd.subperm fun x hx => hi.leaf x (by simp [hx])).length_le
      have h2 : g.leafIds.length ≤ s.order.length :=
        ((leafIds_nodup hu).subperm fun x hx => by simpa using he x hx).length_le
      omega
    · intro n hn; exact (List.mem_filter.1 hn).1
    · intro n hn
      rw [List.mem_filter] at hn
      have hno : n ∉ s.order := by simpa using hn.2
      have hd : s.deg n ≠ 0 := by
        intro h0
        have := (hi.zero n hn.1).2 h0
        rw [hq] at this
        simp at this
        exact hno this
      rw [hi.deg n hn.1] at hd
      have : ((g.ins n).filter fun m => decide (m ∉ s.order)) ≠ [] := by
        intro h0; rw [h0] at hd; simp at hd
      obtain ⟨m, hm⟩ := List.exists_mem_of_ne_nil _ this
      rw [List.mem_filter] at hm
      refine ⟨m, (uses_iff hu).2 hm.1, fun hml => ?_⟩
      rw [List.mem_filter]; exact ⟨hml, hm.2⟩

/-! ### Properties -/

/-- **C17.** An order returned by `topological_sort` contains every leaf exactly once and each node after everything it uses. -/
theorem topological_sort_valid (g : Graph) (hu : g.UniqueIds) (order : List ℕ) (h : topologicalSort g = .ok order) :
    ValidOrder g order := by
  rcases topo_cases hu with ⟨o, h1, h2⟩ | ⟨h1, _⟩
  · rw [h1] at h; rw [← Except.ok.inj h]; exact h2
  · rw [h1] at h; simp at h

/-- **C17.** `topological_sort` finds an order whenever a valid one exists. -/
theorem topological_sort_complete (g : Graph) (hu : g.UniqueIds) (order : List ℕ) (h : ValidOrder g order) :
    ∃ o, topologicalSort g = .ok o := by
  rcases topo_cases hu with ⟨o, h1, _⟩ | ⟨_, stuck, hne, hleaf, hst⟩
  · exact ⟨o, h1⟩
  exfalso
  -- no stuck node can appear in any prefix of a valid order
  have key : ∀ pre post, order = pre ++ post → ∀ x ∈ pre, x ∉ stuck := by
    intro pre
    induction pre using List.reverseRecOn with
    | nil => simp
    | append_singleton pre y ih =>
      intro post he x hx
      rw [List.append_assoc] at he
      rw [List.mem_append] at hx
      rcases hx with hx | hx
      · exact ih _ he x hx
      · obtain rfl : x = y := by simpa using hx
        intro hs
        obtain ⟨m, hm1, hm2⟩ := hst x hs
        have hmp := h.2 pre x post he m hm1
        have hml : m ∈ g.leafIds := h.1.subset (by rw [he]; simp [hmp])
        exact ih _ he m hmp (hm2 hml)
  obtain ⟨n, hn⟩ := List.exists_mem_of_ne_nil _ hne
  exact key order [] (by simp) n (h.1.symm.subset (hleaf n hn)) hn

/-- **C17.** If no leaf uses a fold or a node outside the graph, `topological_sort` fails exactly when some leaf depends on
itself, directly or through others; the failure is a `ValueError`. -/
theorem topological_sort_iff_acyclic (g : Graph) (hu : g.UniqueIds) (hin : ∀ n ∈ g.leafIds, ∀ m, Uses g n m → m ∈ g.leafIds) :
    ((∃ o, topologicalSort g = .ok o) ↔ ∀ n ∈ g.leafIds, ¬ Relation.TransGen (Uses g) n n) ∧
    ((∃ n ∈ g.leafIds, Relation.TransGen (Uses g) n n) → topologicalSort g = .error .valueError) := by
  have fwd : (∃ o, topologicalSort g = .ok o) → ∀ n ∈ g.leafIds, ¬ Relation.TransGen (Uses g) n n := by
    rintro ⟨o, ho⟩ n hn hc
    obtain ⟨hperm, hval⟩ := topological_sort_valid g hu o ho
    have hnd : o.Nodup := hperm.nodup_iff.2 (leafIds_nodup hu)
    -- everything `n` depends on stands before `n`
    have key : ∀ a b, Relation.TransGen (Uses g) a b → ∀ pre post, o = pre ++ a :: post → b ∈ pre := by
      intro a b hab
      induction hab with
      | single h => intro pre post he; exact hval pre a post he _ h
      | @tail b c hab hbc ih =>
        intro pre post he
        obtain ⟨p1, p2, hp⟩ := List.append_of_mem (ih pre post he)
        have : c ∈ p1 := hval p1 b (p2 ++ a :: post) (by rw [he, hp]; simp) c hbc
        rw [hp]; simp [this]
    obtain ⟨pre, post, he⟩ := List.append_of_mem (hperm.symm.subset hn)
    have := key n n hc pre post he
    rw [he] at hnd
    rw [List.nodup_append] at hnd
    exact hnd.2.2 n this n (by simp) rfl
  refine ⟨⟨fwd, ?_⟩, ?_⟩
  · intro hac
    rcases topo_cases hu with ⟨o, h1, _⟩ | ⟨_, stuck, hne, hleaf, hst⟩
    · exact ⟨o, h1⟩
    exfalso
    -- `Uses` restricted to the leaves is well founded
    let r : {n // n ∈ g.leafIds} → {n // n ∈ g.leafIds} → Prop := fun a b => Relation.TransGen (Uses g) b.1 a.1
    have hfin : Finite {n // n ∈ g.leafIds} := (List.finite_toSet g.leafIds).to_subtype
    have : IsTrans _ r := ⟨fun a b c h1 h2 => h2.trans h1⟩
    have : Std.Irrefl r := ⟨fun a h => hac a.1 a.2 h⟩
    have hwf : WellFounded r := Finite.wellFounded_of_trans_of_irrefl r
    obtain ⟨n0, hn0⟩ := List.exists_mem_of_ne_nil _ hne
    let S : Set {n // n ∈ g.leafIds} := {x | x.1 ∈ stuck}
    have hS : S.Nonempty := ⟨⟨n0, hleaf n0 hn0⟩, hn0⟩
    obtain ⟨m, hm1, hm2⟩ := hst _ (hwf.min_mem S hS)
    have hml : m ∈ g.leafIds := hin _ (hwf.min S hS).2 m hm1
    exact hwf.not_lt_min S (x := ⟨m, hml⟩) (hm2 hml) (Relation.TransGen.single hm1)
  · rintro ⟨n, hn, hc⟩
    rcases topo_cases hu with ⟨o, h1, _⟩ | ⟨h1, _⟩
    · exact absurd hc (fwd ⟨o, h1⟩ n hn)
    · exact h1

/-- **C17.** With a closure, exactly the nodes of the closure are returned, each after the nodes of the closure it uses; a closure
with anything but leaves is rejected. -/
theorem topological_sort_closure (g : Graph) (hu : g.UniqueIds) (c order : List ℕ) (h : topologicalSort g = .ok order) :
    ((∀ n ∈ c, n ∈ g.leafIds) → ∃ o, topologicalSort g (some c) = .ok o ∧ o.Nodup ∧ (∀ n, n ∈ o ↔ n ∈ c) ∧
      ∀ pre n post, o = pre ++ n :: post → ∀ m ∈ c, Uses g n m → m ∈ pre) ∧
    ((∃ n ∈ c, n ∉ g.leafIds) → topologicalSort g (some c) = .error .valueError) := by
  obtain ⟨hperm, hval⟩ := topological_sort_valid g hu order h
  obtain ⟨s, hr, hi, hq⟩ := topo_final hu
  have hs : s.order = order ∧ s.order.length = g.leafIds.length := by
    unfold topologicalSort at h
    simp only [hr] at h
    split_ifs at h with h1
    simp only [Except.ok.injEq] at h
    exact ⟨h, by simpa using h1⟩
  constructor
  · intro hc
    refine ⟨order.filter fun id => c.contains id, ?_, (hperm.nodup_iff.2 (leafIds_nodup hu)).filter _, ?_, ?_⟩
    · unfold topologicalSort
      simp only [hr]
      rw [if_neg (by simp [hs.2]), if_pos (by simpa using hc), hs.1]
    · intro n
      simp only [List.mem_filter, List.contains_iff_mem]
      constructor
      · exact fun h => h.2
      · exact fun h => ⟨hperm.symm.subset (hc n h), h⟩
    · intro pre n post he m hm hum
      -- split the unfiltered order at `n`
      obtain ⟨p1, p2, h1, h2, h3⟩ := List.filter_eq_append_iff.1 he
      obtain ⟨q1, q2, h4, h5, h6, h7⟩ := List.filter_eq_cons_iff.1 h3
      have : m ∈ p1 ++ q1 := hval (p1 ++ q1) n q2 (by rw [h1, h4]; simp) m hum
      rw [List.mem_append] at this
      rcases this with h | h
      · rw [← h2, List.mem_filter]; exact ⟨h, by simpa using hm⟩
      · exact absurd (by simpa using hm) (h5 m h)
  · rintro ⟨n, hn, hnl⟩
    unfold topologicalSort
    simp only [hr]
    rw [if_neg (by simp [hs.2]), if_neg]
    rw [List.all_eq_true]
    intro hall
    exact hnl (by simpa using hall n hn)

/-! ### Concrete cases -/

/-- A diamond with a fold (id 9) around it; node 3 uses node 1 by attribute and node 2 by keyword. -/
def diamond : Graph where
  nodes := [
    { id := 3, name := "d", target := 0, isModule := true, args := [.attr (.node 1) (.idx 0)], kwargs := [("y", .node 2)], parent := some 9 },
    { id := 9, name := "f", target := 9, isModule := true, args := [.input "x"], kwargs := [] },
    { id := 0, name := "a", target := 1, isModule := true, args := [.input "x"], kwargs := [], parent := some 9 },
    { id := 1, name := "b", target := 2, isModule := true, args := [.node 0, .node 0], kwargs := [], parent := some 9 },
    { id := 2, name := "c", target := 3, isModule := true, args := [.node 0, .const 5], kwargs := [], parent := some 9 }]
  folds := [9]
  inputs := ["x"]
  outputs := [.node 3]

example : diamond.UniqueIds := by decide
example : topologicalSort diamond = .ok [0, 1, 2, 3] := by decide
example : topologicalSort diamond (some [3, 1]) = .ok [1, 3] := by decide
example : topologicalSort diamond (some [3, 9]) = .error .valueError := by decide
example : ∀ n ∈ diamond.leafIds, ∀ m, Uses diamond n m → m ∈ diamond.leafIds := by
  intro n hn m hm
  rw [uses_iff (by decide)] at hm
  have : ∀ n ∈ diamond.leafIds, ∀ m ∈ diamond.ins n, m ∈ diamond.leafIds := by decide
  exact this n hn m hm

/-- A two-node cycle is rejected. -/
example : topologicalSort { nodes := [
    { id := 0, name := "a", target := 0, isModule := true, args := [.node 1], kwargs := [] },
    { id := 1, name := "b", target := 0, isModule := true, args := [.node 0], kwargs := [] }] } = .error .valueError := by decide

end FF.Orch
