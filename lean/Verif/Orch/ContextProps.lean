import Verif.Orch.Engine
import Verif.Orch.TopoProps

/-! # Which contexts a node runs in (C20) -/

namespace FF.Orch

/-! ### Specification -/

/-- Node `n` is needed in context `c`: it feeds a graph output (default context), a node that is needed in `c`, or a node whose
delegate asks for activations in `c`. -/
inductive Needed (g : Graph) : Ctx → ℕ → Prop
  | out {r : Ref} {n : ℕ} : r ∈ g.outputs → r.unwrap = .node n → Needed g 0 n
  | use {c : Ctx} {m n : ℕ} : m ∈ g.leafIds → Uses g m n → Needed g c m → Needed g c n
  | deleg {c : Ctx} {m n : ℕ} {node : Node} {d : Delegate} : m ∈ g.leafIds → Uses g m n → g.find? m = some node →
      node.delegate = some d → c ∈ d.contexts → Needed g c n

/-! ### Lemmas -/

theorem mem_ctxUnion {a b : List Ctx} {c : Ctx} : c ∈ ctxUnion a b ↔ c ∈ a ∨ c ∈ b := by
  unfold ctxUnion
  induction b generalizing a with
  | nil => simp
  | cons x xs ih =>
    rw [List.foldl_cons, ih]
    by_cases h : x ∈ a
    · rw [if_pos h]
      constructor
      · rintro (h1 | h1)
        · exact Or.inl h1
        · exact Or.inr (by simp [h1])
      · rintro (h1 | h1)
        · exact Or.inl h1
        · rcases List.mem_cons.1 h1 with rfl | h1
          · exact Or.inl h
          · exact Or.inr h1
    · rw [if_neg h]
      simp only [List.mem_append, List.mem_cons]
      tauto

/-- Contexts of a node's delegate. -/
def Graph.delegCtxs (g : Graph) (id : ℕ) : List Ctx := ((g.find? id).bind (·.delegate)).elim [] (·.contexts)

theorem foldl_inputs (id : ℕ) (dc : List Ctx) (l : List ℕ) (hid : id ∉ l) (ctxs : ℕ → List Ctx) (k : ℕ) (c : Ctx) :
    c ∈ l.foldl (fun ctxs m => fun k => if k = m then ctxUnion (ctxUnion (ctxs m) (ctxs id)) dc else ctxs k) ctxs k ↔
      c ∈ ctxs k ∨ (k ∈ l ∧ (c ∈ ctxs id ∨ c ∈ dc)) := by
  induction l generalizing ctxs with
  | nil => simp
  | cons a as ih =>
    rw [List.foldl_cons, ih (fun h => hid (by simp [h]))]
    have hida : id ≠ a := fun h => hid (by simp [h])
    simp only [hida, if_false]
    by_cases hk : k = a
    · subst hk
      simp only [if_true, mem_ctxUnion, List.mem_cons, true_or, true_and]
      tauto
    · simp only [hk, if_false, List.mem_cons, false_or]

theorem mem_propagateStep {g : Graph} {ctxs : ℕ → List Ctx} {id k : ℕ} {c : Ctx} (hid : id ∉ g.ins id) :
    c ∈ propagateStep g ctxs id k ↔ c ∈ ctxs k ∨ (k ∈ g.ins id ∧ (c ∈ ctxs id ∨ c ∈ g.delegCtxs id)) := by
  unfold propagateStep Graph.delegCtxs
  unfold Graph.ins at hid ⊢
  cases hf : g.find? id with
  | none => simp
  | some n =>
    rw [hf] at hid
    simp only [Option.elim] at hid ⊢
    rw [foldl_inputs id _ n.inputs hid]
    rfl

theorem valid_nodup {g : Graph} (hu : g.UniqueIds) {order : List ℕ} (hv : ValidOrder g order) : order.Nodup :=
  hv.1.nodup_iff.2 (leafIds_nodup hu)

theorem valid_not_self {g : Graph} (hu : g.UniqueIds) {order : List ℕ} (hv : ValidOrder g order) {id : ℕ} (h : id ∈ order) :
    id ∉ g.ins id := by
  intro hi
  obtain ⟨pre, post, rfl⟩ := List.append_of_mem h
  have := hv.2 pre id post rfl id ((uses_iff hu).2 hi)
  have hnd := valid_nodup hu hv
  rw [List.nodup_append] at hnd
  exact hnd.2.2 id this id (by simp) rfl

theorem fold_mono {g : Graph} (l : List ℕ) (hl : ∀ id ∈ l, id ∉ g.ins id) (ctxs : ℕ → List Ctx) (k : ℕ) (c : Ctx)
    (h : c ∈ ctxs k) : c ∈ l.foldl (propagateStep g) ctxs k := by
  induction l generalizing ctxs with
  | nil => exact h
  | cons a as ih =>
    rw [List.foldl_cons]
    exact ih (fun id hid => hl id (by simp [hid])) _ ((mem_propagateStep (hl a (by simp))).2 (Or.inl h))

theorem fold_stable {g : Graph} (l : List ℕ) (hl : ∀ id ∈ l, id ∉ g.ins id) (ctxs : ℕ → List Ctx) (k : ℕ) (c : Ctx)
    (hk : ∀ id ∈ l, k ∉ g.ins id) (h : c ∈ l.foldl (propagateStep g) ctxs k) : c ∈ ctxs k := by
  induction l generalizing ctxs with
  | nil => exact h
  | cons a as ih =>
    rw [List.foldl_cons] at h
    have := ih (fun id hid => hl id (by simp [hid])) _ (fun id hid => hk id (by simp [hid])) h
    rcases (mem_propagateStep (hl a (by simp))).1 this with h1 | ⟨h1, _⟩
    · exact h1
    · exact absurd h1 (hk a (by simp))

theorem baseNode_iff {r : Ref} {n : ℕ} : r.baseNode? = some n ↔ r.unwrap = .node n := by
  unfold Ref.baseNode?
  cases r.unwrap <;> simp

theorem mem_delegCtxs {g : Graph} {m : ℕ} {c : Ctx} :
    c ∈ g.delegCtxs m ↔ ∃ node d, g.find? m = some node ∧ node.delegate = some d ∧ c ∈ d.contexts := by
  unfold Graph.delegCtxs
  cases hf : g.find? m with
  | none => simp
  | some node =>
    cases hd : node.delegate with
    | none => simp [hd]
    | some d => simp [hd]

/-! ### Properties -/

/-- **C20.** The scheduler runs a node in exactly the contexts in which it is needed. -/
theorem contexts_exact (g : Graph) (hu : g.UniqueIds) (order : List ℕ) (hv : ValidOrder g order) (c : Ctx) (n : ℕ) :
    c ∈ propagateContexts g order n ↔ Needed g c n := by
  have hleaf : ∀ id ∈ order, id ∈ g.leafIds := fun id h => hv.1.mem_iff.1 h
  have hself : ∀ id ∈ order, id ∉ g.ins id := fun id h => valid_not_self hu hv h
  unfold propagateContexts
  set seed : ℕ → List Ctx := fun k => if g.outputs.any (fun r => r.baseNode? == some k) then [0] else [] with hseed
  have hseedm : ∀ k c, c ∈ seed k ↔ c = 0 ∧ ∃ r ∈ g.outputs, r.unwrap = .node k := by
    intro k c
    simp only [hseed]
    by_cases h : g.outputs.any (fun r => r.baseNode? == some k)
    · rw [if_pos h]
      simp only [List.any_eq_true, beq_iff_eq] at h
      obtain ⟨r, h1, h2⟩ := h
      simp only [List.mem_singleton]
      exact ⟨fun hc => ⟨hc, r, h1, baseNode_iff.1 h2⟩, fun hc => hc.1⟩
    · rw [if_neg h]
      simp only [List.any_eq_true, beq_iff_eq, not_exists, not_and] at h
      simp only [List.not_mem_nil, false_iff, not_and, not_exists]
      intro _ r h1 h2
      exact h r h1 (baseNode_iff.2 h2)
  constructor
  · -- every recorded context is needed
    have gen : ∀ (l : List ℕ), (∀ id ∈ l, id ∈ order) → ∀ ctxs : ℕ → List Ctx, (∀ k c, c ∈ ctxs k → Needed g c k) →
        ∀ k c, c ∈ l.foldl (propagateStep g) ctxs k → Needed g c k := by
      intro l
      induction l with
      | nil => intro _ ctxs h k c hc; exact h k c hc
      | cons a as ih =>
        intro hl ctxs h k c hc
        rw [List.foldl_cons] at hc
        refine ih (fun id hid => hl id (by simp [hid])) _ ?_ k c hc
        intro k c hc
        have ha := hl a (by simp)
        rcases (mem_propagateStep (hself a ha)).1 hc with h1 | ⟨h1, h2 | h2⟩
        · exact h k c h1
        · exact .use (hleaf a ha) ((uses_iff hu).2 h1) (h a c h2)
        · obtain ⟨node, d, h3, h4, h5⟩ := mem_delegCtxs.1 h2
          exact .deleg (hleaf a ha) ((uses_iff hu).2 h1) h3 h4 h5
    refine gen _ (fun id h => List.mem_reverse.1 h) seed ?_ n c
    intro k c hc
    obtain ⟨rfl, r, h1, h2⟩ := (hseedm k c).1 hc
    exact .out h1 h2
  · -- every needed context is recorded
    have step : ∀ m ∈ order, ∀ k, k ∈ g.ins m → ∀ c, (c ∈ order.reverse.foldl (propagateStep g) seed m ∨ c ∈ g.delegCtxs m) →
        c ∈ order.reverse.foldl (propagateStep g) seed k := by
      intro m hm k hk c hc
      obtain ⟨pre, post, ho⟩ := List.append_of_mem hm
      have hnd := valid_nodup hu hv
      have hfold : order.reverse.foldl (propagateStep g) seed =
          pre.reverse.foldl (propagateStep g) (propagateStep g (post.reverse.foldl (propagateStep g) seed) m) := by
        rw [ho, List.reverse_append, List.reverse_cons, List.foldl_append, List.foldl_append]; rfl
      rw [hfold] at hc ⊢
      have hpre : ∀ id ∈ pre.reverse, id ∉ g.ins id := fun id hid => hself id (by rw [ho]; simp [List.mem_reverse.1 hid])
      apply fold_mono _ hpre
      rw [mem_propagateStep (hself m hm)]
      right
      refine ⟨hk, hc.imp (fun hc => ?_) id⟩
      have h1 := fold_stable _ hpre _ m c ?_ hc
      · rcases (mem_propagateStep (hself m hm)).1 h1 with h2 | ⟨h2, _⟩
        · exact h2
        · exact absurd h2 (hself m hm)
      · intro p hp hmp
        rw [List.mem_reverse] at hp
        obtain ⟨p1, p2, rfl⟩ := List.append_of_mem hp
        have := hv.2 p1 p (p2 ++ m :: post) (by rw [ho]; simp) m ((uses_iff hu).2 hmp)
        rw [ho] at hnd
        rw [List.append_assoc, List.nodup_append] at hnd
        exact hnd.2.2 m this m (by simp) rfl
    intro h
    induction h with
    | out h1 h2 =>
      exact fold_mono _ (fun id hid => hself id (List.mem_reverse.1 hid)) _ _ _ ((hseedm _ _).2 ⟨rfl, _, h1, h2⟩)
    | use h1 h2 _ ih => exact step _ (hv.1.mem_iff.2 h1) _ ((uses_iff hu).1 h2) _ (Or.inl ih)
    | deleg h1 h2 h3 h4 h5 => exact step _ (hv.1.mem_iff.2 h1) _ ((uses_iff hu).1 h2) _ (Or.inr (mem_delegCtxs.2 ⟨_, _, h3, h4, h5⟩))

end FF.Orch
