import Verif.Orch.Model
import Mathlib.Data.List.Nodup
import Mathlib.Data.List.Perm.Subperm

/-! # Lemmas about the graph model and Kahn's algorithm -/

namespace FF.Orch

theorem mem_dedupe {seen l : List ℕ} {x : ℕ} : x ∈ dedupe seen l ↔ x ∈ l ∧ x ∉ seen := by
  induction l generalizing seen with
  | nil => simp [dedupe]
  | cons a as ih =>
    unfold dedupe
    split_ifs with h
    · rw [ih]
      constructor
      · rintro ⟨h1, h2⟩; exact ⟨by simp [h1], h2⟩
      · rintro ⟨h1, h2⟩
        rcases List.mem_cons.1 h1 with rfl | h1
        · exact absurd h h2
        · exact ⟨h1, h2⟩
    · rw [List.mem_cons, ih]
      constructor
      · rintro (rfl | ⟨h1, h2⟩)
        · exact ⟨by simp, h⟩
        · exact ⟨by simp [h1], fun hs => h2 (by simp [hs])⟩
      · rintro ⟨h1, h2⟩
        by_cases hx : x = a
        · exact Or.inl hx
        · right
          refine ⟨(List.mem_cons.1 h1).resolve_left hx, ?_⟩
          simp [hx, h2]

theorem dedupe_nodup (seen l : List ℕ) : (dedupe seen l).Nodup := by
  induction l generalizing seen with
  | nil => simp [dedupe]
  | cons a as ih =>
    unfold dedupe
    split_ifs with h
    · exact ih _
    · rw [List.nodup_cons]
      exact ⟨by simp [mem_dedupe], ih _⟩

theorem inputs_nodup (n : Node) : n.inputs.Nodup := dedupe_nodup _ _

theorem mem_inputs {n : Node} {m : ℕ} : m ∈ n.inputs ↔ ∃ r ∈ n.allArgs, r.baseNode? = some m := by
  unfold Node.inputs
  rw [mem_dedupe]
  simp [List.mem_filterMap]

/-- Every graph built by the API has unique node ids (`_nodes` is a dict). -/
def Graph.UniqueIds (g : Graph) : Prop := (g.nodes.map (·.id)).Nodup

instance (g : Graph) : Decidable g.UniqueIds := by unfold Graph.UniqueIds; infer_instance

theorem find_of_mem {g : Graph} (hu : g.UniqueIds) {n : Node} (h : n ∈ g.nodes) : g.find? n.id = some n := by
  unfold Graph.find?
  unfold Graph.UniqueIds at hu
  revert h hu
  induction g.nodes with
  | nil => simp
  | cons a as ih =>
    intro hu h
    rw [List.map_cons, List.nodup_cons] at hu
    rw [List.find?_cons]
    rcases List.mem_cons.1 h with rfl | h
    · simp
    · have : a.id ≠ n.id := by
        intro e
        exact hu.1 (List.mem_map.2 ⟨n, h, e.symm⟩)
      simp only [beq_eq_false_iff_ne.2 this]
      exact ih hu.2 h

theorem mem_of_find {g : Graph} {id : ℕ} {n : Node} (h : g.find? id = some n) : n ∈ g.nodes ∧ n.id = id := by
  unfold Graph.find? at h
  exact ⟨List.mem_of_find?_eq_some h, by simpa using List.find?_some h⟩

theorem mem_leafIds {g : Graph} {id : ℕ} : id ∈ g.leafIds ↔ ∃ n ∈ g.nodes, n.id = id ∧ id ∉ g.folds := by
  unfold Graph.leafIds Graph.leaves
  simp only [List.mem_map, List.mem_filter]
  constructor
  · rintro ⟨n, ⟨h1, h2⟩, rfl⟩
    exact ⟨n, h1, rfl, by simpa using h2⟩
  · rintro ⟨n, h1, rfl, h2⟩
    exact ⟨n, ⟨h1, by simpa using h2⟩, rfl⟩

theorem leafIds_nodup {g : Graph} (hu : g.UniqueIds) : g.leafIds.Nodup := by
  unfold Graph.leafIds Graph.leaves
  exact hu.sublist (List.filter_sublist.map _)

/-- The inputs of the node with a given id (empty if there is none). -/
def Graph.ins (g : Graph) (id : ℕ) : List ℕ := (g.find? id).elim [] Node.inputs

theorem ins_nodup (g : Graph) (id : ℕ) : (g.ins id).Nodup := by
  unfold Graph.ins
  cases g.find? id with
  | none => simp
  | some n => exact inputs_nodup n

theorem inDegree_eq (g : Graph) (id : ℕ) : g.inDegree id = (g.ins id).length := by
  unfold Graph.inDegree Graph.ins
  cases g.find? id <;> simp

theorem nodeOutputs_spec {g : Graph} (hu : g.UniqueIds) {c : ℕ} (hc : (g.find? c).isSome) :
    ∃ deps, g.nodeOutputs c = .ok deps ∧ deps.Nodup ∧ ∀ d, d ∈ deps ↔ c ∈ g.ins d := by
  unfold Graph.nodeOutputs
  obtain ⟨n, hn⟩ := Option.isSome_iff_exists.1 hc
  rw [hn]
  refine ⟨_, rfl, hu.sublist (List.filter_sublist.map _), ?_⟩
  intro d
  simp only [List.mem_map, List.mem_filter]
  constructor
  · rintro ⟨m, ⟨hm, h1⟩, rfl⟩
    unfold Graph.ins
    rw [find_of_mem hu hm]
    simp only [Option.elim]
    rw [mem_inputs]
    rw [List.any_eq_true] at h1
    obtain ⟨r, hr, he⟩ := h1
    exact ⟨r, hr, by simpa using he⟩
  · intro h
    unfold Graph.ins at h
    cases hm : g.find? d with
    | none => simp [hm] at h
    | some m =>
      rw [hm] at h
      simp only [Option.elim] at h
      rw [mem_inputs] at h
      obtain ⟨r, hr, he⟩ := h
      obtain ⟨h1, h2⟩ := mem_of_find hm
      exact ⟨m, ⟨h1, List.any_eq_true.2 ⟨r, hr, by simpa using he⟩⟩, h2⟩

theorem leaf_find {g : Graph} (hu : g.UniqueIds) {id : ℕ} (h : id ∈ g.leafIds) : (g.find? id).isSome := by
  obtain ⟨n, hn, rfl, _⟩ := mem_leafIds.1 h
  rw [find_of_mem hu hn]; rfl

/-! ### The loop -/

theorem foldl_relax (leafIds : List ℕ) (deps : List ℕ) (hnd : deps.Nodup) (s : Kahn) :
    let s' := deps.foldl (Kahn.relax leafIds) s
    s'.order = s.order ∧
    (∀ n, s'.deg n = if n ∈ deps ∧ n ∈ leafIds then s.deg n - 1 else s.deg n) ∧
    s'.queue = s.queue ++ deps.filter fun n => decide (n ∈ leafIds ∧ s.deg n - 1 = 0) := by
  induction deps generalizing s with
  | nil => simp
  | cons d ds ih =>
    rw [List.nodup_cons] at hnd
    have := ih hnd.2 (Kahn.relax leafIds s d)
    simp only [List.foldl_cons]
    obtain ⟨h1, h2, h3⟩ := this
    have ho : (Kahn.relax leafIds s d).order = s.order := by unfold Kahn.relax; dsimp only; split_ifs <;> rfl
    have hd : ∀ n, (Kahn.relax leafIds s d).deg n = if n = d ∧ n ∈ leafIds then s.deg n - 1 else s.deg n := by
      intro n
      by_cases hl : d ∈ leafIds
      · have : leafIds.contains d = true := by simpa using hl
        unfold Kahn.relax
        rw [if_pos this]
        dsimp only
        by_cases hn : n = d
        · subst hn; split_ifs <;> simp_all
        · split_ifs <;> simp_all
      · have : ¬ leafIds.contains d = true := by simpa using hl
        unfold Kahn.relax
        rw [if_neg this, if_neg]
        rintro ⟨rfl, h⟩; exact hl h
    have hq : (Kahn.relax leafIds s d).queue = s.queue ++ if d ∈ leafIds ∧ s.deg d - 1 = 0 then [d] else [] := by
      by_cases hl : d ∈ leafIds
      · have : leafIds.contains d = true := by simpa using hl
        unfold Kahn.relax
        rw [if_pos this]
        dsimp only
        by_cases h0 : s.deg d - 1 = 0
        · simp [hl, h0]
        · simp [h0]
      · have : ¬ leafIds.contains d = true := by simpa using hl
        unfold Kahn.relax
        rw [if_neg this]
        simp [hl]
    refine ⟨by rw [h1, ho], ?_, ?_⟩
    · intro n
      rw [h2 n, hd n]
      by_cases hn : n = d
      · subst hn
        by_cases hl : n ∈ leafIds <;> simp [hl, hnd.1]
      · simp [hn]
    · rw [h3, hq, List.append_assoc]
      congr 1
      have e : ds.filter (fun n => decide (n ∈ leafIds ∧ (Kahn.relax leafIds s d).deg n - 1 = 0))
          = ds.filter (fun n => decide (n ∈ leafIds ∧ s.deg n - 1 = 0)) := by
        apply List.filter_congr
        intro n hn
        have : n ≠ d := by rintro rfl; exact hnd.1 hn
        rw [hd n]; simp [this]
      rw [e, List.filter_cons]
      split_ifs with h4 h5 h5
      · rfl
      · simp [h4] at h5
      · simp at h5; exact absurd h5 h4
      · rfl

/-- The invariant of Kahn's algorithm. -/
structure KInv (g : Graph) (s : Kahn) : Prop where
  nodup : (s.order ++ s.queue).Nodup
  leaf : ∀ n ∈ s.order ++ s.queue, n ∈ g.leafIds
  deg : ∀ n ∈ g.leafIds, s.deg n = ((g.ins n).filter fun m => decide (m ∉ s.order)).length
  zero : ∀ n ∈ g.leafIds, n ∈ s.order ++ s.queue ↔ s.deg n = 0
  before : ∀ pre n post, s.order = pre ++ n :: post → ∀ m ∈ g.ins n, m ∈ pre

theorem kinv_init {g : Graph} (hu : g.UniqueIds) :
    KInv g ⟨g.inDegree, g.leafIds.filter (fun id => g.inDegree id = 0), []⟩ where
  nodup := by simpa using (leafIds_nodup hu).filter _
  leaf := by
    intro n hn
    simp only [List.nil_append, List.mem_filter] at hn
    exact hn.1
  deg := by
    intro n _
    simp [inDegree_eq]
  zero := by
    intro n hn
    simp [List.mem_filter, hn]
  before := by
    intro pre n post h
    simp at h

theorem filter_notin_append_length (l order : List ℕ) (c : ℕ) (hl : l.Nodup) (hc : c ∉ order) :
    ((l.filter fun m => decide (m ∉ order ++ [c])).length : Int)
      = (l.filter fun m => decide (m ∉ order)).length - if c ∈ l then 1 else 0 := by
  induction l with
  | nil => simp
  | cons a as ih =>
    rw [List.nodup_cons] at hl
    have ih := ih hl.2
    by_cases hac : a = c
    · subst hac
      have h1 : a ∉ as := hl.1
      rw [if_neg h1] at ih
      simp only [List.filter_cons]
      simp [hc]
      simpa using ih
    · by_cases hao : a ∈ order
      · simp only [List.filter_cons]
        simp [hao, Ne.symm hac]
        simpa using ih
      · simp only [List.filter_cons]
        simp [hao, hac, Ne.symm hac]
        simp at ih
        omega

theorem kinv_step {g : Graph} (hu : g.UniqueIds) {s : Kahn} {c : ℕ} {q deps : List ℕ} (hq : s.queue = c :: q) (h : KInv g s)
    (hdeps : g.nodeOutputs c = .ok deps) :
    KInv g (deps.foldl (Kahn.relax g.leafIds) { s with queue := q, order := s.order ++ [c] }) := by
  have hcl : c ∈ g.leafIds := h.leaf c (by simp [hq])
  obtain ⟨deps', hd1, hdn, hdm⟩ := nodeOutputs_spec hu (leaf_find hu hcl)
  obtain rfl : deps' = deps := Except.ok.inj (hd1.symm.trans hdeps)
  obtain ⟨ho, hdeg, hqu⟩ := foldl_relax g.leafIds deps' hdn { s with queue := q, order := s.order ++ [c] }
  dsimp only at ho hdeg hqu
  have hnd := h.nodup
  rw [hq] at hnd
  have hco : c ∉ s.order := by
    intro hc
    rw [List.nodup_append] at hnd
    exact hnd.2.2 c hc c (by simp) rfl
  have hc0 : s.deg c = 0 := (h.zero c hcl).1 (by simp [hq])
  have hins : ∀ m ∈ g.ins c, m ∈ s.order := by
    intro m hm
    have := h.deg c hcl
    rw [hc0] at this
    have h0 : ((g.ins c).filter fun m => decide (m ∉ s.order)).length = 0 := by omega
    rw [List.length_eq_zero_iff, List.filter_eq_nil_iff] at h0
    simpa using h0 m hm
  have hmem0 : ∀ x, x ∈ s.order ++ [c] ++ q ↔ x ∈ s.order ++ s.queue := by
    intro x; rw [hq]; simp
  have hdegpos : ∀ n ∈ g.leafIds, c ∈ g.ins n → 1 ≤ s.deg n := by
    intro n hn hc
    rw [h.deg n hn]
    have : 0 < ((g.ins n).filter fun m => decide (m ∉ s.order)).length :=
      List.length_pos_of_mem (List.mem_filter.2 ⟨hc, by simpa using hco⟩)
    omega
  refine ⟨?_, ?_, ?_, ?_, ?_⟩
  · rw [ho, hqu, ← List.append_assoc]
    rw [List.nodup_append]
    refine ⟨by rw [List.append_assoc]; simpa using hnd, hdn.filter _, ?_⟩
    intro a ha b hb hab
    subst hab
    rw [hmem0] at ha
    rw [List.mem_filter] at hb
    simp only [decide_eq_true_eq] at hb
    have h1 := (h.zero a hb.2.1).1 ha
    have h2 := hdegpos a hb.2.1 ((hdm a).1 hb.1)
    omega
  · intro n hn
    rw [ho, hqu, ← List.append_assoc, List.mem_append] at hn
    rcases hn with hn | hn
    · exact h.leaf n ((hmem0 n).1 hn)
    · rw [List.mem_filter] at hn
      simp only [decide_eq_true_eq] at hn
      exact hn.2.1
  · intro n hn
    rw [hdeg n, ho, filter_notin_append_length _ _ _ (ins_nodup g n) hco, ← h.deg n hn]
    simp only [hdm, hn, and_true]
    split_ifs <;> simp
  · intro n hn
    rw [ho, hqu, ← List.append_assoc, List.mem_append, hmem0, h.zero n hn, hdeg n, List.mem_filter]
    simp only [hdm, hn, and_true, true_and, decide_eq_true_eq]
    by_cases hcn : c ∈ g.ins n
    · have := hdegpos n hn hcn
      simp only [hcn, if_true, true_and]
      omega
    · simp [hcn]
  · rw [ho]
    intro pre n post he
    rcases List.eq_nil_or_concat post with rfl | ⟨post', x, rfl⟩
    · have := List.append_inj' he (by simp)
      obtain ⟨rfl, h2⟩ := this
      obtain rfl : c = n := by simpa using h2
      exact hins
    · have : s.order ++ [c] = (pre ++ n :: post') ++ [x] := by rw [he]; simp
      have := List.append_inj' this (by simp)
      exact h.before pre n post' this.1

/-- Running the loop with enough fuel ends with an empty queue and the invariant. -/
theorem kahn_fuel {g : Graph} (hu : g.UniqueIds) (fuel : ℕ) (s : Kahn) (h : KInv g s)
    (hf : g.leafIds.length < fuel + s.order.length) :
    ∃ s', Kahn.run g fuel s = .ok s' ∧ KInv g s' ∧ s'.queue = [] := by
  induction fuel generalizing s with
  | zero =>
    have hsub : s.order.length ≤ g.leafIds.length :=
      ((h.nodup.sublist (List.sublist_append_left _ _)).subperm fun x hx => h.leaf x (by simp [hx])).length_le
    omega
  | succ fuel ih =>
    unfold Kahn.run
    cases hq : s.queue with
    | nil => exact ⟨s, rfl, h, hq⟩
    | cons c q =>
      have hcl : c ∈ g.leafIds := h.leaf c (by simp [hq])
      obtain ⟨deps, hd1, _, _⟩ := nodeOutputs_spec hu (leaf_find hu hcl)
      simp only [hd1]
      have hs := kinv_step hu hq h hd1
      refine ih _ hs ?_
      rw [(foldl_relax g.leafIds deps (by
        obtain ⟨d2, h2, h3, _⟩ := nodeOutputs_spec hu (leaf_find hu hcl)
        rw [hd1] at h2; rw [Except.ok.inj h2]; exact h3) _).1]
      simp; omega

end FF.Orch
