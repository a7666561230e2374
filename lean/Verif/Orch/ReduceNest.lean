import Verif.Orch.ReduceValues

/-! # Reducing a graph: the parts that are left (C78) -/

namespace FF.Orch

/-! ### Specification -/

/-- Nodes lie in folds, and no node lies inside itself. -/
structure Nested (g : Graph) : Prop where
  folds : ∀ n ∈ g.nodes, ∀ p, n.parent = some p → p ∈ g.folds
  acyclic : ∀ id, ¬ Inside g id id

/-- A node and what lies inside it. -/
def Within (g : Graph) (f id : ℕ) : Prop := id = f ∨ Inside g f id

/-- The coarsest nodes beside the chosen ones: no chosen node is in them, or around them, and every fold around them contains a chosen
node. -/
structure Coarse (g : Graph) (targets : List ℕ) (id : ℕ) : Prop where
  node : ∃ n ∈ g.nodes, n.id = id
  apart : ∀ t ∈ targets, ¬ Within g id t
  around : ∀ a, Inside g a id → a ∉ targets ∧ ∃ t ∈ targets, Inside g a t

/-! ### Lemmas: nesting -/

theorem node_inj {g : Graph} (hu : g.UniqueIds) {n m : Node} (hn : n ∈ g.nodes) (hm : m ∈ g.nodes) (h : n.id = m.id) : n = m := by
  have h1 := find_of_mem hu hn
  rw [h, find_of_mem hu hm] at h1
  exact (Option.some.inj h1).symm

/-- What is inside a fold has a parent, which is the fold or inside it. -/
theorem inside_parent {g : Graph} (hu : g.UniqueIds) {a : ℕ} {n : Node} (hn : n ∈ g.nodes) (h : Inside g a n.id) :
    ∃ p, n.parent = some p ∧ Within g a p := by
  generalize hid : n.id = id at h
  cases h with
  | @child m hm hp =>
    rw [node_inj hu hn hm hid]
    exact ⟨a, hp, Or.inl rfl⟩
  | @deeper m p hi hm hp =>
    rw [node_inj hu hn hm hid]
    exact ⟨p, hp, Or.inr hi⟩

theorem inside_trans {g : Graph} {a b c : ℕ} (h : Inside g a b) (h' : Inside g b c) : Inside g a c := by
  induction h' with
  | child hn hp => exact .deeper h hn hp
  | deeper _ hn hp ih => exact .deeper ih hn hp

theorem within_inside {g : Graph} {a b c : ℕ} (h : Within g a b) (h' : Inside g b c) : Inside g a c := by
  rcases h with rfl | h
  · exact h'
  · exact inside_trans h h'

theorem inside_fold {g : Graph} (hn : Nested g) {a b : ℕ} (h : Inside g a b) : a ∈ g.folds := by
  induction h with
  | child h1 h2 => exact hn.folds _ h1 _ h2
  | deeper _ _ _ ih => exact ih

/-- Folds around the same node lie in one another. -/
theorem inside_linear {g : Graph} (hu : g.UniqueIds) {a b c : ℕ} (h : Inside g a c) (h' : Inside g b c) : a = b ∨ Inside g a b ∨ Inside g b a := by
  induction h with
  | @child n hn hp =>
    obtain ⟨p, e, hw⟩ := inside_parent hu hn h'
    rw [hp] at e
    obtain rfl := Option.some.inj e
    rcases hw with rfl | hw
    · exact Or.inl rfl
    · exact Or.inr (Or.inr hw)
  | @deeper n p hi hn hp ih =>
    obtain ⟨q, e, hw⟩ := inside_parent hu hn h'
    rw [hp] at e
    obtain rfl := Option.some.inj e
    rcases hw with rfl | hw
    · exact Or.inr (Or.inl hi)
    · exact ih hw

theorem within_linear {g : Graph} (hu : g.UniqueIds) {a b c : ℕ} (h : Within g a c) (h' : Within g b c) : a = b ∨ Inside g a b ∨ Inside g b a := by
  rcases h with rfl | h
  · rcases h' with rfl | h'
    · exact Or.inl rfl
    · exact Or.inr (Or.inr h')
  · rcases h' with rfl | h'
    · exact Or.inr (Or.inl h)
    · exact inside_linear hu h h'

theorem short_list {g : Graph} {l : List ℕ} (hnd : l.Nodup) (hs : ∀ x ∈ l, ∃ n ∈ g.nodes, n.id = x) : l.length ≤ g.nodes.length := by
  have : l ⊆ g.nodes.map (·.id) := fun x hx => by
    obtain ⟨n, hn, rfl⟩ := hs x hx
    exact List.mem_map.2 ⟨n, hn, rfl⟩
  simpa using (hnd.subperm this).length_le

theorem within_cons {g : Graph} (hne : Nested g) {n : Node} (hn : n ∈ g.nodes) {p : ℕ} (hp : n.parent = some p) {l : List ℕ} (hnd : l.Nodup)
    (hw : ∀ x ∈ l, Within g x p) : (n.id :: l).Nodup ∧ ∀ x ∈ n.id :: l, Within g x n.id := by
  have hin : ∀ x ∈ l, Inside g x n.id := fun x hx => within_inside (hw x hx) (.child hn hp)
  refine ⟨List.nodup_cons.2 ⟨fun h => hne.acyclic _ (hin _ h), hnd⟩, fun x hx => ?_⟩
  rcases List.mem_cons.1 hx with rfl | hx
  · exact Or.inl rfl
  · exact Or.inr (hin x hx)

/-! ### Lemmas: `has_target_descendant` -/

theorem isBelow_mono {g : Graph} {f k k' : ℕ} {p : Option ℕ} (h : g.isBelow f k p = true) (hk : k ≤ k') : g.isBelow f k' p = true := by
  induction k generalizing k' p with
  | zero => cases p <;> simp [Graph.isBelow] at h
  | succ k ih =>
    obtain ⟨k', rfl⟩ : ∃ j, k' = j + 1 := ⟨k' - 1, by omega⟩
    cases p with
    | none => simp [Graph.isBelow] at h
    | some p =>
      unfold Graph.isBelow at h ⊢
      rw [Bool.or_eq_true] at h ⊢
      rcases h with h | h
      · exact Or.inl h
      · exact Or.inr (ih h (by omega))

theorem isBelow_iff {g : Graph} (hu : g.UniqueIds) (hne : Nested g) {f : ℕ} {n : Node} (hn : n ∈ g.nodes) :
    g.isBelow f g.nodes.length n.parent = true ↔ Inside g f n.id := by
  constructor
  · generalize g.nodes.length = k
    intro h
    induction k generalizing n with
    | zero => cases hp : n.parent <;> rw [hp] at h <;> simp [Graph.isBelow] at h
    | succ k ih =>
      cases hp : n.parent with
      | none => rw [hp] at h; simp [Graph.isBelow] at h
      | some p =>
        rw [hp] at h
        unfold Graph.isBelow at h
        rw [Bool.or_eq_true] at h
        rcases h with h | h
        · have : p = f := by simpa using h
          subst this
          exact .child hn hp
        · cases hf : g.find? p with
          | none =>
            rw [hf] at h
            cases k <;> simp [Graph.isBelow] at h
          | some m =>
            rw [hf] at h
            obtain ⟨hm, rfl⟩ := mem_of_find hf
            exact .deeper (ih hm h) hn hp
  · intro h
    have gen : ∀ id, Inside g f id → ∃ l : List ℕ, l.Nodup ∧ (∀ x ∈ l, Within g x id) ∧ (∀ x ∈ l, ∃ n ∈ g.nodes, n.id = x) ∧
        ∀ n ∈ g.nodes, n.id = id → g.isBelow f l.length n.parent = true := by
      intro id hi
      induction hi with
      | @child m hm hp =>
        refine ⟨[m.id], by simp, fun x hx => Or.inl (List.mem_singleton.1 hx).symm, fun x hx => ⟨m, hm, (List.mem_singleton.1 hx).symm⟩, ?_⟩
        intro n hn he
        rw [node_inj hu hn hm he, hp]
        simp [Graph.isBelow]
      | @deeper m p hi hm hp ih =>
        obtain ⟨l, h1, h2, h3, h4⟩ := ih
        obtain ⟨q1, q2⟩ := within_cons hne hm hp h1 h2
        refine ⟨m.id :: l, q1, q2, ?_, ?_⟩
        · intro x hx
          rcases List.mem_cons.1 hx with rfl | hx
          · exact ⟨m, hm, rfl⟩
          · exact h3 x hx
        · intro n hn he
          rw [node_inj hu hn hm he, hp, List.length_cons]
          obtain ⟨k, hk, rfl⟩ := inside_node hi
          unfold Graph.isBelow
          rw [find_of_mem hu hk, Bool.or_eq_true]
          exact Or.inr (h4 k hk rfl)
    obtain ⟨l, h1, _, h3, h4⟩ := gen _ h
    exact isBelow_mono (h4 n hn rfl) (short_list h1 h3)

theorem hasTargetBelow_iff {g : Graph} (hu : g.UniqueIds) (hne : Nested g) {targets : List ℕ} {f : ℕ} :
    g.hasTargetBelow targets f = true ↔ ∃ t ∈ targets, Inside g f t := by
  unfold Graph.hasTargetBelow
  simp only [List.any_eq_true, Bool.and_eq_true, List.contains_iff_mem]
  constructor
  · rintro ⟨n, hn, h1, h2⟩
    exact ⟨n.id, h1, (isBelow_iff hu hne hn).1 h2⟩
  · rintro ⟨t, ht, hi⟩
    obtain ⟨n, hn, rfl⟩ := inside_node hi
    exact ⟨n, hn, ht, (isBelow_iff hu hne hn).2 hi⟩

/-! ### Lemmas: `_coarse_complement` -/

/-- The chain of folds from the top to a node. -/
inductive TopChain (g : Graph) : ℕ → List ℕ → Prop
  | root {n : Node} : n ∈ g.nodes → n.parent = none → TopChain g n.id [n.id]
  | step {n : Node} {p : ℕ} {l : List ℕ} : n ∈ g.nodes → n.parent = some p → TopChain g p l → TopChain g n.id (n.id :: l)

theorem topChain_list {g : Graph} (hne : Nested g) {id : ℕ} {l : List ℕ} (h : TopChain g id l) :
    l.Nodup ∧ (∀ x ∈ l, Within g x id) ∧ ∀ x ∈ l, ∃ n ∈ g.nodes, n.id = x := by
  induction h with
  | @root n hn _ => exact ⟨by simp, fun x hx => Or.inl (List.mem_singleton.1 hx).symm, fun x hx => ⟨n, hn, (List.mem_singleton.1 hx).symm⟩⟩
  | @step n p l hn hp _ ih =>
    obtain ⟨h1, h2, h3⟩ := ih
    obtain ⟨q1, q2⟩ := within_cons hne hn hp h1 h2
    refine ⟨q1, q2, fun x hx => ?_⟩
    rcases List.mem_cons.1 hx with rfl | hx
    · exact ⟨n, hn, rfl⟩
    · exact h3 x hx

theorem topChain_exists {g : Graph} (hg : g.Closed) (hne : Nested g) {n : Node} (hn : n ∈ g.nodes) : ∃ l, TopChain g n.id l := by
  have gen : ∀ k, ∀ n ∈ g.nodes, (∃ l, TopChain g n.id l) ∨
      ∃ l : List ℕ, l.Nodup ∧ l.length = k + 1 ∧ (∀ x ∈ l, Within g x n.id) ∧ ∀ x ∈ l, ∃ n ∈ g.nodes, n.id = x := by
    intro k
    induction k with
    | zero =>
      intro n hn
      exact Or.inr ⟨[n.id], by simp, rfl, fun x hx => Or.inl (List.mem_singleton.1 hx).symm, fun x hx => ⟨n, hn, (List.mem_singleton.1 hx).symm⟩⟩
    | succ k ih =>
      intro n hn
      cases hp : n.parent with
      | none => exact Or.inl ⟨_, .root hn hp⟩
      | some p =>
        obtain ⟨m, hm, rfl⟩ := hg.folds p (hne.folds n hn p hp)
        rcases ih m hm with ⟨l, hl⟩ | ⟨l, h1, h2, h3, h4⟩
        · exact Or.inl ⟨_, .step hn hp hl⟩
        · obtain ⟨q1, q2⟩ := within_cons hne hn hp h1 h3
          refine Or.inr ⟨n.id :: l, q1, by simp [h2], q2, fun x hx => ?_⟩
          rcases List.mem_cons.1 hx with rfl | hx
          · exact ⟨n, hn, rfl⟩
          · exact h4 x hx
  rcases gen g.nodes.length n hn with h | ⟨l, h1, h2, _, h4⟩
  · exact h
  · have := short_list h1 h4
    omega

theorem mem_collect {g : Graph} {targets : List ℕ} {k : ℕ} {p : Option ℕ} {id : ℕ} :
    id ∈ g.collect targets (k + 1) p ↔ ∃ n ∈ g.nodes, n.parent = p ∧ n.id ∉ targets ∧
      ((n.id ∈ g.folds ∧ g.hasTargetBelow targets n.id = true ∧ id ∈ g.collect targets k (some n.id)) ∨
       (¬ (n.id ∈ g.folds ∧ g.hasTargetBelow targets n.id = true) ∧ id = n.id)) := by
  rw [Graph.collect, List.mem_flatMap]
  constructor
  · rintro ⟨c, hc, h⟩
    obtain ⟨n, hn, hp, rfl⟩ := mem_children.1 hc
    by_cases ht : n.id ∈ targets
    · rw [if_pos ht] at h; simp at h
    · rw [if_neg ht] at h
      refine ⟨n, hn, hp, ht, ?_⟩
      by_cases hf : (g.folds.contains n.id && g.hasTargetBelow targets n.id) = true
      · rw [if_pos hf] at h
        rw [Bool.and_eq_true, List.contains_iff_mem] at hf
        exact Or.inl ⟨hf.1, hf.2, h⟩
      · rw [if_neg hf] at h
        rw [Bool.and_eq_true, List.contains_iff_mem] at hf
        exact Or.inr ⟨hf, List.mem_singleton.1 h⟩
  · rintro ⟨n, hn, hp, ht, h⟩
    refine ⟨n.id, mem_children.2 ⟨n, hn, hp, rfl⟩, ?_⟩
    rw [if_neg ht]
    rcases h with ⟨h1, h2, h3⟩ | ⟨h1, rfl⟩
    · rw [if_pos (by rw [Bool.and_eq_true, List.contains_iff_mem]; exact ⟨h1, h2⟩)]
      exact h3
    · rw [if_neg (by rw [Bool.and_eq_true, List.contains_iff_mem]; exact h1)]
      simp

theorem collect_sound {g : Graph} (hu : g.UniqueIds) (hne : Nested g) {targets : List ℕ} {k : ℕ} {p : Option ℕ} {id : ℕ}
    (h : id ∈ g.collect targets k p) : (∃ n ∈ g.nodes, n.id = id) ∧ (∀ t ∈ targets, ¬ Within g id t) ∧
      (∀ q, p = some q → Inside g q id) ∧
      ∀ a, Inside g a id → (∃ q, p = some q ∧ Within g a q) ∨ (a ∉ targets ∧ ∃ t ∈ targets, Inside g a t) := by
  induction k generalizing p with
  | zero => simp [Graph.collect] at h
  | succ k ih =>
    obtain ⟨n, hn, rfl, ht, h⟩ := mem_collect.1 h
    rcases h with ⟨h1, h2, h3⟩ | ⟨h1, rfl⟩
    · obtain ⟨e1, e2, e3, e4⟩ := ih h3
      refine ⟨e1, e2, fun q hq => inside_trans (.child hn hq) (e3 _ rfl), fun a ha => ?_⟩
      rcases e4 a ha with ⟨q, hq, hw⟩ | h
      · obtain rfl := Option.some.inj hq
        rcases hw with he | hw
        · exact Or.inr (he ▸ ⟨ht, (hasTargetBelow_iff hu hne).1 h2⟩)
        · obtain ⟨p, hp, hw⟩ := inside_parent hu hn hw
          exact Or.inl ⟨p, hp, hw⟩
      · exact Or.inr h
    · refine ⟨⟨n, hn, rfl⟩, fun t htt hw => ?_, fun q hq => .child hn hq, fun a ha => ?_⟩
      · rcases hw with rfl | hw
        · exact ht htt
        · exact h1 ⟨inside_fold hne hw, (hasTargetBelow_iff hu hne).2 ⟨t, htt, hw⟩⟩
      · obtain ⟨p, hp, hw⟩ := inside_parent hu hn ha
        exact Or.inl ⟨p, hp, hw⟩

theorem collect_up {g : Graph} (hu : g.UniqueIds) (hne : Nested g) {targets : List ℕ} {id : ℕ} {l : List ℕ} (h : TopChain g id l)
    (ho : ∀ a, Within g a id → a ∉ targets ∧ ∃ t ∈ targets, Inside g a t) (m x : ℕ) (hx : x ∈ g.collect targets m (some id)) :
    x ∈ g.collect targets (m + l.length) none := by
  have open' : ∀ a, a ∉ targets ∧ (∃ t ∈ targets, Inside g a t) → a ∉ targets ∧ a ∈ g.folds ∧ g.hasTargetBelow targets a = true := by
    rintro a ⟨h1, t, ht, hi⟩
    exact ⟨h1, inside_fold hne hi, (hasTargetBelow_iff hu hne).2 ⟨t, ht, hi⟩⟩
  induction h generalizing m with
  | @root n hn hp =>
    obtain ⟨h1, h2, h3⟩ := open' _ (ho _ (Or.inl rfl))
    exact mem_collect.2 ⟨n, hn, hp, h1, Or.inl ⟨h2, h3, hx⟩⟩
  | @step n p l hn hp _ ih =>
    obtain ⟨h1, h2, h3⟩ := open' _ (ho _ (Or.inl rfl))
    have := ih (fun a ha => ho a (Or.inr (within_inside ha (.child hn hp)))) (m + 1) (mem_collect.2 ⟨n, hn, hp, h1, Or.inl ⟨h2, h3, hx⟩⟩)
    rw [List.length_cons, show m + (l.length + 1) = m + 1 + l.length by omega]
    exact this

/-- The nodes that `_coarse_complement` returns. -/
theorem mem_coarseComplement {g : Graph} (hg : g.Closed) (hne : Nested g) {targets : List ℕ} {id : ℕ} :
    id ∈ g.coarseComplement targets ↔ Coarse g targets id := by
  unfold Graph.coarseComplement
  constructor
  · intro h
    obtain ⟨h1, h2, _, h4⟩ := collect_sound hg.ids hne h
    refine ⟨h1, h2, fun a ha => ?_⟩
    rcases h4 a ha with ⟨q, hq, _⟩ | h
    · simp at hq
    · exact h
  · rintro ⟨⟨n, hn, rfl⟩, h2, h3⟩
    have hlast : ∀ k, n.id ∈ g.collect targets (k + 1) n.parent := by
      intro k
      refine mem_collect.2 ⟨n, hn, rfl, fun ht => h2 _ ht (Or.inl rfl), Or.inr ⟨fun h => ?_, rfl⟩⟩
      obtain ⟨t, ht, hi⟩ := (hasTargetBelow_iff hg.ids hne).1 h.2
      exact h2 t ht (Or.inr hi)
    cases hp : n.parent with
    | none =>
      have := hlast g.nodes.length
      rw [hp] at this
      exact this
    | some p =>
      obtain ⟨m, hm, rfl⟩ := hg.folds p (hne.folds n hn p hp)
      obtain ⟨l, hl⟩ := topChain_exists hg hne hm
      obtain ⟨q1, _, q3⟩ := topChain_list hne hl
      have hle := short_list q1 q3
      have hx := hlast (g.nodes.length - l.length)
      rw [hp] at hx
      have := collect_up hg.ids hne hl (fun a ha => h3 a (within_inside ha (.child hn hp))) _ _ hx
      rw [show g.nodes.length - l.length + 1 + l.length = g.nodes.length + 1 by omega] at this
      exact this

theorem collect_nodup {g : Graph} (hg : g.Closed) (hne : Nested g) (targets : List ℕ) (k : ℕ) (p : Option ℕ) : (g.collect targets k p).Nodup := by
  induction k generalizing p with
  | zero => simp [Graph.collect]
  | succ k ih =>
    rw [Graph.collect, List.nodup_flatMap]
    constructor
    · intro c _
      by_cases ht : c ∈ targets
      · rw [if_pos ht]; simp
      · rw [if_neg ht]
        by_cases hf : (g.folds.contains c && g.hasTargetBelow targets c) = true
        · rw [if_pos hf]; exact ih _
        · rw [if_neg hf]; simp
    · have hnd : (g.children p).Nodup := by
        unfold Graph.children
        exact (List.Sublist.map _ List.filter_sublist).nodup hg.ids
      refine (List.pairwise_iff_getElem.2 ?_ : (g.children p).Pairwise _)
      intro i j hi hj hij
      have hab : (g.children p)[i] ≠ (g.children p)[j] := by
        intro he
        have := (List.Nodup.getElem_inj_iff hnd).1 he
        omega
      have hma := List.getElem_mem (l := g.children p) hi
      have hmb := List.getElem_mem (l := g.children p) hj
      generalize (g.children p)[i] = a at hab hma
      generalize (g.children p)[j] = b at hab hmb
      obtain ⟨na, hna, hpa, rfl⟩ := mem_children.1 hma
      obtain ⟨nb, hnb, hpb, rfl⟩ := mem_children.1 hmb
      have hsub : ∀ n ∈ g.nodes, ∀ x, (x ∈ if n.id ∈ targets then [] else if (g.folds.contains n.id && g.hasTargetBelow targets n.id) = true then
          g.collect targets k (some n.id) else [n.id]) → Within g n.id x := by
        intro n hn x hx
        by_cases ht : n.id ∈ targets
        · rw [if_pos ht] at hx; simp at hx
        · rw [if_neg ht] at hx
          by_cases hf : (g.folds.contains n.id && g.hasTargetBelow targets n.id) = true
          · rw [if_pos hf] at hx
            exact Or.inr ((collect_sound hg.ids hne hx).2.2.1 _ rfl)
          · rw [if_neg hf] at hx
            exact Or.inl (List.mem_singleton.1 hx)
      have sib : ∀ n ∈ g.nodes, ∀ m ∈ g.nodes, n.parent = m.parent → ¬ Inside g n.id m.id := by
        intro n hn m hm he hi
        obtain ⟨q, hq, hw⟩ := inside_parent hg.ids hm hi
        exact hne.acyclic _ (within_inside hw (.child hn (he.trans hq)))
      intro x hxa hxb
      rcases within_linear hg.ids (hsub na hna x hxa) (hsub nb hnb x hxb) with h | h | h
      · exact hab h
      · exact sib na hna nb hnb (hpa.trans hpb.symm) h
      · exact sib nb hnb na hna (hpb.trans hpa.symm) h

/-! ### Lemmas: every leaf is in one part -/

theorem covered {g : Graph} (hg : g.Closed) (hne : Nested g) {targets : List ℕ} {l : ℕ} (hl : g.IsLeaf l) :
    (∃ t ∈ targets, Within g t l) ∨ ∃ p, Coarse g targets p ∧ Within g p l := by
  by_cases h : ∃ t ∈ targets, Within g t l
  · exact Or.inl h
  · right
    obtain ⟨n, hn, rfl, hnf⟩ := hl
    have hin : ¬ ∃ t ∈ targets, Inside g n.id t := fun ⟨t, _, hi⟩ => hnf (inside_fold hne hi)
    obtain ⟨ch, hch⟩ := topChain_exists hg hne hn
    have gen : ∀ id l, TopChain g id l → (¬ ∃ t ∈ targets, Within g t id) → (¬ ∃ t ∈ targets, Inside g id t) → ∃ p, Coarse g targets p ∧ Within g p id := by
      intro id l hc
      induction hc with
      | @root n hn hp =>
        intro h1 h2
        refine ⟨n.id, ⟨⟨n, hn, rfl⟩, fun t ht hw => ?_, fun a ha => ?_⟩, Or.inl rfl⟩
        · rcases hw with rfl | hw
          · exact h1 ⟨_, ht, Or.inl rfl⟩
          · exact h2 ⟨t, ht, hw⟩
        · obtain ⟨p, e, _⟩ := inside_parent hg.ids hn ha
          rw [hp] at e
          simp at e
      | @step n p l hn hp hc ih =>
        intro h1 h2
        by_cases h3 : ∃ t ∈ targets, Inside g p t
        · refine ⟨n.id, ⟨⟨n, hn, rfl⟩, fun t ht hw => ?_, fun a ha => ?_⟩, Or.inl rfl⟩
          · rcases hw with rfl | hw
            · exact h1 ⟨_, ht, Or.inl rfl⟩
            · exact h2 ⟨t, ht, hw⟩
          · obtain ⟨q, e, hw⟩ := inside_parent hg.ids hn ha
            rw [hp] at e
            obtain rfl := Option.some.inj e
            obtain ⟨t, ht, hi⟩ := h3
            exact ⟨fun hat => h1 ⟨a, hat, Or.inr ha⟩, t, ht, within_inside hw hi⟩
        · obtain ⟨x, hx, hw⟩ := ih (fun ⟨t, ht, hw⟩ => h1 ⟨t, ht, Or.inr (within_inside hw (.child hn hp))⟩) h3
          exact ⟨x, hx, Or.inr (within_inside hw (.child hn hp))⟩
    exact gen _ _ hch h hin

theorem coarse_apart {g : Graph} (hu : g.UniqueIds) {targets : List ℕ} {p q l : ℕ} (hp : Coarse g targets p) (hq : Coarse g targets q)
    (h : Within g p l) (h' : Within g q l) : p = q := by
  rcases within_linear hu h h' with h | h | h
  · exact h
  · obtain ⟨t, ht, hi⟩ := (hq.around p h).2
    exact absurd (Or.inr hi) (hp.apart t ht)
  · obtain ⟨t, ht, hi⟩ := (hp.around q h).2
    exact absurd (Or.inr hi) (hq.apart t ht)

theorem coarse_target_apart {g : Graph} (hu : g.UniqueIds) {targets : List ℕ} {p t l : ℕ} (hp : Coarse g targets p) (ht : t ∈ targets)
    (h : Within g p l) (h' : Within g t l) : False := by
  rcases within_linear hu h h' with rfl | h | h
  · exact hp.apart p ht (Or.inl rfl)
  · exact hp.apart t ht (Or.inr h)
  · exact (hp.around t h).1 ht

end FF.Orch
