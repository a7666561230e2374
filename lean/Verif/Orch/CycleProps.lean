import Verif.Orch.Model
import Mathlib.Logic.Relation
import Mathlib.Data.List.Chain
import Mathlib.Data.List.Nodup

/-! # Cycle detection (C18) -/

namespace FF.Orch

/-! ### Specification -/

/-- There is an edge from `a` to `b` in the mapping. -/
def Edge (e : Edges) (a b : ℕ) : Prop := ∃ succs, e.succ? a = some succs ∧ b ∈ succs

/-- Every node appears as a key (the documented precondition of `find_cycle`). -/
def Edges.Closed (e : Edges) : Prop := ∀ a b, Edge e a b → (e.succ? b).isSome

/-- A closed path `a → … → a` that follows edges and repeats no other node. -/
def IsCycle (e : Edges) (c : List ℕ) : Prop :=
  ∃ a mid, c = a :: mid ++ [a] ∧ (a :: mid).Nodup ∧ List.IsChain (Edge e) c

/-! ### Lemmas -/

theorem pushSuccessors_spec (e : Edges) (st : ℕ → Visit) (path succs : List ℕ) (stack : List (ℕ × List ℕ))
    (hk : ∀ s ∈ succs, (e.succ? s).isSome) :
    (pushSuccessors e st path succs stack =
        .ok (.inl (((succs.filter fun s => st s = .unvisited).map fun s => (s, path ++ [s])).reverse ++ stack)) ∧
      ∀ s ∈ succs, st s ≠ .visiting) ∨
    ∃ s ∈ succs, st s = .visiting ∧ pushSuccessors e st path succs stack = .ok (.inr (path.drop (path.idxOf s) ++ [s])) := by
  induction succs generalizing stack with
  | nil => left; simp [pushSuccessors]
  | cons s ss ih =>
    have hs := hk s (by simp)
    unfold pushSuccessors
    rw [if_neg (by simpa [Option.isSome_iff_ne_none] using hs)]
    cases hst : st s with
    | visiting => right; exact ⟨s, by simp, hst, rfl⟩
    | unvisited =>
      rcases ih ((s, path ++ [s]) :: stack) (fun x hx => hk x (by simp [hx])) with ⟨h1, h2⟩ | ⟨x, h1, h2, h3⟩
      · left
        refine ⟨?_, ?_⟩
        · simp only [h1, List.filter_cons, hst]
          simp
        · intro x hx
          rcases List.mem_cons.1 hx with rfl | hx
          · rw [hst]; simp
          · exact h2 x hx
      · right; exact ⟨x, by simp [h1], h2, h3⟩
    | visited =>
      rcases ih stack (fun x hx => hk x (by simp [hx])) with ⟨h1, h2⟩ | ⟨x, h1, h2, h3⟩
      · left
        refine ⟨?_, ?_⟩
        · simp only [h1, List.filter_cons, hst]
          simp
        · intro x hx
          rcases List.mem_cons.1 hx with rfl | hx
          · rw [hst]; simp
          · exact h2 x hx
      · right; exact ⟨x, by simp [h1], h2, h3⟩

/-- The shape of the stack relative to the active path `act` (deepest node first): pending entries and markers. -/
inductive Good (e : Edges) : List ℕ → List (ℕ × List ℕ) → Prop
  | nil : Good e [] []
  | pending {act n path rest} (hn : n ∉ act) (hp : path = act.reverse ++ [n]) (he : ∀ p ∈ act.head?, Edge e p n)
      (hr : Good e act rest) : Good e act ((n, path) :: rest)
  | marker {act n path rest} (hn : n ∉ act) (hp : path = act.reverse ++ [n]) (he : ∀ p ∈ act.head?, Edge e p n)
      (hr : Good e act rest) : Good e (n :: act) ((n, path) :: rest)

theorem Good.chain {e : Edges} {act : List ℕ} {stack : List (ℕ × List ℕ)} (h : Good e act stack) :
    act.Nodup ∧ List.IsChain (Edge e) act.reverse ∧ act.length ≤ stack.length := by
  induction h with
  | nil => simp
  | pending _ _ _ _ ih => exact ⟨ih.1, ih.2.1, by simp; omega⟩
  | @marker act n path rest hn hp he hr ih =>
    refine ⟨List.nodup_cons.2 ⟨hn, ih.1⟩, ?_, by simp; omega⟩
    rw [List.reverse_cons, List.isChain_append]
    refine ⟨ih.2.1, by simp, ?_⟩
    intro x hx y hy
    simp only [List.getLast?_reverse] at hx
    obtain rfl : n = y := by simpa using hy
    exact he x hx

/-- The invariant of the loop; `F` are the finished nodes, latest first. -/
structure CInv (e : Edges) (act : List ℕ) (stack : List (ℕ × List ℕ)) (F : List ℕ) (st : ℕ → Visit) : Prop where
  good : Good e act stack
  visiting : ∀ n, st n = .visiting ↔ n ∈ act
  visited : ∀ n, st n = .visited → n ∈ F
  unvisited : ∀ n, st n = .unvisited → n ∉ F
  cover : ∀ pre n path post, stack = pre ++ (n, path) :: post → n ∈ act → ∀ s, Edge e n s → s ∈ F ∨ s ∈ pre.map (·.1)
  closed : ∀ l1 n l2, F = l1 ++ n :: l2 → ∀ s, Edge e n s → s ∈ l2
  keys : ∀ p ∈ stack, (e.succ? p.1).isSome

/-- Work left. -/
def work (e : Edges) (act : List ℕ) (stack : List (ℕ × List ℕ)) (st : ℕ → Visit) : ℕ :=
  2 * stack.length - act.length + ((e.filter fun p => st p.1 = .unvisited).map fun p => 2 * p.2.length).sum

theorem good_pushed {e : Edges} {act : List ℕ} {stack : List (ℕ × List ℕ)} {n : ℕ} {path : List ℕ} (l : List ℕ)
    (hpath : path = (n :: act).reverse) (h : Good e (n :: act) stack) (hl : ∀ s ∈ l, s ∉ n :: act ∧ Edge e n s) :
    Good e (n :: act) ((l.map fun s => (s, path ++ [s])).reverse ++ stack) := by
  induction l generalizing stack with
  | nil => simpa using h
  | cons s ss ih =>
    simp only [List.map_cons, List.reverse_cons, List.append_assoc, List.singleton_append]
    apply ih
    · refine .pending (hl s (by simp)).1 (by rw [hpath]) ?_ h
      intro p hp
      obtain rfl : n = p := by simpa using hp
      exact (hl s (by simp)).2
    · exact fun x hx => hl x (by simp [hx])

theorem sum_filter_le (e : Edges) (p q : ℕ × List ℕ → Bool) (h : ∀ x ∈ e, q x = true → p x = true) :
    ((e.filter q).map fun p => 2 * p.2.length).sum ≤ ((e.filter p).map fun p => 2 * p.2.length).sum := by
  induction e with
  | nil => simp
  | cons a as ih =>
    have := ih fun x hx => h x (by simp [hx])
    simp only [List.filter_cons]
    by_cases hq : q a = true
    · have hp := h a (by simp) hq
      simp [hq, hp]; omega
    · by_cases hp : p a = true
      · simp [hq, hp]; omega
      · simp [hq, hp]; omega

theorem sum_filter_drop (e : Edges) (st : ℕ → Visit) (n : ℕ) (succs : List ℕ) (hf : e.succ? n = some succs)
    (hn : st n = .unvisited) :
    ((e.filter fun p => decide ((fun m => if m = n then Visit.visiting else st m) p.1 = .unvisited)).map fun p => 2 * p.2.length).sum
      + 2 * succs.length ≤ ((e.filter fun p => decide (st p.1 = .unvisited)).map fun p => 2 * p.2.length).sum := by
  induction e with
  | nil => simp [Edges.succ?] at hf
  | cons a as ih =>
    unfold Edges.succ? at hf
    rw [List.find?_cons] at hf
    by_cases ha : a.1 = n
    · have hb : (a.1 == n) = true := by simpa using ha
      rw [hb] at hf
      simp at hf
      have hle := sum_filter_le as (fun p => decide (st p.1 = .unvisited))
        (fun p => decide ((fun m => if m = n then Visit.visiting else st m) p.1 = .unvisited)) (by
          intro x _ hx
          simp only [decide_eq_true_eq] at hx ⊢
          split_ifs at hx
          exact hx)
      simp only [List.filter_cons, ha, hn]
      simp only [if_true, decide_true, List.map_cons, List.sum_cons, reduceCtorEq, decide_false, Bool.false_eq_true, if_false]
      rw [hf]
      dsimp only at hle
      omega
    · have hb : (a.1 == n) = false := by simpa using ha
      rw [hb] at hf
      have := ih hf
      dsimp only at this
      simp only [List.filter_cons, ha, if_false]
      by_cases hs : st a.1 = .unvisited
      · simp only [hs, decide_true, if_true, List.map_cons, List.sum_cons]; omega
      · simp only [hs, decide_false, Bool.false_eq_true, if_false]; omega

theorem cinv_pop {e : Edges} {act F : List ℕ} {n : ℕ} {path : List ℕ} {stack : List (ℕ × List ℕ)} {st : ℕ → Visit}
    (h : CInv e act ((n, path) :: stack) F st) (hv : st n = .visiting) :
    ∃ act' F', CInv e act' stack F' (fun m => if m = n then .visited else st m) ∧ act = n :: act' ∧ n ∈ F' ∧ (∀ x ∈ F, x ∈ F') := by
  have hna : n ∈ act := (h.visiting n).1 hv
  cases h.good with
  | pending hn _ _ _ => exact absurd hna hn
  | @marker act' _ _ _ hn hp he hr =>
    have hcov := h.cover [] n path stack rfl hna
    let F' := if n ∈ F then F else n :: F
    have hmem : ∀ x, x ∈ F' ↔ x = n ∨ x ∈ F := by
      intro x
      show x ∈ (if n ∈ F then F else n :: F) ↔ _
      split_ifs with hf
      · constructor
        · exact Or.inr
        · rintro (rfl | h) <;> assumption
      · simp
    refine ⟨act', F', ⟨hr, ?_, ?_, ?_, ?_, ?_, ?_⟩, rfl, (hmem n).2 (Or.inl rfl), fun x hx => (hmem x).2 (Or.inr hx)⟩
    · intro m
      by_cases hm : m = n
      · subst hm; simp [hn]
      · simp only [hm, if_false]
        rw [h.visiting m]; simp [hm]
    · intro m hm
      rw [hmem]
      by_cases hmn : m = n
      · exact Or.inl hmn
      · simp only [hmn, if_false] at hm; exact Or.inr (h.visited m hm)
    · intro m hm
      rw [hmem]
      by_cases hmn : m = n
      · simp [hmn] at hm
      · simp only [hmn, if_false] at hm
        rintro (h1 | h1)
        · exact hmn h1
        · exact h.unvisited m hm h1
    · intro pre m pth post hs hm s hes
      have := h.cover ((n, path) :: pre) m pth post (by rw [hs]; rfl) (by simp [hm]) s hes
      rw [hmem]
      rcases this with h1 | h1
      · exact Or.inl (Or.inr h1)
      · simp only [List.map_cons, List.mem_cons] at h1
        rcases h1 with h1 | h1
        · exact Or.inl (Or.inl h1)
        · exact Or.inr h1
    · intro l1 m l2 hs
      by_cases hf : n ∈ F
      · have : F' = F := if_pos hf
        rw [this] at hs
        exact h.closed l1 m l2 hs
      · have : F' = n :: F := if_neg hf
        rw [this] at hs
        cases l1 with
        | nil =>
          simp only [List.nil_append, List.cons.injEq] at hs
          obtain ⟨rfl, rfl⟩ := hs
          intro s hes
          rcases hcov s hes with h1 | h1
          · exact h1
          · simp at h1
        | cons a as =>
          simp only [List.cons_append, List.cons.injEq] at hs
          exact h.closed as m l2 hs.2
    · exact fun p hp => h.keys p (by simp [hp])

theorem cinv_expand {e : Edges} {act F : List ℕ} {n : ℕ} {path succs : List ℕ} {stack : List (ℕ × List ℕ)} {st : ℕ → Visit}
    (hcl : e.Closed) (h : CInv e act ((n, path) :: stack) F st) (hv : st n ≠ .visiting) (hsucc : e.succ? n = some succs)
    (hno : ∀ s ∈ succs, (fun m => if m = n then Visit.visiting else st m) s ≠ .visiting) :
    CInv e (n :: act) (((succs.filter fun s => (fun m => if m = n then Visit.visiting else st m) s = .unvisited).map
      fun s => (s, path ++ [s])).reverse ++ (n, path) :: stack) F (fun m => if m = n then .visiting else st m) := by
  have hedge : ∀ s, Edge e n s ↔ s ∈ succs := by
    intro s
    constructor
    · rintro ⟨ss, h1, h2⟩
      rw [hsucc] at h1
      obtain rfl := Option.some.inj h1
      exact h2
    · exact fun h => ⟨succs, hsucc, h⟩
  have hna : n ∉ act := fun hc => hv ((h.visiting n).2 hc)
  have hg := h.good
  have hsplit : path = act.reverse ++ [n] ∧ (∀ p ∈ act.head?, Edge e p n) ∧ Good e act stack := by
    cases hg with
    | pending hn hp he hr => exact ⟨hp, he, hr⟩
    | marker hn hp he hr => simp at hna
  obtain ⟨hp, he, hr⟩ := hsplit
  refine ⟨?_, ?_, ?_, ?_, ?_, h.closed, ?_⟩
  · apply good_pushed
    · rw [hp]; simp
    · exact .marker hna hp he hr
    · intro s hs
      rw [List.mem_filter] at hs
      refine ⟨?_, (hedge s).2 hs.1⟩
      have h2 : (fun m => if m = n then Visit.visiting else st m) s = .unvisited := by simpa using hs.2
      dsimp only at h2
      split_ifs at h2 with hsn
      rw [List.mem_cons]
      rintro (h3 | h3)
      · exact hsn h3
      · rw [(h.visiting s).2 h3] at h2; simp at h2
  · intro m
    by_cases hm : m = n
    · simp [hm]
    · simp only [hm, if_false, List.mem_cons, false_or]; exact h.visiting m
  · intro m hm
    by_cases hmn : m = n
    · simp [hmn] at hm
    · simp only [hmn, if_false] at hm; exact h.visited m hm
  · intro m hm
    by_cases hmn : m = n
    · simp [hmn] at hm
    · simp only [hmn, if_false] at hm; exact h.unvisited m hm
  · intro pre m pth post hs hm s hes
    set pushed := ((succs.filter fun s => (fun m => if m = n then Visit.visiting else st m) s = .unvisited).map
      fun s => (s, path ++ [s])).reverse with hpushed
    -- entries are either pushed ones (never on the active path) or old ones with everything pushed above them
    rcases List.append_eq_append_iff.1 hs with ⟨a', h1, h2⟩ | ⟨c', h1, h2⟩
    · -- pre = pushed ++ a'
      have hpre : ∀ x ∈ pushed.map (·.1), x ∈ pre.map (·.1) := by
        intro x hx; rw [h1, List.map_append, List.mem_append]; exact Or.inl hx
      by_cases hmn : m = n
      · subst hmn
        have hss := (hedge s).1 hes
        have hnv := hno s hss
        cases hst : (fun k => if k = m then Visit.visiting else st k) s with
        | visiting => exact absurd hst hnv
        | visited =>
          left
          dsimp only at hst
          split_ifs at hst
          exact h.visited s hst
        | unvisited =>
          right
          apply hpre
          rw [hpushed, List.mem_map]
          exact ⟨(s, path ++ [s]), by simpa using ⟨hss, hst⟩, rfl⟩
      · have hma : m ∈ act := by simpa [hmn] using hm
        cases a' with
        | nil =>
          simp only [List.nil_append, List.cons.injEq, Prod.mk.injEq] at h2
          exact absurd h2.1.1.symm hmn
        | cons a as =>
          simp only [List.cons_append, List.cons.injEq] at h2
          have := h.cover ((n, path) :: as) m pth post (by rw [h2.2]; rfl) hma s hes
          rcases this with h3 | h3
          · exact Or.inl h3
          · right
            rw [h1, List.map_append, List.mem_append]
            right
            rw [← h2.1]; simpa using h3
    · -- the entry is a pushed one
      cases c' with
      | nil =>
        simp only [List.append_nil] at h1
        simp only [List.nil_append, List.cons.injEq, Prod.mk.injEq] at h2
        obtain ⟨⟨rfl, rfl⟩, rfl⟩ := h2
        have hss := (hedge s).1 hes
        have hnv := hno s hss
        cases hst : (fun k => if k = m then Visit.visiting else st k) s with
        | visiting => exact absurd hst hnv
        | visited =>
          left
          dsimp only at hst
          split_ifs at hst
          exact h.visited s hst
        | unvisited =>
          right
          rw [← h1, hpushed, List.mem_map]
          exact ⟨(s, pth ++ [s]), by simpa using ⟨hss, hst⟩, rfl⟩
      | cons c cs =>
        exfalso
        simp only [List.cons_append, List.cons.injEq] at h2
        have hmem : (m, pth) ∈ pushed := by rw [h1, ← h2.1]; simp
        rw [hpushed, List.mem_reverse, List.mem_map] at hmem
        obtain ⟨x, hx, hxe⟩ := hmem
        obtain ⟨rfl, _⟩ := Prod.mk.inj hxe
        rw [List.mem_filter] at hx
        have h3 : (fun m => if m = n then Visit.visiting else st m) x = .unvisited := by simpa using hx.2
        dsimp only at h3
        split_ifs at h3 with hxn
        have : x ∈ act := by simpa [hxn] using hm
        rw [(h.visiting x).2 this] at h3
        simp at h3
  · intro p hpm
    rw [List.mem_append] at hpm
    rcases hpm with hpm | hpm
    · rw [List.mem_reverse, List.mem_map] at hpm
      obtain ⟨x, hx, rfl⟩ := hpm
      exact hcl n x ((hedge x).2 (List.mem_filter.1 hx).1)
    · exact h.keys p hpm

theorem cycle_found {e : Edges} {act F : List ℕ} {n s : ℕ} {path : List ℕ} {stack : List (ℕ × List ℕ)} {st : ℕ → Visit}
    (h : CInv e act ((n, path) :: stack) F st) (hv : st n ≠ .visiting) (hes : Edge e n s)
    (hs : (fun m => if m = n then Visit.visiting else st m) s = .visiting) : IsCycle e (path.drop (path.idxOf s) ++ [s]) := by
  have hna : n ∉ act := fun hc => hv ((h.visiting n).2 hc)
  have hsplit : path = act.reverse ++ [n] ∧ (∀ p ∈ act.head?, Edge e p n) ∧ Good e act stack := by
    cases h.good with
    | pending hn hp he hr => exact ⟨hp, he, hr⟩
    | marker hn hp he hr => simp at hna
  obtain ⟨hp, he, hr⟩ := hsplit
  obtain ⟨c1, c2, _⟩ := (Good.marker (path := path) hna hp he hr).chain
  rw [List.reverse_cons, ← hp] at c2
  have hnd : path.Nodup := by rw [hp]; simpa using List.nodup_reverse.2 c1
  have hsp : s ∈ path := by
    rw [hp]
    by_cases hsn : s = n
    · simp [hsn]
    · simp only [hsn, if_false] at hs
      simp [(h.visiting s).1 hs]
  obtain ⟨l1, l2, hl, hnl⟩ := List.eq_append_cons_of_mem hsp
  have hidx : path.idxOf s = l1.length := by
    rw [hl, List.idxOf_append_of_notMem hnl, List.idxOf_cons_self]; simp
  have hdrop : path.drop (path.idxOf s) = s :: l2 := by rw [hidx, hl]; simp
  rw [hdrop]
  rw [hl] at c2 hnd
  refine ⟨s, l2, rfl, (List.nodup_append.1 hnd).2.1, ?_⟩
  rw [List.isChain_append]
  refine ⟨(List.isChain_append.1 c2).2.1, by simp, ?_⟩
  intro x hx y hy
  obtain rfl : s = y := by simpa using hy
  have hlast : path.getLast? = some n := by rw [hp]; simp
  rw [hl, List.getLast?_append] at hlast
  rw [hx] at hlast
  simp at hlast
  rw [hlast]; exact hes

theorem findCycleLoop_fuel {e : Edges} (hcl : e.Closed) (fuel : ℕ) (act F : List ℕ) (stack : List (ℕ × List ℕ)) (st : ℕ → Visit)
    (h : CInv e act stack F st) (hf : work e act stack st < fuel) :
    (∃ c, findCycleLoop e fuel stack st = .ok (.inr c) ∧ IsCycle e c) ∨
    ∃ st' F', findCycleLoop e fuel stack st = .ok (.inl st') ∧ CInv e [] [] F' st' ∧ (∀ x ∈ F, x ∈ F') ∧
      ∀ p ∈ stack, p.1 ∈ F' := by
  induction fuel generalizing act F stack st with
  | zero => omega
  | succ fuel ih =>
    cases stack with
    | nil =>
      right
      have := h.good
      cases this
      exact ⟨st, F, rfl, h, fun x hx => hx, by simp⟩
    | cons p stack =>
      obtain ⟨n, path⟩ := p
      unfold findCycleLoop
      by_cases hv : st n = .visiting
      · rw [if_pos hv]
        obtain ⟨act', F', hi, rfl, hnF, hsub⟩ := cinv_pop h hv
        have hlen := h.good.chain.2.2
        have hwork : work e act' stack (fun m => if m = n then .visited else st m) < fuel := by
          unfold work at hf ⊢
          have := sum_filter_le e (fun p => decide (st p.1 = .unvisited))
            (fun p => decide ((fun m => if m = n then Visit.visited else st m) p.1 = .unvisited)) (by
              intro x _ hx
              simp only [decide_eq_true_eq] at hx ⊢
              split_ifs at hx
              exact hx)
          simp only [List.length_cons] at hf hlen ⊢
          dsimp only at this
          omega
        rcases ih act' F' stack _ hi hwork with ⟨c, h1, h2⟩ | ⟨st', F2, h1, h2, h3, h4⟩
        · exact Or.inl ⟨c, h1, h2⟩
        · right
          refine ⟨st', F2, h1, h2, fun x hx => h3 x (hsub x hx), ?_⟩
          intro p hp
          rcases List.mem_cons.1 hp with rfl | hp
          · exact h3 _ hnF
          · exact h4 p hp
      · rw [if_neg hv]
        obtain ⟨succs, hsucc⟩ := Option.isSome_iff_exists.1 (h.keys (n, path) (by simp))
        simp only at hsucc
        simp only [hsucc]
        have hk : ∀ s ∈ succs, (e.succ? s).isSome := fun s hs => hcl n s ⟨succs, hsucc, hs⟩
        rcases pushSuccessors_spec e (fun m => if m = n then .visiting else st m) path succs ((n, path) :: stack) hk with
          ⟨h1, h2⟩ | ⟨s, h1, h2, h3⟩
        · simp only [h1]
          have hi := cinv_expand hcl h hv hsucc h2
          have hlen := h.good.chain.2.2
          have hwork : work e (n :: act) (((succs.filter fun s => (fun m => if m = n then Visit.visiting else st m) s = .unvisited).map
              fun s => (s, path ++ [s])).reverse ++ (n, path) :: stack) (fun m => if m = n then .visiting else st m) < fuel := by
            have hpl : act.length + 1 ≤ stack.length + 1 := by
              have hna : n ∉ act := fun hc => hv ((h.visiting n).2 hc)
              cases h.good with
              | pending hn hp he hr => have := hr.chain.2.2; omega
              | marker hn hp he hr => simp at hna
            have hfl : (succs.filter fun s => (fun m => if m = n then Visit.visiting else st m) s = .unvisited).length ≤ succs.length :=
              List.length_filter_le _ _
            unfold work at hf ⊢
            simp only [List.length_append, List.length_reverse, List.length_map, List.length_cons] at hf hlen ⊢
            by_cases hu : st n = .unvisited
            · have := sum_filter_drop e st n succs hsucc hu
              dsimp only at this hfl ⊢
              omega
            · have hnF : n ∈ F := by
                cases hst : st n with
                | visiting => exact absurd hst hv
                | unvisited => exact absurd hst hu
                | visited => exact h.visited n hst
              obtain ⟨l1, l2, hl⟩ := List.append_of_mem hnF
              have hnil : (succs.filter fun s => (fun m => if m = n then Visit.visiting else st m) s = .unvisited) = [] := by
                rw [List.filter_eq_nil_iff]
                intro s hs
                have hsF : s ∈ F := by
                  rw [hl]
                  have := h.closed l1 n l2 hl s ⟨succs, hsucc, hs⟩
                  simp [this]
                simp only [decide_eq_true_eq]
                split_ifs
                · simp
                · intro hc; exact h.unvisited s hc hsF
              rw [hnil]
              have := sum_filter_le e (fun p => decide (st p.1 = .unvisited))
                (fun p => decide ((fun m => if m = n then Visit.visiting else st m) p.1 = .unvisited)) (by
                  intro x _ hx
                  simp only [decide_eq_true_eq] at hx ⊢
                  split_ifs at hx
                  exact hx)
              dsimp only at this
              simp only [List.length_nil]
              omega
          rcases ih _ F _ _ hi hwork with ⟨c, h3, h4⟩ | ⟨st', F2, h3, h4, h5, h6⟩
          · exact Or.inl ⟨c, h3, h4⟩
          · exact Or.inr ⟨st', F2, h3, h4, h5, fun p hp => h6 p (by
              rw [List.mem_append]; exact Or.inr hp)⟩
        · left
          simp only [h3]
          exact ⟨_, rfl, cycle_found h hv ⟨succs, hsucc, h1⟩ h2⟩

theorem findCycleRoots_spec {e : Edges} (hcl : e.Closed) (roots : List ℕ) (hroots : ∀ r ∈ roots, (e.succ? r).isSome)
    (F : List ℕ) (st : ℕ → Visit) (h : CInv e [] [] F st) :
    (∃ c, findCycleRoots e (2 * (e.map fun p => p.2.length).sum + 3) roots st = .ok (some c) ∧ IsCycle e c) ∨
    (findCycleRoots e (2 * (e.map fun p => p.2.length).sum + 3) roots st = .ok none ∧
      ∃ F', (∀ x ∈ F, x ∈ F') ∧ (∀ r ∈ roots, r ∈ F') ∧ ∀ l1 n l2, F' = l1 ++ n :: l2 → ∀ s, Edge e n s → s ∈ l2) := by
  induction roots generalizing F st with
  | nil => right; exact ⟨rfl, F, fun x hx => hx, by simp, h.closed⟩
  | cons r rs ih =>
    unfold findCycleRoots
    have hrs : ∀ r ∈ rs, (e.succ? r).isSome := fun x hx => hroots x (by simp [hx])
    by_cases hu : st r = .unvisited
    · rw [if_pos hu]
      have hi : CInv e [] [(r, [r])] F st :=
        ⟨.pending (by simp) (by simp) (by simp) .nil, h.visiting, h.visited, h.unvisited, by simp, h.closed, by
          intro p hp
          obtain rfl : p = (r, [r]) := by simpa using hp
          exact hroots r (by simp)⟩
      have hw : work e [] [(r, [r])] st < 2 * (e.map fun p => p.2.length).sum + 3 := by
        unfold work
        have h1 := sum_filter_le e (fun _ => true) (fun p => decide (st p.1 = .unvisited)) (by simp)
        have h2 : ∀ l : Edges, ((l.filter fun _ => true).map fun p => 2 * p.2.length).sum = 2 * (l.map fun p => p.2.length).sum := by
          intro l
          induction l with
          | nil => rfl
          | cons a as ih2 => simp only [List.filter_cons, if_true, List.map_cons, List.sum_cons, ih2]; omega
        rw [h2] at h1
        simp only [List.length_cons, List.length_nil]
        omega
      rcases findCycleLoop_fuel hcl _ [] F [(r, [r])] st hi hw with ⟨c, h1, h2⟩ | ⟨st', F', h1, h2, h3, h4⟩
      · left; simp only [h1]; exact ⟨c, rfl, h2⟩
      · simp only [h1]
        rcases ih hrs F' st' h2 with h5 | ⟨h5, F2, h6, h7, h8⟩
        · exact Or.inl h5
        · right
          refine ⟨h5, F2, fun x hx => h6 x (h3 x hx), ?_, h8⟩
          intro x hx
          rcases List.mem_cons.1 hx with rfl | hx
          · exact h6 _ (h4 (x, [x]) (by simp))
          · exact h7 x hx
    · rw [if_neg hu]
      have hrF : r ∈ F := by
        cases hst : st r with
        | visiting => have := (h.visiting r).1 hst; simp at this
        | unvisited => exact absurd hst hu
        | visited => exact h.visited r hst
      rcases ih hrs F st h with h5 | ⟨h5, F2, h6, h7, h8⟩
      · exact Or.inl h5
      · right
        refine ⟨h5, F2, h6, ?_, h8⟩
        intro x hx
        rcases List.mem_cons.1 hx with rfl | hx
        · exact h6 _ hrF
        · exact h7 x hx

theorem findCycle_cases {e : Edges} (hcl : e.Closed) :
    (∃ c, findCycle e = .ok (some c) ∧ IsCycle e c) ∨ (findCycle e = .ok none ∧ ∀ n, ¬ Relation.TransGen (Edge e) n n) := by
  have hk : ∀ r, r ∈ e.map (·.1) ↔ (e.succ? r).isSome := by
    intro r
    unfold Edges.succ?
    rw [Option.isSome_map, List.find?_isSome, List.mem_map]
    constructor
    · rintro ⟨p, hp, rfl⟩; exact ⟨p, hp, by simp⟩
    · rintro ⟨p, hp, he⟩; exact ⟨p, hp, by simpa using he⟩
  rcases findCycleRoots_spec hcl (e.map (·.1)) (fun r hr => (hk r).1 hr) [] (fun _ => .unvisited)
    ⟨.nil, by simp, by simp, by simp, by simp, by simp, by simp⟩ with h | ⟨h, F, _, hF, hord⟩
  · exact Or.inl h
  · right
    refine ⟨h, ?_⟩
    -- everything reachable from a finished node was finished before it
    have key : ∀ a b, Relation.TransGen (Edge e) a b → ∀ l1 l2, F = l1 ++ a :: l2 → b ∈ l2 := by
      intro a b hab
      induction hab with
      | single h => intro l1 l2 he; exact hord l1 a l2 he _ h
      | @tail b c _ hbc ih =>
        intro l1 l2 he
        obtain ⟨p1, p2, hp⟩ := List.append_of_mem (ih l1 l2 he)
        have := hord (l1 ++ a :: p1) b p2 (by rw [he, hp]; simp) c hbc
        rw [hp]; simp [this]
    intro n hc
    have hn : (e.succ? n).isSome := by
      obtain ⟨x, hx, _⟩ := Relation.TransGen.head'_iff.1 hc
      obtain ⟨ss, h1, _⟩ := hx
      rw [h1]; rfl
    have hnF := hF n ((hk n).2 hn)
    obtain ⟨l1, l2, hl⟩ := List.append_of_mem hnF
    have hself : ∀ k l1 l2, l1.length = k → F = l1 ++ n :: l2 → False := by
      intro k
      -- the last occurrence would need another one after it
      have : ∀ m l1 l2, l2.length = m → F = l1 ++ n :: l2 → False := by
        intro m
        induction m using Nat.strong_induction_on with
        | _ m ihm =>
          intro l1 l2 hlen he
          obtain ⟨p1, p2, hp⟩ := List.append_of_mem (key n n hc l1 l2 he)
          have : p2.length < m := by rw [← hlen, hp]; simp; omega
          exact ihm _ this (l1 ++ n :: p1) p2 rfl (by rw [he, hp]; simp)
      intro l1 l2 _ he
      exact this _ l1 l2 rfl he
    exact hself _ l1 l2 rfl hl

/-! ### Properties -/

/-- **C18.** What `find_cycle` returns is a cycle of the graph: a closed path along edges that repeats no other node. -/
theorem find_cycle_sound (e : Edges) (hcl : e.Closed) (c : List ℕ) (h : findCycle e = .ok (some c)) : IsCycle e c := by
  rcases findCycle_cases hcl with ⟨c', h1, h2⟩ | ⟨h1, _⟩
  · rw [h1] at h
    obtain rfl : c' = c := by simpa using h
    exact h2
  · rw [h1] at h; simp at h

/-- **C18.** `find_cycle` returns `None` exactly when no node can reach itself, and it always returns. -/
theorem find_cycle_none_iff (e : Edges) (hcl : e.Closed) :
    (findCycle e = .ok none ↔ ∀ n, ¬ Relation.TransGen (Edge e) n n) ∧ ∃ r, findCycle e = .ok r := by
  have htrans : ∀ c, IsCycle e c → ∃ n, Relation.TransGen (Edge e) n n := by
    rintro c ⟨a, mid, rfl, _, hch⟩
    refine ⟨a, ?_⟩
    have gen : ∀ (l : List ℕ) (x y : ℕ), List.IsChain (Edge e) (x :: l ++ [y]) → Relation.TransGen (Edge e) x y := by
      intro l
      induction l with
      | nil => intro x y h; simp at h; exact Relation.TransGen.single h
      | cons b bs ih =>
        intro x y h
        simp only [List.cons_append] at h
        rw [List.isChain_cons_cons] at h
        exact Relation.TransGen.head h.1 (ih b y (by simpa using h.2))
    exact gen mid a a hch
  rcases findCycle_cases hcl with ⟨c, h1, h2⟩ | ⟨h1, h2⟩
  · refine ⟨⟨fun h => by rw [h1] at h; simp at h, fun h => ?_⟩, _, h1⟩
    obtain ⟨n, hn⟩ := htrans c h2
    exact absurd hn (h n)
  · exact ⟨⟨fun _ => h2, fun _ => h1⟩, _, h1⟩

/-- A graph where a node is pushed twice before it is visited, then a back edge. -/
example : findCycle [(0, [2, 1]), (1, [2]), (2, [3]), (3, [1])] = .ok (some [1, 2, 3, 1]) := by decide
example : findCycle [(0, [2, 1]), (1, [2]), (2, [3]), (3, [])] = .ok none := by decide
example : Edges.Closed [(0, [2, 1]), (1, [2]), (2, [3]), (3, [1])] := by
  have : ∀ p ∈ ([(0, [2, 1]), (1, [2]), (2, [3]), (3, [1])] : Edges), ∀ b ∈ p.2,
      (Edges.succ? [(0, [2, 1]), (1, [2]), (2, [3]), (3, [1])] b).isSome := by decide
  rintro a b ⟨ss, h1, h2⟩
  unfold Edges.succ? at h1
  obtain ⟨p, hp, rfl⟩ := Option.map_eq_some_iff.1 h1
  exact this p (List.mem_of_find?_eq_some hp) b h2

end FF.Orch
