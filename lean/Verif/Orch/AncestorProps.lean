import Verif.Orch.TopoProps

/-! # Transitive inputs (C19) -/

namespace FF.Orch

/-! ### Specification -/

/-- `node` depends on `m`, directly or through others, or is `m`. -/
abbrev DependsOn (g : Graph) : ℕ → ℕ → Prop := Relation.ReflTransGen (Uses g)

/-- One step backward that does not start at the bound. -/
def StepBack (g : Graph) (stop : Option ℕ) (a b : ℕ) : Prop := some a ≠ stop ∧ Uses g a b

/-- Everything a node uses is in the graph. -/
def Graph.Total (g : Graph) : Prop := ∀ n m, Uses g n m → (g.find? m).isSome

/-! ### A depth-first walk over any successor function -/

/-- The shape both loops of `ancestors` share. -/
def walk (next : ℕ → Option (List ℕ)) : ℕ → List ℕ → List ℕ → Option (List ℕ)
  | 0, _, c => some c
  | _ + 1, [], c => some c
  | f + 1, x :: fr, c =>
    if x ∈ c then walk next f fr c
    else match next x with
      | none => none
      | some l => walk next f (l ++ fr) (x :: c)

def outCost (next : ℕ → Option (List ℕ)) (U c : List ℕ) : ℕ :=
  ((U.filter fun x => decide (x ∉ c)).map fun x => ((next x).getD []).length).sum

theorem outCost_cons (next : ℕ → Option (List ℕ)) (U c : List ℕ) (x : ℕ) (l : List ℕ) (hU : x ∈ U) (hc : x ∉ c)
    (hl : next x = some l) : outCost next U (x :: c) + l.length ≤ outCost next U c := by
  have mono : ∀ V : List ℕ, outCost next V (x :: c) ≤ outCost next V c := by
    intro V
    induction V with
    | nil => simp [outCost]
    | cons a as ih =>
      unfold outCost at ih ⊢
      simp only [List.filter_cons]
      by_cases h1 : a ∉ x :: c
      · have h2 : a ∉ c := fun h => h1 (by simp [h])
        simp only [h1, h2, not_false_eq_true, decide_true, if_true, List.map_cons, List.sum_cons]; omega
      · by_cases h2 : a ∉ c
        · simp only [h1, h2, not_false_eq_true, decide_true, decide_false, Bool.false_eq_true, if_false, if_true, List.map_cons,
            List.sum_cons]; omega
        · simp only [h1, h2, decide_false, Bool.false_eq_true, if_false]; omega
  induction U with
  | nil => simp at hU
  | cons a as ih =>
    have hm := mono as
    by_cases hx : x = a
    · subst hx
      unfold outCost at hm ⊢
      simp only [List.filter_cons, hc, not_false_eq_true, decide_true, if_true, List.map_cons, List.sum_cons, hl, Option.getD_some]
      simp only [List.mem_cons, true_or, not_true_eq_false, decide_false, Bool.false_eq_true, if_false]
      simp only [List.mem_cons] at hm
      omega
    · have := ih (by simpa [hx] using hU)
      unfold outCost at this ⊢
      simp only [List.filter_cons]
      by_cases h2 : a ∉ c
      · have h1 : a ∉ x :: c := by simp [h2]; exact fun h => hx h.symm
        simp only [h1, h2, not_false_eq_true, decide_true, if_true, List.map_cons, List.sum_cons]; omega
      · have h1 : ¬ a ∉ x :: c := by simp at h2 ⊢; exact fun _ => h2
        simp only [h1, h2, decide_false, Bool.false_eq_true, if_false]; omega

theorem walk_spec (next : ℕ → Option (List ℕ)) (U : List ℕ) (hU : ∀ x ∈ U, ∃ l, next x = some l ∧ ∀ y ∈ l, y ∈ U)
    (fuel : ℕ) (fr c : List ℕ) (hfr : ∀ x ∈ fr, x ∈ U) (hc : ∀ x ∈ c, ∀ l, next x = some l → ∀ y ∈ l, y ∈ c ∨ y ∈ fr)
    (hf : fr.length + outCost next U c < fuel) :
    ∃ r, walk next fuel fr c = some r ∧ (∀ x ∈ c, x ∈ r) ∧ (∀ x ∈ fr, x ∈ r) ∧
      (∀ x ∈ r, ∀ l, next x = some l → ∀ y ∈ l, y ∈ r) ∧
      ∀ x ∈ r, x ∈ c ∨ ∃ s ∈ fr, Relation.ReflTransGen (fun a b => ∃ l, next a = some l ∧ b ∈ l) s x := by
  induction fuel generalizing fr c with
  | zero => omega
  | succ fuel ih =>
    cases fr with
    | nil =>
      refine ⟨c, rfl, fun x h => h, by simp, ?_, fun x h => Or.inl h⟩
      intro x hx l hl y hy
      rcases hc x hx l hl y hy with h | h
      · exact h
      · simp at h
    | cons a fr =>
      unfold walk
      simp only [List.length_cons] at hf
      by_cases ha : a ∈ c
      · rw [if_pos ha]
        obtain ⟨r, h1, h2, h3, h4, h5⟩ := ih fr c (fun x hx => hfr x (by simp [hx])) (by
          intro x hx l hl y hy
          rcases hc x hx l hl y hy with h | h
          · exact Or.inl h
          · rcases List.mem_cons.1 h with rfl | h
            · exact Or.inl ha
            · exact Or.inr h) (by omega)
        refine ⟨r, h1, h2, ?_, h4, ?_⟩
        · intro x hx
          rcases List.mem_cons.1 hx with rfl | hx
          · exact h2 _ ha
          · exact h3 x hx
        · intro x hx
          rcases h5 x hx with h | ⟨s, hs, h⟩
          · exact Or.inl h
          · exact Or.inr ⟨s, by simp [hs], h⟩
      · rw [if_neg ha]
        obtain ⟨l, hl, hlU⟩ := hU a (hfr a (by simp))
        simp only [hl]
        have hcost := outCost_cons next U c a l (hfr a (by simp)) ha hl
        obtain ⟨r, h1, h2, h3, h4, h5⟩ := ih (l ++ fr) (a :: c) (by
            intro x hx
            rcases List.mem_append.1 hx with h | h
            · exact hlU x h
            · exact hfr x (by simp [h])) (by
          intro x hx l' hl' y hy
          rcases List.mem_cons.1 hx with rfl | hx
          · rw [hl] at hl'
            obtain rfl := Option.some.inj hl'
            exact Or.inr (by simp [hy])
          · rcases hc x hx l' hl' y hy with h | h
            · exact Or.inl (by simp [h])
            · rcases List.mem_cons.1 h with rfl | h
              · exact Or.inl (by simp)
              · exact Or.inr (by simp [h])) (by simp only [List.length_append]; omega)
        refine ⟨r, h1, fun x hx => h2 x (by simp [hx]), ?_, h4, ?_⟩
        · intro x hx
          rcases List.mem_cons.1 hx with rfl | hx
          · exact h2 _ (by simp)
          · exact h3 x (by simp [hx])
        · intro x hx
          rcases h5 x hx with h | ⟨s, hs, h⟩
          · rcases List.mem_cons.1 h with rfl | h
            · exact Or.inr ⟨_, by simp, Relation.ReflTransGen.refl⟩
            · exact Or.inl h
          · rcases List.mem_append.1 hs with hs | hs
            · exact Or.inr ⟨a, by simp, Relation.ReflTransGen.head ⟨l, hl, hs⟩ h⟩
            · exact Or.inr ⟨s, by simp [hs], h⟩

/-- Started with nothing collected, the walk collects exactly what is reachable. -/
theorem walk_reach (next : ℕ → Option (List ℕ)) (U : List ℕ) (hU : ∀ x ∈ U, ∃ l, next x = some l ∧ ∀ y ∈ l, y ∈ U)
    (fuel s : ℕ) (hs : s ∈ U) (hf : 1 + outCost next U [] < fuel) :
    ∃ r, walk next fuel [s] [] = some r ∧
      ∀ x, x ∈ r ↔ Relation.ReflTransGen (fun a b => ∃ l, next a = some l ∧ b ∈ l) s x := by
  obtain ⟨r, h1, _, h3, h4, h5⟩ := walk_spec next U hU fuel [s] [] (by simpa using hs) (by simp) (by simpa using hf)
  refine ⟨r, h1, fun x => ⟨fun hx => ?_, fun hx => ?_⟩⟩
  · rcases h5 x hx with h | ⟨s', hs', h⟩
    · simp at h
    · obtain rfl : s' = s := by simpa using hs'
      exact h
  · induction hx with
    | refl => exact h3 s (by simp)
    | tail _ hbc ih =>
      obtain ⟨l, hl, hm⟩ := hbc
      exact h4 _ ih l hl _ hm

/-! ### The two loops as walks -/

def backNext (g : Graph) (stop : Option ℕ) (x : ℕ) : Option (List ℕ) :=
  if some x = stop then some [] else (g.find? x).map fun n => n.inputs.reverse

theorem ancestorsLoop_walk (g : Graph) (stop : Option ℕ) (fuel : ℕ) (fr c : List ℕ) (reached : Bool)
    (hr : reached = true ↔ stop = none ∨ ∃ s ∈ c, stop = some s) (r : List ℕ) (h : walk (backNext g stop) fuel fr c = some r) :
    ∃ b, ancestorsLoop g stop fuel fr c reached = .ok (r, b) ∧ (b = true ↔ stop = none ∨ ∃ s ∈ r, stop = some s) := by
  induction fuel generalizing fr c reached with
  | zero => simp only [walk, Option.some.injEq] at h; subst h; exact ⟨reached, rfl, hr⟩
  | succ fuel ih =>
    cases fr with
    | nil => simp only [walk, Option.some.injEq] at h; subst h; exact ⟨reached, rfl, hr⟩
    | cons a fr =>
      unfold walk at h
      unfold ancestorsLoop
      by_cases ha : a ∈ c
      · rw [if_pos ha] at h ⊢
        exact ih fr c reached hr h
      · rw [if_neg ha] at h ⊢
        by_cases hs : some a = stop
        · rw [if_pos hs]
          simp only [backNext, if_pos hs, List.nil_append] at h
          exact ih fr (a :: c) true (by simp only [true_iff]; exact Or.inr ⟨a, by simp, hs.symm⟩) h
        · rw [if_neg hs]
          unfold Graph.nodeInputs
          simp only [backNext, if_neg hs] at h
          cases hfnd : g.find? a with
          | none => simp [hfnd] at h
          | some n =>
            simp only [hfnd, Option.map_some] at h
            refine ih _ _ reached ?_ h
            rw [hr]
            constructor
            · rintro (h1 | ⟨s, h1, h2⟩)
              · exact Or.inl h1
              · exact Or.inr ⟨s, by simp [h1], h2⟩
            · rintro (h1 | ⟨s, h1, h2⟩)
              · exact Or.inl h1
              · rcases List.mem_cons.1 h1 with rfl | h1
                · exact absurd h2.symm hs
                · exact Or.inr ⟨s, h1, h2⟩

def fwdNext (g : Graph) (collected : List ℕ) (x : ℕ) : Option (List ℕ) :=
  match g.nodeOutputs x with
  | .error _ => none
  | .ok outs => some (outs.filter (· ∈ collected)).reverse

theorem onPathLoop_walk (g : Graph) (collected : List ℕ) (fuel : ℕ) (fr c r : List ℕ)
    (h : walk (fwdNext g collected) fuel fr c = some r) : onPathLoop g collected fuel fr c = .ok r := by
  induction fuel generalizing fr c with
  | zero => simp only [walk, Option.some.injEq] at h; subst h; rfl
  | succ fuel ih =>
    cases fr with
    | nil => simp only [walk, Option.some.injEq] at h; subst h; rfl
    | cons a fr =>
      unfold walk at h
      unfold onPathLoop
      by_cases ha : a ∈ c
      · rw [if_pos ha] at h ⊢
        exact ih fr c h
      · rw [if_neg ha] at h ⊢
        unfold fwdNext at h
        cases ho : g.nodeOutputs a with
        | error e => simp [ho] at h
        | ok outs =>
          simp only [ho] at h ⊢
          exact ih _ _ h

theorem mem_ids {g : Graph} {x : ℕ} : x ∈ g.nodes.map (·.id) ↔ (g.find? x).isSome := by
  unfold Graph.find?
  rw [List.find?_isSome, List.mem_map]
  constructor
  · rintro ⟨n, hn, rfl⟩; exact ⟨n, hn, by simp⟩
  · rintro ⟨n, hn, he⟩; exact ⟨n, hn, by simpa using he⟩

theorem outCost_le (next : ℕ → Option (List ℕ)) (U : List ℕ) (f : ℕ → ℕ) (h : ∀ x ∈ U, ((next x).getD []).length ≤ f x) :
    outCost next U [] ≤ (U.map f).sum := by
  unfold outCost
  induction U with
  | nil => simp
  | cons a as ih =>
    have := ih fun x hx => h x (by simp [hx])
    have ha := h a (by simp)
    simp only [List.not_mem_nil, not_false_eq_true, decide_true, List.filter_true, List.map_cons, List.sum_cons] at this ⊢
    omega

theorem ancestors_back {g : Graph} (hu : g.UniqueIds) (ht : g.Total) (node : ℕ) (hn : (g.find? node).isSome) (stop : Option ℕ) :
    ∃ c b, ancestorsLoop g stop g.edgeBound [node] [] stop.isNone = .ok (c, b) ∧
      (∀ m, m ∈ c ↔ Relation.ReflTransGen (StepBack g stop) node m) ∧ (b = true ↔ stop = none ∨ ∃ s ∈ c, stop = some s) := by
  have hnext : ∀ x l, backNext g stop x = some l → ∀ y, y ∈ l ↔ (some x ≠ stop ∧ Uses g x y) := by
    intro x l hl y
    unfold backNext at hl
    split_ifs at hl with hs
    · obtain rfl := Option.some.inj hl
      simp [hs]
    · obtain ⟨n, hf, rfl⟩ := Option.map_eq_some_iff.1 hl
      rw [List.mem_reverse, uses_iff hu]
      unfold Graph.ins
      rw [hf]
      simp [hs]
  have hU : ∀ x ∈ g.nodes.map (·.id), ∃ l, backNext g stop x = some l ∧ ∀ y ∈ l, y ∈ g.nodes.map (·.id) := by
    intro x hx
    obtain ⟨n, hfx⟩ := Option.isSome_iff_exists.1 (mem_ids.1 hx)
    have : ∃ l, backNext g stop x = some l := by
      unfold backNext
      split_ifs
      · exact ⟨[], rfl⟩
      · exact ⟨_, by rw [hfx]; rfl⟩
    obtain ⟨l, hl⟩ := this
    exact ⟨l, hl, fun y hy => mem_ids.2 (ht x y ((hnext x l hl y).1 hy).2)⟩
  have hcost : outCost (backNext g stop) (g.nodes.map (·.id)) [] ≤ (g.nodes.map fun n => n.inputs.length).sum := by
    have h1 := outCost_le (backNext g stop) (g.nodes.map (·.id)) (fun x => (g.ins x).length) (by
      intro x hx
      obtain ⟨n, hfx⟩ := Option.isSome_iff_exists.1 (mem_ids.1 hx)
      unfold backNext Graph.ins
      rw [hfx]
      split_ifs <;> simp)
    have h2 : (List.map (fun x => (g.ins x).length) (g.nodes.map (·.id))) = g.nodes.map fun n => n.inputs.length := by
      rw [List.map_map]
      apply List.map_congr_left
      intro n hn
      simp only [Function.comp, Graph.ins, find_of_mem hu hn, Option.elim]
    rw [h2] at h1
    exact h1
  obtain ⟨r, h1, h2⟩ := walk_reach (backNext g stop) (g.nodes.map (·.id)) hU g.edgeBound node (mem_ids.2 hn) (by
    unfold Graph.edgeBound; omega)
  obtain ⟨b, h3, h4⟩ := ancestorsLoop_walk g stop g.edgeBound [node] [] stop.isNone (by simp) r h1
  refine ⟨r, b, h3, ?_, h4⟩
  intro m
  rw [h2]
  have hrel : ∀ a c, (g.find? a).isSome → ((∃ l, backNext g stop a = some l ∧ c ∈ l) ↔ StepBack g stop a c) := by
    intro a c ha
    obtain ⟨l, hl, _⟩ := hU a (mem_ids.2 ha)
    constructor
    · rintro ⟨l', h1, h2⟩; exact (hnext a l' h1 c).1 h2
    · intro h; exact ⟨l, hl, (hnext a l hl c).2 h⟩
  constructor
  · intro h
    induction h with
    | refl => exact .refl
    | @tail a c _ hac ih => obtain ⟨l', h1, h2⟩ := hac; exact ih.tail ((hnext a l' h1 c).1 h2)
  · intro h
    have : Relation.ReflTransGen (fun a b => ∃ l, backNext g stop a = some l ∧ b ∈ l) node m ∧ (g.find? m).isSome := by
      induction h with
      | refl => exact ⟨.refl, hn⟩
      | @tail a c _ hac ih => exact ⟨ih.1.tail ((hrel a c ih.2).2 hac), ht a c hac.2⟩
    exact this.1

theorem stepBack_depends {g : Graph} {stop : Option ℕ} {a b : ℕ} (h : Relation.ReflTransGen (StepBack g stop) a b) :
    DependsOn g a b := Relation.ReflTransGen.mono (r := StepBack g stop) (fun _ _ h => h.2) a b h

/-- The first time a dependency chain meets `s` it has not yet left it. -/
theorem stepBack_to_stop {g : Graph} {s a : ℕ} (h : DependsOn g a s) : Relation.ReflTransGen (StepBack g (some s)) a s := by
  induction h using Relation.ReflTransGen.head_induction_on with
  | refl => exact .refl
  | @head a c hac _ ih =>
    by_cases ha : a = s
    · subst ha; exact .refl
    · exact .head ⟨by simpa using ha, hac⟩ ih

/-! ### Properties -/

/-- **C19.** Without `strict`, `ancestors` returns exactly the nodes reachable backward from `node` without stepping past `stop`,
and reports whether `node` depends on `stop`. With no bound these are all nodes it depends on. -/
theorem ancestors_closure (g : Graph) (hu : g.UniqueIds) (ht : g.Total) (node : ℕ) (hn : (g.find? node).isSome) (stop : Option ℕ) :
    ∃ c b, ancestors g node stop = .ok (c, b) ∧ (∀ m, m ∈ c ↔ Relation.ReflTransGen (StepBack g stop) node m) ∧
      (b = true ↔ ∀ s, stop = some s → DependsOn g node s) := by
  obtain ⟨c, b, h1, h2, h3⟩ := ancestors_back hu ht node hn stop
  refine ⟨c, b, ?_, h2, ?_⟩
  · unfold ancestors
    simp only [h1]
    simp
  · rw [h3]
    cases stop with
    | none => simp
    | some s =>
      simp only [Option.some.injEq, reduceCtorEq, false_or]
      constructor
      · rintro ⟨s', hs', rfl⟩ _ rfl
        exact stepBack_depends ((h2 _).1 hs')
      · intro h
        exact ⟨s, (h2 s).2 (stepBack_to_stop (h s rfl)), rfl⟩

/-- **C19.** With no bound, `ancestors` returns exactly the nodes `node` depends on, and itself. -/
theorem ancestors_all (g : Graph) (hu : g.UniqueIds) (ht : g.Total) (node : ℕ) (hn : (g.find? node).isSome) :
    ∃ c, ancestors g node = .ok (c, true) ∧ ∀ m, m ∈ c ↔ DependsOn g node m := by
  obtain ⟨c, b, h1, h2, h3⟩ := ancestors_closure g hu ht node hn none
  obtain rfl : b = true := h3.2 (by simp)
  refine ⟨c, h1, fun m => ?_⟩
  rw [h2]
  exact ⟨stepBack_depends, fun h => Relation.ReflTransGen.mono (r := Uses g) (fun _ _ h => ⟨by simp, h⟩) node m h⟩

/-- **C19.** In an acyclic graph, `ancestors(strict=True)` returns exactly the nodes between `stop` and `node`: those that depend
on `stop` and that `node` depends on. If there are none the result is empty and `reached` is false. -/
theorem ancestors_strict (g : Graph) (hu : g.UniqueIds) (ht : g.Total) (hac : ∀ n, ¬ Relation.TransGen (Uses g) n n)
    (node s : ℕ) (hn : (g.find? node).isSome) :
    ∃ c b, ancestors g node (some s) true = .ok (c, b) ∧ (∀ m, m ∈ c ↔ DependsOn g node m ∧ DependsOn g m s) ∧
      (b = true ↔ DependsOn g node s) := by
  obtain ⟨c, b, h1, h2, h3⟩ := ancestors_back hu ht node hn (some s)
  have hreach : b = true ↔ DependsOn g node s := by
    rw [h3]
    simp only [Option.some.injEq, reduceCtorEq, false_or]
    constructor
    · rintro ⟨s', hs', rfl⟩
      exact stepBack_depends ((h2 _).1 hs')
    · intro h
      exact ⟨s, (h2 s).2 (stepBack_to_stop h), rfl⟩
  unfold ancestors
  simp only [h1]
  by_cases hb : b = true
  swap
  · have hb' : b = false := by simpa using hb
    subst hb'
    refine ⟨[], false, by simp, ?_, hreach⟩
    intro m
    simp only [List.not_mem_nil, false_iff, not_and]
    intro h4 h5
    exact hb (hreach.2 (h4.trans h5))
  subst hb
  have hns := hreach.1 rfl
  -- the nodes on a path are collected
  have hcol : ∀ m, DependsOn g node m → DependsOn g m s → m ∈ c := by
    intro m h4 h5
    rw [h2]
    have gen : ∀ a, DependsOn g a m → Relation.ReflTransGen (StepBack g (some s)) a m := by
      intro a ham
      induction ham using Relation.ReflTransGen.head_induction_on with
      | refl => exact .refl
      | @head a d had hdm ih =>
        refine .head ⟨?_, had⟩ ih
        intro he
        obtain rfl : a = s := by simpa using he
        exact hac a (Relation.TransGen.head' had (hdm.trans h5))
    exact gen node h4
  have hsome : ∀ m, DependsOn g node m → (g.find? m).isSome := by
    intro m h
    cases h with
    | refl => exact hn
    | tail _ h => exact ht _ _ h
  have hfn : ∀ x, (g.find? x).isSome → ∃ l, fwdNext g c x = some l ∧ ∀ y, y ∈ l ↔ y ∈ c ∧ Uses g y x := by
    intro x hx
    obtain ⟨deps, h4, _, h5⟩ := nodeOutputs_spec hu hx
    refine ⟨(deps.filter (· ∈ c)).reverse, by unfold fwdNext; rw [h4], ?_⟩
    intro y
    rw [List.mem_reverse, List.mem_filter, h5, uses_iff hu]
    simp only [decide_eq_true_eq]
    exact and_comm
  have hcf : ∀ y ∈ c, (g.find? y).isSome := fun y hy => hsome y (stepBack_depends ((h2 y).1 hy))
  obtain ⟨r, h4, h5⟩ := walk_reach (fwdNext g c) (g.nodes.map (·.id)) (by
      intro x hx
      obtain ⟨l, hl, hl2⟩ := hfn x (mem_ids.1 hx)
      exact ⟨l, hl, fun y hy => mem_ids.2 (hcf y ((hl2 y).1 hy).1)⟩) g.edgeBound s (mem_ids.2 (hsome s hns)) (by
    have h6 := outCost_le (fwdNext g c) (g.nodes.map (·.id)) (fun _ => g.nodes.length) (by
      intro x hx
      unfold fwdNext
      unfold Graph.nodeOutputs
      obtain ⟨n, hfx⟩ := Option.isSome_iff_exists.1 (mem_ids.1 hx)
      rw [hfx]
      simp only [Option.getD_some, List.length_reverse]
      refine (List.length_filter_le _ _).trans ?_
      rw [List.length_map]
      exact List.length_filter_le _ _)
    have h7 : ((g.nodes.map (·.id)).map fun _ => g.nodes.length).sum = g.nodes.length * g.nodes.length := by
      rw [List.map_map]
      have : ∀ (l : List Node) (k : ℕ), (l.map ((fun _ => k) ∘ fun n => n.id)).sum = l.length * k := by
        intro l k
        induction l with
        | nil => simp
        | cons a as ih => simp only [List.map_cons, List.sum_cons, ih, Function.comp, List.length_cons, Nat.succ_mul]; omega
      exact this _ _
    rw [h7] at h6
    unfold Graph.edgeBound; omega)
  have h6 := onPathLoop_walk g c g.edgeBound [s] [] r h4
  refine ⟨r, true, by simp [h6], ?_, hreach⟩
  intro m
  rw [h5]
  constructor
  · intro h
    have : DependsOn g m s ∧ m ∈ c := by
      induction h with
      | refl => exact ⟨.refl, (h2 s).2 (stepBack_to_stop hns)⟩
      | @tail a d _ had ih =>
        obtain ⟨l, hl, hd⟩ := had
        obtain ⟨l', hl', hl2⟩ := hfn a (hcf a ih.2)
        rw [hl] at hl'
        obtain rfl := Option.some.inj hl'
        have := (hl2 d).1 hd
        exact ⟨.head this.2 ih.1, this.1⟩
    exact ⟨stepBack_depends ((h2 m).1 this.2), this.1⟩
  · rintro ⟨hnm, hms⟩
    induction hms using Relation.ReflTransGen.head_induction_on with
    | refl => exact .refl
    | @head a d had hds ih =>
      have hnd : DependsOn g node d := hnm.tail had
      obtain ⟨l, hl, hl2⟩ := hfn d (hsome d hnd)
      exact (ih hnd).tail ⟨l, hl, (hl2 a).2 ⟨hcol a hnm (.head had hds), had⟩⟩

/-- **C19.** `strict` without a bound is rejected. -/
theorem ancestors_strict_needs_stop (g : Graph) (node : ℕ) : ancestors g node none true = .error .valueError := rfl

/-! ### Concrete cases -/

example : diamond.Total := by
  intro n m h
  rw [uses_iff (by decide)] at h
  have hn : n ∈ diamond.nodes.map (·.id) := by
    by_contra hc
    have : diamond.find? n = none := by
      rw [← Option.not_isSome_iff_eq_none, ← mem_ids]; exact hc
    simp [Graph.ins, this] at h
  have : ∀ n ∈ diamond.nodes.map (·.id), ∀ m ∈ diamond.ins n, (diamond.find? m).isSome := by decide
  exact this n hn m h

example : ancestors diamond 3 = .ok ([1, 0, 2, 3], true) := by decide
example : ancestors diamond 3 (some 1) = .ok ([1, 0, 2, 3], true) := by decide
/-- Off-path node 2 is dropped, and so is node 0 before the bound. -/
example : ancestors diamond 3 (some 1) true = .ok ([3, 1], true) := by decide
example : ancestors diamond 1 (some 2) true = .ok ([], false) := by decide

end FF.Orch
