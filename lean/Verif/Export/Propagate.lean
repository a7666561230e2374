import Mathlib.Data.List.Basic
import Mathlib.Logic.Relation
import Mathlib.Tactic.Common
import Mathlib.Tactic.Linarith

/-!
# Spreading quantization specifications through view operations

Models `PropagateFFQuantSpecs` in `export/stages/passes.py`.
-/

namespace FF.Propagate

variable {S : Type}

/-! ## Model -/

/-- An FX graph as far as the pass sees it: the nodes in order, and for view operations the first argument. -/
structure Graph where
  nodes : List ℕ
  view : ℕ → Option ℕ

/-- `node.meta[FF_QUANTIZATION_SPEC]` of every node. -/
abbrev Meta (S : Type) := ℕ → Option S

/-- `passes.py:96-112` `_annotate_same_input_output_quant_spec`: the new annotations and the nodes appended to the queue. -/
def visitView (m : Meta S) (output input : ℕ) : Meta S × List ℕ :=
  match m input, m output with
  | some _, some _ => (m, [])
  | none, none => (m, [])
  | some s, none => (Function.update m output (some s), [output])
  | none, some s => (Function.update m input (some s), [input])

/-- The body of the loop at `passes.py:88-92`. -/
def visit (g : Graph) (m : Meta S) (node : ℕ) : Meta S × List ℕ :=
  match g.view node with
  | some input => visitView m node input
  | none => (m, [])

/-- The loop at `passes.py:88-92`, at most `fuel` rounds: the annotations and the remaining queue. -/
def loop (g : Graph) : ℕ → List ℕ → Meta S → Meta S × List ℕ
  | 0, queue, m => (m, queue)
  | _ + 1, [], m => (m, [])
  | fuel + 1, node :: queue, m => loop g fuel (queue ++ (visit g m node).2) (visit g m node).1

/-- `passes.py:76-94` `PropagateFFQuantSpecs.__call__`, with enough rounds (`propagation_terminates`). -/
def propagate (g : Graph) (m : Meta S) : Meta S := (loop g (2 * g.nodes.length) g.nodes m).1

/-! ## Specification -/

/-- `Up g x y`: `y` is `x`, or what `x` is a view of, or what that is a view of, and so on. -/
def Up (g : Graph) : ℕ → ℕ → Prop := Relation.ReflTransGen (fun x y => g.view x = some y)

/-- Connected through view operations, in either direction. -/
def Connected (g : Graph) : ℕ → ℕ → Prop := Relation.ReflTransGen (fun x y => g.view x = some y ∨ g.view y = some x)

/-- The nodes are in an order in which what is viewed comes before the view. -/
def Ordered (g : Graph) : Prop :=
  ∀ (pre post : List ℕ) (v x : ℕ), g.nodes = pre ++ v :: post → g.view v = some x → x ∈ pre

/-- Whatever is viewed is a node of the graph. -/
def Closed (g : Graph) : Prop := ∀ v ∈ g.nodes, ∀ x, g.view v = some x → x ∈ g.nodes

/-! ## Lemmas -/

theorem Ordered.closed {g : Graph} (h : Ordered g) : Closed g := by
  intro v hv x hx
  obtain ⟨pre, post, hp⟩ := List.append_of_mem hv
  rw [hp]
  exact List.mem_append_left _ (h pre post v x hp hx)

/-- What one round can do. -/
theorem visit_cases (g : Graph) (m : Meta S) (v : ℕ) :
    (visit g m v = (m, []) ∧ ∀ x, g.view v = some x → ((m x).isSome ↔ (m v).isSome))
    ∨ (∃ x s, g.view v = some x ∧ m x = some s ∧ m v = none ∧ visit g m v = (Function.update m v (some s), [v]))
    ∨ (∃ x s, g.view v = some x ∧ m x = none ∧ m v = some s ∧ visit g m v = (Function.update m x (some s), [x])) := by
  unfold visit
  cases hv : g.view v with
  | none => exact .inl ⟨rfl, by simp⟩
  | some x =>
    simp only [visitView]
    cases hx : m x with
    | none =>
      cases ho : m v with
      | none => left; exact ⟨rfl, by intro y hy; cases hy; simp [hx]⟩
      | some s => right; right; exact ⟨x, s, rfl, hx, rfl, rfl⟩
    | some t =>
      cases ho : m v with
      | none => right; left; exact ⟨x, t, rfl, hx, rfl, rfl⟩
      | some s => left; exact ⟨rfl, by intro y hy; cases hy; simp [hx]⟩

theorem visit_mono (g : Graph) (m : Meta S) (v w : ℕ) (s : S) (h : m w = some s) : (visit g m v).1 w = some s := by
  rcases visit_cases g m v with ⟨h1, -⟩ | ⟨x, t, -, -, h2, h3⟩ | ⟨x, t, -, h2, -, h3⟩
  · rw [h1]; exact h
  · rw [h3]
    by_cases hw : w = v
    · subst hw; rw [h2] at h; cases h
    · simp [Function.update_of_ne hw, h]
  · rw [h3]
    by_cases hw : w = x
    · subst hw; rw [h2] at h; cases h
    · simp [Function.update_of_ne hw, h]

theorem loop_mono (g : Graph) (fuel : ℕ) (q : List ℕ) (m : Meta S) (w : ℕ) (s : S) (h : m w = some s) :
    (loop g fuel q m).1 w = some s := by
  induction fuel generalizing q m with
  | zero => exact h
  | succ fuel ih =>
    cases q with
    | nil => exact h
    | cons v q => exact ih _ _ (visit_mono g m v w s h)

/-- Number of nodes without annotation. -/
def missing (g : Graph) (m : Meta S) : ℕ := (g.nodes.filter (fun v => (m v).isNone)).length

theorem filter_lt {l : List ℕ} {p q : ℕ → Bool} (hpq : ∀ x, q x = true → p x = true) {a : ℕ} (ha : a ∈ l) (hp : p a = true)
    (hq : q a = false) : (l.filter q).length < (l.filter p).length := by
  induction l with
  | nil => cases ha
  | cons b l ih =>
    have hle : (l.filter q).length ≤ (l.filter p).length := by
      rw [← List.countP_eq_length_filter, ← List.countP_eq_length_filter]
      exact List.countP_mono_left (fun x _ => hpq x)
    rcases List.mem_cons.1 ha with rfl | ha
    · simp only [List.filter_cons, hp, hq, if_true, Bool.false_eq_true, if_false, List.length_cons]; omega
    · have := ih ha
      by_cases hb : q b = true
      · simp only [List.filter_cons, hb, hpq b hb, if_true, List.length_cons]; omega
      · simp only [List.filter_cons, hb, if_false, Bool.false_eq_true]
        split
        · simp only [List.length_cons]; omega
        · exact this

theorem missing_update (g : Graph) (m : Meta S) {x : ℕ} (hx : x ∈ g.nodes) (s : S) (h : m x = none) :
    missing g (Function.update m x (some s)) < missing g m := by
  refine filter_lt ?_ hx (by simp [h]) (by simp)
  intro y hy
  by_cases hyx : y = x
  · subst hyx; simp [h]
  · simpa [Function.update_of_ne hyx] using hy

theorem visit_measure (g : Graph) (hc : Closed g) (m : Meta S) (v : ℕ) (hv : v ∈ g.nodes) :
    (visit g m v).2.length + missing g (visit g m v).1 ≤ missing g m ∧ ∀ x ∈ (visit g m v).2, x ∈ g.nodes := by
  rcases visit_cases g m v with ⟨h1, -⟩ | ⟨x, t, -, -, h2, h3⟩ | ⟨x, t, h1, h2, -, h3⟩
  · rw [h1]; simp
  · rw [h3]
    have := missing_update g m hv t h2
    exact ⟨by simp only [List.length_singleton]; omega, by simpa using hv⟩
  · rw [h3]
    have hx := hc v hv x h1
    have := missing_update g m hx t h2
    exact ⟨by simp only [List.length_singleton]; omega, by simpa using hx⟩

theorem loop_ends (g : Graph) (hc : Closed g) (fuel : ℕ) (q : List ℕ) (m : Meta S) (hq : ∀ x ∈ q, x ∈ g.nodes)
    (hf : q.length + missing g m ≤ fuel) : (loop g fuel q m).2 = [] := by
  induction fuel generalizing q m with
  | zero =>
    have : q = [] := List.length_eq_zero_iff.1 (by omega)
    subst this; rfl
  | succ fuel ih =>
    cases q with
    | nil => rfl
    | cons v q =>
      obtain ⟨h1, h2⟩ := visit_measure g hc m v (hq v (by simp))
      refine ih _ _ ?_ ?_
      · intro x hx
        rcases List.mem_append.1 hx with hx | hx
        · exact hq x (by simp [hx])
        · exact h2 x hx
      · simp only [List.length_append, List.length_cons] at hf ⊢; omega

theorem missing_le (g : Graph) (m : Meta S) : missing g m ≤ g.nodes.length := List.length_filter_le _ _

/-- Every annotated view is waiting, or what it views is annotated. -/
def Inputs (g : Graph) (q : List ℕ) (m : Meta S) : Prop :=
  ∀ v ∈ g.nodes, (m v).isSome → ∀ x, g.view v = some x → v ∈ q ∨ (m x).isSome

theorem inputs_visit (g : Graph) (m : Meta S) (v : ℕ) (q : List ℕ) (h : Inputs g (v :: q) m) :
    Inputs g (q ++ (visit g m v).2) (visit g m v).1 := by
  intro w hw hm x hx
  rcases visit_cases g m v with ⟨h1, h2⟩ | ⟨y, s, h1, h2, h3, h4⟩ | ⟨y, s, h1, h2, h3, h4⟩
  · rw [h1] at hm ⊢
    rcases h w hw hm x hx with h3 | h3
    · rcases List.mem_cons.1 h3 with rfl | h3
      · exact .inr ((h2 x hx).2 hm)
      · exact .inl (by simp [h3])
    · exact .inr h3
  · rw [h4] at hm ⊢
    by_cases hwv : w = v
    · exact .inl (by simp [hwv])
    · simp only [Function.update_of_ne hwv] at hm
      rcases h w hw hm x hx with h5 | h5
      · rcases List.mem_cons.1 h5 with h5 | h5
        · exact absurd h5 hwv
        · exact .inl (by simp [h5])
      · right
        by_cases hxv : x = v
        · simp [hxv]
        · simpa [Function.update_of_ne hxv] using h5
  · rw [h4] at hm ⊢
    by_cases hwy : w = y
    · exact .inl (by simp [hwy])
    · simp only [Function.update_of_ne hwy] at hm
      rcases h w hw hm x hx with h5 | h5
      · rcases List.mem_cons.1 h5 with h5 | h5
        · subst h5
          rw [h1] at hx; cases hx
          exact .inr (by simp)
        · exact .inl (by simp [h5])
      · right
        by_cases hxy : x = y
        · simp [hxy]
        · simpa [Function.update_of_ne hxy] using h5

theorem inputs_loop (g : Graph) (fuel : ℕ) (q : List ℕ) (m : Meta S) (h : Inputs g q m) :
    Inputs g (loop g fuel q m).2 (loop g fuel q m).1 := by
  induction fuel generalizing q m with
  | zero => exact h
  | succ fuel ih =>
    cases q with
    | nil => exact h
    | cons v q => exact ih _ _ (inputs_visit g m v q h)

/-- Every annotation comes from an initial annotation along views. -/
def Sound (g : Graph) (m0 m : Meta S) : Prop := ∀ w s, m w = some s → ∃ a, m0 a = some s ∧ Connected g a w

theorem sound_visit (g : Graph) (m0 m : Meta S) (v : ℕ) (h : Sound g m0 m) : Sound g m0 (visit g m v).1 := by
  intro w s hw
  rcases visit_cases g m v with ⟨h1, -⟩ | ⟨y, t, h1, h2, h3, h4⟩ | ⟨y, t, h1, h2, h3, h4⟩
  · rw [h1] at hw; exact h w s hw
  · rw [h4] at hw
    by_cases hwv : w = v
    · subst hwv
      simp only [Function.update_self, Option.some.injEq] at hw
      subst hw
      obtain ⟨a, ha, hc⟩ := h y t h2
      exact ⟨a, ha, hc.tail (.inr h1)⟩
    · simp only [Function.update_of_ne hwv] at hw
      exact h w s hw
  · rw [h4] at hw
    by_cases hwy : w = y
    · subst hwy
      simp only [Function.update_self, Option.some.injEq] at hw
      subst hw
      obtain ⟨a, ha, hc⟩ := h v t h3
      exact ⟨a, ha, hc.tail (.inl h1)⟩
    · simp only [Function.update_of_ne hwy] at hw
      exact h w s hw

theorem sound_loop (g : Graph) (m0 : Meta S) (fuel : ℕ) (q : List ℕ) (m : Meta S) (h : Sound g m0 m) :
    Sound g m0 (loop g fuel q m).1 := by
  induction fuel generalizing q m with
  | zero => exact h
  | succ fuel ih =>
    cases q with
    | nil => exact h
    | cons v q => exact ih _ _ (sound_visit g m0 m v h)

/-- The first pass over the nodes: below an initially annotated node everything visited is annotated. -/
theorem first_pass (g : Graph) (ho : Ordered g) (m0 : Meta S) (rest : List ℕ) : ∀ (pre extra : List ℕ) (m : Meta S) (fuel : ℕ),
    g.nodes = pre ++ rest → rest.length ≤ fuel →
    (∀ w s, m0 w = some s → m w = some s) →
    (∀ w ∈ pre, ∀ a, (m0 a).isSome → Up g w a → (m w).isSome) →
    ∀ w ∈ g.nodes, ∀ a, (m0 a).isSome → Up g w a → ((loop g fuel (rest ++ extra) m).1 w).isSome := by
  induction rest with
  | nil =>
    intro pre extra m fuel hn _ h0 hp w hw a ha hu
    rw [hn, List.append_nil] at hw
    obtain ⟨s, hs⟩ := Option.isSome_iff_exists.1 (hp w hw a ha hu)
    rw [loop_mono g fuel _ m w s hs]; rfl
  | cons v rest ih =>
    intro pre extra m fuel hn hf h0 hp
    cases fuel with
    | zero => simp at hf
    | succ fuel =>
      have hstep : loop g (fuel + 1) (v :: rest ++ extra) m
          = loop g fuel (rest ++ (extra ++ (visit g m v).2)) (visit g m v).1 := by
        show loop g fuel ((rest ++ extra) ++ (visit g m v).2) _ = _
        rw [List.append_assoc]
      rw [hstep]
      refine ih (pre ++ [v]) _ _ fuel (by simp [hn]) (by simpa using hf) ?_ ?_
      · intro w s hw; exact visit_mono g m v w s (h0 w s hw)
      · intro w hw a ha hu
        rcases List.mem_append.1 hw with hw | hw
        · obtain ⟨s, hs⟩ := Option.isSome_iff_exists.1 (hp w hw a ha hu)
          rw [visit_mono g m v w s hs]; rfl
        · simp only [List.mem_singleton] at hw
          subst hw
          rcases Relation.ReflTransGen.cases_head hu with rfl | ⟨x, hx, hu⟩
          · obtain ⟨s, hs⟩ := Option.isSome_iff_exists.1 ha
            rw [visit_mono g m w w s (h0 w s hs)]; rfl
          · have hxp := ho pre rest w x hn hx
            have hxs := hp x hxp a ha hu
            obtain ⟨s, hs⟩ := Option.isSome_iff_exists.1 hxs
            rcases visit_cases g m w with ⟨h1, h2⟩ | ⟨y, t, h1, h2, h3, h4⟩ | ⟨y, t, h1, h2, h3, h4⟩
            · rw [h1]; exact (h2 x hx).1 hxs
            · rw [h4]; simp
            · rw [h1] at hx; cases hx; rw [h2] at hs; cases hs

theorem connected_common (g : Graph) {a w : ℕ} (h : Connected g a w) : ∃ l, Up g a l ∧ Up g w l := by
  induction h with
  | refl => exact ⟨a, .refl, .refl⟩
  | tail _ hbc ih =>
    obtain ⟨l, h1, h2⟩ := ih
    rename_i b c _
    rcases hbc with hbc | hbc
    · rcases Relation.ReflTransGen.cases_head h2 with rfl | ⟨x, hx, h3⟩
      · exact ⟨c, h1.tail hbc, .refl⟩
      · rw [hbc] at hx; cases hx
        exact ⟨l, h1, h3⟩
    · exact ⟨l, h1, h2.head hbc⟩

theorem common_cases (g : Graph) {a l : ℕ} (h : Up g a l) : ∀ {w}, Up g w l →
    Up g a w ∨ Up g w a ∨ ∃ b c m, g.view b = some m ∧ g.view c = some m ∧ b ≠ c ∧ Up g w c := by
  induction h with
  | refl => intro w hw; exact .inr (.inl hw)
  | tail hab hbl ih =>
    rename_i b l'
    intro w hw
    rcases Relation.ReflTransGen.cases_tail hw with h | ⟨c, hc, hcl⟩
    · subst h; exact .inl (hab.tail hbl)
    · by_cases hbc : b = c
      · subst hbc; exact ih hc
      · exact .inr (.inr ⟨b, c, _, hbl, hcl, hbc, hc⟩)

/-! ## Properties -/

/-- **C58.** The pass terminates: after `2 * n` rounds on a graph of `n` nodes the queue is empty. -/
theorem propagation_terminates (g : Graph) (hc : Closed g) (m : Meta S) : (loop g (2 * g.nodes.length) g.nodes m).2 = [] :=
  loop_ends g hc _ _ m (fun _ h => h) (by have := missing_le g m; omega)

/-- **C58.** An annotation is never overwritten. -/
theorem annotations_kept (g : Graph) (m : Meta S) (w : ℕ) (s : S) (h : m w = some s) : propagate g m w = some s :=
  loop_mono g _ _ m w s h

/-- **C58.** Annotations spread along view operations only: whatever is annotated in the end is connected through views to a node
that had the same annotation in the beginning. -/
theorem spreads_along_views_only (g : Graph) (m : Meta S) (w : ℕ) (s : S) (h : propagate g m w = some s) :
    ∃ a, m a = some s ∧ Connected g a w :=
  sound_loop g m _ _ m (fun w _ h => ⟨w, h, .refl⟩) w s h

/-- **C58.** What an annotated node is a view of is annotated, and what that is a view of, and so on. -/
theorem spreads_to_viewed (g : Graph) (hc : Closed g) (m : Meta S) (v x : ℕ) (hv : v ∈ g.nodes) (h : (propagate g m v).isSome)
    (hu : Up g v x) : (propagate g m x).isSome ∧ x ∈ g.nodes := by
  have hI : Inputs g [] (propagate g m) := by
    have := inputs_loop g (2 * g.nodes.length) g.nodes m (fun v hv _ x _ => .inl hv)
    rw [propagation_terminates g hc m] at this
    exact this
  induction hu with
  | refl => exact ⟨h, hv⟩
  | tail _ hbc ih =>
    obtain ⟨h1, h2⟩ := ih
    refine ⟨?_, hc _ h2 _ hbc⟩
    rcases hI _ h2 h1 _ hbc with h3 | h3
    · cases h3
    · exact h3

/-- **C58.** Views of an initially annotated node, views of those, and so on, are annotated. -/
theorem spreads_to_views (g : Graph) (ho : Ordered g) (m : Meta S) (w a : ℕ) (hw : w ∈ g.nodes) (ha : (m a).isSome)
    (hu : Up g w a) : (propagate g m w).isSome := by
  have := first_pass g ho m g.nodes [] [] m (2 * g.nodes.length) rfl (by omega) (fun _ _ h => h) (by simp) w hw a ha hu
  rwa [List.append_nil] at this

/-- **C58 (partial).** A node is annotated in the end iff it is connected through views to an initially annotated node. This is
proved for graphs where every node with two views on it is initially annotated, or is a view (of a view …) of an
initially annotated node. Without the guard it is false: `sibling_view_missed`. -/
theorem propagation_exact_partial (g : Graph) (ho : Ordered g) (m : Meta S)
    (hin : ∀ a, (m a).isSome → a ∈ g.nodes)
    (hbranch : ∀ b c x, g.view b = some x → g.view c = some x → b ≠ c → ∃ a, (m a).isSome ∧ Up g x a)
    (w : ℕ) (hw : w ∈ g.nodes) :
    (propagate g m w).isSome ↔ ∃ a, (m a).isSome ∧ Connected g a w := by
  constructor
  · intro h
    obtain ⟨s, hs⟩ := Option.isSome_iff_exists.1 h
    obtain ⟨a, ha, hc⟩ := spreads_along_views_only g m w s hs
    exact ⟨a, by rw [ha]; rfl, hc⟩
  · rintro ⟨a, ha, hc⟩
    obtain ⟨l, h1, h2⟩ := connected_common g hc
    rcases common_cases g h1 h2 with h3 | h3 | ⟨b, c, x, h3, h4, h5, h6⟩
    · have : (propagate g m a).isSome := by
        obtain ⟨s, hs⟩ := Option.isSome_iff_exists.1 ha
        rw [annotations_kept g m a s hs]; rfl
      exact (spreads_to_viewed g ho.closed m a w (hin a ha) this h3).1
    · exact spreads_to_views g ho m w a hw ha h3
    · obtain ⟨p, hp, hup⟩ := hbranch b c x h3 h4 h5
      exact spreads_to_views g ho m w p hw hp ((h6.tail h4).trans hup)

/-- Node 0 with two views, 1 and 2. -/
def siblings : Graph := ⟨[0, 1, 2], fun v => if v = 1 ∨ v = 2 then some 0 else none⟩

/-- **C58, deviation.** Two views of one tensor, the second one quantized: the tensor is annotated, the first view is not, although
it is connected (and would be annotated if the pass ran again). -/
theorem sibling_view_missed :
    let m : Meta ℕ := fun v => if v = 2 then some 7 else none
    propagate siblings m 0 = some 7 ∧ propagate siblings m 1 = none ∧ propagate siblings (propagate siblings m) 1 = some 7 := by
  decide

/-! ## Concrete cases -/

/-- `0 ← 1 ← 2 ← 3`, and 4 is unrelated. -/
def chain : Graph := ⟨[0, 1, 2, 3, 4], fun v => if 1 ≤ v ∧ v ≤ 3 then some (v - 1) else none⟩

example : (List.range 5).map (propagate chain (fun v => if v = 2 then some 7 else none))
    = [some 7, some 7, some 7, some 7, none] := by decide

example : Ordered chain := by
  intro pre post v x hp hx
  have hv : 1 ≤ v ∧ v ≤ 3 := by
    by_contra h
    simp only [chain, if_neg h] at hx
    cases hx
  have hx' : x = v - 1 := by
    simp only [chain, if_pos hv, Option.some.injEq] at hx
    exact hx.symm
  have hlen := congrArg List.length hp
  have hv2 : chain.nodes[pre.length]? = some v := by rw [hp]; simp
  have hx2 : ∀ k : ℕ, chain.nodes[k]? = some x → k < pre.length → x ∈ pre := by
    intro k hk hlt
    rw [hp, List.getElem?_append_left hlt] at hk
    exact List.mem_of_getElem? hk
  have hpl : pre.length = v := by
    have : ∀ k u : ℕ, chain.nodes[k]? = some u → k = u := by
      intro k u hk
      match k with
      | 0 | 1 | 2 | 3 | 4 => simpa [chain] using hk
      | k + 5 => simp [chain] at hk
    exact this _ _ hv2
  refine hx2 (v - 1) ?_ (by omega)
  rw [hx']
  obtain ⟨h1, h2⟩ := hv
  match v, h1, h2 with
  | 1, _, _ | 2, _, _ | 3, _, _ => rfl

example : ∀ b c x, chain.view b = some x → chain.view c = some x → b ≠ c → False := by
  intro b c x hb hc hbc
  simp only [chain] at hb hc
  split at hb <;> split at hc <;> simp_all
  omega

end FF.Propagate
