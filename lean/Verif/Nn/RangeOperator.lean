import Verif.Nn.LinearQuantizer

/-!
# The operator for a range

Models `LinearQuantizer.operator_for_range` (`src/fastforward/nn/linear_quantizer.py:280-297`), with which range setting tries out ranges, over the life of a quantizer
(`Verif.Nn.LinearQuantizer`).

Simplifications: those of `Verif.Nn.LinearQuantizer`.
-/

namespace FF.LinQ

open FF.Quant

/-! ## Model -/

/-- A vector with one entry stands for all tiles, `scale[:, None]` (`quantization/_quantizer_impl.py:161`). -/
def entry {α : Type} (l : List α) (i : ℕ) : Option α := match l with
  | [x] => some x
  | l => l[i]?

/-- `operator_for_range` (linear_quantizer.py:280-297), applied to an element `x` of the `i`-th tile, and dequantized: `none` if the operator cannot be made; within, `none` if there
is no such tile. -/
def Quantizer.operator (eps : ℚ) (q : Quantizer) (mins maxs : List ℚ) : Option (ℕ → ℚ → Option ℚ) :=
  match broadcast mins maxs with
  | none => none
  | some rs =>
    match parametersForRange eps q.bits q.symmetric q.allowOneSided rs with
    | .error _ => none
    | .ok (s, o) => some fun i x => do
      let s ← (← entry s i)
      let c ← quantizeScalar s (o.bind (entry · i)) q.bits x
      return dequantizeScalar s (o.bind (entry · i)) c

/-! ## Lemmas -/

theorem entry_eq {α : Type} (l : List α) (i : ℕ) : entry l i = at1 l i := by
  unfold entry at1
  match l with
  | [] => simp
  | [x] => simp
  | x :: y :: l => simp

theorem roundHE_zero : roundHE 0 = 0 := by
  unfold roundHE
  simp

/-- What holds over the life of a quantizer. -/
def Whole (q : Quantizer) : Prop := (q.scale = none ∨ ∃ n, Sized q n) ∧ (q.offset = .absent → q.allowOneSided = false)

theorem uninit_of_none {q : Quantizer} (h : q.scale = none) : q.uninitialized = true := by
  unfold Quantizer.uninitialized; rw [h]; rfl

theorem sized_after {q : Quantizer} {n : ℕ} {sc : List (Option ℚ)} {o : Option (List ℚ)} (hc : sc.length = n) (hf : (filled n o).isSome) :
    Sized { q with scale := some sc, offset := q.offset.withVals (filled n o) } n := by
  refine ⟨⟨sc, rfl, hc⟩, fun hne => ?_⟩
  obtain ⟨os, hos⟩ := Option.isSome_iff_exists.1 hf
  refine ⟨os, ?_, filled_length hos⟩
  dsimp only at hne ⊢
  rw [Slot.vals_withVals _ _ (fun h => hne (by rw [h]; rfl)), hos]

theorem whole_setRange {eps : ℚ} {q : Quantizer} (h : Whole q) (a b : List ℚ) : Whole (q.setRange eps a b).2 := by
  have main : ∀ (q : Quantizer) (n : ℕ), Sized q n → (q.offset = .absent → q.allowOneSided = false) → Whole (q.setRange eps a b).2 := by
    intro q n hs ha
    rcases setRange_sized eps hs a b with h | ⟨rs, s, o, sc, hb, hp, hc, hf, h⟩
    · rw [h]; exact ⟨.inr ⟨n, hs⟩, ha⟩
    · rw [h]
      exact ⟨.inr ⟨n, sized_after (copyInto_length hc) hf⟩, fun h => ha ((Slot.withVals_absent _ _).1 h)⟩
  obtain ⟨h1, h2⟩ := h
  rcases h1 with h1 | ⟨n, h1⟩
  · have hu := uninit_of_none h1
    rw [setRange_uninit eps hu]
    obtain ⟨-, h4, -, h5⟩ := initialize_const q a.length
    refine main _ _ (initialize_sized hu _) fun h => ?_
    rw [h4]
    rw [h] at h5
    exact h2 ((Slot.withVals_absent _ _).1 h5.symm)
  · exact main q n h1 h2

theorem whole_life (eps : ℚ) (bits : ℕ) (sym one : Bool) (ops : List Op) : Whole (life eps (new bits sym one) ops).2 := by
  induction ops with
  | nil =>
    refine ⟨.inl rfl, ?_⟩
    cases sym <;> cases one <;> simp [life, new]
  | cons op ops ih =>
    show Whole (((life eps (new bits sym one) ops).2).step eps op).2
    cases op with
    | set a b => exact whole_setRange ih a b
    | reset =>
      refine ⟨.inl rfl, fun h => ?_⟩
      have h' : (life eps (new bits sym one) ops).2.reset.offset = .absent := h
      rw [reset_eq] at h'
      exact ih.2 ((Slot.withVals_absent _ _).1 h')

theorem offset_same {s : ℚ} {n : ℕ} {x : ℚ} {o o' : Option ℚ} (h : inferOffset o = inferOffset o') :
    (do let c ← quantizeScalar s o n x; return dequantizeScalar s o c : Option ℚ) = (do let c ← quantizeScalar s o' n x; return dequantizeScalar s o' c) := by
  unfold quantizeScalar dequantizeScalar
  rw [h]

theorem after_set {eps : ℚ} {q : Quantizer} {n : ℕ} (hs : Sized q n) (ha : q.offset = .absent → q.allowOneSided = false) {a b : List ℚ} (h : (q.setRange eps a b).1 = true) :
    ∃ f, q.operator eps a b = some f ∧ ∀ i x, i < n → (q.setRange eps a b).2.quantDequant i x = f i x := by
  rcases setRange_sized eps hs a b with h' | ⟨rs, s, o, sc, hb, hp, hc, hf, h'⟩
  · rw [h'] at h; cases h
  · rw [h']
    have hop : q.operator eps a b = some fun i x => (do
        let s ← (← entry s i)
        let c ← quantizeScalar s (o.bind (entry · i)) q.bits x
        return dequantizeScalar s (o.bind (entry · i)) c) := by simp only [Quantizer.operator, hb, hp]
    refine ⟨_, hop, fun i x hi => ?_⟩
    have hz := sized_after (q := q) (copyInto_length hc) hf
    unfold Quantizer.quantDequant
    rw [hz.initialized]
    simp only [Bool.false_eq_true, if_false, Option.getD_some, copyInto_get hc hi, entry_eq]
    have ho : inferOffset (({ q with scale := some sc, offset := q.offset.withVals (filled n o) } : Quantizer).offsetAt i) = inferOffset (o.bind (at1 · i)) := by
      rw [offsetAt_eq]
      dsimp only
      by_cases hq : q.offset = .absent
      · rw [if_pos ((Slot.withVals_absent _ _).2 hq)]
        have hsym : q.symmetric = true := by unfold Quantizer.symmetric; rw [hq]
        rw [hsym, ha hq] at hp
        cases o with
        | none => rfl
        | some l => exact absurd rfl (params_two_sided hp l)
      · rw [if_neg fun k => hq ((Slot.withVals_absent _ _).1 k), Slot.vals_withVals _ _ hq]
        cases o with
        | none =>
          simp only [filled, Option.getD_some, Option.bind_none]
          rw [List.getElem?_replicate, if_pos hi]
          exact roundHE_zero
        | some l =>
          obtain ⟨os, hos⟩ := Option.isSome_iff_exists.1 hf
          rw [hos]
          simp only [filled] at hos
          simp only [Option.getD_some, Option.bind_some, copyInto_get hos hi]
    cases at1 s i with
    | none => rfl
    | some s' =>
      cases s' with
      | none => rfl
      | some s' => exact offset_same ho

/-! ## Properties -/

/-- **C150.** After any history, if a range can be set, the operator for it can be made before, and gives for every element of every tile what the quantizer gives after the range is set. -/
theorem operator_is_quantizer (eps : ℚ) (bits : ℕ) (sym one : Bool) (ops : List Op) (a b : List ℚ) (h : ((life eps (new bits sym one) ops).2.setRange eps a b).1 = true) :
    ∃ f sc, (life eps (new bits sym one) ops).2.operator eps a b = some f ∧ ((life eps (new bits sym one) ops).2.setRange eps a b).2.scale = some sc ∧
      ∀ i x, i < sc.length → ((life eps (new bits sym one) ops).2.setRange eps a b).2.quantDequant i x = f i x := by
  obtain ⟨h1, h2⟩ := whole_life eps bits sym one ops
  generalize (life eps (new bits sym one) ops).2 = q at *
  have key : ∀ (q : Quantizer) (n : ℕ), Sized q n → (q.setRange eps a b).1 = true → ∃ sc, (q.setRange eps a b).2.scale = some sc ∧ sc.length = n := by
    intro q n hs h
    rcases setRange_sized eps hs a b with h' | ⟨rs, s, o, sc, hb, hp, hc, hf, h'⟩
    · rw [h'] at h; cases h
    · exact ⟨sc, by rw [h'], copyInto_length hc⟩
  rcases h1 with h1 | ⟨n, h1⟩
  · have hu := uninit_of_none h1
    have hz := initialize_sized hu a.length
    obtain ⟨c1, c2, c3, c4⟩ := initialize_const q a.length
    rw [setRange_uninit eps hu] at h ⊢
    obtain ⟨f, hf, hx⟩ := after_set hz (fun k => by rw [c2]; rw [k] at c4; exact h2 ((Slot.withVals_absent _ _).1 c4.symm)) h
    obtain ⟨sc, hsc, hl⟩ := key _ _ hz h
    refine ⟨f, sc, ?_, hsc, fun i x hi => hx i x (by rwa [hl] at hi)⟩
    rw [← hf]
    unfold Quantizer.operator
    rw [c1, c2, c3]
  · obtain ⟨f, hf, hx⟩ := after_set h1 h2 h
    obtain ⟨sc, hsc, hl⟩ := key _ _ h1 h
    exact ⟨f, sc, hf, hsc, fun i x hi => hx i x (by rwa [hl] at hi)⟩

/-- **C150.** The operator depends on the range and on how the quantizer was made, not on ranges set before. -/
theorem operator_ignores_history (eps : ℚ) (bits : ℕ) (sym one : Bool) (ops : List Op) (a b : List ℚ) :
    (life eps (new bits sym one) ops).2.operator eps a b = (new bits sym one).operator eps a b := by
  have hc : ∀ ops, (life eps (new bits sym one) ops).2.bits = bits ∧ (life eps (new bits sym one) ops).2.allowOneSided = one ∧
      (life eps (new bits sym one) ops).2.symmetric = (new bits sym one).symmetric := by
    intro ops
    induction ops with
    | nil => exact ⟨rfl, rfl, rfl⟩
    | cons op ops ih =>
      have hw := whole_life eps bits sym one ops
      show (((life eps (new bits sym one) ops).2).step eps op).2.bits = bits ∧ (((life eps (new bits sym one) ops).2).step eps op).2.allowOneSided = one ∧
        (((life eps (new bits sym one) ops).2).step eps op).2.symmetric = (new bits sym one).symmetric
      obtain ⟨i1, i2, i3⟩ := ih
      generalize (life eps (new bits sym one) ops).2 = q at *
      cases op with
      | reset =>
        refine ⟨i1, i2, ?_⟩
        rw [← i3]
        show q.reset.symmetric = q.symmetric
        rw [reset_eq]
        exact symmetric_withVals q _ _
      | set c d =>
        have sized : ∀ (q : Quantizer) (n : ℕ), Sized q n → (q.setRange eps c d).2.bits = q.bits ∧ (q.setRange eps c d).2.allowOneSided = q.allowOneSided ∧
            (q.setRange eps c d).2.symmetric = q.symmetric := by
          intro q n hs
          rcases setRange_sized eps hs c d with h' | ⟨rs, s, o, sc, hb, hp, hc, hf, h'⟩
          · rw [h']; exact ⟨rfl, rfl, rfl⟩
          · rw [h']; exact ⟨rfl, rfl, symmetric_withVals q _ _⟩
        show (q.setRange eps c d).2.bits = bits ∧ (q.setRange eps c d).2.allowOneSided = one ∧ (q.setRange eps c d).2.symmetric = (new bits sym one).symmetric
        rcases hw.1 with h1 | ⟨n, h1⟩
        · have hu := uninit_of_none h1
          obtain ⟨c1, c2, c3, -⟩ := initialize_const q c.length
          rw [setRange_uninit eps hu]
          obtain ⟨d1, d2, d3⟩ := sized _ _ (initialize_sized hu c.length)
          exact ⟨d1.trans (c1.trans i1), d2.trans (c2.trans i2), d3.trans (c3.trans i3)⟩
        · obtain ⟨d1, d2, d3⟩ := sized _ _ h1
          exact ⟨d1.trans i1, d2.trans i2, d3.trans i3⟩
  obtain ⟨h1, h2, h3⟩ := hc ops
  unfold Quantizer.operator
  rw [h1, h2, h3]
  rfl

/-! ## Deviations -/

/-- **C150, deviation.** A range with one minimum for several maxima can be tried out with an operator, but not be set on a new quantizer. -/
theorem tried_but_not_set (eps : ℚ) (bits : ℕ) (sym one : Bool) (mn mx₁ mx₂ : ℚ) :
    ((new bits sym one).operator eps [mn] [mx₁, mx₂]).isSome = true ∧ ((new bits sym one).setRange eps [mn] [mx₁, mx₂]).1 = false := by
  refine ⟨?_, (wrong_size_sticks eps bits sym one mn mn mn mx₁ mx₂).1⟩
  unfold Quantizer.operator
  simp only [broadcast, List.length_cons, List.length_nil]
  cases sym <;> cases one <;> by_cases h : 0 ≤ mn <;>
    simp [parametersForRange, listMin, bind, Except.bind, pure, Except.pure, new, Quantizer.symmetric, h]

/-! ## Concrete cases -/

example : ((life (1 / 100) (new 8 true true) [.reset, .set [-1] [1]]).2.setRange (1 / 100) [-2, 0] [1, 3]).1 = true := by decide +kernel

end FF.LinQ
