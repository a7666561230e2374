import Verif.Quant.Grad
import Verif.Quant.AffineLemmas

/-! # Property theorems about quantizer gradients (C13) -/

namespace FF.Quant

/-- Specification: on which side of the representable range a value falls after rounding. -/
inductive Side where
  | below | inside | above
  deriving DecidableEq

/-- Specification: side and rounding residue of a value. -/
def sideOf (s : ℚ) (o : Option ℚ) (n : ℕ) (x : ℚ) : Side :=
  if roundHE (x / s - inferOffset o) < intMin n then .below
  else if intMax n < roundHE (x / s - inferOffset o) then .above else .inside

def residue (s : ℚ) (o : Option ℚ) (x : ℚ) : ℚ := roundHE (x / s - inferOffset o) - (x / s - inferOffset o)

/-- Specification: the straight-through surrogate of the dequantized value, as a function of input `x`, scale `s` and
(integer-valued) offset `z`, with the side and the rounding residue `r` held constant. -/
def surrogate (side : Side) (r : ℚ) (n : ℕ) (x s z : ℚ) : ℚ :=
  match side with
  | .below => ((intMin n : ℚ) + z) * s
  | .above => ((intMax n : ℚ) + z) * s
  | .inside => ((x / s - z + r) + z) * s

theorem clipped_iff (s : ℚ) (o : Option ℚ) (n : ℕ) (x : ℚ) : clipped s o n x = true ↔ sideOf s o n x ≠ .inside := by
  unfold clipped sideOf
  split_ifs with h1 h2 <;> simp [h1] <;> omega

/-- **C13.** The surrogate agrees with the actual quantize-dequantize value at the point where side and residue are taken. -/
theorem surrogate_eq_value (s : ℚ) (hs : s ≠ 0) (o : Option ℚ) (n : ℕ) (x : ℚ) :
    ∃ c, quantizeScalar s o n x = some c ∧
      dequantizeScalar s o c = surrogate (sideOf s o n x) (residue s o x) n x s (inferOffset o) := by
  refine ⟨_, quantizeScalar_ne hs o n x, ?_⟩
  have hle := intMin_le_intMax n
  unfold dequantizeScalar sideOf residue
  split_ifs with h1 h2
  · have : clampZ (intMin n) (intMax n) (roundHE (x / s - inferOffset o)) = intMin n := by unfold clampZ; omega
    rw [this]; rfl
  · have : clampZ (intMin n) (intMax n) (roundHE (x / s - inferOffset o)) = intMax n := by unfold clampZ; omega
    rw [this]; rfl
  · rw [clampZ_of_mem (by omega) (by omega)]
    simp only [surrogate]; ring

/-- **C13.** Input gradient: exactly the slope of the surrogate in the input, times the incoming gradient: the incoming gradient
where the value is not clipped, zero where it is. -/
theorem grad_input_is_slope (s : ℚ) (hs : s ≠ 0) (o : Option ℚ) (n : ℕ) (x g δ : ℚ) :
    (surrogate (sideOf s o n x) (residue s o x) n (x + δ) s (inferOffset o)
      - surrogate (sideOf s o n x) (residue s o x) n x s (inferOffset o)) * g = gradInput s o n x g * δ
    ∧ gradInput s o n x g = if sideOf s o n x = .inside then g else 0 := by
  have hc := clipped_iff s o n x
  unfold gradInput
  cases hside : sideOf s o n x <;> simp only [hside] at hc
  · rw [if_pos (hc.2 (by simp))]; simp [surrogate]
  · rw [if_neg (by rw [hc]; simp)]
    refine ⟨?_, by simp⟩
    simp only [surrogate]; field_simp; ring
  · rw [if_pos (hc.2 (by simp))]; simp [surrogate]

/-- **C13.** Scale gradient: exactly the slope of the surrogate in the scale (for every non-zero perturbed scale). -/
theorem grad_scale_is_slope (s : ℚ) (hs : s ≠ 0) (o : Option ℚ) (n : ℕ) (x g δ : ℚ) (hδ : s + δ ≠ 0) :
    (surrogate (sideOf s o n x) (residue s o x) n x (s + δ) (inferOffset o)
      - surrogate (sideOf s o n x) (residue s o x) n x s (inferOffset o)) * g = gradScale s o n x g * δ := by
  have hc := clipped_iff s o n x
  unfold gradScale
  cases hside : sideOf s o n x <;> simp only [hside] at hc
  · have h1 : roundHE (x / s - inferOffset o) < intMin n := by
      unfold sideOf at hside; split_ifs at hside with h; exact h
    simp only [if_pos (hc.2 (by simp)), if_pos h1, surrogate]; ring
  · have hn : ¬ clipped s o n x = true := by rw [hc]; simp
    simp only [if_neg hn, surrogate, residue]
    field_simp; ring
  · have h1 : ¬ roundHE (x / s - inferOffset o) < intMin n := by
      unfold sideOf at hside; split_ifs at hside with h h'; exact h
    simp only [if_pos (hc.2 (by simp)), if_neg h1, surrogate]; ring

/-- **C13.** Offset gradient: exactly the slope of the surrogate in the offset. -/
theorem grad_offset_is_slope (s : ℚ) (o : Option ℚ) (n : ℕ) (x g δ : ℚ) :
    (surrogate (sideOf s o n x) (residue s o x) n x s (inferOffset o + δ)
      - surrogate (sideOf s o n x) (residue s o x) n x s (inferOffset o)) * g = gradOffset s o n x g * δ := by
  have hc := clipped_iff s o n x
  unfold gradOffset
  cases hside : sideOf s o n x <;> simp only [hside] at hc
  · rw [if_pos (hc.2 (by simp))]; simp only [surrogate]; ring
  · rw [if_neg (by rw [hc]; simp)]; simp only [surrogate]; ring
  · rw [if_pos (hc.2 (by simp))]; simp only [surrogate]; ring

/-- **C13.** Per tile: the scale (offset) gradient is the total slope, over all elements of the tile, of the surrogate loss
`Σ gᵢ · valueᵢ`; without an offset parameter there is no offset gradient. -/
theorem grad_row_is_total_slope (s : ℚ) (hs : s ≠ 0) (o : Option ℚ) (n : ℕ) (row : List (ℚ × ℚ)) (δ : ℚ) (hδ : s + δ ≠ 0) :
    (row.map fun p => (surrogate (sideOf s o n p.1) (residue s o p.1) n p.1 (s + δ) (inferOffset o)
        - surrogate (sideOf s o n p.1) (residue s o p.1) n p.1 s (inferOffset o)) * p.2).sum = (gradRow s o n row).2.1 * δ
    ∧ (o = none → (gradRow s o n row).2.2 = none)
    ∧ (∀ oo, o = some oo → ∃ d, (gradRow s o n row).2.2 = some d ∧
        ∀ ε, (row.map fun p => (surrogate (sideOf s o n p.1) (residue s o p.1) n p.1 s (inferOffset o + ε)
          - surrogate (sideOf s o n p.1) (residue s o p.1) n p.1 s (inferOffset o)) * p.2).sum = d * ε) := by
  refine ⟨?_, ?_, ?_⟩
  · simp only [gradRow]
    induction row with
    | nil => simp
    | cons p row ih =>
      simp only [List.map_cons, List.sum_cons, ih, grad_scale_is_slope s hs o n p.1 p.2 δ hδ]
      ring
  · rintro rfl; rfl
  · rintro oo rfl
    refine ⟨_, rfl, ?_⟩
    intro ε
    induction row with
    | nil => simp
    | cons p row ih =>
      simp only [List.map_cons, List.sum_cons, ih, grad_offset_is_slope s _ n p.1 p.2 ε]
      ring

/-- A concrete row with one element on each side: gradients for a 4-bit quantizer with scale 1/2 and offset 2. -/
example : gradRow (1 / 2) (some 2) 4 [(100, 1), (-100, 1), (13 / 10, 10)] = ([0, 0, 10], 9 + (-6) + (3 - 26 / 10) * 10, some 1) := by
  decide +kernel

end FF.Quant
