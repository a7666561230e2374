import Verif.Quant.AffineLemmas

/-! # Property theorems about affine quantization (C01–C07) -/

namespace FF.Quant

/-- **C01.** Quantizing any value with a non-zero scale gives an integer code in the signed `n`-bit range. -/
theorem quantize_code_in_range (s : ℚ) (hs : s ≠ 0) (o : Option ℚ) (n : ℕ) (x : ℚ) :
    ∃ c : ℤ, quantizeScalar s o n x = some c ∧ -(2 ^ (n - 1)) ≤ c ∧ c ≤ 2 ^ (n - 1) - 1 := by
  refine ⟨_, quantizeScalar_ne hs o n x, ?_⟩
  have := clampZ_mem (intMin_le_intMax n) (roundHE (x / s - inferOffset o))
  have e1 := intMin_pred_eq n
  have e2 := intMax_eq n
  omega

example : quantizeScalar (1 / 10) (some (5 / 2)) 4 (-3) = some (-8) ∧ ((1 : ℚ) / 10) ≠ 0 := by
  constructor
  · decide +kernel
  · norm_num

/-- **C01** (complement). The only value for which no code is produced is `0/0`: zero scale and zero data. -/
theorem quantize_fails_iff (s : ℚ) (o : Option ℚ) (n : ℕ) (x : ℚ) :
    quantizeScalar s o n x = none ↔ s = 0 ∧ x = 0 := by
  unfold quantizeScalar
  split_ifs <;> simp_all

example : quantizeScalar 0 none 8 0 = none := by decide +kernel

/-- **C02.** Inside the reported quantization range the reconstruction error is at most half a step.
This holds for non-integer offsets too, although quantization rounds the offset and the reported range does not. -/
theorem qdq_error_le_half_step (s : ℚ) (hs : 0 < s) (o : Option ℚ) (n : ℕ) (x : ℚ)
    (hlo : (quantizationRange s o n).1 ≤ x) (hhi : x ≤ (quantizationRange s o n).2) :
    ∃ c, quantizeScalar s o n x = some c ∧ |dequantizeScalar s o c - x| ≤ s / 2 := by
  refine ⟨_, quantizeScalar_ne hs.ne' o n x, ?_⟩
  rw [deq_sub s hs]
  have ho := abs_le.1 (inferOffset_err o)
  have h1 : (intMin n : ℚ) + o.getD 0 ≤ x / s := by
    rw [le_div_iff₀ hs]; simpa [quantizationRange] using hlo
  have h2 : x / s ≤ (intMax n : ℚ) + o.getD 0 := by
    rw [div_le_iff₀ hs]; simpa [quantizationRange] using hhi
  have h := clamp_round_err (intMin_le_intMax n) (v := x / s - inferOffset o)
    (by linarith [ho.2]) (by linarith [ho.1])
  nlinarith

example : (quantizationRange (1 / 2) (some (1 / 3)) 3).1 ≤ 1 ∧ (1 : ℚ) ≤ (quantizationRange (1 / 2) (some (1 / 3)) 3).2 := by
  decide +kernel

/-- **C02.** Below the reported range the smallest code is used. Its value is the reported lower end, up to the
rounding of the offset. -/
theorem qdq_saturates_below (s : ℚ) (hs : 0 < s) (o : Option ℚ) (n : ℕ) (x : ℚ)
    (hlo : x < (quantizationRange s o n).1) :
    quantizeScalar s o n x = some (-(2 ^ (n - 1)))
    ∧ |dequantizeScalar s o (-(2 ^ (n - 1))) - (quantizationRange s o n).1| ≤ s / 2
    ∧ (o.getD 0 = (inferOffset o : ℚ) → dequantizeScalar s o (-(2 ^ (n - 1))) = (quantizationRange s o n).1) := by
  have ho := abs_le.1 (inferOffset_err o)
  have h1 : x / s < (intMin n : ℚ) + o.getD 0 := by
    rw [div_lt_iff₀ hs]; simpa [quantizationRange] using hlo
  have e : dequantizeScalar s o (-(2 ^ (n - 1))) - (quantizationRange s o n).1
      = s * ((inferOffset o : ℚ) - o.getD 0) := by
    unfold dequantizeScalar quantizationRange intMin; push_cast; ring
  refine ⟨?_, ?_, ?_⟩
  · rw [quantizeScalar_ne hs.ne', ← intMin_pred_eq]
    have : roundHE (x / s - inferOffset o) ≤ intMin n := roundHE_le_of_lt (by linarith [ho.1])
    have h2 := intMin_le_intMax n
    congr 1
    unfold clampZ; omega
  · rw [e, abs_mul, abs_of_pos hs]
    nlinarith [inferOffset_err o]
  · intro h
    have : dequantizeScalar s o (-(2 ^ (n - 1))) - (quantizationRange s o n).1 = 0 := by
      rw [e, h]; ring
    linarith

example : (-100 : ℚ) < (quantizationRange (1 / 2) (some 3) 4).1 := by decide +kernel

/-- **C02.** Above the reported range the largest code is used. -/
theorem qdq_saturates_above (s : ℚ) (hs : 0 < s) (o : Option ℚ) (n : ℕ) (x : ℚ)
    (hhi : (quantizationRange s o n).2 < x) :
    quantizeScalar s o n x = some (2 ^ (n - 1) - 1)
    ∧ |dequantizeScalar s o (2 ^ (n - 1) - 1) - (quantizationRange s o n).2| ≤ s / 2
    ∧ (o.getD 0 = (inferOffset o : ℚ) → dequantizeScalar s o (2 ^ (n - 1) - 1) = (quantizationRange s o n).2) := by
  have ho := abs_le.1 (inferOffset_err o)
  have h1 : (intMax n : ℚ) + o.getD 0 < x / s := by
    rw [lt_div_iff₀ hs]; simpa [quantizationRange] using hhi
  have e : dequantizeScalar s o (2 ^ (n - 1) - 1) - (quantizationRange s o n).2
      = s * ((inferOffset o : ℚ) - o.getD 0) := by
    unfold dequantizeScalar quantizationRange intMax intMin; push_cast; ring
  refine ⟨?_, ?_, ?_⟩
  · rw [quantizeScalar_ne hs.ne', ← intMax_eq]
    have : intMax n ≤ roundHE (x / s - inferOffset o) := le_roundHE_of_lt (by linarith [ho.2])
    have h2 := intMin_le_intMax n
    congr 1
    unfold clampZ; omega
  · rw [e, abs_mul, abs_of_pos hs]
    nlinarith [inferOffset_err o]
  · intro h
    have : dequantizeScalar s o (2 ^ (n - 1) - 1) - (quantizationRange s o n).2 = 0 := by
      rw [e, h]; ring
    linarith

example : (quantizationRange (1 / 2) (some 3) 4).2 < 100 := by decide +kernel

/-- **C02** (optimality). The chosen code is a nearest representable one: no code of the `n`-bit range
dequantizes closer to the value. -/
theorem quantize_nearest (s : ℚ) (hs : 0 < s) (o : Option ℚ) (n : ℕ) (x : ℚ) :
    ∃ c, quantizeScalar s o n x = some c ∧
      ∀ k : ℤ, -(2 ^ (n - 1)) ≤ k → k ≤ 2 ^ (n - 1) - 1 →
        |dequantizeScalar s o c - x| ≤ |dequantizeScalar s o k - x| := by
  refine ⟨_, quantizeScalar_ne hs.ne' o n x, ?_⟩
  intro k h1 h2
  rw [deq_sub s hs, deq_sub s hs]
  rw [← intMin_pred_eq] at h1
  rw [← intMax_eq] at h2
  exact mul_le_mul_of_nonneg_left (clamp_round_nearest _ h1 h2) hs.le

example : quantizeScalar (1 / 4) none 8 (3 / 10) = some 1 := by decide +kernel

/-- **C03.** Quantizing the dequantized value of a code in range gives the code back, for every non-zero scale
(also negative ones). -/
theorem quantize_dequantize (s : ℚ) (hs : s ≠ 0) (o : Option ℚ) (n : ℕ) (c : ℤ)
    (h1 : -(2 ^ (n - 1)) ≤ c) (h2 : c ≤ 2 ^ (n - 1) - 1) :
    quantizeScalar s o n (dequantizeScalar s o c) = some c := by
  rw [quantizeScalar_ne hs]
  have : dequantizeScalar s o c / s - inferOffset o = ((c : ℤ) : ℚ) := by
    unfold dequantizeScalar; field_simp; ring
  rw [this, roundHE_intCast, clampZ_of_mem]
  · rwa [intMin_pred_eq]
  · rwa [intMax_eq]

example : quantizeScalar (-3 / 7) (some (9 / 2)) 4 (dequantizeScalar (-3 / 7) (some (9 / 2)) (-8)) = some (-8) := by
  decide +kernel

/-- **C03.** Quantize-dequantize is idempotent: quantizing the reconstructed value gives the same code. -/
theorem qdq_idempotent (s : ℚ) (hs : s ≠ 0) (o : Option ℚ) (n : ℕ) (x : ℚ) (c : ℤ)
    (h : quantizeScalar s o n x = some c) :
    quantizeScalar s o n (dequantizeScalar s o c) = some c := by
  obtain ⟨c', hc', h1, h2⟩ := quantize_code_in_range s hs o n x
  rw [h] at hc'
  obtain rfl := Option.some.inj hc'
  exact quantize_dequantize s hs o n c h1 h2

example : quantizeScalar (3 / 7) (some (9 / 2)) 4 2 = some 1 := by decide +kernel

/-- **C04.** With a positive scale quantization is monotone. -/
theorem quantize_monotone (s : ℚ) (hs : 0 < s) (o : Option ℚ) (n : ℕ) (x y : ℚ) (hxy : x ≤ y) (cx cy : ℤ)
    (hx : quantizeScalar s o n x = some cx) (hy : quantizeScalar s o n y = some cy) : cx ≤ cy := by
  rw [quantizeScalar_ne hs.ne'] at hx hy
  obtain rfl := Option.some.inj hx
  obtain rfl := Option.some.inj hy
  apply clampZ_mono
  apply roundHE_mono
  have : x / s ≤ y / s := div_le_div_of_nonneg_right hxy hs.le
  linarith

example : quantizeScalar (1 / 2) none 3 (-1) = some (-2) ∧ quantizeScalar (1 / 2) none 3 1 = some 2 := by
  decide +kernel

/-- **C04.** With a positive scale, comparing codes is comparing values (used by operations on raw codes). -/
theorem dequantize_lt_iff (s : ℚ) (hs : 0 < s) (o : Option ℚ) (a b : ℤ) :
    dequantizeScalar s o a < dequantizeScalar s o b ↔ a < b := by
  unfold dequantizeScalar
  rw [mul_lt_mul_iff_of_pos_right hs]
  constructor
  · intro h
    have : (a : ℚ) < b := by linarith
    exact_mod_cast this
  · intro h
    have : (a : ℚ) < b := by exact_mod_cast h
    linarith

/-- **C04.** With a negative scale the order of codes is the reverse of the order of values. -/
theorem dequantize_lt_iff_neg (s : ℚ) (hs : s < 0) (o : Option ℚ) (a b : ℤ) :
    dequantizeScalar s o a < dequantizeScalar s o b ↔ b < a := by
  unfold dequantizeScalar
  rw [mul_lt_mul_right_of_neg hs]
  constructor
  · intro h
    have : (b : ℚ) < a := by linarith
    exact_mod_cast this
  · intro h
    have : (b : ℚ) < a := by exact_mod_cast h
    linarith

/-- **C05.** Asymmetric range setting without the epsilon clamp reproduces the range exactly. -/
theorem asym_range_roundtrip (eps : ℚ) (he : 0 < eps) (n : ℕ) (hn : 1 ≤ n) (mn mx : ℚ)
    (h : eps ≤ (mx - mn) / (2 ^ n - 1)) :
    quantizationRange (asymScale eps n (mn, mx)) (some (asymOffset eps n (mn, mx))) n = (mn, mx) := by
  have hp := two_pow_sub_one_pos hn
  have hs := asymScale_pos he n (mn, mx)
  have hS : asymScale eps n (mn, mx) = (mx - mn) / (2 ^ n - 1) := max_eq_left h
  have hI : (intMax n : ℚ) - intMin n = 2 ^ n - 1 := by exact_mod_cast intMax_sub_intMin n hn
  unfold quantizationRange asymOffset
  simp only [Option.getD_some, Prod.mk.injEq]
  constructor
  · field_simp; ring
  · have : ((intMax n : ℚ) + (mn / asymScale eps n (mn, mx) - intMin n)) * asymScale eps n (mn, mx)
        = mn + ((intMax n : ℚ) - intMin n) * asymScale eps n (mn, mx) := by field_simp; ring
    rw [this, hI, hS]; field_simp; ring

example : ((1 : ℚ) / 1000) ≤ (3 - (-2)) / (2 ^ 8 - 1) := by norm_num

/-- **C05.** In every case (clamped or not) the range read back starts at `min` and contains `max`. -/
theorem asym_range_covers (eps : ℚ) (he : 0 < eps) (n : ℕ) (hn : 1 ≤ n) (mn mx : ℚ) :
    (quantizationRange (asymScale eps n (mn, mx)) (some (asymOffset eps n (mn, mx))) n).1 = mn ∧
    mx ≤ (quantizationRange (asymScale eps n (mn, mx)) (some (asymOffset eps n (mn, mx))) n).2 := by
  have hs := asymScale_pos he n (mn, mx)
  have hI : (intMax n : ℚ) - intMin n = 2 ^ n - 1 := by exact_mod_cast intMax_sub_intMin n hn
  unfold quantizationRange asymOffset
  simp only [Option.getD_some]
  constructor
  · field_simp; ring
  · have : ((intMax n : ℚ) + (mn / asymScale eps n (mn, mx) - intMin n)) * asymScale eps n (mn, mx)
        = mn + ((intMax n : ℚ) - intMin n) * asymScale eps n (mn, mx) := by field_simp; ring
    rw [this, hI]
    have := le_asymScale_mul (eps := eps) hn (mn, mx)
    simp only at this
    linarith

example : ¬ ((1 : ℚ) / 1000 ≤ (2 - 2) / (2 ^ 8 - 1)) ∧ (quantizationRange (asymScale (1 / 1000) 8 (2, 2))
    (some (asymOffset (1 / 1000) 8 (2, 2))) 8).1 = 2 := by
  constructor
  · norm_num
  · decide +kernel

/-- **C06 (partial).** Two-sided symmetric range setting, `n ≥ 2`: no offset, a finite non-negative scale whose range
contains `[min, max]`; the scale is zero exactly for the all-zero range. -/
theorem sym_range_covers_partial (eps : ℚ) (n : ℕ) (hn : 2 ≤ n) (allowOneSided : Bool) (rs : List (ℚ × ℚ))
    (h2 : allowOneSided = false ∨ ∃ r ∈ rs, r.1 < 0) (hne : rs ≠ []) :
    ∃ ss : List ℚ, parametersForRange eps n true allowOneSided rs = .ok (ss.map some, none)
      ∧ ss.length = rs.length
      ∧ ∀ (i : ℕ) (s : ℚ) (mn mx : ℚ), ss[i]? = some s → rs[i]? = some (mn, mx) →
        (quantizationRange s none n).1 ≤ mn ∧ mx ≤ (quantizationRange s none n).2
        ∧ 0 ≤ s ∧ (s = 0 ↔ mn = 0 ∧ mx = 0)
        ∧ (0 ≤ mx → mn ≤ mx → ∀ s', 0 ≤ s' → (quantizationRange s' none n).1 ≤ mn → mx ≤ (quantizationRange s' none n).2 →
            s ≤ s') := by
  have hlo : (0 : ℚ) < |(intMin n : ℚ)| := by
    have := intMin_neg n
    have : (intMin n : ℚ) ≤ -1 := by exact_mod_cast this
    rw [abs_of_neg (by linarith)]; linarith
  have hpow : (2 : ℤ) ≤ 2 ^ (n - 1) := by
    calc (2 : ℤ) = 2 ^ 1 := by norm_num
      _ ≤ 2 ^ (n - 1) := pow_le_pow_right₀ (by norm_num) (by omega)
  have hmaxi : (1 : ℤ) ≤ intMax n := by rw [intMax_eq]; omega
  have hmaxq : (1 : ℚ) ≤ (intMax n : ℚ) := by exact_mod_cast hmaxi
  have hminq : (intMin n : ℚ) = -((intMax n : ℚ) + 1) := by unfold intMax; push_cast; ring
  have hhi : (0 : ℚ) < |(intMax n : ℚ)| := by rw [abs_of_pos (by linarith)]; linarith
  let f : ℚ × ℚ → ℚ := fun r => max (|r.1| / |(intMin n : ℚ)|) (|r.2| / |(intMax n : ℚ)|)
  have hsym : ∀ r, symScale n r = some (f r) := by
    intro r
    simp [symScale, divF, maxF, hlo.ne', hhi.ne', f]
  refine ⟨rs.map f, ?_, by simp, ?_⟩
  · unfold parametersForRange
    obtain ⟨r0, rt, rfl⟩ : ∃ r0 rt, rs = r0 :: rt := by
      cases rs with
      | nil => exact absurd rfl hne
      | cons a t => exact ⟨a, t, rfl⟩
    have hone : (decide (0 ≤ (rt.map Prod.fst).foldl min r0.1) && allowOneSided) = false := by
      rcases h2 with h2 | ⟨r, hr, hneg⟩
      · simp [h2]
      · have hb := foldl_min_le (rt.map Prod.fst) r0.1
        have : (rt.map Prod.fst).foldl min r0.1 < 0 := by
          rcases List.mem_cons.1 hr with rfl | hr
          · linarith [hb.1]
          · linarith [hb.2 r.1 (List.mem_map_of_mem hr)]
        simp [this]
    simp only [List.map_cons, listMin]
    simp only [bind, Except.bind, hone, Bool.and_false, Bool.not_false, Bool.and_self, if_true, pure, Except.pure]
    simp [hsym]
  · intro i s mn mx hs hr
    have hsf : s = f (mn, mx) := by
      rw [List.getElem?_map, hr] at hs
      simpa using hs.symm
    have hf0 : 0 ≤ f (mn, mx) := le_trans (by positivity) (le_max_left _ _)
    have hf1 : |mn| ≤ f (mn, mx) * |(intMin n : ℚ)| := by
      have : |mn| / |(intMin n : ℚ)| ≤ f (mn, mx) := le_max_left _ _
      rwa [div_le_iff₀ hlo] at this
    have hf2 : |mx| ≤ f (mn, mx) * |(intMax n : ℚ)| := by
      have : |mx| / |(intMax n : ℚ)| ≤ f (mn, mx) := le_max_right _ _
      rwa [div_le_iff₀ hhi] at this
    have ea : |(intMin n : ℚ)| = -(intMin n : ℚ) := abs_of_neg (by linarith)
    have eb : |(intMax n : ℚ)| = (intMax n : ℚ) := abs_of_pos (by linarith)
    rw [ea] at hf1
    rw [eb] at hf2
    subst hsf
    refine ⟨?_, ?_, hf0, ?_, ?_⟩
    · simp only [quantizationRange, Option.getD_none, add_zero]
      have := neg_abs_le mn
      nlinarith
    · simp only [quantizationRange, Option.getD_none, add_zero]
      have := le_abs_self mx
      nlinarith
    · constructor
      · intro h
        rw [h] at hf1 hf2
        simp at hf1 hf2
        exact ⟨hf1, hf2⟩
      · rintro ⟨rfl, rfl⟩
        simp [f]
    · intro hmx hle s' hs' h1 h2
      simp only [quantizationRange, Option.getD_none, add_zero] at h1 h2
      apply max_le
      · rw [div_le_iff₀ hlo, ea, abs_le]
        constructor
        · linarith
        · have : mx ≤ s' * -(intMin n : ℚ) := by rw [hminq]; nlinarith
          linarith
      · rw [div_le_iff₀ hhi, eb]
        simp only
        rw [abs_of_nonneg hmx]
        linarith

example : parametersForRange (1 / 1000) 4 true false [(-8, 7), (-3, 14)] = .ok ([some 1, some 2], none) := by
  decide +kernel

/-- **C06**. One-sided symmetric range setting (all minima non-negative): the parameters are those of the asymmetric
range `[0, max]`, so the scale is positive and finite, the offset is the integer `2^(n-1)` and the represented range starts
at zero and contains `max`. -/
theorem sym_one_sided_covers (eps : ℚ) (he : 0 < eps) (n : ℕ) (hn : 1 ≤ n) (rs : List (ℚ × ℚ))
    (hpos : ∀ r ∈ rs, 0 ≤ r.1) (hne : rs ≠ []) :
    ∃ ss : List ℚ, parametersForRange eps n true true rs =
        .ok (ss.map some, some (ss.map fun _ => ((2 ^ (n - 1) : ℤ) : ℚ)))
      ∧ ss.length = rs.length
      ∧ ∀ (i : ℕ) (s mn mx : ℚ), ss[i]? = some s → rs[i]? = some (mn, mx) →
        0 < s ∧ (quantizationRange s (some ((2 ^ (n - 1) : ℤ) : ℚ)) n).1 = 0
        ∧ mx ≤ (quantizationRange s (some ((2 ^ (n - 1) : ℤ) : ℚ)) n).2 := by
  refine ⟨rs.map (fun r => asymScale eps n (0, r.2)), ?_, by simp, ?_⟩
  · unfold parametersForRange
    obtain ⟨r0, rt, rfl⟩ : ∃ r0 rt, rs = r0 :: rt := by
      cases rs with
      | nil => exact absurd rfl hne
      | cons a t => exact ⟨a, t, rfl⟩
    have hone : (decide (0 ≤ (rt.map Prod.fst).foldl min r0.1)) = true := by
      rw [decide_eq_true_iff]
      rcases foldl_min_mem (rt.map Prod.fst) r0.1 with h | h
      · rw [h]; exact hpos r0 (by simp)
      · obtain ⟨r, hr, hr'⟩ := List.mem_map.1 h
        rw [← hr']; exact hpos r (by simp [hr])
    have ho : ∀ x : ℚ, asymOffset eps n (0, x) = ((2 ^ (n - 1) : ℤ) : ℚ) := by
      intro x; simp [asymOffset, intMin]
    simp only [List.map_cons, listMin]
    simp only [bind, Except.bind, hone, Bool.and_true, Bool.not_true, Bool.and_false, if_true, pure, Except.pure,
      List.map_cons, List.map_map]
    simp [Function.comp_def, ho]
  · intro i s mn mx hs hr
    rw [List.getElem?_map, hr] at hs
    have hsf : asymScale eps n (0, mx) = s := by simpa using hs
    subst hsf
    have hp := asymScale_pos he n (0, mx)
    have hc := asym_range_covers eps he n hn 0 mx
    have ho : asymOffset eps n (0, mx) = ((2 ^ (n - 1) : ℤ) : ℚ) := by
      simp [asymOffset, intMin]
    rw [ho] at hc
    exact ⟨hp, hc.1, hc.2⟩

example : (∀ r ∈ [((0 : ℚ), (0 : ℚ)), (1, 5)], 0 ≤ r.1) ∧ [((0 : ℚ), (0 : ℚ)), (1, 5)] ≠ [] := by decide +kernel

/-- **C06, deviation.** The full property fails: the all-zero tensor with `allow_one_sided = False` gets scale zero for every
bit-width from 2 on, and quantizing its elements with that scale is `0/0`. -/
theorem sym_all_zero_unusable (eps : ℚ) (n : ℕ) (hn : 2 ≤ n) :
    parametersForRange eps n true false [(0, 0)] = .ok ([some 0], none)
    ∧ quantizeScalar 0 none n 0 = none := by
  refine ⟨?_, by simp [quantizeScalar]⟩
  obtain ⟨ss, h, hl, hp⟩ := sym_range_covers_partial eps n hn false [(0, 0)] (Or.inl rfl) (by simp)
  rw [h]
  match ss, hl with
  | [s], _ =>
    have := (hp 0 s 0 0 rfl rfl).2.2.2.1.2 ⟨rfl, rfl⟩
    rw [this]; rfl

/-- **C06, deviation.** With one bit no symmetric scale is finite: the positive scale divides by `2^0 - 1 = 0`. -/
theorem sym_one_bit_not_finite (eps : ℚ) (mn mx : ℚ) :
    parametersForRange eps 1 true false [(mn, mx)] = .ok ([none], none) := by
  simp [parametersForRange, listMin, bind, Except.bind, pure, Except.pure, symScale, divF, maxF, intMax, intMin]

theorem rowRange_mem (row : List ℚ) (x : ℚ) (hx : x ∈ row) : (rowRange row).1 ≤ x ∧ x ≤ (rowRange row).2 := by
  unfold rowRange
  exact ⟨(foldl_min_le row _).2 x hx, (le_foldl_max row _).2 x hx⟩

theorem rowRange_fst_mem (row : List ℚ) (h : row ≠ []) : (rowRange row).1 ∈ row ∧ (rowRange row).2 ∈ row := by
  unfold rowRange
  match row, h with
  | a :: t, _ =>
    constructor
    · rcases foldl_min_mem (a :: t) ((a :: t).headD 0) with h | h
      · simp only [h]; simp
      · exact h
    · rcases foldl_max_mem (a :: t) ((a :: t).headD 0) with h | h
      · simp only [h]; simp
      · exact h

/-- Parameters of the three usable modes cover the rows. -/
theorem dynamic_params (eps : ℚ) (he : 0 < eps) (n : ℕ) (hn : 1 ≤ n) (symmetric allowOneSided : Bool) (rows : List (List ℚ))
    (hne : rows ≠ []) (hrow : ∀ row ∈ rows, row ≠ [])
    (hmode : symmetric = false
     ∨ (allowOneSided = true ∧ ∀ row ∈ rows, ∀ x ∈ row, 0 ≤ x)
     ∨ (2 ≤ n ∧ (allowOneSided = false ∨ ∃ row ∈ rows, ∃ x ∈ row, x < 0) ∧ ∀ row ∈ rows, ∃ x ∈ row, x ≠ 0)) :
    ∃ ss os, parametersForRange eps n symmetric allowOneSided (rows.map rowRange) = .ok (ss, os) ∧
      ∀ (i : ℕ) row, rows[i]? = some row → ∃ s o, ss[i]? = some (some s) ∧ (os.getD (ss.map fun _ => 0))[i]? = some o ∧ 0 < s
        ∧ (quantizationRange s (some o) n).1 ≤ (rowRange row).1 ∧ (rowRange row).2 ≤ (quantizationRange s (some o) n).2 := by
  have hmap : rows.map rowRange ≠ [] := by simpa using hne
  -- asymmetric mode
  have hasym : symmetric = false → _ := fun hs : symmetric = false => by
    refine (⟨(rows.map rowRange).map (fun r => some (asymScale eps n r)), some ((rows.map rowRange).map (asymOffset eps n)), ?_, ?_⟩ :
      ∃ ss os, parametersForRange eps n symmetric allowOneSided (rows.map rowRange) = .ok (ss, os) ∧
      ∀ (i : ℕ) row, rows[i]? = some row → ∃ s o, ss[i]? = some (some s) ∧ (os.getD (ss.map fun _ => 0))[i]? = some o ∧ 0 < s
        ∧ (quantizationRange s (some o) n).1 ≤ (rowRange row).1 ∧ (rowRange row).2 ≤ (quantizationRange s (some o) n).2)
    · subst hs
      unfold parametersForRange
      match rows, hne with
      | a :: t, _ => simp [listMin, bind, Except.bind, pure, Except.pure]
    · intro i row hi
      have hc := asym_range_covers eps he n hn (rowRange row).1 (rowRange row).2
      exact ⟨asymScale eps n (rowRange row), asymOffset eps n (rowRange row), by simp [hi], by simp [hi],
        asymScale_pos he _ _, hc.1.le, hc.2⟩
  cases hsym : symmetric with
  | false => subst hsym; exact hasym rfl
  | true =>
    subst hsym
    rcases hmode with h | ⟨rfl, hpos⟩ | ⟨hn2, hneg, hnz⟩
    · simp at h
    · obtain ⟨ss, h1, h2, h3⟩ := sym_one_sided_covers eps he n hn (rows.map rowRange)
        (by
          intro r hr
          obtain ⟨row, hr1, rfl⟩ := List.mem_map.1 hr
          exact hpos row hr1 _ (rowRange_fst_mem row (hrow row hr1)).1) hmap
      refine ⟨_, _, h1, ?_⟩
      intro i row hi
      have hlt : i < ss.length := by
        rw [h2, List.length_map]
        exact (List.getElem?_eq_some_iff.1 hi).1
      have hmem := List.mem_of_getElem? hi
      obtain ⟨a, b, c⟩ := h3 i ss[i] (rowRange row).1 (rowRange row).2 (by simp [hlt]) (by simp [hi])
      refine ⟨ss[i], ((2 ^ (n - 1) : ℤ) : ℚ), by simp [hlt], by simp [hlt], a, ?_, c⟩
      rw [b]
      exact hpos row hmem _ (rowRange_fst_mem row (hrow row hmem)).1
    · obtain ⟨ss, h1, h2, h3⟩ := sym_range_covers_partial eps n hn2 allowOneSided (rows.map rowRange)
        (by
          rcases hneg with h | ⟨row, hr, x, hx, hx0⟩
          · exact Or.inl h
          · exact Or.inr ⟨rowRange row, List.mem_map_of_mem hr, lt_of_le_of_lt (rowRange_mem row x hx).1 hx0⟩) hmap
      refine ⟨_, _, h1, ?_⟩
      intro i row hi
      have hlt : i < ss.length := by
        rw [h2, List.length_map]
        exact (List.getElem?_eq_some_iff.1 hi).1
      have hmem := List.mem_of_getElem? hi
      obtain ⟨a, b, c, d, -⟩ := h3 i ss[i] (rowRange row).1 (rowRange row).2 (by simp [hlt]) (by simp [hi])
      have hs0 : ss[i] ≠ 0 := by
        intro h0
        obtain ⟨e1, e2⟩ := d.1 h0
        obtain ⟨x, hx, hx0⟩ := hnz row hmem
        have := rowRange_mem row x hx
        rw [e1, e2] at this
        exact hx0 (le_antisymm this.2 this.1)
      refine ⟨ss[i], 0, by simp [hlt], by simp [hlt], lt_of_le_of_ne c (Ne.symm hs0), ?_, ?_⟩
      · simpa [quantizationRange] using a
      · simpa [quantizationRange] using b

/-- Every mode of dynamic range setting that avoids the all-zero symmetric case yields positive finite scales whose range
contains the data range (used for C07). -/
def DynamicOk (n : ℕ) (symmetric allowOneSided : Bool) (rows : List (List ℚ)) : Prop :=
  1 ≤ n ∧ rows ≠ [] ∧ (∀ row ∈ rows, row ≠ []) ∧
  (symmetric = false                                                             -- asymmetric: no further condition
   ∨ (allowOneSided = true ∧ ∀ row ∈ rows, ∀ x ∈ row, 0 ≤ x)                       -- one-sided symmetric
   ∨ (2 ≤ n ∧ (allowOneSided = false ∨ ∃ row ∈ rows, ∃ x ∈ row, x < 0)             -- two-sided symmetric
        ∧ ∀ row ∈ rows, ∃ x ∈ row, x ≠ 0))

/-- **C07.** Dynamic quantization of non-empty tiles reconstructs every element within half a step of its tile's scale, for the
asymmetric, the one-sided symmetric and the two-sided symmetric mode (the latter for at least 2 bits and tiles that are not
all zero, cf. `sym_all_zero_unusable`). -/
theorem dynamic_half_step (eps : ℚ) (he : 0 < eps) (n : ℕ) (symmetric allowOneSided : Bool) (rows : List (List ℚ))
    (hok : DynamicOk n symmetric allowOneSided rows) :
    ∃ codes ss os, quantizeDynamicRows eps n symmetric allowOneSided rows = .ok (codes, ss, os) ∧
      ∀ (i j : ℕ) (row : List ℚ) (x : ℚ), rows[i]? = some row → row[j]? = some x →
        ∃ (s : ℚ) (o : ℤ) (crow : List (Option ℤ)) (c : ℤ), ss[i]? = some (some s) ∧ os[i]? = some o ∧ codes[i]? = some crow ∧
          crow[j]? = some (some c) ∧ 0 < s ∧ |dequantizeScalar s (some (o : ℚ)) c - x| ≤ s / 2 := by
  obtain ⟨hn, hne, hrow, hmode⟩ := hok
  obtain ⟨ss, os, hp, hcov⟩ := dynamic_params eps he n hn symmetric allowOneSided rows hne hrow hmode
  unfold quantizeDynamicRows
  have h1 : rows.any List.isEmpty = false := by
    rw [List.any_eq_false]; intro r hr; simp [hrow r hr]
  rw [if_neg (by simp [h1])]
  simp only [hp, bind, Except.bind, pure, Except.pure]
  generalize os.getD (ss.map fun _ => 0) = os' at hcov ⊢
  refine ⟨_, _, _, rfl, ?_⟩
  intro i j row x hi hj
  obtain ⟨s, o, hs, ho, hspos, hlo, hhi⟩ := hcov i row hi
  have hx := rowRange_mem row x (List.mem_of_getElem? hj)
  obtain ⟨c, hc, herr⟩ := qdq_error_le_half_step s hspos (some o) n x (le_trans hlo hx.1) (le_trans hx.2 hhi)
  have hr : inferOffset (some ((roundHE o : ℤ) : ℚ)) = inferOffset (some o) := by
    simp [inferOffset, roundHE_intCast]
  refine ⟨s, roundHE o, row.map (quantizeRowElem (some s) (roundHE o) n), c, ?_, ?_, ?_, ?_, hspos, ?_⟩
  · simp [hs]
  · simp [ho]
  · have hz : (ss.zip (os'.map roundHE))[i]? = some (some s, roundHE o) := by
      rw [List.getElem?_zip_eq_some]; simp [hs, ho]
    simp [List.getElem?_zipWith, hi, hz]
  · simp only [List.getElem?_map, hj, Option.map_some, quantizeRowElem, Option.some.injEq]
    rw [← hc]
    simp only [quantizeScalar, hr]
  · simp only [dequantizeScalar, hr]
    exact herr

example : DynamicOk 4 false true [[1, 2, 3], [-1, 5, 0]] := by
  unfold DynamicOk; decide +kernel

example : DynamicOk 4 true false [[1, 2, 3], [-1, 5, 0]] := by
  unfold DynamicOk; decide +kernel

/-- **C07** (error branch). An empty tile is rejected with a quantization error. -/
theorem dynamic_empty_rejected (eps : ℚ) (n : ℕ) (sym one : Bool) (rows : List (List ℚ)) (h : [] ∈ rows) :
    quantizeDynamicRows eps n sym one rows = .error .quantization := by
  unfold quantizeDynamicRows
  rw [if_pos]
  rw [List.any_eq_true]
  exact ⟨[], h, rfl⟩

end FF.Quant
