import Mathlib.Analysis.Real.Sqrt
import Mathlib.Algebra.BigOperators.Intervals
import Mathlib.Algebra.BigOperators.Ring.Finset
import Mathlib.Algebra.Order.BigOperators.Ring.Finset
import Mathlib.Tactic.Linarith
import Mathlib.Tactic.Ring
import Mathlib.Tactic.FieldSimp

/-!
# GPTQ: the Hessian

Models `calculate_hessian` (`quantization/gptq.py:280-315`) and the dampening of `invert_hessian` (`gptq.py:373-375`). Numbers are exact
reals (floats in the code), because the activations are multiplied by a square root.
-/

namespace FF.Hessian

open Finset

/-! ## Model -/

/-- A matrix over features. -/
abbrev Mat := ℕ → ℕ → ℝ

/-- One sample: the value of each feature. -/
abbrev Sample := ℕ → ℝ

/-- A batch of activations as a list of samples (the columns of `x` after `flatten_input`, `gptq.py:304`). `shared`: `x` is a view of the
caller's tensor, which is the case for a linear layer whose activations are contiguous, of type float32 and on the device of the layer: then
`to`, `reshape` and `transpose` copy nothing. Simplification: one tensor occurs once in a dataset. -/
structure Batch where
  shared : Bool
  samples : List Sample

/-- `x @ x.transpose(0, 1)` (`gptq.py:310`). -/
def outer (xs : List Sample) : Mat := fun i j => (xs.map fun x => x i * x j).sum

/-- `ZeroDivisionError`. -/
inductive HErr where
  | zeroDivision
  deriving DecidableEq

/-- The variables of the loop: the matrix, the number of samples, and what the batches seen so far contain now. -/
structure St where
  h : Mat
  n : ℕ
  seen : List Batch

/-- `x.mul_(math.sqrt(2.0 / n_samples))` (`gptq.py:309`). -/
noncomputable def scaled (n : ℕ) (xs : List Sample) : List Sample := xs.map fun x i => x i * Real.sqrt (2 / n)

/-- `gptq.py:302-310`: the body of the loop. The multiplication in line 309 is in place. -/
noncomputable def step (s : St) (b : Batch) : Except HErr St :=
  let k := b.samples.length
  if s.n + k = 0 then .error .zeroDivision
  else
    let xs := scaled (s.n + k) b.samples
    .ok { h := fun i j => s.h i j * (s.n / (s.n + k : ℕ)) + outer xs i j
          n := s.n + k
          seen := s.seen ++ [if b.shared then { b with samples := xs } else b] }

/-- `gptq.py:313-314`: `hessian[dead, dead] = 1` with two masks sets the diagonal entries of the dead features. -/
noncomputable def fixDead (h : Mat) : Mat := fun i j => if i = j ∧ h i i = 0 then 1 else h i j

/-- `gptq.py:280-315`: the matrix, and the dataset afterwards. -/
noncomputable def calculateHessian (data : List Batch) : Except HErr (Mat × List Batch) :=
  match data.foldlM step ⟨fun _ _ => 0, 0, []⟩ with
  | .error e => .error e
  | .ok s => .ok (fixDead s.h, s.seen)

/-- `gptq.py:373-375`: the matrix with a multiple of its mean diagonal added to the diagonal, for `m` features. -/
noncomputable def dampened (percDamp : ℝ) (m : ℕ) (h : Mat) : Mat :=
  fun i j => if i = j then h i j + percDamp * ((∑ k ∈ range m, h k k) / m) else h i j

/-! ## Specification -/

/-- All samples of a dataset. -/
def allSamples (data : List Batch) : List Sample := data.flatMap Batch.samples

/-- Twice the mean of the products of two features. -/
noncomputable def secondMoment (xs : List Sample) : Mat := fun i j => 2 / (xs.length : ℝ) * (xs.map fun x => x i * x j).sum

/-- A feature that is zero in all samples. -/
def Dead (xs : List Sample) (i : ℕ) : Prop := ∀ x ∈ xs, x i = 0

/-- The value of the quadratic form of a matrix. -/
noncomputable def quadratic (m : ℕ) (h : Mat) (v : ℕ → ℝ) : ℝ := ∑ i ∈ range m, ∑ j ∈ range m, v i * h i j * v j

/-! ## Lemmas -/

theorem outer_scaled (n : ℕ) (xs : List Sample) (i j : ℕ) : outer (scaled n xs) i j = 2 / (n : ℝ) * (xs.map fun x => x i * x j).sum := by
  unfold outer scaled
  rw [List.map_map]
  have : (fun x : Sample => x i * x j) ∘ (fun (x : Sample) i => x i * Real.sqrt (2 / n)) = fun x => 2 / (n : ℝ) * (x i * x j) := by
    funext x
    have h := Real.mul_self_sqrt (show (0 : ℝ) ≤ 2 / n by positivity)
    simp only [Function.comp]
    calc x i * Real.sqrt (2 / n) * (x j * Real.sqrt (2 / n)) = Real.sqrt (2 / n) * Real.sqrt (2 / n) * (x i * x j) := by ring
      _ = _ := by rw [h]
  rw [this, List.sum_map_mul_left]

/-- The invariant of the loop. -/
theorem fold_spec (data : List Batch) (s : St) (xs : List Sample) (hn : s.n = xs.length) (hh : ∀ i j, s.h i j = secondMoment xs i j)
    (h0 : s.n = 0 → ∀ b rest, data = b :: rest → b.samples ≠ []) :
    ∃ s', data.foldlM step s = .ok s' ∧ s'.n = (xs ++ allSamples data).length
      ∧ (∀ i j, s'.h i j = secondMoment (xs ++ allSamples data) i j) := by
  induction data generalizing s xs with
  | nil => exact ⟨s, rfl, by simpa [allSamples] using hn, by simpa [allSamples] using hh⟩
  | cons b data ih =>
    have hk : ¬ s.n + b.samples.length = 0 := by
      intro e
      exact h0 (by omega) b data rfl (List.length_eq_zero_iff.1 (by omega))
    have hstep : step s b = .ok { h := fun i j => s.h i j * (s.n / (s.n + b.samples.length : ℕ))
                                    + outer (scaled (s.n + b.samples.length) b.samples) i j
                                  n := s.n + b.samples.length
                                  seen := s.seen ++ [if b.shared then { b with samples := scaled (s.n + b.samples.length) b.samples } else b] } := by
      unfold step
      simp only [if_neg hk]
    have hall : allSamples (b :: data) = b.samples ++ allSamples data := rfl
    rw [List.foldlM_cons, hstep, hall, ← List.append_assoc]
    refine ih _ (xs ++ b.samples) (by simp [hn]) ?_ (fun e => absurd e hk)
    intro i j
    show s.h i j * _ + _ = _
    rw [outer_scaled, hh]
    unfold secondMoment
    rw [List.map_append, List.sum_append, List.length_append, ← hn]
    have hk' : ((s.n + b.samples.length : ℕ) : ℝ) ≠ 0 := by exact_mod_cast hk
    by_cases hz : s.n = 0
    · have : xs = [] := List.length_eq_zero_iff.1 (by omega)
      subst this
      simp [hz]
    · have hz' : (s.n : ℝ) ≠ 0 := by exact_mod_cast hz
      field_simp

theorem sum_nonneg' (l : List ℝ) (h : ∀ x ∈ l, 0 ≤ x) : 0 ≤ l.sum := by
  induction l with
  | nil => simp
  | cons a l ih =>
    rw [List.sum_cons]
    have := h a (by simp)
    have := ih (fun x hx => h x (by simp [hx]))
    linarith

theorem sum_eq_zero_of_nonneg (l : List ℝ) (h : ∀ x ∈ l, 0 ≤ x) (h0 : l.sum = 0) : ∀ x ∈ l, x = 0 := by
  induction l with
  | nil => simp
  | cons a l ih =>
    rw [List.sum_cons] at h0
    have h1 := h a (by simp)
    have h2 := sum_nonneg' l (fun x hx => h x (by simp [hx]))
    intro x hx
    rcases List.mem_cons.1 hx with rfl | hx
    · linarith
    · exact ih (fun x hx => h x (by simp [hx])) (by linarith) x hx

theorem secondMoment_diag_zero (xs : List Sample) (hx : xs ≠ []) (i : ℕ) : secondMoment xs i i = 0 ↔ Dead xs i := by
  have hl : (xs.length : ℝ) ≠ 0 := by
    have : xs.length ≠ 0 := fun e => hx (List.length_eq_zero_iff.1 e)
    exact_mod_cast this
  unfold secondMoment Dead
  constructor
  · intro h x hxm
    have hs : (xs.map fun x => x i * x i).sum = 0 := by
      rcases mul_eq_zero.1 h with h | h
      · exact absurd h (by positivity)
      · exact h
    have := sum_eq_zero_of_nonneg _ (by
      intro y hy
      obtain ⟨x, -, rfl⟩ := List.mem_map.1 hy
      exact mul_self_nonneg _) hs _ (List.mem_map.2 ⟨x, hxm, rfl⟩)
    exact mul_self_eq_zero.1 this
  · intro h
    have : xs.map (fun x => x i * x i) = xs.map (fun _ => (0 : ℝ)) := List.map_congr_left (fun x hx => by rw [h x hx, mul_zero])
    rw [this]
    simp

theorem quadratic_secondMoment (m : ℕ) (xs : List Sample) (v : ℕ → ℝ) :
    quadratic m (secondMoment xs) v = 2 / (xs.length : ℝ) * (xs.map fun x => (∑ i ∈ range m, v i * x i) ^ 2).sum := by
  unfold quadratic secondMoment
  generalize (2 / (xs.length : ℝ)) = a
  induction xs with
  | nil => simp
  | cons x xs ih =>
    simp only [List.map_cons, List.sum_cons]
    rw [mul_add, ← ih, sq, sum_mul_sum, mul_sum, ← sum_add_distrib]
    refine sum_congr rfl (fun i _ => ?_)
    rw [mul_sum, ← sum_add_distrib]
    refine sum_congr rfl (fun j _ => ?_)
    ring

/-! ## Properties -/

/-- **C64.** For every dataset that does not begin with an empty batch, entry `(i, j)` of the result is `2/N` times the sum of
`x i * x j` over all `N` samples, except that the diagonal entry of a feature that is zero in all samples is one. -/
theorem hessian_value (data : List Batch) (b : Batch) (rest : List Batch) (hd : data = b :: rest) (hb : b.samples ≠ []) :
    ∃ h after, calculateHessian data = .ok (h, after) ∧ ∀ i j,
      (¬ (i = j ∧ Dead (allSamples data) i) → h i j = secondMoment (allSamples data) i j) ∧
      (i = j → Dead (allSamples data) i → h i j = 1) := by
  obtain ⟨s, h1, -, h3⟩ := fold_spec data ⟨fun _ _ => 0, 0, []⟩ [] rfl (by intro i j; simp [secondMoment])
    (by intro _ b' r' e; rw [hd] at e; cases e; exact hb)
  rw [List.nil_append] at h3
  have hne : allSamples data ≠ [] := by
    rw [hd]
    show b.samples ++ _ ≠ []
    simp [hb]
  refine ⟨fixDead s.h, s.seen, by simp only [calculateHessian, h1], ?_⟩
  intro i j
  unfold fixDead
  have hz : s.h i i = 0 ↔ Dead (allSamples data) i := by rw [h3 i i, secondMoment_diag_zero _ hne]
  constructor
  · intro h
    rw [if_neg (fun c => h ⟨c.1, hz.1 c.2⟩), h3]
  · intro e hdead
    rw [if_pos ⟨e, hz.2 hdead⟩]

/-- **C64.** Two datasets with the same samples in the same order, split into batches in different ways, have the same Hessian. -/
theorem batching_irrelevant (data data' : List Batch) (b b' : Batch) (rest rest' : List Batch) (hd : data = b :: rest)
    (hd' : data' = b' :: rest') (hb : b.samples ≠ []) (hb' : b'.samples ≠ []) (hs : allSamples data = allSamples data') :
    ∃ h after after', calculateHessian data = .ok (h, after) ∧ calculateHessian data' = .ok (h, after') := by
  obtain ⟨h, after, e1, e2⟩ := hessian_value data b rest hd hb
  obtain ⟨h', after', e1', e2'⟩ := hessian_value data' b' rest' hd' hb'
  have : h = h' := by
    funext i j
    by_cases hc : i = j ∧ Dead (allSamples data) i
    · rw [(e2 i j).2 hc.1 hc.2, (e2' i j).2 hc.1 (hs ▸ hc.2)]
    · rw [(e2 i j).1 hc, (e2' i j).1 (hs ▸ hc), hs]
  subst this
  exact ⟨h, after, after', e1, e1'⟩

/-- **C64, deviation.** A dataset that begins with an empty batch makes the computation fail, whatever comes after it; an empty batch
later is harmless. -/
theorem empty_first_batch_fails (b : Batch) (rest : List Batch) (hb : b.samples = []) :
    calculateHessian (b :: rest) = .error .zeroDivision := by
  simp [calculateHessian, List.foldlM_cons, step, hb, bind, Except.bind]

/-- **C64.** The result is symmetric, and its quadratic form is nowhere negative. With positive dampening it is positive for every
vector that is not zero, so the Cholesky decompositions of `invert_hessian` exist (in exact arithmetic). -/
theorem dampened_positive_definite (data : List Batch) (b : Batch) (rest : List Batch) (hd : data = b :: rest) (hb : b.samples ≠ [])
    (h : Mat) (after : List Batch) (hh : calculateHessian data = .ok (h, after)) :
    (∀ i j, h i j = h j i) ∧ (∀ m v, 0 ≤ quadratic m h v)
    ∧ ∀ (percDamp : ℝ), 0 < percDamp → ∀ m v, (∃ i < m, v i ≠ 0) → 0 < quadratic m (dampened percDamp m h) v := by
  classical
  obtain ⟨h', after', e1, e2⟩ := hessian_value data b rest hd hb
  rw [hh] at e1
  cases e1
  set xs := allSamples data with hxs
  have hne : xs ≠ [] := by
    rw [hxs, hd]
    show b.samples ++ _ ≠ []
    simp [hb]
  -- the matrix is the second moment plus one on the dead diagonal entries
  have hform : ∀ i j, h i j = secondMoment xs i j + if i = j then (if Dead xs i then 1 else 0) else 0 := by
    intro i j
    by_cases hc : i = j ∧ Dead xs i
    · rw [(e2 i j).2 hc.1 hc.2, if_pos hc.1, if_pos hc.2, ← hc.1, (secondMoment_diag_zero xs hne i).2 hc.2, zero_add]
    · rw [(e2 i j).1 hc]
      by_cases hij : i = j
      · rw [if_pos hij, if_neg (fun hd => hc ⟨hij, hd⟩), add_zero]
      · rw [if_neg hij, add_zero]
  have hquad : ∀ m v, quadratic m h v = quadratic m (secondMoment xs) v + ∑ i ∈ range m, (if Dead xs i then v i ^ 2 else 0) := by
    intro m v
    unfold quadratic
    rw [← sum_add_distrib]
    refine sum_congr rfl (fun i hi => ?_)
    simp only [hform, mul_add, add_mul, sum_add_distrib]
    congr 1
    rw [sum_eq_single_of_mem i hi (fun j _ hj => by rw [if_neg (Ne.symm hj)]; ring), if_pos rfl]
    split_ifs <;> ring
  have hnn : ∀ m v, 0 ≤ quadratic m h v := by
    intro m v
    rw [hquad, quadratic_secondMoment]
    refine add_nonneg (mul_nonneg (by positivity) (sum_nonneg' _ ?_)) (sum_nonneg fun i _ => by split_ifs <;> positivity)
    intro x hx
    obtain ⟨y, -, rfl⟩ := List.mem_map.1 hx
    positivity
  refine ⟨?_, hnn, ?_⟩
  · intro i j
    rw [hform i j, hform j i]
    have : secondMoment xs i j = secondMoment xs j i := by
      unfold secondMoment
      congr 2
      exact List.map_congr_left (fun x _ => mul_comm _ _)
    rw [this]
    by_cases hij : i = j
    · subst hij; rfl
    · rw [if_neg hij, if_neg (Ne.symm hij)]
  · intro p hp m v ⟨i0, hi0, hv⟩
    have hdiag : ∀ i, 0 < h i i := by
      intro i
      rw [hform i i, if_pos rfl]
      by_cases hdi : Dead xs i
      · rw [if_pos hdi, (secondMoment_diag_zero xs hne i).2 hdi]; norm_num
      · rw [if_neg hdi, add_zero]
        have h1 : 0 ≤ secondMoment xs i i := by
          unfold secondMoment
          refine mul_nonneg (by positivity) (sum_nonneg' _ ?_)
          intro x hx
          obtain ⟨y, -, rfl⟩ := List.mem_map.1 hx
          exact mul_self_nonneg _
        exact lt_of_le_of_ne h1 (fun e => hdi ((secondMoment_diag_zero xs hne i).1 e.symm))
    have hmean : 0 < (∑ k ∈ range m, h k k) / m := by
      have hm : (0 : ℝ) < m := by exact_mod_cast (show 0 < m by omega)
      exact div_pos (sum_pos (fun k _ => hdiag k) ⟨i0, mem_range.2 hi0⟩) hm
    have hq : quadratic m (dampened p m h) v = quadratic m h v + p * ((∑ k ∈ range m, h k k) / m) * ∑ i ∈ range m, v i ^ 2 := by
      unfold quadratic
      rw [mul_sum, ← sum_add_distrib]
      refine sum_congr rfl (fun i hi => ?_)
      have : ∀ j, v i * dampened p m h i j * v j
          = v i * h i j * v j + (if i = j then p * ((∑ k ∈ range m, h k k) / m) * (v i * v j) else 0) := by
        intro j
        unfold dampened
        split_ifs <;> ring
      simp only [this, sum_add_distrib]
      congr 1
      rw [sum_eq_single_of_mem i hi (fun j _ hj => by rw [if_neg (Ne.symm hj)]), if_pos rfl]
      ring
    rw [hq]
    have hpos : 0 < ∑ i ∈ range m, v i ^ 2 := by
      refine sum_pos' (fun i _ => by positivity) ⟨i0, mem_range.2 hi0, ?_⟩
      positivity
    have := hnn m v
    positivity

theorem fold_seen (data : List Batch) (s s' : St) (h : data.foldlM step s = .ok s') :
    ∃ bs, s'.seen = s.seen ++ bs ∧ bs.length = data.length ∧ ((∀ b ∈ data, b.shared = false) → bs = data) := by
  induction data generalizing s with
  | nil =>
    rw [List.foldlM_nil] at h
    cases h
    exact ⟨[], by simp, rfl, fun _ => rfl⟩
  | cons b data ih =>
    rw [List.foldlM_cons] at h
    unfold step at h
    by_cases hk : s.n + b.samples.length = 0
    · simp [hk, bind, Except.bind] at h
    · simp only [if_neg hk, bind, Except.bind] at h
      obtain ⟨bs, h1, h2, h3⟩ := ih _ h
      refine ⟨_ :: bs, by rw [h1, List.append_assoc]; rfl, by simp [h2], ?_⟩
      intro hs
      rw [h3 (fun b hb => hs b (by simp [hb])), if_neg (by simp [hs b (by simp)])]

/-- **C75 (partial).** If no activation tensor is used without a copy (a convolution, or activations of another type or on another
device), then the dataset is unchanged and a second computation gives the same matrix. Missing: float32 activations of a linear layer (see
`activations_overwritten`). -/
theorem activations_kept_partial (data : List Batch) (hs : ∀ b ∈ data, b.shared = false) (h : Mat) (after : List Batch)
    (hh : calculateHessian data = .ok (h, after)) : after = data ∧ calculateHessian after = .ok (h, after) := by
  have hafter : after = data := by
    unfold calculateHessian at hh
    cases hf : data.foldlM step ⟨fun _ _ => 0, 0, []⟩ with
    | error e => rw [hf] at hh; cases hh
    | ok s =>
      rw [hf] at hh
      cases hh
      obtain ⟨bs, h1, -, h3⟩ := fold_seen data _ _ hf
      rw [h1, h3 hs]
      rfl
  refine ⟨hafter, ?_⟩
  rw [hafter] at hh ⊢
  exact hh

/-- **C75, deviation.** For a linear layer with float32 activations on its device, the computation multiplies the caller's activation
tensors in place: afterwards the sample `1` is `√2`, and a second computation on the same dataset (another layer with the same inputs, or a
second pass) gives a Hessian twice as large. -/
theorem activations_overwritten :
    ∃ h after h' after', calculateHessian [⟨true, [fun _ => 1]⟩] = .ok (h, after) ∧ calculateHessian after = .ok (h', after')
      ∧ after = [⟨true, [fun _ => Real.sqrt 2]⟩] ∧ h 0 0 = 2 ∧ h' 0 0 = 4 := by
  have hafter : ∃ h, calculateHessian [⟨true, [fun _ => 1]⟩] = .ok (h, [⟨true, [fun _ => Real.sqrt 2]⟩]) := by
    obtain ⟨h, after, e, -⟩ := hessian_value [⟨true, [fun _ => 1]⟩] _ [] rfl (by simp)
    refine ⟨h, ?_⟩
    rw [e]
    simp only [calculateHessian, List.foldlM_cons, List.foldlM_nil, step, scaled, List.length_cons, List.length_nil, List.map_cons,
      List.map_nil, bind, Except.bind, pure, Except.pure] at e
    norm_num at e
    rw [e.2]
  obtain ⟨h, e1⟩ := hafter
  obtain ⟨h', after', e2, e3⟩ := hessian_value [⟨true, [fun _ => Real.sqrt 2]⟩] _ [] rfl (by simp)
  obtain ⟨g, aft, f2, f3⟩ := hessian_value [⟨true, [fun _ => 1]⟩] _ [] rfl (by simp)
  rw [e1] at f2
  cases f2
  refine ⟨h, _, h', after', e1, e2, rfl, ?_, ?_⟩
  · rw [(f3 0 0).1 (by simp [Dead, allSamples])]
    simp [secondMoment, allSamples]
  · rw [(e3 0 0).1 (by simp [Dead, allSamples])]
    simp [secondMoment, allSamples]
    norm_num

/-! ## Concrete cases -/

/-- Two batches of one sample and one batch of two samples have the same samples. -/
example : allSamples [⟨true, [fun _ => 1]⟩, ⟨false, [fun i => i]⟩] = allSamples [⟨false, [fun _ => 1, fun i => i]⟩] := rfl

end FF.Hessian
