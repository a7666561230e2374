import Mathlib.Data.Rat.Floor
import Mathlib.Tactic.Linarith
import Mathlib.Tactic.Positivity
import Mathlib.Tactic.Ring

/-!
# Measuring quantization errors

Models `sqnr` (`src/fastforward/testing/metrics.py:9-38`) and `is_close_to_rounding` (`src/fastforward/testing/__init__.py:13-19`).

Simplifications: elements are rational numbers; a tensor is a list of samples, each flattened (`view(shape[0], -1)`); the ratio before `10 * log10`, which is
increasing.
-/

namespace FF.Metrics

/-! ## Model -/

inductive Err where
  | valueError
  deriving DecidableEq

/-- `mean` of torch. -/
def mean (l : List ℚ) : ℚ := l.sum / l.length

/-- `exp_noise` and `exp_signal` of a sample (metrics.py:31-33), and their ratio. -/
def ratio (eps : ℚ) (x q : List ℚ) : ℚ :=
  let error := List.zipWith (· - ·) x q
  let noise := mean (error.map (· ^ 2)) + eps
  let signal := mean (x.map (· ^ 2))
  signal / noise

/-- `sqnr` with `in_db=False` (metrics.py:9-38). -/
def sqnr (eps : ℚ) (xs qs : List (List ℚ)) : Except Err ℚ :=
  if xs.map List.length ≠ qs.map List.length then .error .valueError
  else .ok (mean (List.zipWith (ratio eps) xs qs))

/-- `torch.frac`: what remains when the digits before the point are taken away. -/
def frac (x : ℚ) : ℚ := x - (if 0 ≤ x then ⌊x⌋ else ⌈x⌉)

/-- `is_close_to_rounding` (testing/__init__.py:13-19). -/
def closeToRounding (t : List ℚ) (eps : ℚ) : Bool := t.any fun x => decide (|frac x - 1 / 2| < eps)

/-! ## Specification -/

/-- The sum of the squared errors of a sample. -/
def sqErr : List ℚ → List ℚ → ℚ
  | a :: x, b :: q => (a - b) * (a - b) + sqErr x q
  | _, _ => 0

/-- The sum of the squares of a sample. -/
def power : List ℚ → ℚ
  | [] => 0
  | a :: x => a * a + power x

/-- The number is less than `eps` from one half way between two integers. -/
def NearTie (eps x : ℚ) : Prop := ∃ k : ℤ, |x - (k + 1 / 2)| < eps

/-! ## Lemmas -/

theorem sum_errors : ∀ x q : List ℚ, ((List.zipWith (· - ·) x q).map (· ^ 2)).sum = sqErr x q
  | [], _ => by simp [sqErr]
  | _ :: _, [] => by simp [sqErr]
  | a :: x, b :: q => by
    rw [List.zipWith_cons_cons, List.map_cons, List.sum_cons, sum_errors x q, sqErr, sq]

theorem sum_power : ∀ x : List ℚ, (x.map (· ^ 2)).sum = power x
  | [] => rfl
  | a :: x => by rw [List.map_cons, List.sum_cons, sum_power x, power, sq]

theorem sqErr_nonneg : ∀ x q : List ℚ, 0 ≤ sqErr x q
  | [], _ => by simp [sqErr]
  | _ :: _, [] => by simp [sqErr]
  | a :: x, b :: q => add_nonneg (mul_self_nonneg _) (sqErr_nonneg x q)

theorem power_nonneg : ∀ x : List ℚ, 0 ≤ power x
  | [] => le_refl _
  | _ :: x => add_nonneg (mul_self_nonneg _) (power_nonneg x)

theorem sqErr_self : ∀ x : List ℚ, sqErr x x = 0
  | [] => rfl
  | a :: x => by simp [sqErr, sqErr_self x]

theorem ratio_eq (eps : ℚ) (x q : List ℚ) (h : x.length = q.length) : ratio eps x q = (power x / x.length) / (sqErr x q / x.length + eps) := by
  unfold ratio mean
  simp only
  rw [sum_errors, sum_power]
  simp [h]

theorem ratio_nonneg {eps : ℚ} (he : 0 < eps) (x q : List ℚ) (h : x.length = q.length) : 0 ≤ ratio eps x q := by
  rw [ratio_eq eps x q h]
  have := power_nonneg x
  have := sqErr_nonneg x q
  positivity

theorem ratio_mono {eps : ℚ} (he : 0 < eps) (x q q' : List ℚ) (h : x.length = q.length) (h' : x.length = q'.length) (hn : sqErr x q ≤ sqErr x q') :
    ratio eps x q' ≤ ratio eps x q := by
  rw [ratio_eq eps x q h, ratio_eq eps x q' h']
  have h1 := power_nonneg x
  have h2 := sqErr_nonneg x q
  have h3 : sqErr x q / x.length ≤ sqErr x q' / x.length := div_le_div_of_nonneg_right hn (by positivity)
  exact div_le_div_of_nonneg_left (by positivity) (by positivity) (by linarith)

theorem zip_sum_le {eps : ℚ} (f : List ℚ × List ℚ × List ℚ → Prop) (hf : ∀ s, f s → ratio eps s.1 s.2.2 ≤ ratio eps s.1 s.2.1) :
    ∀ t : List (List ℚ × List ℚ × List ℚ), (∀ s ∈ t, f s) →
      (List.zipWith (ratio eps) (t.map (·.1)) (t.map (·.2.2))).sum ≤ (List.zipWith (ratio eps) (t.map (·.1)) (t.map (·.2.1))).sum
  | [], _ => le_refl _
  | s :: t, h => by
    simp only [List.map_cons, List.zipWith_cons_cons, List.sum_cons]
    exact add_le_add (hf s (h s List.mem_cons_self)) (zip_sum_le f hf t fun r hr => h r (List.mem_cons_of_mem _ hr))

theorem sqnr_ok {eps : ℚ} {xs qs : List (List ℚ)} (h : xs.map List.length = qs.map List.length) :
    sqnr eps xs qs = .ok ((List.zipWith (ratio eps) xs qs).sum / xs.length) := by
  have hl : xs.length = qs.length := by simpa using congrArg List.length h
  unfold sqnr mean
  rw [if_neg (not_not.2 h)]
  simp [hl]

theorem frac_of_nonneg {x : ℚ} (h : 0 ≤ x) : frac x = x - ⌊x⌋ := by simp [frac, h]

/-! ## Properties -/

/-- **C143.** The ratio is refused iff the shapes differ. -/
theorem refused_iff (eps : ℚ) (xs qs : List (List ℚ)) : sqnr eps xs qs = .error .valueError ↔ xs.map List.length ≠ qs.map List.length := by
  unfold sqnr
  split
  · simpa
  · rename_i h
    simpa using not_not.1 h

/-- **C143.** Less noise, in each sample, never gives a lower ratio. Here `t` has the samples, and two quantized versions of each. -/
theorem less_noise {eps : ℚ} (he : 0 < eps) (t : List (List ℚ × List ℚ × List ℚ))
    (h : ∀ s ∈ t, s.1.length = s.2.1.length ∧ s.1.length = s.2.2.length ∧ sqErr s.1 s.2.1 ≤ sqErr s.1 s.2.2) :
    ∃ good bad, sqnr eps (t.map (·.1)) (t.map (·.2.1)) = .ok good ∧ sqnr eps (t.map (·.1)) (t.map (·.2.2)) = .ok bad ∧ bad ≤ good := by
  refine ⟨_, _, sqnr_ok ?_, sqnr_ok ?_, ?_⟩
  · simpa using fun a b c hs => (h (a, b, c) hs).1
  · simpa using fun a b c hs => (h (a, b, c) hs).2.1
  · refine div_le_div_of_nonneg_right ?_ (by positivity)
    exact zip_sum_le (fun s => s.1.length = s.2.1.length ∧ s.1.length = s.2.2.length ∧ sqErr s.1 s.2.1 ≤ sqErr s.1 s.2.2)
      (fun s hs => ratio_mono he _ _ _ hs.1 hs.2.1 hs.2.2) t h

/-- **C143.** Nothing is better than an exact copy. -/
theorem exact_is_best {eps : ℚ} (he : 0 < eps) (s : List (List ℚ × List ℚ)) (h : ∀ p ∈ s, p.1.length = p.2.length) :
    ∃ best r, sqnr eps (s.map (·.1)) (s.map (·.1)) = .ok best ∧ sqnr eps (s.map (·.1)) (s.map (·.2)) = .ok r ∧ 0 ≤ r ∧ r ≤ best := by
  have := less_noise he (s.map fun p => (p.1, p.1, p.2)) (by
    intro t ht
    obtain ⟨p, hp, rfl⟩ := List.mem_map.1 ht
    exact ⟨rfl, h p hp, by rw [sqErr_self]; exact sqErr_nonneg _ _⟩)
  simp only [List.map_map] at this
  obtain ⟨g, b, h1, h2, h3⟩ := this
  refine ⟨g, b, h1, h2, ?_, h3⟩
  have h2' : sqnr eps (s.map (·.1)) (s.map (·.2)) = .ok b := h2
  rw [sqnr_ok (by simpa using fun a c hs => h (a, c) hs)] at h2'
  injection h2' with h2'
  rw [← h2']
  refine div_nonneg (List.sum_nonneg fun r hr => ?_) (by positivity)
  rw [List.zipWith_map] at hr
  obtain ⟨i, hi, e⟩ := List.mem_iff_getElem.1 hr
  rw [List.getElem_zipWith] at e
  rw [← e]
  exact ratio_nonneg he _ _ (h _ (List.getElem_mem _))

/-- **C143 (partial).** Tensors with an element near a tie of rounding are recognised, and no others.

Missing: negative elements (`negative_missed`). -/
theorem ties_found_partial (t : List ℚ) (eps : ℚ) (he : eps ≤ 1 / 2) (h : ∀ x ∈ t, 0 ≤ x) : closeToRounding t eps = true ↔ ∃ x ∈ t, NearTie eps x := by
  unfold closeToRounding
  rw [List.any_eq_true]
  refine exists_congr fun x => and_congr_right fun hx => ?_
  rw [decide_eq_true_eq, frac_of_nonneg (h x hx)]
  constructor
  · intro hc
    exact ⟨⌊x⌋, by rw [show x - (⌊x⌋ + 1 / 2) = x - ⌊x⌋ - 1 / 2 by ring]; exact hc⟩
  · rintro ⟨k, hk⟩
    have h2 := abs_lt.1 hk
    have hf : ⌊x⌋ = k := Int.floor_eq_iff.2 ⟨by linarith [h2.1], by linarith [h2.2]⟩
    rw [hf, show x - k - 1 / 2 = x - (k + 1 / 2) by ring]
    exact hk

/-! ## Deviations -/

/-- **C143, deviation.** Negative elements are never recognised, not even exact ties. -/
theorem negative_missed (t : List ℚ) (eps : ℚ) (he : eps ≤ 1 / 2) (h : ∀ x ∈ t, x < 0) : closeToRounding t eps = false := by
  unfold closeToRounding
  rw [List.any_eq_false]
  intro x hx hc
  rw [decide_eq_true_eq] at hc
  have hneg := h x hx
  have hfr : frac x ≤ 0 := by
    unfold frac
    rw [if_neg (not_le.2 hneg)]
    linarith [Int.le_ceil x]
  have := (abs_lt.1 hc).1
  linarith

/-- **C143, deviation.** One exact sample hides the noise of all others: the ratio is at least the power of that sample divided by the number of samples and
`eps`, whatever the others are. -/
theorem exact_sample_hides {eps : ℚ} (he : 0 < eps) (x : List ℚ) (s : List (List ℚ × List ℚ)) (h : ∀ p ∈ s, p.1.length = p.2.length) :
    ∃ r, sqnr eps (x :: s.map (·.1)) (x :: s.map (·.2)) = .ok r ∧ power x / x.length / eps / (s.length + 1) ≤ r := by
  refine ⟨_, sqnr_ok (by simpa using fun a c hs => h (a, c) hs), ?_⟩
  simp only [List.zipWith_cons_cons, List.sum_cons, List.length_cons, List.length_map, Nat.cast_add, Nat.cast_one]
  refine div_le_div_of_nonneg_right ?_ (by positivity)
  rw [ratio_eq eps x x rfl, sqErr_self, zero_div, zero_add]
  refine le_add_of_nonneg_right (List.sum_nonneg fun r hr => ?_)
  rw [List.zipWith_map] at hr
  obtain ⟨i, hi, e⟩ := List.mem_iff_getElem.1 hr
  rw [List.getElem_zipWith] at e
  rw [← e]
  exact ratio_nonneg he _ _ (h _ (List.getElem_mem _))

/-- **C143, deviation.** For samples of little power, at most `eps` per element, the ratio is at most one, that is, no more than 0 dB, even for exact copies. -/
theorem exact_copy_of_small {eps : ℚ} (he : 0 < eps) (x : List ℚ) (hx : power x / x.length ≤ eps) : ∃ r, sqnr eps [x] [x] = .ok r ∧ r ≤ 1 := by
  refine ⟨_, sqnr_ok rfl, ?_⟩
  simp only [List.zipWith_cons_cons, List.zipWith_nil_right, List.sum_cons, List.sum_nil, add_zero, List.length_cons, List.length_nil, zero_add, Nat.cast_one, div_one]
  rw [ratio_eq eps x x rfl, sqErr_self, zero_div, zero_add]
  exact (div_le_one he).2 hx

/-! ## Concrete cases -/

example : sqnr 1 [[2, 0], [1, 1]] [[2, 0], [0, 0]] = .ok (5 / 4) := by
  norm_num [sqnr, mean, ratio]

example : NearTie (1 / 10) (5 / 2) ∧ closeToRounding [5 / 2] (1 / 10) = true :=
  ⟨⟨2, by norm_num⟩, (ties_found_partial [5 / 2] (1 / 10) (by norm_num) (by norm_num)).2 ⟨5 / 2, by simp, 2, by norm_num⟩⟩

example : NearTie (1 / 10) (-5 / 2) ∧ closeToRounding [-5 / 2] (1 / 10) = false :=
  ⟨⟨-3, by norm_num⟩, negative_missed [-5 / 2] (1 / 10) (by norm_num) (by norm_num)⟩

end FF.Metrics
