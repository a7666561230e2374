import Mathlib.Algebra.BigOperators.Intervals
import Mathlib.Algebra.BigOperators.Ring.Finset
import Mathlib.Tactic.Linarith
import Mathlib.Tactic.Ring

/-!
# GPTQ: which activations belong to which column of the weight

Models how `calculate_hessian` (`quantization/gptq.py:278-315`) turns the input of a layer into a matrix: `_input_flattener` (330-360), `_hessian_in_features`
(318-327), the flattened weight in `gptq` (67-70) and `hessian.add_(x @ x.T)` (310).

Simplifications: numbers are elements of a ring (floats in the code); `torch.nn.Unfold` is written as its documentation describes it; string padding, which the
code refuses, is left out; one batch (batches are in `GptqHessian`).
-/

namespace FF.GptqIn

open Finset

variable {R : Type} [CommRing R]

/-! ## Model -/

/-- A tensor, by index. -/
structure Act (R : Type) where
  shape : List ℕ
  val : List ℕ → R

/-- A matrix: features and samples. -/
structure Mat (R : Type) where
  rows : ℕ
  cols : ℕ
  get : ℕ → ℕ → R

/-- A failing shape check of the code, and of torch. -/
inductive Err where
  | value
  | runtime
  deriving DecidableEq

/-- The configuration of a `QuantizedConv2d`; the weight has shape `(out, inPerGroup, kh, kw)`. -/
structure Conv where
  groups : ℕ
  inPerGroup : ℕ
  kh : ℕ
  kw : ℕ
  sh : ℕ
  sw : ℕ
  ph : ℕ
  pw : ℕ
  dh : ℕ
  dw : ℕ

/-- The size of the output in one direction, of `Unfold` and `conv2d`. -/
def outSize (len pad dil k stride : ℕ) : ℕ := (len + 2 * pad - (dil * (k - 1) + 1)) / stride + 1

/-- The value at a place of the padded image, counted from its corner. -/
def padded (a : Act R) (c : Conv) (h w n ch y x : ℕ) : R :=
  if c.ph ≤ y ∧ y < c.ph + h ∧ c.pw ≤ x ∧ x < c.pw + w then a.val [n, ch, y - c.ph, x - c.pw] else 0

/-- `torch.nn.Unfold`: for image `n`, row `r` and patch `l`. -/
def unfoldAt (a : Act R) (c : Conv) (h w n r l : ℕ) : R :=
  let ow := outSize w c.pw c.dw c.kw c.sw
  padded a c h w n (r / (c.kh * c.kw)) (l / ow * c.sh + r / c.kw % c.kh * c.dh) (l % ow * c.sw + r % c.kw * c.dw)

/-- gptq.py:348-351 `_conv2d`, with line 342-347: `Unfold`, then `permute(1, 0, 2).flatten(1)`. An image without batch dimension is unfolded to a matrix,
which `permute` refuses. -/
def flattenConv (c : Conv) (a : Act R) : Except Err (Mat R) :=
  match a.shape with
  | [n, ch, h, w] =>
    if h + 2 * c.ph < c.dh * (c.kh - 1) + 1 ∨ w + 2 * c.pw < c.dw * (c.kw - 1) + 1 then .error .runtime
    else
      let l := outSize h c.ph c.dh c.kh c.sh * outSize w c.pw c.dw c.kw c.sw
      .ok ⟨ch * c.kh * c.kw, n * l, fun r s => unfoldAt a c h w (s / l) r (s % l)⟩
  | _ => .error .runtime

/-- gptq.py:355-358 `_linear`: `reshape(bsz * seq_len, hidden).transpose(0, 1)`. -/
def flattenLinear (a : Act R) : Except Err (Mat R) :=
  match a.shape with
  | [b, s, h] => .ok ⟨h, b * s, fun r k => a.val [k / s, k % s, r]⟩
  | _ => .error .value

/-- gptq.py:68-70: `weights.flatten(1)`. -/
def flatWeight (c : Conv) (w : ℕ → ℕ → ℕ → ℕ → R) (o r : ℕ) : R := w o (r / (c.kh * c.kw)) (r / c.kw % c.kh) (r % c.kw)

/-- gptq.py:324-327 `_hessian_in_features` of a convolution. -/
def inFeatures (c : Conv) : ℕ := c.inPerGroup * c.kh * c.kw

/-- `x @ x.transpose(0, 1)` (310). -/
def gram (m : Mat R) (i j : ℕ) : R := ∑ s ∈ range m.cols, m.get i s * m.get j s

/-- `hessian.add_(x @ x.transpose(0, 1))` (310) to zeros with `k` features: an array of another size is refused, unless it has one row and column, which is
repeated. -/
def accumulate (k : ℕ) (m : Mat R) : Except Err (ℕ → ℕ → R) :=
  if m.rows = k then .ok (gram m) else if m.rows = 1 then .ok (fun _ _ => gram m 0 0) else .error .runtime

/-! ## Specification -/

/-- The value at a place of an image, which is zero outside of it. -/
def pixel (a : Act R) (h w n ch : ℕ) (y x : ℤ) : R :=
  if 0 ≤ y ∧ y < h ∧ 0 ≤ x ∧ x < w then a.val [n, ch, y.toNat, x.toNat] else 0

/-- What a convolution computes (without bias), for output channel `o` in a group that starts at input channel `g`. -/
def conv (c : Conv) (wt : ℕ → ℕ → ℕ → ℕ → R) (a : Act R) (h w g n o y x : ℕ) : R :=
  ∑ ch ∈ range c.inPerGroup, ∑ i ∈ range c.kh, ∑ j ∈ range c.kw,
    wt o ch i j * pixel a h w n (g + ch) ((y : ℤ) * c.sh + i * c.dh - c.ph) ((x : ℤ) * c.sw + j * c.dw - c.pw)

/-- What a linear layer computes (without bias). -/
def linear (k : ℕ) (wt : ℕ → ℕ → R) (a : Act R) (o b s : ℕ) : R := ∑ h ∈ range k, wt o h * a.val [b, s, h]

/-! ## Lemmas -/

theorem sum_blocks (f : ℕ → R) (b : ℕ) : ∀ a : ℕ, ∑ r ∈ range (a * b), f r = ∑ i ∈ range a, ∑ j ∈ range b, f (i * b + j)
  | 0 => by simp
  | a + 1 => by rw [Nat.succ_mul, sum_range_add, sum_blocks f b a, sum_range_succ]

theorem div_of {a b j : ℕ} (h : j < b) : (a * b + j) / b = a := by
  have hb : 0 < b := by omega
  rw [Nat.add_comm, Nat.add_mul_div_right _ _ hb, Nat.div_eq_of_lt h, Nat.zero_add]

theorem mod_of {a b j : ℕ} (h : j < b) : (a * b + j) % b = j := by
  rw [Nat.add_comm, Nat.add_mul_mod_self_right, Nat.mod_eq_of_lt h]

theorem padded_pixel (a : Act R) (c : Conv) (h w n ch y x : ℕ) :
    padded a c h w n ch y x = pixel a h w n ch ((y : ℤ) - c.ph) ((x : ℤ) - c.pw) := by
  unfold padded pixel
  by_cases hc : c.ph ≤ y ∧ y < c.ph + h ∧ c.pw ≤ x ∧ x < c.pw + w
  · rw [if_pos hc, if_pos (by omega)]
    have e1 : ((y : ℤ) - c.ph).toNat = y - c.ph := by omega
    have e2 : ((x : ℤ) - c.pw).toNat = x - c.pw := by omega
    rw [e1, e2]
  · rw [if_neg hc, if_neg (by omega)]

theorem conv_row {c : Conv} {ch i j : ℕ} (hi : i < c.kh) (hj : j < c.kw) :
    ((ch * c.kh + i) * c.kw + j) / (c.kh * c.kw) = ch ∧ ((ch * c.kh + i) * c.kw + j) / c.kw % c.kh = i ∧ ((ch * c.kh + i) * c.kw + j) % c.kw = j := by
  refine ⟨?_, ?_, mod_of hj⟩
  · rw [Nat.mul_comm c.kh, ← Nat.div_div_eq_div_mul, div_of hj, div_of hi]
  · rw [div_of hj, mod_of hi]

/-- The product of the flattened weight with a column is the convolution at a place. -/
theorem conv_product (c : Conv) (wt : ℕ → ℕ → ℕ → ℕ → R) (a : Act R) (h w n o y x : ℕ) (hx : x < outSize w c.pw c.dw c.kw c.sw) :
    ∑ r ∈ range (inFeatures c), flatWeight c wt o r * unfoldAt a c h w n r (y * outSize w c.pw c.dw c.kw c.sw + x) = conv c wt a h w 0 n o y x := by
  unfold inFeatures conv
  rw [sum_blocks, sum_blocks]
  refine sum_congr rfl fun ch _ => sum_congr rfl fun i hi => sum_congr rfl fun j hj => ?_
  rw [mem_range] at hi hj
  obtain ⟨e1, e2, e3⟩ := conv_row (ch := ch) hi hj
  simp only [flatWeight, unfoldAt, e1, e2, e3, div_of hx, mod_of hx, padded_pixel]
  have e4 : ((y * c.sh + i * c.dh : ℕ) : ℤ) - c.ph = (y : ℤ) * c.sh + i * c.dh - c.ph := by push_cast; ring
  have e5 : ((x * c.sw + j * c.dw : ℕ) : ℤ) - c.pw = (x : ℤ) * c.sw + j * c.dw - c.pw := by push_cast; ring
  rw [e4, e5, Nat.zero_add]

/-- A sum over samples is a sum over images and places. -/
theorem sum_samples (f : ℕ → R) (n oh ow : ℕ) :
    ∑ s ∈ range (n * (oh * ow)), f s = ∑ m ∈ range n, ∑ y ∈ range oh, ∑ x ∈ range ow, f (m * (oh * ow) + (y * ow + x)) := by
  rw [sum_blocks]
  refine sum_congr rfl fun m _ => ?_
  rw [sum_blocks fun r => f (m * (oh * ow) + r)]

theorem place_lt {y x oh ow : ℕ} (hy : y < oh) (hx : x < ow) : y * ow + x < oh * ow := by
  calc y * ow + x < y * ow + ow := by omega
    _ = (y + 1) * ow := by ring
    _ ≤ oh * ow := Nat.mul_le_mul_right _ hy

theorem square_gram (m : Mat R) (k : ℕ) (d : ℕ → R) :
    ∑ s ∈ range m.cols, (∑ r ∈ range k, d r * m.get r s) ^ 2 = ∑ i ∈ range k, ∑ j ∈ range k, d i * gram m i j * d j := by
  have : ∀ s, (∑ r ∈ range k, d r * m.get r s) ^ 2 = ∑ i ∈ range k, ∑ j ∈ range k, d i * (m.get i s * m.get j s) * d j := fun s => by
    rw [sq, sum_mul_sum]
    refine sum_congr rfl fun i _ => sum_congr rfl fun j _ => ?_
    ring
  simp only [this]
  rw [sum_comm]
  refine sum_congr rfl fun i _ => ?_
  rw [sum_comm]
  refine sum_congr rfl fun j _ => ?_
  rw [gram, mul_sum, Finset.sum_mul]

/-! ## Properties -/

/-- **C134.** For a linear layer every column is one token of one sequence, with its features in the order of the columns of the weight: weight times column is
the layer's output there, and all tokens are there. -/
theorem linear_columns (a : Act R) (m : Mat R) (h : flattenLinear a = .ok m) (wt : ℕ → ℕ → R) (o : ℕ) :
    ∃ b s k, a.shape = [b, s, k] ∧ m.rows = k ∧ m.cols = b * s ∧
      (∀ i < b, ∀ t < s, ∑ r ∈ range m.rows, wt o r * m.get r (i * s + t) = linear k wt a o i t) ∧
      ∀ q < m.cols, ∃ i < b, ∃ t < s, q = i * s + t := by
  unfold flattenLinear at h
  split at h
  case h_2 => cases h
  case h_1 b s k hs =>
    cases h
    refine ⟨b, s, k, hs, rfl, rfl, fun i hi t ht => ?_, fun q hq => ?_⟩
    · simp only [linear, div_of ht, mod_of ht]
    · have hs0 : 0 < s := by
        rcases Nat.eq_zero_or_pos s with rfl | h
        · simp at hq
        · exact h
      exact ⟨q / s, Nat.div_lt_of_lt_mul (by rw [Nat.mul_comm]; exact hq), q % s, Nat.mod_lt _ hs0, by rw [Nat.mul_comm]; exact (Nat.div_add_mod q s).symm⟩

/-- **C134.** The places of the output, in one direction, are those at which the kernel lies within the padded image. -/
theorem places_iff (len pad dil k stride y : ℕ) (hk : 0 < k) (hs : 0 < stride) (hfit : dil * (k - 1) < len + 2 * pad) :
    y < outSize len pad dil k stride ↔ (y : ℤ) * stride - pad + dil * (k - 1) < len + pad := by
  have e : ((k - 1 : ℕ) : ℤ) = (k : ℤ) - 1 := by omega
  have : (y : ℤ) * stride - pad + dil * (k - 1) < len + pad ↔ y * stride + dil * (k - 1) < len + 2 * pad := by
    rw [← e]
    constructor <;> intro h
    · have : ((y * stride + dil * (k - 1) : ℕ) : ℤ) < ((len + 2 * pad : ℕ) : ℤ) := by push_cast; linarith
      exact_mod_cast this
    · have : ((y * stride + dil * (k - 1) : ℕ) : ℤ) < ((len + 2 * pad : ℕ) : ℤ) := by exact_mod_cast h
      push_cast at this
      linarith
  rw [this, outSize, Nat.lt_succ_iff, Nat.le_div_iff_mul_le hs]
  omega

/-- **C134 (partial).** For a convolution every column is one patch of one image, with its pixels in the order of the columns of the flattened weight: flattened
weight times column is the layer's output there, and there are as many columns as outputs per channel. Missing: groups, see `groups_refused`. -/
theorem conv_columns_partial (c : Conv) (a : Act R) (m : Mat R) (h : flattenConv c a = .ok m) (wt : ℕ → ℕ → ℕ → ℕ → R) (o : ℕ) :
    ∃ n ch ih iw oh ow, a.shape = [n, ch, ih, iw] ∧ oh = outSize ih c.ph c.dh c.kh c.sh ∧ ow = outSize iw c.pw c.dw c.kw c.sw ∧
      m.cols = n * (oh * ow) ∧ m.rows = ch * c.kh * c.kw ∧
      (ch = c.inPerGroup → ∀ i < n, ∀ y < oh, ∀ x < ow,
        ∑ r ∈ range m.rows, flatWeight c wt o r * m.get r (i * (oh * ow) + (y * ow + x)) = conv c wt a ih iw 0 i o y x) := by
  unfold flattenConv at h
  split at h
  case h_2 => cases h
  case h_1 n ch ih iw hs =>
    split at h
    · cases h
    · cases h
      refine ⟨n, ch, ih, iw, _, _, hs, rfl, rfl, rfl, rfl, fun hch i hi y hy x hx => ?_⟩
      have hl := place_lt hy hx
      subst hch
      have := conv_product c wt a ih iw i o y x hx
      simp only [inFeatures] at this
      simp only [div_of hl, mod_of hl]
      exact this

/-- **C134 (partial).** What is accumulated for a convolution measures the change of the layer's output: if the weights of an output channel change by `d`, the
sum of the squares of the changes of its outputs is the quadratic form of the matrix at `d`. Missing: groups, see `groups_refused`. -/
theorem conv_error_partial (c : Conv) (a : Act R) (m : Mat R) (h : flattenConv c a = .ok m) (n ih iw : ℕ) (hs : a.shape = [n, c.inPerGroup, ih, iw])
    (d : ℕ → ℕ → ℕ → ℕ → R) (o : ℕ) :
    ∃ g, accumulate (inFeatures c) m = .ok g ∧
      ∑ i ∈ range n, ∑ y ∈ range (outSize ih c.ph c.dh c.kh c.sh), ∑ x ∈ range (outSize iw c.pw c.dw c.kw c.sw), (conv c d a ih iw 0 i o y x) ^ 2 =
        ∑ i ∈ range (inFeatures c), ∑ j ∈ range (inFeatures c), flatWeight c d o i * g i j * flatWeight c d o j := by
  obtain ⟨n', ch', ih', iw', oh, ow, hs', rfl, rfl, hcols, hrows, hval⟩ := conv_columns_partial c a m h d o
  rw [hs] at hs'
  simp only [List.cons.injEq, and_true] at hs'
  obtain ⟨rfl, rfl, rfl, rfl⟩ := hs'
  have hr : m.rows = inFeatures c := hrows
  refine ⟨gram m, by rw [accumulate, if_pos hr], ?_⟩
  rw [← square_gram, hcols, sum_samples]
  refine sum_congr rfl fun i hi => sum_congr rfl fun y hy => sum_congr rfl fun x hx => ?_
  rw [mem_range] at hi hy hx
  rw [← hr, hval rfl i hi y hy x hx]

/-- **C134.** The same for a linear layer. -/
theorem linear_error (a : Act R) (b s k : ℕ) (hs : a.shape = [b, s, k]) (d : ℕ → ℕ → R) (o : ℕ) :
    ∃ m g, flattenLinear a = .ok m ∧ accumulate k m = .ok g ∧
      ∑ i ∈ range b, ∑ t ∈ range s, (linear k d a o i t) ^ 2 = ∑ i ∈ range k, ∑ j ∈ range k, d o i * g i j * d o j := by
  have hf : flattenLinear a = .ok ⟨k, b * s, fun r q => a.val [q / s, q % s, r]⟩ := by
    unfold flattenLinear; rw [hs]
  refine ⟨_, gram _, hf, by rw [accumulate, if_pos rfl], ?_⟩
  rw [← square_gram]
  simp only
  rw [sum_blocks]
  refine sum_congr rfl fun i _ => sum_congr rfl fun t ht => ?_
  rw [mem_range] at ht
  simp only [linear, div_of ht, mod_of ht]

/-- **C134 (partial).** Activations that a layer accepts are accepted. Missing: linear layers on inputs with other than three dimensions, convolutions of single
images and in groups, see the deviations. -/
theorem accepted_partial (c : Conv) (a : Act R) (n ih iw : ℕ) (hs : a.shape = [n, c.inPerGroup, ih, iw])
    (hh : c.dh * (c.kh - 1) + 1 ≤ ih + 2 * c.ph) (hw : c.dw * (c.kw - 1) + 1 ≤ iw + 2 * c.pw) :
    ∃ m g, flattenConv c a = .ok m ∧ accumulate (inFeatures c) m = .ok g := by
  unfold flattenConv
  rw [hs]
  simp only
  rw [if_neg (by omega)]
  exact ⟨_, gram _, rfl, if_pos rfl⟩

/-! ## Deviations -/

/-- **C134, deviation.** Convolutions in groups cannot be quantized, although the number of features is documented to be that of a group: with the activations
of such a layer the matrix is too large and is refused. -/
theorem groups_refused (c : Conv) (hg : 2 ≤ c.groups) (hk : 0 < inFeatures c) (a : Act R) (n ih iw : ℕ) (hs : a.shape = [n, c.groups * c.inPerGroup, ih, iw])
    (m : Mat R) (h : flattenConv c a = .ok m) : accumulate (inFeatures c) m = .error .runtime := by
  unfold flattenConv at h
  rw [hs] at h
  simp only at h
  split at h
  · cases h
  · cases h
    have e : c.groups * c.inPerGroup * c.kh * c.kw = c.groups * inFeatures c := by unfold inFeatures; ring
    have h1 : 2 * inFeatures c ≤ c.groups * inFeatures c := Nat.mul_le_mul_right _ hg
    unfold accumulate
    simp only [e]
    rw [if_neg (by omega), if_neg (by omega)]

omit [CommRing R] in
/-- **C134, deviation.** Linear layers accept inputs with any number of dimensions before the features, but only those with two can be used. -/
theorem other_dimensions_refused (a : Act R) (pre : List ℕ) (k : ℕ) (hs : a.shape = pre ++ [k]) (hp : pre.length ≠ 2) : flattenLinear a = .error .value := by
  unfold flattenLinear
  rw [hs]
  match pre, hp with
  | [], _ => rfl
  | [_], _ => rfl
  | _ :: _ :: _ :: p, _ =>
    cases p <;> rfl

/-- **C134, deviation.** Convolutions accept a single image without batch dimension, but it cannot be used. -/
theorem single_image_refused (c : Conv) (a : Act R) (ch ih iw : ℕ) (hs : a.shape = [ch, ih, iw]) : flattenConv c a = .error .runtime := by
  unfold flattenConv; rw [hs]

/-! ## Concrete cases -/

example : 0 < 3 ∧ 0 < 2 ∧ 2 * (3 - 1) < 5 + 2 * 1 ∧ outSize 5 1 2 3 2 = 2 := by decide

/-- Kernels of two by two, with padding, stride and dilation. -/
def sample : Conv := ⟨1, 2, 2, 2, 2, 1, 1, 0, 1, 2⟩

def image : Act ℤ := ⟨[1, 2, 3, 4], fun i => match i with
  | [_, c, y, x] => (12 * c + 4 * y + x : ℕ)
  | _ => 0⟩

/-- The second patch of the first row: its upper half is padding. -/
example : ∃ m, flattenConv sample image = .ok m ∧ m.rows = 8 ∧ m.cols = 4 ∧
    (List.range 8).map (fun r => m.get r 1) = [0, 0, 1, 3, 0, 0, 13, 15] := ⟨_, rfl, rfl, rfl, by decide⟩

/-- Depthwise convolutions are in groups. -/
example : 2 ≤ (⟨2, 1, 2, 2, 1, 1, 0, 0, 1, 1⟩ : Conv).groups ∧ 0 < inFeatures ⟨2, 1, 2, 2, 1, 1, 0, 0, 1, 1⟩ := by decide

end FF.GptqIn
