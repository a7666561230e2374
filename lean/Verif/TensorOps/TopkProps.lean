import Verif.TensorOps.Model
import Verif.Quant.AffineLemmas
import Mathlib.Tactic.Linarith

/-! # Top-k of a per-tensor quantized tensor (C67)

`torch.topk` does not fix which of several equal elements it returns, so it is modelled by the relation "is a valid answer". -/

namespace FF.TOps
open FF.Quant

/-- Specification of `torch.topk(xs, k, largest=largest, sorted=True)` on one row: `idxs` are `k` different positions, `vals` the
elements there, ordered best first, and no element left out is better than one that was picked. -/
structure IsTopK {α : Type} (better : α → α → Prop) (xs : List α) (k : ℕ) (vals : List α) (idxs : List ℕ) : Prop where
  len : idxs.length = k
  nodup : idxs.Nodup
  vals_at : vals.map some = idxs.map fun i => xs[i]?
  sorted : vals.Pairwise fun a b => ¬ better b a
  best : ∀ (j : ℕ) (y : α), xs[j]? = some y → j ∉ idxs → ∀ v ∈ vals, ¬ better y v

/-- `topk` (`quantization/_linear_quantized_ops.py:270-280`) on one row of a per-tensor quantized tensor: `torch.topk` runs on
the raw codes (subclass dispatch is disabled inside a registered kernel, `quantized_tensor.py`), the context is attached to the
values. The pair is the raw values and the indices. -/
def QTopK (largest : Bool) (codes : List ℤ) (k : ℕ) (vals : List ℤ) (idxs : List ℕ) : Prop :=
  IsTopK (fun a b => if largest then b < a else a < b) codes k vals idxs

/-- The property C67 for one scale and offset: the answers of the quantized kernel, dequantized, are exactly valid answers for the
dequantized row. -/
def TopKFaithful (s : ℚ) (o : Option ℚ) : Prop :=
  ∀ (largest : Bool) (codes : List ℤ) (k : ℕ) (vals : List ℤ) (idxs : List ℕ), QTopK largest codes k vals idxs →
    IsTopK (fun a b : ℚ => if largest then b < a else a < b) (codes.map (dequantizeScalar s o)) k
      (vals.map (dequantizeScalar s o)) idxs

theorem dequantize_lt_iff {s : ℚ} (hs : 0 < s) (o : Option ℚ) (a b : ℤ) :
    dequantizeScalar s o a < dequantizeScalar s o b ↔ a < b := by
  unfold dequantizeScalar
  rw [mul_lt_mul_iff_left₀ hs]
  constructor
  · intro h
    have : (a : ℚ) < b := by linarith
    exact_mod_cast this
  · intro h
    have : (a : ℚ) < b := by exact_mod_cast h
    linarith

theorem isTopK_map {α β : Type} {r : α → α → Prop} {r' : β → β → Prop} (f : α → β) (hf : ∀ a b, r' (f a) (f b) ↔ r a b)
    {xs : List α} {k : ℕ} {vals : List α} {idxs : List ℕ} (h : IsTopK r xs k vals idxs) :
    IsTopK r' (xs.map f) k (vals.map f) idxs where
  len := h.len
  nodup := h.nodup
  vals_at := by
    have := congrArg (List.map (Option.map f)) h.vals_at
    simpa [Function.comp_def] using this
  sorted := by
    rw [List.pairwise_map]
    exact h.sorted.imp fun hab => by rwa [hf]
  best := by
    intro j y hy hj v hv
    rw [List.getElem?_map] at hy
    obtain ⟨x, hx, rfl⟩ := Option.map_eq_some_iff.1 hy
    obtain ⟨w, hw, rfl⟩ := List.mem_map.1 hv
    rw [hf]; exact h.best j x hx hj w hw

/-- **C67.** For a positive scale, `topk` of a per-tensor quantized tensor picks values and positions that are a right answer for
the dequantized tensor, for `largest` and for smallest. The scale of a quantizer whose range was set is positive; it can become
negative by multiplying the tensor by a negative number, see `topk_negative_scale`. -/
theorem topk_value_partial (s : ℚ) (o : Option ℚ) (hs : 0 < s) : TopKFaithful s o := by
  intro largest codes k vals idxs h
  refine isTopK_map (dequantizeScalar s o) ?_ h
  intro a b
  cases largest
  · simpa using dequantize_lt_iff hs o a b
  · simpa using dequantize_lt_iff hs o b a

/-- A concrete answer: the two largest codes of `[3, −1, 3, 5]`. -/
example : QTopK true [3, -1, 3, 5] 2 [5, 3] [3, 0] where
  len := rfl
  nodup := by decide
  vals_at := rfl
  sorted := by decide
  best := by
    intro j y hy hj v hv
    match j, hy with
    | 0, _ => simp at hj
    | 1, hy => simp at hy; subst hy; rcases List.mem_cons.1 hv with rfl | hv; · decide
               · simp at hv; subst hv; decide
    | 2, hy => simp at hy; subst hy; rcases List.mem_cons.1 hv with rfl | hv; · decide
               · simp at hv; subst hv; decide
    | 3, _ => simp at hj
    | j + 4, hy => simp at hy

/-- **C67, deviation.** With a negative scale (a quantized tensor multiplied by −1) `topk` returns the smallest values. -/
theorem topk_negative_scale : ¬ TopKFaithful (-1) none := by
  intro h
  have hq : QTopK true [0, 1] 1 [1] [1] :=
    { len := rfl, nodup := by decide, vals_at := rfl, sorted := by decide
      best := by
        intro j y hy hj v hv
        match j, hy with
        | 0, hy => simp at hy hv; subst hy hv; decide
        | 1, _ => simp at hj
        | j + 2, hy => simp at hy }
  have := (h true [0, 1] 1 [1] [1] hq).best 0 (dequantizeScalar (-1) none 0) rfl (by decide) (dequantizeScalar (-1) none 1) (by simp)
  exact this (by decide +kernel)

end FF.TOps
