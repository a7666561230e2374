import Verif.Quant.Affine

/-!
# Gradients of the affine quantizer: the model of `quant_dequant_by_tile_grad_impl`
-/

namespace FF.Quant

/-- Is the (rounded) value outside the integer range? `_quantizer_impl.py:215-217`. -/
def clipped (s : ℚ) (o : Option ℚ) (n : ℕ) (x : ℚ) : Bool :=
  let q := roundHE (x / s - inferOffset o)
  decide (q < intMin n) || decide (intMax n < q)

/-- Input gradient of one element, `_quantizer_impl.py:219`. -/
def gradInput (s : ℚ) (o : Option ℚ) (n : ℕ) (x g : ℚ) : ℚ := if clipped s o n x then 0 else g

/-- Contribution of one element to the offset gradient, `_quantizer_impl.py:224`. -/
def gradOffset (s : ℚ) (o : Option ℚ) (n : ℕ) (x g : ℚ) : ℚ := if clipped s o n x then s * g else 0

/-- Contribution of one element to the scale gradient, `_quantizer_impl.py:227-233`. -/
def gradScale (s : ℚ) (o : Option ℚ) (n : ℕ) (x g : ℚ) : ℚ :=
  let pre := x / s - inferOffset o
  let q := roundHE pre
  let d := (if q < intMin n then (intMin n : ℚ) else (intMax n : ℚ)) + inferOffset o
  (if clipped s o n x then d else (q : ℚ) - pre) * g

/-- `_quantizer_impl.py:193-237` on the rows of the tiled data: `(dinput rows, dscale, doffset)`, sums per row (lines 225, 236);
without an offset there is no offset gradient. Simplification: one scale (and offset) per row. -/
def gradRow (s : ℚ) (o : Option ℚ) (n : ℕ) (row : List (ℚ × ℚ)) : List ℚ × ℚ × Option ℚ :=
  (row.map fun p => gradInput s o n p.1 p.2,
   (row.map fun p => gradScale s o n p.1 p.2).sum,
   o.map fun _ => (row.map fun p => gradOffset s o n p.1 p.2).sum)

end FF.Quant
