import Mathlib.Data.Rat.Floor
import Mathlib.Tactic.Linarith
import Mathlib.Tactic.Ring
import Mathlib.Tactic.FieldSimp
import Mathlib.Tactic.Positivity

/-!
# Affine quantization: the model

Numbers are exact rationals (`ℚ`) instead of floats.  A non-finite float (`inf`, `nan`) that the code can
produce by dividing by zero is modelled by `none`.
-/

namespace FF.Quant

/-- `torch.round`: round to the nearest integer, ties to even.
Models the PyTorch primitive used in `quantization/ste.py` (`round_ste`) and
`quantization/_quantizer_impl.py:141,161,216,275,277`.
Simplification: exact rationals instead of floats. -/
def roundHE (q : ℚ) : ℤ :=
  if q - ⌊q⌋ < 1 / 2 then ⌊q⌋
  else if 1 / 2 < q - ⌊q⌋ then ⌊q⌋ + 1
  else if ⌊q⌋ % 2 = 0 then ⌊q⌋ else ⌊q⌋ + 1

/-- `quantization/affine/range.py:10-18` `integer_minimum`.
Simplification: `num_bits` is a natural number; the code also accepts fractional bit-widths.
For `n = 0` Python gives `-0.5`; theorems assume `1 ≤ n`. -/
def intMin (n : ℕ) : ℤ := -(2 ^ (n - 1))

/-- `quantization/affine/range.py:21-29` `integer_maximum`. -/
def intMax (n : ℕ) : ℤ := -intMin n - 1

/-- `torch.clamp(x, lo, hi)`, which is `min(max(x, lo), hi)`
(`quantization/_quantizer_impl.py:162,278`). -/
def clampZ (lo hi x : ℤ) : ℤ := min (max x lo) hi

/-- `quantization/_quantizer_impl.py:140-141` `_infer_offset`: an absent offset is zero, a present one is rounded. -/
def inferOffset : Option ℚ → ℤ
  | none => 0
  | some o => roundHE o

/-- One element of `quantization/_quantizer_impl.py:144-169` `quantize_by_tile_impl`, lines 158-162:
`clamp(round(x / scale - offset), min_threshold, max_threshold)`.
`none` is `nan`. A zero scale gives `x/0`: `nan` for `x = 0`, otherwise `±inf`, which `clamp` maps to a threshold
(the zero scale is taken to be `+0.0`). -/
def quantizeScalar (s : ℚ) (o : Option ℚ) (n : ℕ) (x : ℚ) : Option ℤ :=
  if s = 0 then
    if x = 0 then none else if 0 < x then some (intMax n) else some (intMin n)
  else some (clampZ (intMin n) (intMax n) (roundHE (x / s - inferOffset o)))

/-- One element of `quantization/_quantizer_impl.py:172-190` `dequantize_by_tile_impl`, line 186:
`(code + offset) * scale`. -/
def dequantizeScalar (s : ℚ) (o : Option ℚ) (c : ℤ) : ℚ := ((c : ℚ) + inferOffset o) * s

/-- `quantization/affine/range.py:32-51` `quantization_range`, one element. Note that the offset is not rounded here. -/
def quantizationRange (s : ℚ) (o : Option ℚ) (n : ℕ) : ℚ × ℚ :=
  (((intMin n : ℚ) + o.getD 0) * s, ((intMax n : ℚ) + o.getD 0) * s)

/-- Division of non-negative floats as used at `range.py:108-109`: a zero divisor gives a non-finite result. -/
def divF (a b : ℚ) : Option ℚ := if b = 0 then none else some (a / b)

/-- `torch.max(a, b)` element-wise on possibly non-finite values (`range.py:110`): non-finite values propagate
(`inf` and `nan` both win). -/
def maxF : Option ℚ → Option ℚ → Option ℚ
  | some a, some b => some (max a b)
  | _, _ => none

/-- Errors of the numeric code. -/
inductive Err where
  | emptyReduction
  | quantization
  | runtime
  deriving DecidableEq, Repr

/-- `min_range.min()` (`range.py:100`): minimum of all entries, an error for an empty tensor. -/
def listMin : List ℚ → Except Err ℚ
  | [] => .error .emptyReduction
  | x :: xs => .ok (xs.foldl min x)

/-- Maximum of all entries, an error for an empty tensor (`_quantizer_impl.py:261`). -/
def listMax : List ℚ → Except Err ℚ
  | [] => .error .emptyReduction
  | x :: xs => .ok (xs.foldl max x)

/-- Symmetric scale of one range, `range.py:106-110`. -/
def symScale (n : ℕ) (r : ℚ × ℚ) : Option ℚ :=
  maxF (divF |r.1| |(intMin n : ℚ)|) (divF |r.2| |(intMax n : ℚ)|)

/-- Asymmetric scale of one range, `range.py:116-119`: interval length over number of steps, clamped from below
by the float epsilon `eps`. -/
def asymScale (eps : ℚ) (n : ℕ) (r : ℚ × ℚ) : ℚ := max ((r.2 - r.1) / (2 ^ n - 1)) eps

/-- Asymmetric offset of one range, `range.py:120`. -/
def asymOffset (eps : ℚ) (n : ℕ) (r : ℚ × ℚ) : ℚ := r.1 / asymScale eps n r - intMin n

/-- `quantization/affine/range.py:54-122` `parameters_for_range` on the list of `(min, max)` ranges of all tiles.
`eps` is `torch.finfo(float32).eps`. The scale entries are `none` when non-finite.
Simplification: `min_range` and `max_range` are given zipped (the code requires equal shapes). -/
def parametersForRange (eps : ℚ) (n : ℕ) (symmetric allowOneSided : Bool) (rs : List (ℚ × ℚ)) :
    Except Err (List (Option ℚ) × Option (List ℚ)) := do
  let m ← listMin (rs.map Prod.fst)
  let oneSided := decide (0 ≤ m) && allowOneSided
  let rs := if symmetric && oneSided then rs.map (fun r => (0, r.2)) else rs
  if symmetric && !oneSided then
    return (rs.map (symScale n), none)
  else
    return (rs.map (fun r => some (asymScale eps n r)), some (rs.map (asymOffset eps n)))

/-- Minimum and maximum of one non-empty row, `_quantizer_impl.py:260-261`. -/
def rowRange (row : List ℚ) : ℚ × ℚ := (row.foldl min (row.headD 0), row.foldl max (row.headD 0))

/-- One element of `_quantizer_impl.py:277-278`; a non-finite scale is not followed further (`none`). -/
def quantizeRowElem (s : Option ℚ) (o : ℤ) (n : ℕ) (x : ℚ) : Option ℤ :=
  match s with
  | none => none
  | some s => quantizeScalar s (some (o : ℚ)) n x

/-- `quantization/_quantizer_impl.py:243-285` `quantize_dynamic_by_tile_impl` on the rows of the tiled data:
returns `(codes, scale, offset)`. Reducing rows without elements raises `IndexError`, turned into `QuantizationError`
(lines 259-264). The dtype check (281-283) is modelled separately (`Dtype`). -/
def quantizeDynamicRows (eps : ℚ) (n : ℕ) (symmetric allowOneSided : Bool) (rows : List (List ℚ)) :
    Except Err (List (List (Option ℤ)) × List (Option ℚ) × List ℤ) :=
  if rows.any List.isEmpty then .error .quantization
  else do
    let (ss, os) ← parametersForRange eps n symmetric allowOneSided (rows.map rowRange)
    let os := (os.getD (ss.map fun _ => 0)).map roundHE
    return (List.zipWith (fun row so => row.map (quantizeRowElem so.1 so.2 n)) rows (ss.zip os), ss, os)

end FF.Quant
