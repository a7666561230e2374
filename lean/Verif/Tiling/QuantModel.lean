import Verif.Tiling.Model
import Verif.Quant.Affine

/-!
# Tiled affine quantization: the model of `quantize_by_tile_impl` and `dequantize_by_tile_impl`
-/

namespace FF.Tiling
open FF.Tens FF.Quant

/-- PyTorch broadcasting of one dimension. -/
def broadcastDim (a b : ℕ) : Except TErr ℕ :=
  if a = b then .ok a else if a = 1 then .ok b else if b = 1 then .ok a else .error .runtimeError

/-- Index into a dimension of size `d` that was broadcast. -/
def bIdx (d r : ℕ) : ℕ := if d = 1 then 0 else r

/-- Length of the flattened offset after `_infer_offset` (`_quantizer_impl.py:140-141`). -/
def offsetLen (scale : List ℚ) (offset : Option (List ℚ)) : ℕ := (offset.map List.length).getD scale.length

/-- `rows ∘ scale[:, None] ∘ offset[:, None]`: combine a 2-d tensor with two columns of parameters by broadcasting
(`_quantizer_impl.py:161,186`). An absent offset becomes zeros like the scale (line 141), i.e. `none` for each row. -/
def rowwise {α β : Type} (f : ℚ → Option ℚ → α → β) (rows : Tensor α) (scale : List ℚ) (offset : Option (List ℚ)) :
    Except TErr (Tensor β) := do
  let r := rows.shape.getD 0 0
  let c := rows.shape.getD 1 0
  let r1 ← broadcastDim r scale.length
  let r2 ← broadcastDim r1 (offsetLen scale offset)
  return ⟨[r2, c], fun k =>
    f (scale.getD (bIdx scale.length (k / c)) 0)
      (offset.map fun o => o.getD (bIdx o.length (k / c)) 0)
      (rows.at [bIdx r (k / c), k % c])⟩

/-- `quantization/_quantizer_impl.py:144-169` `quantize_by_tile_impl`; `scale` and `offset` are the flattened parameters.
Simplification: the output dtype check (165-167) is modelled in `Verif.Quant.Dtype`; a `nan` code is `none`. -/
def quantizeByTile (t : Tensor ℚ) (scale : List ℚ) (tile : Option (List ℕ)) (n : ℕ) (offset : Option (List ℚ)) :
    Except TErr (Tensor (Option ℤ)) := do
  let rows ← tilesToRows t tile
  let q ← rowwise (fun s o x => quantizeScalar s o n x) rows scale offset
  rowsToTiles q t.shape tile

/-- `quantization/_quantizer_impl.py:172-190` `dequantize_by_tile_impl`. -/
def dequantizeByTile (t : Tensor ℤ) (scale : List ℚ) (tile : Option (List ℕ)) (offset : Option (List ℚ)) :
    Except TErr (Tensor ℚ) := do
  let rows ← tilesToRows t tile
  let q ← rowwise (fun s o c => dequantizeScalar s o c) rows scale offset
  rowsToTiles q t.shape tile

end FF.Tiling
