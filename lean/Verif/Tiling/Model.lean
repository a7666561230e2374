import Verif.Tensor.Basic

/-!
# Tiling: the model of `quantization/tiled_tensor.py`
-/

namespace FF.Tiling
open FF.Tens

variable {α : Type}

/-- `tiled_tensor.py:19-42` `check_tile_compatibility`. -/
def checkTileCompatibility (inputSize tileSize : List ℕ) : Except TErr Unit :=
  if inputSize.length ≠ tileSize.length then .error .valueError
  else if (inputSize.zip tileSize).any (fun p => decide (0 < p.2) && decide (p.1 % p.2 ≠ 0)) then .error .valueError
  else .ok ()

/-- `tiled_tensor.py:56-68` `_interleave` for two sequences: a length-one left sequence is repeated, the right one is
cycled (`itertools.cycle`, empty for an empty sequence). -/
def interleave (seq1 seq2 : List ℕ) : List ℕ :=
  let left := if seq1.length = 1 ∧ 1 < seq2.length then List.replicate seq2.length (seq1.headD 0) else seq1
  if seq2 = [] then [] else left.zipIdx.flatMap (fun p => [p.1, seq2.getD (p.2 % seq2.length) 0])

/-- `list(range(0, n, 2))` -/
def evens (n : ℕ) : List ℕ := (List.range ((n + 1) / 2)).map (2 * ·)

/-- `list(range(1, n, 2))` -/
def odds (n : ℕ) : List ℕ := (List.range (n / 2)).map (2 * · + 1)

/-- `[a // b for a, b in zip(size, tile)]` (`tiled_tensor.py:91,136`): fails on a zero divisor. -/
def numDimBlocks (size tile : List ℕ) : Except TErr (List ℕ) :=
  if (size.zip tile).any (fun p => decide (p.2 = 0)) then .error .zeroDivision
  else .ok (List.zipWith (· / ·) size tile)

/-- `a // b` on sizes (`tiled_tensor.py:94,129`). -/
def floorDiv (a b : ℕ) : Except TErr ℕ := if b = 0 then .error .zeroDivision else .ok (a / b)

/-- `tiled_tensor.py:71-98` `tiles_to_rows`; `tile = none` is the literal `"data_shape"`. -/
def tilesToRows (t : Tensor α) (tile : Option (List ℕ)) : Except TErr (Tensor α) :=
  if t.numel = 0 then t.reshape [1, 0]
  else do
    let tile := tile.getD t.shape
    checkTileCompatibility t.shape tile
    let nb ← numDimBlocks t.shape tile
    let dataShape := interleave nb tile
    let numBlocks ← floorDiv t.numel tile.prod
    let tiled ← t.reshape dataShape
    let permutation := evens tiled.shape.length ++ odds tiled.shape.length
    let permuted := tiled.permute permutation
    let cols ← floorDiv permuted.numel numBlocks                       -- the inferred `-1` dimension
    permuted.reshape [numBlocks, cols]

/-- `tiled_tensor.py:101-144` `rows_to_tiles`. -/
def rowsToTiles (rows : Tensor α) (dataSize : List ℕ) (tile : Option (List ℕ)) : Except TErr (Tensor α) :=
  if rows.numel = 0 then rows.reshape dataSize
  else do
    let tile := tile.getD dataSize
    checkTileCompatibility dataSize tile
    let expectedRows ← floorDiv dataSize.prod tile.prod
    if rows.shape ≠ [expectedRows, tile.prod] then throw .valueError
    let nb ← numDimBlocks dataSize tile
    let intermediate := interleave nb tile
    let ndims := intermediate.length
    let permutation := evens ndims ++ odds ndims
    let tiledShape := permutation.map (intermediate.getD · 0)
    let reversePermutation := interleave (List.range (ndims / 2)) ((List.range (ndims - ndims / 2)).map (ndims / 2 + ·))
    let data ← rows.reshape tiledShape
    (data.permute reversePermutation).reshape dataSize

end FF.Tiling
