import Verif.Tiling.Model
import Mathlib.Data.Rat.Defs
import Mathlib.Algebra.Order.Field.Rat

/-!
# Granularities: the model of `quantization/granularity.py`
-/

namespace FF.Gran
open FF.Tens FF.Tiling

/-- Python sequence index: negative indices count from the end; `none` is `IndexError`. -/
def pyIndex (n : ℕ) (d : ℤ) : Option ℕ :=
  if 0 ≤ d ∧ d < n then some d.toNat
  else if d < 0 ∧ -(n : ℤ) ≤ d then some (n + d).toNat
  else none

/-- The granularity classes of `granularity.py:102-263`. Block sizes are natural numbers (a negative block size is not
modelled). -/
inductive Granularity where
  | perTensor
  | perChannel (channelDims : List ℤ)
  | perBlock (blockDims : List ℤ) (blockSizes : List ℕ) (perChannelDims : List ℤ) (strictBlocks : Bool)
  | perTile (tileShape : List ℕ)
  deriving DecidableEq, Repr

/-- `granularity.py:171-193` `PerBlock.__init__`: the two sequences must have equal length. (Overlapping dimensions are only
logged.) -/
def mkPerBlock (blockDims : List ℤ) (blockSizes : List ℕ) (perChannelDims : List ℤ) (strictBlocks : Bool) :
    Except TErr Granularity :=
  if blockDims.length ≠ blockSizes.length then .error .valueError
  else .ok (.perBlock blockDims blockSizes perChannelDims strictBlocks)

/-- `tile_size[dim] = v` -/
def setDim (ts : List ℕ) (d : ℤ) (v : ℕ) : Except TErr (List ℕ) :=
  match pyIndex ts.length d with
  | none => .error .indexError
  | some k => .ok (ts.set k v)

/-- One iteration of the loop at `granularity.py:201-214`. -/
def blockStep (shape : List ℕ) (strict : Bool) (ts : List ℕ) (p : ℤ × ℕ) : Except TErr (List ℕ) :=
  match pyIndex shape.length p.1 with
  | none => .error .indexError
  | some k =>
    let dim := shape.getD k 0
    if dim < p.2 then .error .valueError
    else if strict ∧ p.2 = 0 then .error .zeroDivision          -- `data_shape[block_dim] % 0`
    else if strict ∧ dim % p.2 ≠ 0 then .error .valueError
    else .ok (ts.set k p.2)

/-- `Granularity.tile_size` (`granularity.py:109-118, 137-150, 196-216, 242-258`); `none` is the literal `"data_shape"`. -/
def tileSize (g : Granularity) (shape : List ℕ) : Except TErr (Option (List ℕ)) :=
  match g with
  | .perTensor => .ok none
  | .perChannel dims => do return some (← dims.foldlM (fun ts d => setDim ts d 1) shape)
  | .perBlock bd bs cd strict => do
    let ts ← cd.foldlM (fun ts d => setDim ts d 1) shape
    return some (← (bd.zip bs).foldlM (blockStep shape strict) ts)
  | .perTile tile => do
    checkTileCompatibility shape tile
    return some tile

/-- `granularity.py:64-75` `parameter_dimensionality`. -/
def parameterDimensionality (g : Granularity) (shape : List ℕ) : Except TErr ℕ := do
  match ← tileSize g shape with
  | none => return 1
  | some tile => floorDiv shape.prod tile.prod

/-- `granularity.py:91-99` `Granularity.__eq__`: same class and equal `__match_args__` attributes. `PerBlock` declares no
`__match_args__`, so nothing is compared for it. -/
def geq : Granularity → Granularity → Bool
  | .perTensor, .perTensor => true
  | .perChannel a, .perChannel b => a = b
  | .perBlock .., .perBlock .. => true
  | .perTile a, .perTile b => a = b
  | _, _ => false

/-- `granularity.py:308-332` `granularity_from_sizes`. The quotients `divs` are exact rationals here (floats in the code);
`data_dim % div` is zero iff `data_dim / div` is an integer. A zero tile entry gives an infinite quotient, written `none`. -/
def granularityFromSizes (data tile : List ℕ) : Granularity :=
  if data = tile then .perTensor
  else
    let divs : List (Option ℚ) := List.zipWith (fun (d t : ℕ) => if t = 0 then none else some ((d : ℚ) / t)) data tile
    let dims := List.range data.length
    if (divs.zip data).all (fun p => decide (p.1 = some 1) || decide (p.1 = some (p.2 : ℚ))) then
      .perChannel ((dims.filter fun i => decide (tile.getD i 0 = 1) && decide (1 < data.getD i 0)).map Int.ofNat)
    else
      let blockDims := dims.filter fun i => decide (tile.getD i 0 ≠ 1) && decide (tile.getD i 0 ≠ data.getD i 0)
      let blockSizes := blockDims.map fun i => tile.getD i 0
      let channelDims := dims.filter fun i => decide (tile.getD i 0 = 1) && decide (1 < data.getD i 0)
      let strict := (divs.zip data).all fun p =>
        match p.1 with
        | none => false                                    -- `d % inf = d`, non-zero for positive sizes
        | some q => decide (((p.2 : ℚ) / q).den = 1)
      .perBlock (blockDims.map Int.ofNat) blockSizes (channelDims.map Int.ofNat) strict

end FF.Gran
