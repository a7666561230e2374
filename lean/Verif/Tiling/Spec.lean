import Verif.Tensor.Basic

/-!
# Tiling: specification vocabulary

A tile size `tile` cuts a shape into a grid of boxes.  The element at multi-index `i` lies in the box with grid coordinates
`tileCoord i tile` (coordinate-wise quotient) at the position `posInTile i tile` inside the box (coordinate-wise remainder).
-/

namespace FF.Tiling
open FF.Tens

/-- Grid coordinates of the tile that contains the element at multi-index `i`. -/
def divIdx (i t : List ℕ) : List ℕ := List.zipWith (· / ·) i t

/-- Position of the element at multi-index `i` inside its tile. -/
def modIdx (i t : List ℕ) : List ℕ := List.zipWith (· % ·) i t

/-- The grid of tiles: how many tiles there are along each dimension. -/
def grid (shape tile : List ℕ) : List ℕ := List.zipWith (· / ·) shape tile

/-- The tile size fits: same number of dimensions, no zero entry, and every entry divides its dimension. -/
def Divides (shape tile : List ℕ) : Prop := List.Forall₂ (fun t d => 0 < t ∧ t ∣ d) tile shape

/-- Number of the tile (row-major in the grid of tiles) that contains the element at multi-index `i`. -/
def tileId (shape tile i : List ℕ) : ℕ := ravel (grid shape tile) (divIdx i tile)

/-- Number of the position (row-major inside the tile) of the element at multi-index `i`. -/
def posId (tile i : List ℕ) : ℕ := ravel tile (modIdx i tile)

end FF.Tiling
