import Verif.Tiling.QuantModel
import Verif.Granularity.Model

/-!
# Operations on affine quantized tensors: the model of `quantization/_linear_quantized_ops.py`
-/

namespace FF.TOps
open FF.Tens FF.Tiling FF.Quant FF.Gran

/-- A `QuantizedTensor` whose context is `StaticAffineQuantParams` (`quantized_tensor.py:290-315`,
`quantization/affine/function.py:31-40`). The parameters are given flattened. Data types and the bit-width, which
dequantization does not read, are left out. -/
structure QTensor where
  data : Tensor ℤ
  scale : List ℚ
  offset : Option (List ℚ)
  gran : Granularity

/-- `AffineQuantizationFunction.dequantize` (`affine/function.py:179-188`). -/
def QTensor.dequantize (q : QTensor) : Except TErr (Tensor ℚ) := do
  let tile ← tileSize q.gran q.data.shape
  dequantizeByTile q.data q.scale tile q.offset

/-- `_is_affine_per_tensor` (`_linear_quantized_ops.py:31-45`) for affine tensors. -/
def isPerTensor (q : QTensor) : Bool := q.gran = .perTensor

/-- `scalar_multiply` (153-171) together with its registration predicate; `none`: the kernel does not apply. The gradient
scaling `_ScaleGradient` is the identity in the forward direction. -/
def scalarMultiply (q : QTensor) (a : ℚ) : Option QTensor :=
  if isPerTensor q then some { q with scale := q.scale.map (· * a) } else none

/-- `apply_and_reattach` (`quantized_tensor.py:247-274`): apply a function to the raw data and keep the context. -/
def applyAndReattach (f : Tensor ℤ → Except TErr (Tensor ℤ)) (q : QTensor) : Except TErr QTensor := do
  return { q with data := ← f q.data }

/-- The per-tensor kernels `view`, `view_as`, `reshape`, `transpose`, `__getitem__`, `expand`, `take_along_dim`
(97-118, 227-234, 263-267); `none`: the kernel does not apply. -/
def perTensorOp (f : Tensor ℤ → Except TErr (Tensor ℤ)) (q : QTensor) : Option (Except TErr QTensor) :=
  if isPerTensor q then some (applyAndReattach f q) else none

/-! ### Concatenation -/

/-- The element of `torch.cat(ts, dim=d)` at a multi-index: walk along dimension `d` through the tensors. -/
def catGet {α : Type} (d : ℕ) : List (Tensor α) → List ℕ → Option α
  | [], _ => none
  | t :: ts, idx =>
    let n := t.shape.getD d 0
    if idx.getD d 0 < n then some (t.at idx) else catGet d ts (idx.set d (idx.getD d 0 - n))

/-- `torch.cat`: all shapes must agree except along `dim`. (PyTorch's special case that skips legacy empty 1-d tensors is
not modelled.) -/
def torchCat {α : Type} (ts : List (Tensor α)) (dim : ℤ) : Except TErr (Tensor α) :=
  match ts with
  | [] => .error .runtimeError
  | t0 :: _ =>
    match pyIndex t0.shape.length dim with
    | none => .error .indexError
    | some d =>
      if ts.all (fun t => decide (t.shape.length = t0.shape.length) && decide (t.shape.set d 0 = t0.shape.set d 0)) then
        let shape := t0.shape.set d (ts.map fun t => t.shape.getD d 0).sum
        .ok ⟨shape, fun k => (catGet d ts (unravel shape k)).getD (t0.get 0)⟩
      else .error .runtimeError

/-- The loop of `cat_predicate` (196-214): `scale`/`offset` are the values remembered from the previous tensor, `none` at first.
A tensor's own offset may be absent too. All tensors are affine quantized here. -/
def catLoop : Option (List ℚ) → Option (List ℚ) → List QTensor → Bool
  | _, _, [] => true
  | scale, offset, q :: qs =>
    if !isPerTensor q then false
    else
      let scaleMatch := match scale with | none => true | some s => decide (q.scale = s)
      let offsetMatch := match offset with | none => true | some o => decide (q.offset = some o)
      if !(scaleMatch && offsetMatch) then false else catLoop (some q.scale) q.offset qs

/-- `cat_predicate` (174-216) without output quantizer. -/
def catPredicate (qs : List QTensor) : Bool := catLoop none none qs

/-- `cat` (219-224) with its predicate; `none`: the kernel does not apply. -/
def cat (qs : List QTensor) (dim : ℤ) : Option (Except TErr QTensor) :=
  if catPredicate qs then
    some do
      let out ← torchCat (qs.map QTensor.data) dim
      match qs with
      | [] => .error .indexError
      | q0 :: _ => .ok { q0 with data := out }
  else none

/-! ### `unsqueeze` -/

/-- `Tensor.unsqueeze(dim)`: a new dimension of size one; `dim` may range over `-(ndim+1) .. ndim`. -/
def torchUnsqueeze {α : Type} (t : Tensor α) (dim : ℤ) : Except TErr (Tensor α) :=
  match pyIndex (t.shape.length + 1) dim with
  | none => .error .indexError
  | some d => .ok ⟨t.shape.insertIdx d 1, t.get⟩

/-- `unsqueeze` (237-260). The per-channel branch computes `ax + ax >= dim`, a Boolean, for each axis; a Boolean used as an axis
is 0 or 1. -/
def unsqueeze (q : QTensor) (dim : ℤ) : Except TErr QTensor := do
  let data ← torchUnsqueeze q.data dim
  match q.gran with
  | .perTensor => .ok { q with data }
  | .perChannel axis =>
    .ok { q with data, gran := .perChannel (axis.map fun ax => if ax + ax ≥ dim then 1 else 0) }
  | .perTile tile =>
    .ok { q with data, gran := .perTile (tile.insertIdx (dim % ((tile.length : ℤ) + 1)).toNat 1) }
  | .perBlock .. => .error .valueError

/-! ### Indexing -/

/-- One entry of an index expression (`SliceLike`, line 23). Slices have non-negative steps, as PyTorch requires. -/
inductive Item where
  | newaxis
  | int (i : ℤ)
  | slice (start stop : Option ℤ) (step : ℕ)
  | ellipsis
  deriving DecidableEq, Repr

/-- Clamp a slice bound as `slice.indices` does for a positive step. -/
def clampBound (d : ℕ) (b : ℤ) : ℕ := if b < 0 then ((d : ℤ) + b).toNat else min b.toNat d

/-- `slice(start, stop, step).indices(d)` as (start, number of elements), for a positive step. -/
def sliceIndices (start stop : Option ℤ) (step d : ℕ) : ℕ × ℕ :=
  let a := (start.map (clampBound d)).getD 0
  let b := (stop.map (clampBound d)).getD d
  (a, (b - a + step - 1) / step)

/-- Number of dimensions an index expression consumes. -/
def consumed (items : List Item) : ℕ :=
  (items.filter fun x => match x with | .newaxis | .ellipsis => false | _ => true).length

/-- Basic indexing `t[items]` of PyTorch on a shape: the shape of the result and the map from result indices to input indices. -/
def indexShape : List Item → List ℕ → Except TErr (List ℕ × (List ℕ → List ℕ))
  | [], shape => .ok (shape, id)
  | .newaxis :: is, shape => do
    let (out, m) ← indexShape is shape
    return (1 :: out, fun idx => m idx.tail)
  | .int _ :: _, [] => .error .indexError
  | .int i :: is, d :: ds =>
    match pyIndex d i with
    | none => .error .indexError
    | some k => do
      let (out, m) ← indexShape is ds
      return (out, fun idx => k :: m idx)
  | .slice .. :: _, [] => .error .indexError
  | .slice a b c :: is, d :: ds =>
    if c = 0 then .error .valueError
    else do
      let (out, m) ← indexShape is ds
      return ((sliceIndices a b c d).2 :: out, fun idx => ((sliceIndices a b c d).1 + idx.headD 0 * c) :: m idx.tail)
  | .ellipsis :: is, shape =>
    if is.contains .ellipsis then .error .indexError
    else if shape.length < consumed is then .error .indexError
    else do
      let skip := shape.length - consumed is
      let (out, m) ← indexShape is (shape.drop skip)
      return (shape.take skip ++ out, fun idx => idx.take skip ++ m (idx.drop skip))

/-- `Tensor.__getitem__` with basic indexing. -/
def torchGetitem {α : Type} (t : Tensor α) (items : List Item) : Except TErr (Tensor α) := do
  let (out, m) ← indexShape items t.shape
  return ⟨out, fun k => t.at (m (unravel out k))⟩

/-- The loop at 313-334: the index applied to the parameters. `chan` tells which data dimensions are channel dimensions,
`origIndex` is the data dimension the next entry refers to. -/
def effective (chan : ℕ → Bool) (ndim : ℕ) : ℕ → List Item → List Item
  | _, [] => []
  | _, .ellipsis :: is => .ellipsis :: effective chan ndim (ndim - consumed is) is
  | o, .newaxis :: is => .newaxis :: effective chan ndim o is
  | o, .int i :: is => (if chan o then .int i else .int 0) :: effective chan ndim (o + 1) is
  | o, .slice a b c :: is => (if chan o then .slice a b c else .slice none none 1) :: effective chan ndim (o + 1) is

/-- `[dim if (i in channel_dims) else 1 for i, dim in enumerate(shape)]` (307-309). -/
def paramShape (chan : ℕ → Bool) (shape : List ℕ) : List ℕ := shape.mapIdx fun i d => if chan i then d else 1

/-- `t.view(shape)` of a flat parameter vector. -/
def viewParams (l : List ℚ) (shape : List ℕ) : Except TErr (Tensor ℚ) :=
  (⟨[l.length], fun k => l.getD k 0⟩ : Tensor ℚ).reshape shape

/-- `.reshape(-1)` of a parameter tensor. -/
def flatten (t : Tensor ℚ) : List ℚ := (List.range t.numel).map t.get

/-- `getitem_per_channel` (283-354); `none`: the kernel does not apply. -/
def getitemPerChannel (q : QTensor) (items : List Item) : Option (Except TErr QTensor) :=
  match q.gran with
  | .perChannel dims => some do
    let ndim := q.data.shape.length
    let cd : List ℤ := dims.map fun c => if c < 0 then (ndim : ℤ) + c else c
    if cd.any (fun x => decide (x < 0)) then throw .valueError
    let chan : ℕ → Bool := fun i => cd.contains (i : ℤ)
    let eff := effective chan ndim 0 items
    let pshape := paramShape chan q.data.shape
    let scaleT ← torchGetitem (← viewParams q.scale pshape) eff
    let newDims := (List.range scaleT.shape.length).filter fun i => decide (1 < scaleT.shape.getD i 0)
    let offset ← match q.offset with
      | none => pure none
      | some o => do
        let t ← torchGetitem (← viewParams o pshape) eff
        pure (some (flatten t))
    let data ← torchGetitem q.data items
    return { data, scale := flatten scaleT, offset, gran := .perChannel (newDims.map Int.ofNat) }
  | _ => none

end FF.TOps
