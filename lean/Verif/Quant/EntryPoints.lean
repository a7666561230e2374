import Verif.Quant.Dtype
import Verif.Granularity.Lemmas

/-!
# Functions that quantize tensors

Models `src/fastforward/quantization/affine/function.py`, `static.py`,
`dynamic.py` and `_autograd.py`: from the functions that users call to the kernels
of `quantization/_quantizer_impl.py`, with data types, in ordinary and in export
mode.

Simplifications: the elements of a tensor are rationals, kept exactly by floating
point types (C12 is about the codes that they can keep) and truncated by integer
types; a tensor is a function from indices; which tile an element is in is a parameter of
the model (C08, C09).
-/

namespace FF.Entry

open FF.Quant FF.Gran FF.Tens FF.Tiling

/-! ## Model -/

/-- Floating point types. -/
def isFloat : DType → Bool
  | .intN _ | .uintN _ => false
  | _ => true

/-- A tensor with its type. -/
structure DTensor where
  dtype : DType
  shape : List ℕ
  val : List ℕ → ℚ

/-- Truncation towards zero. -/
def trunc (q : ℚ) : ℤ := if 0 ≤ q then ⌊q⌋ else ⌈q⌉

/-- `tensor.to(dtype)`, one element: integer types truncate towards zero.  Out of
their range they wrap around here; PyTorch does not define it. -/
def cast (d : DType) (q : ℚ) : ℚ :=
  match d with
  | .intN b => ((trunc q + 2 ^ (b - 1)) % 2 ^ b - 2 ^ (b - 1) : ℤ)
  | .uintN b => (trunc q % 2 ^ b : ℤ)
  | _ => q

/-- A scale or offset: a number, or a tensor with an entry for each tile. -/
inductive Param where
  | num (q : ℚ)
  | tensor (f : ℕ → ℚ)

/-- `tensor_or_none` (`common.py` 57–75): a number becomes a tensor of the type. -/
def Param.toTensor (d : DType) : Param → ℕ → ℚ
  | .num q => fun _ => cast d q
  | .tensor f => f

/-- `StaticAffineQuantParams` (`function.py` 31–47). -/
structure Static where
  scale : Param
  offset : Option Param
  bits : ℕ
  gran : Granularity
  quantizedDtype : Option DType := none
  dequantizeDtype : Option DType := none

/-- `DynamicAffineQuantParams` (`function.py` 50–60). -/
structure Dynamic where
  bits : ℕ
  gran : Granularity
  symmetric : Bool := false
  allowOneSided : Bool := true
  quantizedDtype : Option DType := none
  dequantizeDtype : Option DType := none
  infer : Option (DTensor → (ℕ → ℚ) × Option (ℕ → ℚ)) := none

/-- Exceptions. -/
inductive Err where
  | tile (e : TErr)
  | runtime
  | exportError
  | typeError
  | assertion
  deriving DecidableEq

/-- A `QuantizedTensor`: codes with static parameters. -/
structure QTensor where
  raw : DTensor
  params : Static

/-- What is not modelled here: the number of the tile an element is in, by shape,
tile and index (C08, C09), and the parameters for the ranges of the tiles (C05–C07). -/
structure Kernel where
  tileNo : List ℕ → List ℕ → List ℕ → ℕ
  minmax : DTensor → List ℕ → ℕ → Bool → Bool → Except Err ((ℕ → ℚ) × Option (ℕ → ℚ))

/-- Errors of granularities and tiles. -/
def tiled {α : Type} : Except TErr α → Except Err α
  | .ok a => .ok a
  | .error e => .error (.tile e)

/-- The checks in `tiles_to_rows` (`tiled_tensor.py` 86–91): empty tensors are not
checked; a tile without extent gives a division by zero. -/
def checkTile (shape : List ℕ) (tile : List ℕ) : Except Err Unit :=
  if shape.prod = 0 then .ok ()
  else match checkTileCompatibility shape tile with
    | .error e => .error (.tile e)
    | .ok () => if 0 ∈ tile then .error (.tile .zeroDivision) else .ok ()

/-- `quantize_by_tile_impl` (`_quantizer_impl.py` 144–169).  A zero scale and a zero
element, which give `nan`, give zero here; theorems are about non-zero scales. -/
def quantizeByTile (k : Kernel) (data : DTensor) (scale : ℕ → ℚ) (tile : List ℕ) (bits : ℕ) (out : DType)
    (offset : Option (ℕ → ℚ)) : Except Err DTensor := do
  checkTile data.shape tile
  if !canSupportBitwidth out bits then throw .runtime
  return ⟨out, data.shape, fun i =>
    let j := k.tileNo data.shape tile i
    cast out ((quantizeScalar (scale j) (offset.map (· j)) bits (data.val i)).getD 0 : ℤ)⟩

/-- `dequantize_by_tile_impl` (`_quantizer_impl.py` 172–190). -/
def dequantizeByTile (k : Kernel) (data : DTensor) (scale : ℕ → ℚ) (tile : List ℕ) (offset : Option (ℕ → ℚ))
    (out : DType) : Except Err DTensor := do
  checkTile data.shape tile
  return ⟨out, data.shape, fun i =>
    let j := k.tileNo data.shape tile i
    cast out ((data.val i + inferOffset (offset.map (· j))) * scale j)⟩

/-- `quantize_affine` (`_autograd.py` 27–39). -/
def quantizeAffine (k : Kernel) (data : DTensor) (scale : Param) (offset : Option Param) (tile : Option (List ℕ))
    (bits : ℕ) (out : DType) : Except Err DTensor :=
  let d := if isFloat data.dtype then data.dtype else .float32
  quantizeByTile k data (scale.toTensor d) (tile.getD data.shape) bits out (offset.map (·.toTensor d))

/-- `dequantize_affine` (`_autograd.py` 41–52). -/
def dequantizeAffine (k : Kernel) (data : DTensor) (scale : Param) (offset : Option Param) (tile : Option (List ℕ))
    (dtype : Option DType) : Except Err DTensor :=
  let d := dtype.getD (if isFloat data.dtype then data.dtype else .float32)
  dequantizeByTile k data (scale.toTensor d) (tile.getD data.shape) (offset.map (·.toTensor d)) d

/-- `_static_quantize` (`function.py` 123–139). -/
def staticQuantize (k : Kernel) (data : DTensor) (p : Static) : Except Err QTensor := do
  let tile ← tiled (tileSize p.gran data.shape)
  let raw ← quantizeAffine k data p.scale p.offset tile p.bits (p.quantizedDtype.getD data.dtype)
  return ⟨raw, { p with dequantizeDtype := some (p.dequantizeDtype.getD data.dtype) }⟩

/-- `dequantize` (`function.py` 179–188) of a quantized tensor. -/
def dequantize (k : Kernel) (q : QTensor) : Except Err DTensor := do
  let tile ← tiled (tileSize q.params.gran q.raw.shape)
  dequantizeAffine k q.raw q.params.scale q.params.offset tile q.params.dequantizeDtype

/-- `_export_quantize` (`function.py` 93–121). -/
def exportQuantize (k : Kernel) (data : DTensor) (p : Static) : Except Err DTensor := do
  let tile ← tiled (tileSize p.gran data.shape)
  let raw ← quantizeAffine k data p.scale p.offset tile p.bits (p.quantizedDtype.getD data.dtype)
  dequantizeAffine k raw p.scale p.offset tile (some (p.quantizedDtype.getD data.dtype))

/-- `_static_from_dynamic` (`function.py` 191–212). -/
def staticFromDynamic (p : Dynamic) (scale : ℕ → ℚ) (offset : Option (ℕ → ℚ)) (dq : DType) : Static where
  scale := .tensor scale
  offset := offset.map .tensor
  bits := p.bits
  gran := p.gran
  quantizedDtype := p.quantizedDtype
  dequantizeDtype := some dq

/-- `quantize_dynamic_by_tile_impl` (`_quantizer_impl.py` 243–285). -/
def quantizeDynamicByTile (k : Kernel) (data : DTensor) (tile : List ℕ) (bits : ℕ) (symmetric allowOneSided : Bool)
    (out : DType) : Except Err (DTensor × (ℕ → ℚ) × (ℕ → ℚ)) := do
  checkTile data.shape tile
  let (scale, offset) ← k.minmax data tile bits symmetric allowOneSided
  let offset : ℕ → ℚ := match offset with
    | none => fun _ => 0
    | some o => fun j => roundHE (o j)
  if !canSupportBitwidth out bits then throw .runtime
  return (⟨out, data.shape, fun i =>
    let j := k.tileNo data.shape tile i
    cast out ((quantizeScalar (scale j) (some (offset j)) bits (data.val i)).getD 0 : ℤ)⟩, scale, offset)

/-- `_dynamic_quantize` and `_dynamic_minmax_quantize` (`function.py` 141–177). -/
def dynamicQuantize (k : Kernel) (data : DTensor) (p : Dynamic) : Except Err QTensor :=
  match p.infer with
  | none => do
    let tile ← tiled (tileSize p.gran data.shape)
    let (raw, scale, offset) ← quantizeDynamicByTile k data (tile.getD data.shape) p.bits p.symmetric p.allowOneSided
      (p.quantizedDtype.getD data.dtype)
    return ⟨raw, staticFromDynamic p scale (some offset) (p.dequantizeDtype.getD data.dtype)⟩
  | some f =>
    staticQuantize k data (staticFromDynamic p (f data).1 (f data).2 (p.dequantizeDtype.getD data.dtype))

/-- `AffineQuantizationFunction.quantize` with static parameters (`function.py`
72–91), and then the value of the result: in export mode the result is an ordinary
tensor already. -/
def value (k : Kernel) (exporting : Bool) (data : DTensor) (p : Static) : Except Err DTensor :=
  if exporting then exportQuantize k data p
  else do dequantize k (← staticQuantize k data p)

/-- The same with dynamic parameters. -/
def valueDynamic (k : Kernel) (exporting : Bool) (data : DTensor) (p : Dynamic) : Except Err DTensor :=
  if exporting then .error .exportError
  else do dequantize k (← dynamicQuantize k data p)

/-- `quantize_by_tile` (`static.py` 91–121): the parameters. -/
def byTile (scale : Param) (offset : Option Param) (tile : List ℕ) (bits : ℕ) (out : Option DType) : Static :=
  { scale, offset, bits, gran := .perTile tile, quantizedDtype := out }

/-- `quantize_per_tensor` (`static.py` 124–150): the parameters. -/
def perTensor (scale : Param) (offset : Option Param) (bits : ℕ) (out : Option DType) : Static :=
  { scale, offset, bits, gran := .perTensor, quantizedDtype := out }

/-- `quantize_per_channel` (`static.py` 153–181): the parameters. -/
def perChannel (scale : Param) (offset : Option Param) (axes : List ℤ) (bits : ℕ) (out : Option DType) : Static :=
  { scale, offset, bits, gran := .perChannel axes, quantizedDtype := out }

/-- `quantize_per_block` (`static.py` 184–213): the parameters, from the shape of
the data. -/
def perBlock (shape : List ℕ) (scale : Param) (offset : Option Param) (channel block : ℤ) (size bits : ℕ)
    (out : Option DType) : Except Err Static := do
  let s ← tiled (setDim shape channel 1)
  let s ← tiled (setDim s block size)
  return byTile scale offset s bits out

/-- `quantize_per_granularity` (`static.py` 57–88): the parameters, from the shape
of the data. -/
def perGranularity (shape : List ℕ) (scale : Param) (offset : Option Param) (g : Granularity) (bits : ℕ)
    (out : Option DType) : Except Err Static :=
  match g with
  | .perTensor => .ok (perTensor scale offset bits out)
  | .perChannel axes => .ok (perChannel scale offset axes bits out)
  | g => do
    match ← tiled (tileSize g shape) with
    | none => throw .assertion
    | some tile => return byTile scale offset tile bits out

/-- `quantize_per_granularity` for dynamic quantization (`dynamic.py` 56–106): the
parameters. -/
def perGranularityDynamic (shape : List ℕ) (g : Granularity) (bits : ℕ) (symmetric allowOneSided : Bool)
    (out : Option DType) : Except Err Dynamic :=
  match g with
  | .perTensor => .ok { bits, gran := .perTensor, symmetric, allowOneSided, quantizedDtype := out }
  | .perChannel axes => .ok { bits, gran := .perChannel axes, symmetric, allowOneSided, quantizedDtype := out }
  | g => do
    match ← tiled (tileSize g shape) with
    | none => throw .assertion
    | some tile => return { bits, gran := .perTile tile, symmetric, allowOneSided, quantizedDtype := out }

/-- The types that tracing with fake tensors gives the results of `quantize_by_tile` and
`dequantize_by_tile` in export mode: `empty_like(input)` (`_quantizer_impl.py`
288–310). -/
def fakeExportDtype (data : DTensor) (_ : Static) : DType :=
  let quantized := data.dtype
  let dequantized := quantized
  dequantized

/-! ## Specification -/

/-- The value that stands for `x` in quantization to `n` bits: the point of the
grid with step `s`, shifted by the integer `o`, nearest to `x`, but not beyond the
ends. -/
def gridPoint (s : ℚ) (o : ℤ) (n : ℕ) (x : ℚ) : ℚ :=
  s * ((max (-(2 ^ (n - 1))) (min (2 ^ (n - 1) - 1) (roundHE (x / s - o))) + o : ℤ) : ℚ)

/-- The entry of a parameter for a tile: a number is the same for all tiles. -/
def Param.at (p : Param) (j : ℕ) : ℚ :=
  match p with
  | .num q => q
  | .tensor f => f j

/-- The integer offset for a tile. -/
def offsetAt (o : Option Param) (j : ℕ) : ℤ :=
  match o with
  | none => 0
  | some o => roundHE (o.at j)

/-- What the tile of a granularity is for a shape. -/
def TileOf (g : Granularity) (shape tile : List ℕ) : Prop :=
  tileSize g shape = .ok (some tile) ∨ (tileSize g shape = .ok none ∧ tile = shape)

/-- Each dimension of the shape is a multiple of that of the tile. -/
def Fits (shape tile : List ℕ) : Prop :=
  shape.length = tile.length ∧ (∀ p ∈ shape.zip tile, p.1 % p.2 = 0) ∧ ∀ t ∈ tile, 0 < t

/-- The type has room for all the codes of quantization to `n` bits. -/
def Room (d : DType) (n : ℕ) : Prop :=
  ∀ c : ℤ, -(2 ^ (n - 1)) ≤ c → c ≤ 2 ^ (n - 1) - 1 → Represents d c

/-! ## Lemmas -/

theorem trunc_int (z : ℤ) : trunc (z : ℚ) = z := by
  unfold trunc
  split
  · rw [Int.floor_intCast]
  · rw [Int.ceil_intCast]

theorem cast_code {d : DType} {z : ℤ} (h : Represents d z) : cast d (z : ℚ) = z := by
  cases d with
  | intN b =>
    obtain ⟨h1, h2, hb⟩ := h
    simp only [cast, trunc_int]
    have e : (2 : ℤ) ^ b = 2 * 2 ^ (b - 1) := by
      obtain ⟨b, rfl⟩ : ∃ c, b = c + 1 := ⟨b - 1, by omega⟩
      rw [Nat.add_sub_cancel, pow_succ]; ring
    rw [e]
    generalize (2 : ℤ) ^ (b - 1) = a at h1 h2
    rw [Int.emod_eq_of_lt (by omega) (by omega)]
    push_cast
    ring
  | uintN b =>
    obtain ⟨h1, h2⟩ := h
    simp only [cast, trunc_int]
    generalize (2 : ℤ) ^ b = a at h1 h2
    rw [Int.emod_eq_of_lt (by omega) (by omega)]
  | _ => rfl

theorem cast_float {d : DType} (h : isFloat d = true) (q : ℚ) : cast d q = q := by
  cases d <;> first | rfl | cases h

theorem toTensor_float {d : DType} (h : isFloat d = true) (p : Param) (j : ℕ) : p.toTensor d j = p.at j := by
  cases p with
  | num q => exact cast_float h q
  | tensor f => rfl

theorem pow_one_le (n : ℕ) : (1 : ℤ) ≤ 2 ^ (n - 1) := one_le_pow₀ (by norm_num)

theorem room_accepted {d : DType} {n : ℕ} (h : Room d n) : canSupportBitwidth d n = true := by
  have hp := pow_one_le n
  cases d with
  | intN b =>
    have := (h (-(2 ^ (n - 1))) le_rfl (by omega)).1
    have hle : (2 : ℤ) ^ (n - 1) ≤ 2 ^ (b - 1) := by omega
    have := (pow_le_pow_iff_right₀ (by norm_num : (1 : ℤ) < 2)).1 hle
    exact decide_eq_true (show n ≤ b + 2 by omega)
  | uintN b =>
    have := (h (-(2 ^ (n - 1))) le_rfl (by omega)).1
    omega
  | _ => exact (float_dtype_accepts_iff_partial _ n rfl).2 (fun c hc => h c hc.1 hc.2)

theorem check_fits {shape tile : List ℕ} (h : Fits shape tile) :
    checkTileCompatibility shape tile = .ok () ∧ checkTile shape tile = .ok () := by
  obtain ⟨hl, hd, hp⟩ := h
  have h1 : checkTileCompatibility shape tile = .ok () := by
    unfold checkTileCompatibility
    rw [if_neg (fun hn => hn hl), if_neg]
    intro hc
    rw [List.any_eq_true] at hc
    obtain ⟨p, hp, hb⟩ := hc
    simp only [Bool.and_eq_true, decide_eq_true_eq] at hb
    exact hb.2 (hd p hp)
  refine ⟨h1, ?_⟩
  unfold checkTile
  split
  · rfl
  · rw [h1]
    simp only
    rw [if_neg]
    intro h0
    exact absurd (hp 0 h0) (by omega)

theorem clamp_eq (n : ℕ) (z : ℤ) :
    clampZ (intMin n) (intMax n) z = max (-(2 ^ (n - 1))) (min (2 ^ (n - 1) - 1) z) := by
  have h := pow_one_le n
  have e1 : intMin n = -(2 ^ (n - 1)) := rfl
  have e2 : intMax n = 2 ^ (n - 1) - 1 := by simp only [intMax, intMin, neg_neg]
  rw [e1, e2]
  generalize (2 : ℤ) ^ (n - 1) = a at h ⊢
  unfold clampZ
  omega

theorem infer_map (o : Option Param) (d : DType) (h : isFloat d = true) (j : ℕ) :
    inferOffset ((o.map (·.toTensor d)).map (· j)) = offsetAt o j := by
  cases o with
  | none => rfl
  | some o => simp only [Option.map_some, inferOffset, offsetAt, toTensor_float h]

theorem quantizeScalar_eq {s : ℚ} (hs : s ≠ 0) (o : Option ℚ) (n : ℕ) (x : ℚ) :
    (quantizeScalar s o n x).getD 0 = max (-(2 ^ (n - 1))) (min (2 ^ (n - 1) - 1) (roundHE (x / s - inferOffset o))) := by
  unfold quantizeScalar
  rw [if_neg hs, Option.getD_some, clamp_eq]

theorem room_code {d : DType} {n : ℕ} (h : Room d n) (z : ℤ) :
    Represents d (max (-(2 ^ (n - 1))) (min (2 ^ (n - 1) - 1) z)) := by
  have := pow_one_le n
  exact h _ (by omega) (by omega)

/-- Values of the tensor after quantization and dequantization. -/
theorem values {k : Kernel} {data : DTensor} {p : Static} {tile : List ℕ} (t : Option (List ℕ))
    (ht : t.getD data.shape = tile) (qd dd : DType)
    (hf : Fits data.shape tile) (hq : Room qd p.bits)
    (hd : isFloat data.dtype = true) (hdd : isFloat dd = true)
    (hs : ∀ j, p.scale.at j ≠ 0) :
    ∃ raw, quantizeAffine k data p.scale p.offset t p.bits qd = .ok raw ∧ raw.shape = data.shape ∧
      ∃ y, dequantizeAffine k raw p.scale p.offset t (some dd) = .ok y ∧ y.dtype = dd ∧ y.shape = data.shape ∧
        ∀ i, y.val i = gridPoint (p.scale.at (k.tileNo data.shape tile i))
          (offsetAt p.offset (k.tileNo data.shape tile i)) p.bits (data.val i) := by
  have hc := (check_fits hf).2
  have hb := room_accepted hq
  obtain ⟨raw, hraw, hsh, hval⟩ : ∃ raw, quantizeAffine k data p.scale p.offset t p.bits qd = .ok raw ∧
      raw.shape = data.shape ∧ ∀ i, raw.val i = (max (-(2 ^ (p.bits - 1))) (min (2 ^ (p.bits - 1) - 1)
        (roundHE (data.val i / p.scale.at (k.tileNo data.shape tile i) -
          offsetAt p.offset (k.tileNo data.shape tile i)))) : ℤ) := by
    refine ⟨⟨qd, data.shape, fun i => cast qd ((quantizeScalar (p.scale.toTensor data.dtype (k.tileNo data.shape tile i))
      ((p.offset.map (·.toTensor data.dtype)).map (· (k.tileNo data.shape tile i))) p.bits (data.val i)).getD 0 : ℤ)⟩,
      ?_, rfl, ?_⟩
    · simp only [quantizeAffine, hd, if_true, quantizeByTile, ht, hc, bind, Except.bind, hb, Bool.not_true,
        Bool.false_eq_true, if_false, pure, Except.pure]
    · intro i
      simp only
      rw [toTensor_float hd, quantizeScalar_eq (hs _), infer_map _ _ hd, cast_code (room_code hq _)]
  refine ⟨raw, hraw, hsh, ⟨dd, raw.shape, fun i => cast dd ((raw.val i + inferOffset ((p.offset.map
    (·.toTensor dd)).map (· (k.tileNo raw.shape tile i)))) * p.scale.toTensor dd (k.tileNo raw.shape tile i))⟩, ?_, rfl,
    hsh, ?_⟩
  · simp only [dequantizeAffine, Option.getD_some, dequantizeByTile, hsh, ht, hc, bind, Except.bind, pure, Except.pure]
  · intro i
    simp only
    rw [cast_float hdd, hsh, toTensor_float hdd, infer_map _ _ hdd, hval, gridPoint]
    push_cast
    ring

theorem tileOf_getD {g : Granularity} {shape tile : List ℕ} (h : TileOf g shape tile) :
    ∃ t, tileSize g shape = .ok t ∧ t.getD shape = tile := by
  rcases h with h | ⟨h, rfl⟩
  · exact ⟨_, h, rfl⟩
  · exact ⟨_, h, rfl⟩

/-- What the value is computed from, in ordinary mode. -/
theorem value_eq (k : Kernel) (data : DTensor) (p : Static) :
    value k false data p = (do
      let tile ← tiled (tileSize p.gran data.shape)
      let raw ← quantizeAffine k data p.scale p.offset tile p.bits (p.quantizedDtype.getD data.dtype)
      dequantizeAffine k raw p.scale p.offset tile (some (p.dequantizeDtype.getD data.dtype))) := by
  simp only [value, Bool.false_eq_true, if_false, staticQuantize, dequantize, bind, Except.bind, pure, Except.pure]
  cases ht : tiled (tileSize p.gran data.shape) with
  | error e => rfl
  | ok tile =>
    simp only
    cases hr : quantizeAffine k data p.scale p.offset tile p.bits (p.quantizedDtype.getD data.dtype) with
    | error e => rfl
    | ok raw =>
      have hsh : raw.shape = data.shape := by
        simp only [quantizeAffine, quantizeByTile, bind, Except.bind, pure, Except.pure, throw, throwThe,
          MonadExceptOf.throw] at hr
        split at hr
        · cases hr
        · split at hr
          · cases hr
          · cases hr; rfl
      simp only [hsh, ht]

theorem tiled_ok {α : Type} {e : Except TErr α} {a : α} (h : tiled e = .ok a) : e = .ok a := by
  cases e with
  | ok b => cases h; rfl
  | error x => cases h

/-- The value depends on the granularity only through the tile. -/
theorem value_congr {k : Kernel} {data : DTensor} {p : Static} {g : Granularity} {t t' : Option (List ℕ)}
    (h : tileSize p.gran data.shape = .ok t) (h' : tileSize g data.shape = .ok t')
    (ht : t.getD data.shape = t'.getD data.shape) :
    value k false data { p with gran := g } = value k false data p := by
  rw [value_eq, value_eq]
  simp only [h, h', tiled, bind, Except.bind, quantizeAffine, dequantizeAffine]
  have hsh : ∀ raw, quantizeByTile k data (p.scale.toTensor (if isFloat data.dtype then data.dtype else .float32))
      (t.getD data.shape) p.bits (p.quantizedDtype.getD data.dtype)
      (p.offset.map (·.toTensor (if isFloat data.dtype then data.dtype else .float32))) = .ok raw →
      raw.shape = data.shape := by
    intro raw hr
    simp only [quantizeByTile, bind, Except.bind, pure, Except.pure, throw, throwThe, MonadExceptOf.throw] at hr
    split at hr
    · cases hr
    · split at hr
      · cases hr
      · cases hr; rfl
  rw [← ht]
  cases hr : quantizeByTile k data (p.scale.toTensor (if isFloat data.dtype then data.dtype else .float32))
      (t.getD data.shape) p.bits (p.quantizedDtype.getD data.dtype)
      (p.offset.map (·.toTensor (if isFloat data.dtype then data.dtype else .float32))) with
  | error e => rfl
  | ok raw => simp only [hsh raw hr, ht]

/-- Both modes: quantization and dequantization with a type. -/
theorem value_mode (k : Kernel) (exporting : Bool) (data : DTensor) (p : Static) :
    value k exporting data p = (do
      let tile ← tiled (tileSize p.gran data.shape)
      let raw ← quantizeAffine k data p.scale p.offset tile p.bits (p.quantizedDtype.getD data.dtype)
      dequantizeAffine k raw p.scale p.offset tile
        (some ((if exporting then p.quantizedDtype else p.dequantizeDtype).getD data.dtype))) := by
  cases exporting with
  | false => rw [value_eq]; rfl
  | true => rfl

/-- Each step of a computation of a value that succeeds. -/
theorem value_ok {k : Kernel} {e : Bool} {data y : DTensor} {p : Static} (h : value k e data p = .ok y) :
    ∃ t raw, tileSize p.gran data.shape = .ok t ∧ checkTile data.shape (t.getD data.shape) = .ok () ∧
      dequantizeAffine k raw p.scale p.offset t
        (some ((if e then p.quantizedDtype else p.dequantizeDtype).getD data.dtype)) = .ok y := by
  rw [value_mode] at h
  simp only [bind, Except.bind] at h
  cases ht : tileSize p.gran data.shape with
  | error e => simp only [ht, tiled] at h; cases h
  | ok t =>
    simp only [ht, tiled] at h
    cases hr : quantizeAffine k data p.scale p.offset t p.bits (p.quantizedDtype.getD data.dtype) with
    | error e => simp only [hr] at h; cases h
    | ok raw =>
      simp only [hr] at h
      refine ⟨t, raw, rfl, ?_, h⟩
      simp only [quantizeAffine, quantizeByTile, bind, Except.bind] at hr
      cases hc : checkTile data.shape (t.getD data.shape) with
      | error e => simp only [hc] at hr; cases hr
      | ok u => rfl

theorem checked {shape tile : List ℕ} (h0 : shape.prod ≠ 0) (h : checkTile shape tile = .ok ()) :
    checkTileCompatibility shape tile = .ok () ∧ 0 ∉ tile := by
  unfold checkTile at h
  rw [if_neg h0] at h
  split at h
  · cases h
  · rename_i hc
    split at h
    · cases h
    · rename_i hn
      exact ⟨hc, hn⟩

theorem tileSize_perTile {shape tile : List ℕ} (h : checkTileCompatibility shape tile = .ok ()) :
    tileSize (.perTile tile) shape = .ok (some tile) := by
  simp only [tileSize, h, bind, Except.bind, pure, Except.pure]

theorem tileSize_perTile_inv {shape tile : List ℕ} {t : Option (List ℕ)}
    (h : tileSize (.perTile tile) shape = .ok t) : t = some tile := by
  simp only [tileSize, bind, Except.bind, pure, Except.pure] at h
  split at h
  · cases h
  · cases h; rfl

theorem deq_dtype {k : Kernel} {raw y : DTensor} {s : Param} {o : Option Param} {t : Option (List ℕ)} {d : DType}
    (h : dequantizeAffine k raw s o t (some d) = .ok y) :
    y.dtype = d ∧ ∀ i, ∃ v j, y.val i = cast d (v * s.toTensor d j) := by
  simp only [dequantizeAffine, Option.getD_some, dequantizeByTile, bind, Except.bind, pure, Except.pure] at h
  split at h
  · cases h
  · cases h
    exact ⟨rfl, fun i => ⟨_, _, rfl⟩⟩

theorem cast_integer {d : DType} (h : isFloat d = false) (q : ℚ) : ∃ z : ℤ, cast d q = z := by
  cases d with
  | intN b => exact ⟨_, rfl⟩
  | uintN b => exact ⟨_, rfl⟩
  | _ => cases h

theorem cast_zero (d : DType) {b : ℕ} (hd : d = .intN b) (q : ℚ) (hb : 1 ≤ b) (h0 : -1 < q) (h1 : q < 1) :
    cast d q = 0 := by
  subst hd
  have ht : trunc q = 0 := by
    unfold trunc
    split
    · rename_i h
      rw [Int.floor_eq_iff]
      exact ⟨by exact_mod_cast h, by push_cast; linarith⟩
    · rename_i h
      rw [Int.ceil_eq_iff]
      exact ⟨by push_cast; linarith, by push_cast; linarith⟩
  have : cast (.intN b) q = ((trunc q + 2 ^ (b - 1)) % 2 ^ b - 2 ^ (b - 1) : ℤ) := rfl
  rw [this, ht]
  have e : (2 : ℤ) ^ b = 2 * 2 ^ (b - 1) := by
    obtain ⟨b, rfl⟩ : ∃ c, b = c + 1 := ⟨b - 1, by omega⟩
    rw [Nat.add_sub_cancel, pow_succ]; ring
  have hp := pow_one_le b
  rw [e]
  generalize (2 : ℤ) ^ (b - 1) = a at hp
  rw [Int.emod_eq_of_lt (by omega) (by omega)]
  push_cast
  ring

theorem prod_zero : ∀ {l : List ℕ}, 0 ∈ l → l.prod = 0
  | [], h => by cases h
  | a :: l, h => by
    rw [List.prod_cons]
    cases h with
    | head => rw [Nat.zero_mul]
    | tail _ h => rw [prod_zero h, Nat.mul_zero]

theorem setDim_some {ts : List ℕ} {d : ℤ} {i : ℕ} (h : pyIndex ts.length d = some i) (v : ℕ) :
    setDim ts d v = .ok (ts.set i v) := by
  unfold setDim
  rw [h]

theorem setDim_none {ts : List ℕ} {d : ℤ} (h : pyIndex ts.length d = none) (v : ℕ) :
    setDim ts d v = .error .indexError := by
  unfold setDim
  rw [h]

theorem getD_of_lt {l : List ℕ} {i : ℕ} (h : i < l.length) : l.getD i 0 = l[i] := by
  rw [List.getD_eq_getElem?_getD, List.getElem?_eq_getElem h, Option.getD_some]

theorem valueDynamic_ok {k : Kernel} {data y : DTensor} {p : Dynamic} (hi : p.infer = none)
    (h : valueDynamic k false data p = .ok y) :
    ∃ t, tileSize p.gran data.shape = .ok t ∧ checkTile data.shape (t.getD data.shape) = .ok () := by
  simp only [valueDynamic, Bool.false_eq_true, if_false, dynamicQuantize, hi, bind, Except.bind,
    quantizeDynamicByTile] at h
  cases ht : tileSize p.gran data.shape with
  | error e => simp only [ht, tiled] at h; cases h
  | ok t =>
    refine ⟨t, rfl, ?_⟩
    simp only [ht, tiled] at h
    cases hc : checkTile data.shape (t.getD data.shape) with
    | error e => simp only [hc] at h; cases h
    | ok u => rfl

theorem valueDynamic_congr {k : Kernel} {data : DTensor} {p : Dynamic} {g : Granularity} {t t' : Option (List ℕ)}
    (hi : p.infer = none) (h : tileSize p.gran data.shape = .ok t) (h' : tileSize g data.shape = .ok t')
    (ht : t.getD data.shape = t'.getD data.shape) :
    valueDynamic k false data { p with gran := g } = valueDynamic k false data p := by
  simp only [valueDynamic, Bool.false_eq_true, if_false, dynamicQuantize, hi, h, h', tiled, bind, Except.bind,
    quantizeDynamicByTile, pure, Except.pure, throw, throwThe, MonadExceptOf.throw, ← ht]
  cases checkTile data.shape (t.getD data.shape) with
  | error e => rfl
  | ok u =>
    simp only
    cases k.minmax data (t.getD data.shape) p.bits p.symmetric p.allowOneSided with
    | error e => rfl
    | ok so =>
      simp only
      by_cases hb : canSupportBitwidth (p.quantizedDtype.getD data.dtype) p.bits = true
      · simp only [hb, Bool.not_true, Bool.false_eq_true, if_false, dequantize, staticFromDynamic, h, h', tiled, bind,
          Except.bind, dequantizeAffine, ← ht]
      · simp only [hb, Bool.not_false, if_true]

/-! ## Properties -/

/-- **C106.** Quantizing a tensor of floating point numbers, with a tile that fits
its shape, a storage type with room for the codes and scales that are not zero,
succeeds; dequantizing it gives a tensor of the same shape, in the type asked for or
else the type of the data, in which each element is the point of the grid of its
tile that stands for the original. -/
theorem quantized_value (k : Kernel) (data : DTensor) (p : Static) (tile : List ℕ)
    (ht : TileOf p.gran data.shape tile) (hf : Fits data.shape tile)
    (hd : isFloat data.dtype = true) (hq : Room (p.quantizedDtype.getD data.dtype) p.bits)
    (hdd : ∀ d, p.dequantizeDtype = some d → isFloat d = true)
    (hs : ∀ j, p.scale.at j ≠ 0) :
    ∃ y, value k false data p = .ok y ∧ y.dtype = p.dequantizeDtype.getD data.dtype ∧ y.shape = data.shape ∧
      ∀ i, y.val i = gridPoint (p.scale.at (k.tileNo data.shape tile i))
        (offsetAt p.offset (k.tileNo data.shape tile i)) p.bits (data.val i) := by
  obtain ⟨t, h1, h2⟩ := tileOf_getD ht
  have hdd' : isFloat (p.dequantizeDtype.getD data.dtype) = true := by
    cases h : p.dequantizeDtype with
    | none => exact hd
    | some d => exact hdd d h
  obtain ⟨raw, hr, -, y, hy, a, b, c⟩ := values (k := k) t h2 _ _ hf hq hd hdd' hs
  refine ⟨y, ?_, a, b, c⟩
  rw [value_eq]
  simp only [h1, tiled, bind, Except.bind, hr, hy]

/-- **C106 (partial).** In export mode quantization gives at once what quantization
and dequantization give otherwise — the same tensor, or the same exception — if the
type for codes and the type for dequantized data, where the type of the data stands
for a type not given, are the same.  Missing: other types (see
`export_dequantizes_to_integers`). -/
theorem export_value_partial (k : Kernel) (data : DTensor) (p : Static)
    (h : p.quantizedDtype.getD data.dtype = p.dequantizeDtype.getD data.dtype) :
    value k true data p = value k false data p := by
  rw [value_mode, value_mode]
  simp only [if_true, Bool.false_eq_true, if_false, h]

/-- **C106.** Dynamic quantization gives a tensor that static quantization of the
same data with the parameters in it gives too: with the bits and granularity asked
for, and the storage type asked for.  Dynamic quantization is refused in export
mode. -/
theorem dynamic_is_static (k : Kernel) (data : DTensor) (p : Dynamic) (q : QTensor)
    (h : dynamicQuantize k data p = .ok q) :
    staticQuantize k data q.params = .ok q ∧ q.params.bits = p.bits ∧ q.params.gran = p.gran ∧
      q.raw.dtype = p.quantizedDtype.getD data.dtype ∧ valueDynamic k true data p = .error .exportError := by
  have hdt : ∀ (s : Static) (q : QTensor), staticQuantize k data s = .ok q →
      q.raw.dtype = s.quantizedDtype.getD data.dtype ∧
        q.params = { s with dequantizeDtype := some (s.dequantizeDtype.getD data.dtype) } := by
    intro s q hq
    simp only [staticQuantize, bind, Except.bind, pure, Except.pure] at hq
    split at hq
    · cases hq
    · split at hq
      · cases hq
      · rename_i hr
        cases hq
        refine ⟨?_, rfl⟩
        simp only [quantizeAffine, quantizeByTile, bind, Except.bind, pure, Except.pure, throw, throwThe,
          MonadExceptOf.throw] at hr
        split at hr
        · cases hr
        · split at hr
          · cases hr
          · cases hr; rfl
  unfold dynamicQuantize at h
  cases hi : p.infer with
  | some f =>
    simp only [hi] at h
    obtain ⟨h1, h2⟩ := hdt _ _ h
    rw [h2]
    exact ⟨h, rfl, rfl, h1, rfl⟩
  | none =>
    simp only [hi, bind, Except.bind, pure, Except.pure, quantizeDynamicByTile, throw, throwThe,
      MonadExceptOf.throw] at h
    cases ht : tiled (tileSize p.gran data.shape) with
    | error e => simp only [ht] at h; cases h
    | ok t =>
      simp only [ht] at h
      cases hc : checkTile data.shape (t.getD data.shape) with
      | error e => simp only [hc] at h; cases h
      | ok u =>
        simp only [hc] at h
        cases hm : k.minmax data (t.getD data.shape) p.bits p.symmetric p.allowOneSided with
        | error e => simp only [hm] at h; cases h
        | ok so =>
          simp only [hm] at h
          by_cases hb : canSupportBitwidth (p.quantizedDtype.getD data.dtype) p.bits = true
          · simp only [hb, Bool.not_true, Bool.false_eq_true, if_false] at h
            cases h
            refine ⟨?_, rfl, rfl, rfl, rfl⟩
            simp only [staticQuantize, staticFromDynamic, ht, bind, Except.bind, quantizeAffine, quantizeByTile, hc,
              hb, Bool.not_true, Bool.false_eq_true, if_false, pure, Except.pure, Option.getD_some, Param.toTensor,
              Option.map_some]
          · simp only [hb, Bool.not_false, if_true] at h
            cases h

/-- **C106.** The parameters in a dynamically quantized tensor are those inferred
from the data: the parameters for the ranges of its tiles, with the offset rounded to
an integer (and zero if there is none), or those of the inference function given; and
it dequantizes to the type asked for, or else the type of the data. -/
theorem dynamic_parameters (k : Kernel) (data : DTensor) (p : Dynamic) (q : QTensor)
    (h : dynamicQuantize k data p = .ok q) :
    (p.infer = none → ∃ tile s o, TileOf p.gran data.shape tile ∧
      k.minmax data tile p.bits p.symmetric p.allowOneSided = .ok (s, o) ∧ q.params.scale = .tensor s ∧
      q.params.offset = some (.tensor fun j => offsetAt (o.map .tensor) j)) ∧
    (∀ f, p.infer = some f → q.params.scale = .tensor (f data).1 ∧ q.params.offset = (f data).2.map .tensor) ∧
    q.params.dequantizeDtype = some (p.dequantizeDtype.getD data.dtype) := by
  unfold dynamicQuantize at h
  cases hi : p.infer with
  | some f =>
    simp only [hi, staticQuantize, bind, Except.bind, pure, Except.pure] at h
    split at h
    · cases h
    · split at h
      · cases h
      · cases h
        refine ⟨fun hn => (by cases hn), ?_, rfl⟩
        intro g hg
        cases hg
        exact ⟨rfl, rfl⟩
  | none =>
    simp only [hi, bind, Except.bind, pure, Except.pure, quantizeDynamicByTile, throw, throwThe,
      MonadExceptOf.throw] at h
    cases ht : tileSize p.gran data.shape with
    | error e => simp only [ht, tiled] at h; cases h
    | ok t =>
      simp only [ht, tiled] at h
      split at h
      · cases h
      · rename_i r hr
        cases h
        refine ⟨fun _ => ?_, fun f hf => (by cases hf), rfl⟩
        split at hr
        · cases hr
        · split at hr
          · cases hr
          · rename_i so hm
            split at hr
            · cases hr
            · cases hr
              refine ⟨_, so.1, so.2, ?_, hm, rfl, ?_⟩
              · cases t with
                | none => exact Or.inr ⟨ht, rfl⟩
                | some t => exact Or.inl ht
              · obtain ⟨s, o⟩ := so
                cases o with
                | none => simp only [staticFromDynamic, Option.map_some, offsetAt, Option.map_none, Int.cast_zero]
                | some o => rfl

/-- **C106.** The functions for each granularity are the same as quantization with
that granularity: for data that is not empty, quantizing by `quantize_per_granularity`
and by the quantization function with the granularity give the same values, or both
fail. -/
theorem granularity_entry_point (k : Kernel) (data : DTensor) (scale : Param) (offset : Option Param)
    (g : Granularity) (bits : ℕ) (out : Option DType) (h0 : data.shape.prod ≠ 0) (y : DTensor) :
    (do value k false data (← perGranularity data.shape scale offset g bits out)) = .ok y ↔
      value k false data { scale, offset, bits, gran := g, quantizedDtype := out } = .ok y := by
  have main : ∀ g, (do
      match ← tiled (tileSize g data.shape) with
        | none => throw Err.assertion
        | some tile => return byTile scale offset tile bits out) = perGranularity data.shape scale offset g bits out →
      tileSize g data.shape ≠ .ok none →
      ((do value k false data (← perGranularity data.shape scale offset g bits out)) = .ok y ↔
        value k false data { scale, offset, bits, gran := g, quantizedDtype := out } = .ok y) := by
    intro g hg hn
    rw [← hg]
    constructor
    · intro h
      cases ht : tileSize g data.shape with
      | error e => simp only [ht, tiled, bind, Except.bind] at h; cases h
      | ok t =>
        cases t with
        | none => exact absurd ht hn
        | some tile =>
          simp only [ht, tiled, bind, Except.bind, pure, Except.pure] at h
          obtain ⟨t, -, h1, -⟩ := value_ok h
          have ht' := tileSize_perTile_inv h1
          subst ht'
          rw [← h]
          exact value_congr (p := byTile scale offset tile bits out) (g := g) h1 ht rfl
    · intro h
      obtain ⟨t, -, h1, h2, -⟩ := value_ok h
      simp only at h1
      cases t with
      | none => exact absurd h1 hn
      | some tile =>
        simp only [h1, tiled, bind, Except.bind, pure, Except.pure]
        rw [← h]
        exact value_congr (p := { scale, offset, bits, gran := g, quantizedDtype := out }) (g := .perTile tile) h1
          (tileSize_perTile (checked h0 h2).1) rfl
  cases g with
  | perTensor => exact Iff.rfl
  | perChannel axes => exact Iff.rfl
  | perBlock a b c d =>
    refine main _ rfl ?_
    intro h
    simp only [tileSize, bind, Except.bind, pure, Except.pure] at h
    split at h
    · cases h
    · split at h
      · cases h
      · cases h
  | perTile t =>
    refine main _ rfl ?_
    intro h
    cases tileSize_perTile_inv h

/-- **C106.** The same for dynamic quantization. -/
theorem dynamic_granularity_entry_point (k : Kernel) (data : DTensor) (g : Granularity) (bits : ℕ)
    (symmetric allowOneSided : Bool) (out : Option DType) (h0 : data.shape.prod ≠ 0) (y : DTensor) :
    (do valueDynamic k false data (← perGranularityDynamic data.shape g bits symmetric allowOneSided out)) = .ok y ↔
      valueDynamic k false data { bits := bits, gran := g, symmetric := symmetric, allowOneSided := allowOneSided
                                  quantizedDtype := out } = .ok y := by
  have main : ∀ g, (do
      match ← tiled (tileSize g data.shape) with
        | none => throw Err.assertion
        | some tile => return (⟨bits, .perTile tile, symmetric, allowOneSided, out, none, none⟩ : Dynamic)) =
          perGranularityDynamic data.shape g bits symmetric allowOneSided out →
      tileSize g data.shape ≠ .ok none →
      ((do valueDynamic k false data (← perGranularityDynamic data.shape g bits symmetric allowOneSided out)) = .ok y ↔
        valueDynamic k false data ⟨bits, g, symmetric, allowOneSided, out, none, none⟩ = .ok y) := by
    intro g hg hn
    rw [← hg]
    constructor
    · intro h
      cases ht : tileSize g data.shape with
      | error e => simp only [ht, tiled, bind, Except.bind] at h; cases h
      | ok t =>
        cases t with
        | none => exact absurd ht hn
        | some tile =>
          simp only [ht, tiled, bind, Except.bind, pure, Except.pure] at h
          obtain ⟨t, h1, -⟩ := valueDynamic_ok rfl h
          have ht' := tileSize_perTile_inv h1
          subst ht'
          rw [← h]
          exact (valueDynamic_congr (p := ⟨bits, .perTile tile, symmetric, allowOneSided, out, none, none⟩) rfl h1
            ht rfl)
    · intro h
      obtain ⟨t, h1, h2⟩ := valueDynamic_ok rfl h
      simp only at h1
      cases t with
      | none => exact absurd h1 hn
      | some tile =>
        simp only [h1, tiled, bind, Except.bind, pure, Except.pure]
        rw [← h]
        exact valueDynamic_congr (p := ⟨bits, g, symmetric, allowOneSided, out, none, none⟩) rfl h1
          (tileSize_perTile (checked h0 h2).1) rfl
  cases g with
  | perTensor => exact Iff.rfl
  | perChannel axes => exact Iff.rfl
  | perBlock a b c d =>
    refine main _ rfl ?_
    intro h
    simp only [tileSize, bind, Except.bind, pure, Except.pure] at h
    split at h
    · cases h
    · split at h
      · cases h
      · cases h
  | perTile t =>
    refine main _ rfl ?_
    intro h
    cases tileSize_perTile_inv h

/-- **C106.** `quantize_per_block` is quantization with the granularity `PerBlock`
with one block axis of the given block size and one channel axis: for data that is
not empty they give the same values, or both fail. -/
theorem block_entry_point (k : Kernel) (data : DTensor) (scale : Param) (offset : Option Param)
    (channel block : ℤ) (size bits : ℕ) (strict : Bool) (out : Option DType) (h0 : data.shape.prod ≠ 0) (y : DTensor) :
    (do value k false data (← perBlock data.shape scale offset channel block size bits out)) = .ok y ↔
      value k false data { scale := scale, offset := offset, bits := bits, quantizedDtype := out
                           gran := .perBlock [block] [size] [channel] strict } = .ok y := by
  have hts : tileSize (.perBlock [block] [size] [channel] strict) data.shape = (do
      let s ← setDim data.shape channel 1
      return some (← blockStep data.shape strict s (block, size))) := by
    simp only [tileSize, List.zip_cons_cons, List.zip_nil_right, List.foldlM, bind, Except.bind, pure, Except.pure]
    cases setDim data.shape channel 1 with
    | error e => rfl
    | ok s =>
      simp only
      cases blockStep data.shape strict s (block, size) <;> rfl
  cases hs : setDim data.shape channel 1 with
  | error e =>
    constructor
    · intro h
      simp only [perBlock, hs, tiled, bind, Except.bind] at h
      cases h
    · intro h
      obtain ⟨t, -, h1, -⟩ := value_ok h
      simp only [hts, hs, bind, Except.bind] at h1
      cases h1
  | ok s =>
    have hlen : s.length = data.shape.length := by
      unfold setDim at hs
      split at hs
      · cases hs
      · cases hs; exact List.length_set
    cases hk : pyIndex data.shape.length block with
    | none =>
      constructor
      · intro h
        simp only [perBlock, hs, tiled, bind, Except.bind, setDim_none (hlen ▸ hk : pyIndex s.length block = none)] at h
        cases h
      · intro h
        obtain ⟨t, -, h1, -⟩ := value_ok h
        simp only [hts, hs, bind, Except.bind, blockStep, hk] at h1
        cases h1
    | some i =>
      have hi : i < data.shape.length := by
        unfold pyIndex at hk
        split at hk
        · cases hk; omega
        · split at hk
          · cases hk; omega
          · cases hk
      have hp : perBlock data.shape scale offset channel block size bits out =
          .ok (byTile scale offset (s.set i size) bits out) := by
        simp only [perBlock, hs, tiled, bind, Except.bind, setDim_some (hlen ▸ hk : pyIndex s.length block = some i), pure,
          Except.pure]
      rw [hp]
      simp only [bind, Except.bind]
      constructor
      · intro h
        obtain ⟨t, -, h1, h2, -⟩ := value_ok h
        have ht' := tileSize_perTile_inv h1
        subst ht'
        obtain ⟨hc, hz⟩ := checked h0 h2
        simp only [Option.getD_some] at hc hz
        have hil : i < (s.set i size).length := by rw [List.length_set, hlen]; exact hi
        have hsz : 0 < size := by
          rcases Nat.eq_zero_or_pos size with rfl | h
          · exact absurd (List.mem_iff_getElem.2 ⟨i, hil, by rw [List.getElem_set_self]⟩) hz
          · exact h
        have hmod : data.shape[i] % size = 0 := by
          unfold checkTileCompatibility at hc
          split at hc
          · cases hc
          · split at hc
            · cases hc
            · rename_i hany
              by_contra hne
              apply hany
              rw [List.any_eq_true]
              refine ⟨(data.shape[i], size), ?_, ?_⟩
              · rw [List.mem_iff_getElem]
                refine ⟨i, by rw [List.length_zip]; omega, ?_⟩
                rw [List.getElem_zip, List.getElem_set_self]
              · simp only [Bool.and_eq_true, decide_eq_true_eq]
                exact ⟨hsz, hne⟩
        have hpos : 0 < data.shape[i] := by
          rcases Nat.eq_zero_or_pos data.shape[i] with h | h
          · exact absurd (prod_zero (h ▸ List.getElem_mem hi)) h0
          · exact h
        have hle : size ≤ data.shape[i] := Nat.le_of_dvd hpos (Nat.dvd_of_mod_eq_zero hmod)
        have hst : tileSize (.perBlock [block] [size] [channel] strict) data.shape = .ok (some (s.set i size)) := by
          rw [hts]
          simp only [hs, bind, Except.bind, blockStep, hk, getD_of_lt hi]
          rw [if_neg (by omega), if_neg (by omega), if_neg (fun hn => hn.2 hmod)]
          rfl
        rw [← h]
        exact value_congr (p := byTile scale offset (s.set i size) bits out) h1 hst rfl
      · intro h
        obtain ⟨t, -, h1, h2, -⟩ := value_ok h
        have ht' : t = some (s.set i size) := by
          simp only [hts, hs, bind, Except.bind, blockStep, hk] at h1
          split at h1
          · cases h1
          · rename_i hb
            cases h1
            split at hb
            · cases hb
            · split at hb
              · cases hb
              · split at hb
                · cases hb
                · cases hb; rfl
        subst ht'
        rw [← h]
        exact value_congr (p := (⟨scale, offset, bits, .perBlock [block] [size] [channel] strict, out, none⟩ : Static)) (g := .perTile (s.set i size)) h1 (tileSize_perTile (checked h0 h2).1) rfl

/-! ## Deviations -/

/-- **C106, deviation.** In export mode with an integer type for the codes, the
result is a tensor of that type: of integers, whatever the scale.  If the scale is a
number between -1 and 1, the result is zero for all data. -/
theorem export_dequantizes_to_integers (k : Kernel) (data : DTensor) (p : Static) (b : ℕ) (hb : 1 ≤ b)
    (hq : p.quantizedDtype = some (.intN b)) (y : DTensor) (h : value k true data p = .ok y) :
    y.dtype = .intN b ∧ (∀ i, ∃ z : ℤ, y.val i = z) ∧
      ∀ s, p.scale = .num s → -1 < s → s < 1 → ∀ i, y.val i = 0 := by
  obtain ⟨t, raw, -, -, hy⟩ := value_ok h
  simp only [if_true, hq, Option.getD_some] at hy
  obtain ⟨h1, h2⟩ := deq_dtype hy
  refine ⟨h1, ?_, ?_⟩
  · intro i
    obtain ⟨v, j, hv⟩ := h2 i
    rw [hv]
    exact cast_integer rfl _
  · intro s hs h3 h4 i
    obtain ⟨v, j, hv⟩ := h2 i
    rw [hv, hs, Param.toTensor, cast_zero _ rfl s hb h3 h4, mul_zero]
    exact cast_zero _ rfl 0 hb (by norm_num) (by norm_num)

/-- **C106, deviation.** In export mode the type for dequantized data is ignored: the
result has the type of the codes. -/
theorem export_ignores_dequantize_dtype (k : Kernel) (data : DTensor) (p : Static) (y : DTensor)
    (h : value k true data p = .ok y) : y.dtype = p.quantizedDtype.getD data.dtype := by
  obtain ⟨t, raw, -, -, hy⟩ := value_ok h
  exact (deq_dtype hy).1

/-- **C106, deviation.** Data of an integer type, with no type for dequantized data,
is dequantized to integers, whatever the scale; to zeros if the scale is a number
between -1 and 1. -/
theorem integers_dequantized_to_integers (k : Kernel) (data : DTensor) (p : Static) (b : ℕ) (hb : 1 ≤ b)
    (hd : data.dtype = .intN b) (hdd : p.dequantizeDtype = none) (y : DTensor)
    (h : value k false data p = .ok y) :
    (∀ i, ∃ z : ℤ, y.val i = z) ∧ ∀ s, p.scale = .num s → -1 < s → s < 1 → ∀ i, y.val i = 0 := by
  obtain ⟨t, raw, -, -, hy⟩ := value_ok h
  simp only [Bool.false_eq_true, if_false, hdd, Option.getD_none, hd] at hy
  obtain ⟨-, h2⟩ := deq_dtype hy
  refine ⟨?_, ?_⟩
  · intro i
    obtain ⟨v, j, hv⟩ := h2 i
    rw [hv]
    exact cast_integer rfl _
  · intro s hs h3 h4 i
    obtain ⟨v, j, hv⟩ := h2 i
    rw [hv, hs, Param.toTensor, cast_zero _ rfl s hb h3 h4, mul_zero]
    exact cast_zero _ rfl 0 hb (by norm_num) (by norm_num)

/-- **C106, deviation.** Tracing in export mode gives the result the type of the
data; if a different type for the codes is given, the result has that type. -/
theorem traced_dtype_wrong (k : Kernel) (data : DTensor) (p : Static) (d : DType) (hq : p.quantizedDtype = some d)
    (hne : d ≠ data.dtype) (y : DTensor) (h : value k true data p = .ok y) :
    y.dtype ≠ fakeExportDtype data p := by
  rw [export_ignores_dequantize_dtype k data p y h, hq]
  exact hne

/-- **C106, deviation.** The block size of `quantize_per_block`, documented as the
number of blocks, is the extent of a block: with `a` given for an axis of extent
`a * b`, there are `b` blocks. -/
theorem block_size_is_not_number_of_blocks (c a b : ℕ) (ha : 0 < a) (scale : Param) (offset : Option Param)
    (bits : ℕ) (out : Option DType) :
    ∃ p, perBlock [c, a * b] scale offset 0 1 a bits out = .ok p ∧ p.gran = .perTile [1, a] ∧ a * b / a = b := by
  refine ⟨_, rfl, rfl, Nat.mul_div_cancel_left b ha⟩

/-! ## Concrete cases -/

/-- Row-wise tiles of a matrix: the number of the tile is that of the row. -/
def rowKernel : Kernel where
  tileNo := fun _ tile i => if tile.headD 0 = 1 then i.headD 0 else 0
  minmax := fun _ _ _ _ _ => .ok (fun j => if j = 0 then 1 / 2 else 1 / 4, some (fun _ => 3 / 5))

/-- A matrix of two rows. -/
def matrix : DTensor where
  dtype := .float32
  shape := [2, 2]
  val := fun i => if i = [0, 0] then 3 / 5 else if i = [0, 1] then 100 else if i = [1, 0] then -3 / 10 else 1

/-- Parameters for the rows, with codes in `int8`. -/
def rows : Static where
  scale := .tensor fun j => if j = 0 then 1 / 2 else 1 / 4
  offset := none
  bits := 4
  gran := .perChannel [0]
  quantizedDtype := some (.intN 8)

theorem rows_fit : TileOf rows.gran matrix.shape [1, 2] ∧ Fits matrix.shape [1, 2] := by
  refine ⟨Or.inl rfl, rfl, ?_, ?_⟩
  · decide
  · decide

/-- A case of `quantized_value`: the elements of the rows are on grids with steps
1/2 and 1/4, and 100 becomes the largest point of its grid. -/
example : ∃ y, value rowKernel false matrix rows = .ok y ∧ y.dtype = .float32 ∧
    y.val [0, 0] = 1 / 2 ∧ y.val [0, 1] = 7 / 2 ∧ y.val [1, 0] = -1 / 4 ∧ y.val [1, 1] = 1 := by
  obtain ⟨y, hy, h1, -, h3⟩ := quantized_value rowKernel matrix rows [1, 2] rows_fit.1 rows_fit.2 rfl
    (fun c h1 h2 => int_dtype_represents_partial 8 4 (by omega) (by omega) c ⟨h1, h2⟩)
    (fun d h => by cases h) (fun j => by simp only [rows, Param.at]; split <;> norm_num)
  refine ⟨y, hy, h1, ?_, ?_, ?_, ?_⟩ <;> rw [h3] <;> decide +kernel

/-- The same in export mode: integers. -/
example : (value rowKernel true matrix rows).toOption.map (fun y => (y.dtype, y.val [0, 0], y.val [0, 1], y.val [1, 0]))
    = some (.intN 8, 0, 3, 0) := by decide +kernel

/-- A case of `export_value_partial`, where the types are the same, and its value. -/
example : value rowKernel true matrix { rows with quantizedDtype := none } =
      value rowKernel false matrix { rows with quantizedDtype := none } ∧
    (value rowKernel true matrix { rows with quantizedDtype := none }).toOption.map (fun y => (y.dtype, y.val [0, 1]))
      = some (.float32, 7 / 2) :=
  ⟨export_value_partial rowKernel matrix _ rfl, by decide +kernel⟩

/-- A case of `export_dequantizes_to_integers`: zeros for a number as the scale. -/
example : (value rowKernel true matrix { rows with scale := .num (1 / 2) }).toOption.map (fun y => y.val [0, 1])
    = some 0 := by decide +kernel

/-- A case of `dynamic_is_static`: offsets are rounded. -/
example : (dynamicQuantize rowKernel matrix { bits := 4, gran := .perChannel [0] }).toOption.map
    (fun q => (q.params.offset.map (·.at 0), q.raw.val [0, 0], q.raw.val [1, 0])) = some (some 1, 0, -2) := by
  decide +kernel

/-- A case of `granularity_entry_point` and `block_entry_point`: blocks of two
elements, in both ways. -/
example : ((do value rowKernel false matrix (← perBlock [2, 2] rows.scale none 0 1 2 4 none)) : Except Err DTensor).toOption.map
      (fun y => (y.val [0, 0], y.val [1, 0])) = some (1 / 2, -1 / 4) ∧
    ((do value rowKernel false matrix (← perGranularity [2, 2] rows.scale none (.perBlock [1] [2] [0] true) 4 none)) :
      Except Err DTensor).toOption.map (fun y => (y.val [0, 0], y.val [1, 0])) = some (1 / 2, -1 / 4) := by
  decide +kernel

/-- A case of `integers_dequantized_to_integers`: 5 with a scale of 3/4 is 5.25,
dequantized to 5 (so the error may exceed half a step for other data). -/
example : (value rowKernel false { matrix with dtype := .intN 64, val := fun _ => 5 }
      { rows with scale := .tensor fun _ => 3 / 4, quantizedDtype := none }).toOption.map (fun y => y.val [0, 0])
    = some 5 ∧ gridPoint (3 / 4) 0 4 5 = 21 / 4 := by decide +kernel

end FF.Entry
