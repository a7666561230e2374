import Verif.Quant.AffineLemmas
import Verif.Granularity.Props
import Verif.Util.Dict

/-!
# Quantizers as ONNX `QuantizeLinear` / `DequantizeLinear` pairs

Models `export/stages/onnx/onnx_qdq_export_stages.py`.
-/

namespace FF.Qdq

open FF.Quant FF.Gran FF.Tens FF.Tiling

/-! ## Model -/

/-- Exceptions. -/
inductive Err
  | exportError
  deriving DecidableEq, Repr

/-- How ONNX's `Cast` turns a number into an `n`-bit signed integer: the result is in range, numbers in range are kept, what
happens to others is up to the runtime. -/
structure Cast where
  fn : ℕ → ℤ → ℤ
  inRange : ∀ n z, intMin n ≤ fn n z ∧ fn n z ≤ intMax n
  keeps : ∀ n z, intMin n ≤ z → z ≤ intMax n → fn n z = z

/-- `onnx_qdq_export_stages.py:35-42` `_ff_zero_point_from_offset`: `-round(offset)`, or zeros. -/
def zeroPoints (scale : List ℚ) (offset : Option (List ℚ)) : List ℤ :=
  match offset with
  | none => scale.map (fun _ => 0)
  | some os => os.map (fun o => -roundHE o)

/-- `onnx_qdq_export_stages.py:73-80`: the size of the dimension is known and is not 1. -/
def genuine (shape : List (Option ℕ)) (k : ℕ) : Bool :=
  match shape[k]? with
  | some (some d) => decide (d ≠ 1)
  | _ => false

/-- `onnx_qdq_export_stages.py:45-85` `_ff_axis_from_tile_size`. The shape of the data may have unknown (dynamic) entries. -/
def axisFromTile (tile : List ℕ) (shape : List (Option ℕ)) : Option ℕ :=
  match (List.range tile.length).filter (fun k => decide (tile.getD k 0 = 1)) with
  | [] => none
  | [a] => some a
  | a :: b :: l => some (((a :: b :: l).find? (genuine shape)).getD a)

/-- `onnx_qdq_export_stages.py:88-109` `_ff_quant_dtype_for_bitwidth`: the number of bits of the storage type
(table `:17-28`). -/
def dtypeFor (numBits : ℚ) : Except Err ℕ :=
  if numBits.den ≠ 1 then .error .exportError
  else if numBits.num = 4 then .ok 4
  else if numBits.num = 8 then .ok 8
  else if numBits.num = 16 then .ok 16
  else .error .exportError

/-- A `QuantizeLinear` or `DequantizeLinear` node. -/
structure QNode where
  axis : Option ℕ
  scale : List ℚ
  zeroPoint : List ℤ
  bits : ℕ
  deriving DecidableEq

/-- `int(num_bits)`: truncation. -/
def truncBits (numBits : ℚ) : ℤ := if 0 ≤ numBits then ⌊numBits⌋ else ⌈numBits⌉

/-- `onnx_qdq_export_stages.py:122-137` the lowering of `quantize_by_tile`. The bit-width is truncated before its type is
looked up. -/
def lowerQuantize (cast : Cast) (scale : List ℚ) (offset : Option (List ℚ)) (tile : List ℕ) (shape : List (Option ℕ))
    (numBits : ℚ) : Except Err QNode :=
  match dtypeFor (truncBits numBits) with
  | .error e => .error e
  | .ok bits => .ok { axis := axisFromTile tile shape, scale := scale
                      zeroPoint := (zeroPoints scale offset).map (cast.fn bits), bits := bits }

/-- `onnx_qdq_export_stages.py:151-164` the lowering of `dequantize_by_tile`; `bits` is the type of its input. -/
def lowerDequantize (cast : Cast) (scale : List ℚ) (offset : Option (List ℚ)) (tile : List ℕ) (shape : List (Option ℕ))
    (bits : ℕ) : QNode :=
  { axis := axisFromTile tile shape, scale := scale, zeroPoint := (zeroPoints scale offset).map (cast.fn bits), bits := bits }

/-- The two operators that get a lowering, and any other one. -/
inductive Target
  | quantize
  | dequantize
  | other (k : ℕ)
  deriving DecidableEq

/-- A lowering: FastForward's own for an opset, or one of the user's. -/
inductive Lowering
  | ffQuantize (opset : ℤ)
  | ffDequantize (opset : ℤ)
  | user (k : ℕ)
  deriving DecidableEq

/-- `dict.setdefault`. -/
def setDefault (d : List (Target × Lowering)) (k : Target) (v : Lowering) : List (Target × Lowering) :=
  match Dict.get d k with
  | some _ => d
  | none => Dict.set d k v

/-- `onnx_qdq_export_stages.py:170-235` `_with_ff_qdq_lowerings` and `_resolve_qdq_lowerings` on the two options it touches: the
opset version (if given) and the user's table. `available` are the opsets that onnxscript has. -/
def withLowerings (available : ℤ → Bool) (opset : Option ℤ) (table : List (Target × Lowering)) :
    Except Err (ℤ × List (Target × Lowering)) :=
  let v := opset.getD 21
  if v < 21 then .error .exportError
  else if !available v then .error .exportError
  else .ok (v, setDefault (setDefault table .quantize (.ffQuantize v)) .dequantize (.ffDequantize v))

/-! ## Specification: what an ONNX runtime computes -/

/-- `QuantizeLinear` on one element: `saturate(round(x / scale) + zero_point)`, ties to even. -/
def onnxQuantize (bits : ℕ) (s : ℚ) (zp : ℤ) (x : ℚ) : ℤ := clampZ (intMin bits) (intMax bits) (roundHE (x / s) + zp)

/-- `DequantizeLinear` on one element: `(q - zero_point) * scale`. -/
def onnxDequantize (s : ℚ) (zp : ℤ) (c : ℤ) : ℚ := ((c - zp : ℤ) : ℚ) * s

/-- Which scale the runtime uses for an element: the only one, or the one at the element's coordinate on the axis (by default 1). -/
def paramIndex (axis : Option ℕ) (count : ℕ) (idx : List ℕ) : ℕ := if count = 1 then 0 else idx.getD (axis.getD 1) 0

/-- The runtime accepts the node: one scale, or one for every coordinate on the axis. -/
def Accepted (axis : Option ℕ) (count : ℕ) (shape : List ℕ) : Prop := count = 1 ∨ shape[axis.getD 1]? = some count

/-- What is known of a shape at export time. -/
def Known (shape : List ℕ) (sh : List (Option ℕ)) : Prop :=
  ∀ (k d : ℕ), sh[k]? = some (some d) → shape[k]? = some d

/-! ## Lemmas -/

theorem nearest_of_near {lo hi r : ℤ} {v : ℚ} (hr : |(r : ℚ) - v| ≤ 1 / 2) {k : ℤ} (hk1 : lo ≤ k) (hk2 : k ≤ hi) :
    |(clampZ lo hi r : ℚ) - v| ≤ |(k : ℚ) - v| := by
  obtain ⟨e1, e2⟩ := abs_le.1 hr
  rcases lt_or_ge r lo with h | h
  · have : clampZ lo hi r = lo := by unfold clampZ; omega
    rw [this]
    have h' : (r : ℚ) + 1 ≤ lo := by exact_mod_cast h
    have hk : (lo : ℚ) ≤ k := by exact_mod_cast hk1
    rw [abs_of_nonneg (by linarith), abs_of_nonneg (by linarith)]
    linarith
  · rcases le_or_gt r hi with h3 | h3
    · have : clampZ lo hi r = r := by unfold clampZ; omega
      rw [this]
      rcases lt_trichotomy r k with h | h | h
      · have h' : (r : ℚ) + 1 ≤ k := by exact_mod_cast h
        rw [abs_of_nonneg (a := (k : ℚ) - v) (by linarith)]
        linarith
      · rw [h]
      · have h' : (k : ℚ) + 1 ≤ r := by exact_mod_cast h
        rw [abs_of_nonpos (a := (k : ℚ) - v) (by linarith)]
        linarith
    · have : clampZ lo hi r = hi := by unfold clampZ; omega
      rw [this]
      have h' : (hi : ℚ) + 1 ≤ r := by exact_mod_cast h3
      have hk : (k : ℚ) ≤ hi := by exact_mod_cast hk2
      rw [abs_of_nonpos (by linarith), abs_of_nonpos (by linarith)]
      linarith

theorem floor_sub_int' (v : ℚ) (k : ℤ) : ⌊v - k⌋ = ⌊v⌋ - k := Int.floor_sub_intCast v k

theorem round_shift_even (v : ℚ) (k : ℤ) (hk : k % 2 = 0) : roundHE (v - k) = roundHE v - k := by
  unfold roundHE
  rw [floor_sub_int']
  have h : v - k - ((⌊v⌋ - k : ℤ) : ℚ) = v - ⌊v⌋ := by push_cast; ring
  rw [h]
  have hpar : (⌊v⌋ - k) % 2 = 0 ↔ ⌊v⌋ % 2 = 0 := by omega
  split_ifs <;> first | rfl | omega

theorem round_shift_no_tie (v : ℚ) (k : ℤ) (hv : v - ⌊v⌋ ≠ 1 / 2) : roundHE (v - k) = roundHE v - k := by
  unfold roundHE
  rw [floor_sub_int']
  have h : v - k - ((⌊v⌋ - k : ℤ) : ℚ) = v - ⌊v⌋ := by push_cast; ring
  rw [h]
  rcases lt_trichotomy (v - ⌊v⌋) (1 / 2) with h1 | h1 | h1
  · rw [if_pos h1, if_pos h1]
  · exact absurd h1 hv
  · rw [if_neg (by linarith), if_pos h1, if_neg (by linarith), if_pos h1]; ring

theorem zeroPoints_get {scale : List ℚ} {offset : Option (List ℚ)} (hp : ∀ os, offset = some os → os.length = scale.length)
    {i : ℕ} {s : ℚ} (hs : scale[i]? = some s) :
    (zeroPoints scale offset)[i]? = some (-inferOffset (offset.bind (fun os => os[i]?))) := by
  unfold zeroPoints
  cases offset with
  | none => simp [(List.getElem?_eq_some_iff.1 hs).1, inferOffset]
  | some os =>
    have hi : i < os.length := by rw [hp os rfl]; exact (List.getElem?_eq_some_iff.1 hs).1
    simp [hi, inferOffset]

theorem grid_self_prod {shape : List ℕ} (hpos : ∀ d ∈ shape, 0 < d) : (grid shape shape).prod = 1 := by
  induction shape with
  | nil => rfl
  | cons a s ih =>
    have := ih (fun d hd => hpos d (by simp [hd]))
    simp only [grid] at this
    simp only [grid, List.zipWith_cons_cons, List.prod_cons, this, Nat.div_self (hpos a (by simp))]

theorem grid_channel_prod {shape : List ℕ} (hpos : ∀ d ∈ shape, 0 < d) {k n : ℕ} (hk : shape[k]? = some n) :
    (grid shape (shape.set k 1)).prod = n := by
  induction shape generalizing k with
  | nil => simp at hk
  | cons a s ih =>
    have hps : ∀ d ∈ s, 0 < d := fun d hd => hpos d (by simp [hd])
    cases k with
    | zero =>
      simp only [List.getElem?_cons_zero, Option.some.injEq] at hk
      have := grid_self_prod hps
      simp only [grid] at this
      simp only [List.set_cons_zero, grid, List.zipWith_cons_cons, List.prod_cons, this, Nat.div_one, hk, Nat.mul_one]
    | succ k =>
      have := ih hps (by simpa using hk)
      simp only [grid] at this
      simp only [List.set_cons_succ, grid, List.zipWith_cons_cons, List.prod_cons, this, Nat.div_self (hpos a (by simp)),
        Nat.one_mul]

theorem tileId_self {shape idx : List ℕ} (h : InBounds shape idx) : tileId shape shape idx = 0 := by
  unfold tileId
  induction shape generalizing idx with
  | nil => simp [grid, divIdx, ravel, strides]; cases idx <;> simp [dot]
  | cons a s ih =>
    cases idx with
    | nil => exact absurd h not_inBounds_cons_nil
    | cons b i =>
      rw [inBounds_cons] at h
      have := ih h.2
      simp only [grid, divIdx] at this
      simp only [grid, divIdx, List.zipWith_cons_cons, ravel_cons, Nat.div_eq_of_lt h.1, this]
      simp

theorem find?_unique {l : List ℕ} {p : ℕ → Bool} {k : ℕ} (hk : k ∈ l) (hp : p k = true) (hu : ∀ j ∈ l, p j = true → j = k) :
    l.find? p = some k := by
  cases h : l.find? p with
  | none => rw [List.find?_eq_none] at h; exact absurd hp (h k hk)
  | some j =>
    rw [hu j (List.mem_of_find?_eq_some h) (List.find?_some h)]

theorem axis_of_channel {shape : List ℕ} {sh : List (Option ℕ)} {k d : ℕ} (hk : shape[k]? = some d) (hd : d ≠ 1)
    (hs : sh[k]? = some (some d)) (hkn : Known shape sh) : axisFromTile (shape.set k 1) sh = some k := by
  have hlt : k < shape.length := (List.getElem?_eq_some_iff.1 hk).1
  have hmem : k ∈ (List.range (shape.set k 1).length).filter (fun j => decide ((shape.set k 1).getD j 0 = 1)) := by
    rw [List.mem_filter, List.mem_range]
    refine ⟨by simpa using hlt, ?_⟩
    simp [List.getD_eq_getElem?_getD, hlt]
  have huni : ∀ j ∈ (List.range (shape.set k 1).length).filter (fun j => decide ((shape.set k 1).getD j 0 = 1)), genuine sh j = true → j = k := by
    intro j hj hp
    unfold genuine at hp
    by_contra hjk
    rw [List.mem_filter, decide_eq_true_eq, List.getD_eq_getElem?_getD, List.getElem?_set_ne (Ne.symm hjk)] at hj
    split at hp
    · rename_i d' hd'
      have := hkn j d' hd'
      rw [this] at hj
      simp only [Option.getD_some] at hj
      rw [decide_eq_true_eq] at hp
      exact hp hj.2
    · cases hp
  unfold axisFromTile
  generalize hF : (List.range (shape.set k 1).length).filter (fun j => decide ((shape.set k 1).getD j 0 = 1)) = F at *
  match F, hmem, huni with
  | [], hmem, _ => cases hmem
  | [a], hmem, _ =>
    simp only [List.mem_singleton] at hmem
    rw [hmem]
  | a :: b :: l, hmem, huni =>
    simp only
    rw [find?_unique hmem (by unfold genuine; rw [hs]; simpa using hd) huni]
    rfl

/-! ## Properties -/

/-- **C70.** The storage type: a quantizer with integer bit-width is accepted iff it has 4, 8 or 16 bits, and the node has as many
bits, so that saturating is clamping to FastForward's range. -/
theorem lowering_accepts_iff (cast : Cast) (scale : List ℚ) (offset : Option (List ℚ)) (tile : List ℕ) (sh : List (Option ℕ))
    (n : ℕ) (q : QNode) :
    lowerQuantize cast scale offset tile sh n = .ok q ↔
      (n = 4 ∨ n = 8 ∨ n = 16) ∧ q = lowerDequantize cast scale offset tile sh n := by
  have ht : truncBits (n : ℚ) = n := by
    unfold truncBits
    rw [if_pos (by positivity)]
    exact Int.floor_natCast n
  have hd : dtypeFor ((truncBits (n : ℚ) : ℤ) : ℚ) = if n = 4 ∨ n = 8 ∨ n = 16 then .ok n else .error .exportError := by
    rw [ht]
    unfold dtypeFor
    rw [if_neg (by simp)]
    simp only [Int.cast_natCast, Rat.num_natCast]
    by_cases h4 : n = 4
    · subst h4; rfl
    · by_cases h8 : n = 8
      · subst h8; rfl
      · by_cases h16 : n = 16
        · subst h16; rfl
        · rw [if_neg (by omega), if_neg (by omega), if_neg (by omega), if_neg (by omega)]
  unfold lowerQuantize
  rw [hd]
  by_cases h : n = 4 ∨ n = 8 ∨ n = 16
  · rw [if_pos h]
    simp only [h, true_and, Except.ok.injEq, lowerDequantize]
    exact eq_comm
  · rw [if_neg h]; simp [h]

/-- **C70 (partial).** `DequantizeLinear` gives every code of every group exactly the value FastForward gives it, provided the
negated rounded offset fits the storage type (`zero_point_out_of_range` proves it wrong otherwise). -/
theorem dequantize_exact_partial (cast : Cast) (scale : List ℚ) (offset : Option (List ℚ)) (tile : List ℕ)
    (sh : List (Option ℕ)) (n : ℕ) (hp : ∀ os, offset = some os → os.length = scale.length) (i : ℕ) (s : ℚ)
    (hs : scale[i]? = some s)
    (hfit : intMin n ≤ -inferOffset (offset.bind (fun os => os[i]?)) ∧ -inferOffset (offset.bind (fun os => os[i]?)) ≤ intMax n) :
    ∃ z, (lowerDequantize cast scale offset tile sh n).zeroPoint[i]? = some z
      ∧ ∀ c : ℤ, onnxDequantize s z c = dequantizeScalar s (offset.bind (fun os => os[i]?)) c := by
  refine ⟨-inferOffset (offset.bind (fun os => os[i]?)), ?_, ?_⟩
  · simp only [lowerDequantize, List.getElem?_map, zeroPoints_get hp hs, Option.map_some]
    rw [cast.keeps n _ hfit.1 hfit.2]
  · intro c
    unfold onnxDequantize dequantizeScalar
    push_cast; ring

/-- **C70.** `QuantizeLinear` followed by `DequantizeLinear` is exactly as far from the data as FastForward's own result, for every
number. -/
theorem same_error (n : ℕ) (s : ℚ) (hs : 0 < s) (o : Option ℚ) (x : ℚ) (c : ℤ) (hc : quantizeScalar s o n x = some c) :
    |onnxDequantize s (-inferOffset o) (onnxQuantize n s (-inferOffset o) x) - x| = |dequantizeScalar s o c - x| := by
  have hd : ∀ k : ℤ, onnxDequantize s (-inferOffset o) k = dequantizeScalar s o k := by
    intro k; unfold onnxDequantize dequantizeScalar; push_cast; ring
  rw [hd, deq_sub s hs, deq_sub s hs]
  rw [quantizeScalar_ne hs.ne'] at hc
  cases hc
  congr 1
  have hr : |((roundHE (x / s) + -inferOffset o : ℤ) : ℚ) - (x / s - inferOffset o)| ≤ 1 / 2 := by
    have := roundHE_err (x / s)
    have e : ((roundHE (x / s) + -inferOffset o : ℤ) : ℚ) - (x / s - inferOffset o) = (roundHE (x / s) : ℚ) - x / s := by
      push_cast; ring
    rw [e]; exact this
  have m1 := clampZ_mem (intMin_le_intMax n) (roundHE (x / s) + -inferOffset o)
  have m2 := clampZ_mem (intMin_le_intMax n) (roundHE (x / s - inferOffset o))
  apply le_antisymm
  · exact nearest_of_near hr m2.1 m2.2
  · exact clamp_round_nearest _ m1.1 m1.2

/-- **C70.** The code of `QuantizeLinear` differs from FastForward's by at most one. -/
theorem codes_close (n : ℕ) (s : ℚ) (hs : s ≠ 0) (o : Option ℚ) (x : ℚ) (c : ℤ) (hc : quantizeScalar s o n x = some c) :
    |onnxQuantize n s (-inferOffset o) x - c| ≤ 1 := by
  rw [quantizeScalar_ne hs] at hc
  cases hc
  have h1 := roundHE_err (x / s)
  have h2 := roundHE_err (x / s - inferOffset o)
  rw [abs_le] at h1 h2
  have a : ((roundHE (x / s) : ℤ) : ℚ) - inferOffset o - roundHE (x / s - inferOffset o) ≤ 1 := by linarith
  have b : (-1 : ℚ) ≤ ((roundHE (x / s) : ℤ) : ℚ) - inferOffset o - roundHE (x / s - inferOffset o) := by linarith
  have a' : roundHE (x / s) - inferOffset o - roundHE (x / s - inferOffset o) ≤ 1 := by exact_mod_cast a
  have b' : -1 ≤ roundHE (x / s) - inferOffset o - roundHE (x / s - inferOffset o) := by exact_mod_cast b
  unfold onnxQuantize clampZ
  rw [abs_le]
  omega

/-- **C70 (partial).** The code of `QuantizeLinear` is FastForward's code unless the number lies exactly between two codes and the
rounded offset is odd (`odd_offset_tie_differs`). -/
theorem quantize_exact_partial (n : ℕ) (s : ℚ) (hs : s ≠ 0) (o : Option ℚ) (x : ℚ)
    (h : inferOffset o % 2 = 0 ∨ x / s - ⌊x / s⌋ ≠ 1 / 2) :
    quantizeScalar s o n x = some (onnxQuantize n s (-inferOffset o) x) := by
  rw [quantizeScalar_ne hs]
  unfold onnxQuantize
  congr 2
  rcases h with h | h
  · rw [round_shift_even _ _ h]; ring
  · rw [round_shift_no_tie _ _ h]; ring

/-- **C70, deviation.** For every odd offset, data exactly between two codes gets different codes. -/
theorem odd_offset_tie_differs (s : ℚ) (hs : s ≠ 0) (o : ℤ) (ho : o % 2 = 1) (n : ℕ) (k : ℤ)
    (h1 : intMin n ≤ k - o) (h2 : k + 1 - o ≤ intMax n) :
    quantizeScalar s (some (o : ℚ)) n ((k + 1 / 2) * s) ≠ some (onnxQuantize n s (-inferOffset (some (o : ℚ))) ((k + 1 / 2) * s)) := by
  have hio : inferOffset (some (o : ℚ)) = o := roundHE_intCast o
  rw [quantizeScalar_ne hs, hio]
  unfold onnxQuantize
  rw [mul_div_cancel_right₀ _ hs]
  have f1 : ⌊(k : ℚ) + 1 / 2⌋ = k := by
    rw [Int.floor_eq_iff]; constructor <;> linarith
  have f2 : ⌊(k : ℚ) + 1 / 2 - o⌋ = k - o := by rw [floor_sub_int', f1]
  have r1 : roundHE ((k : ℚ) + 1 / 2) = if k % 2 = 0 then k else k + 1 := by
    unfold roundHE
    rw [f1, if_neg (by norm_num), if_neg (by norm_num)]
  have r2 : roundHE ((k : ℚ) + 1 / 2 - o) = if (k - o) % 2 = 0 then k - o else k - o + 1 := by
    unfold roundHE
    rw [f2]
    push_cast
    rw [if_neg (by ring_nf; norm_num), if_neg (by ring_nf; norm_num)]
  rw [r1, r2]
  intro h
  rw [Option.some.injEq] at h
  unfold clampZ at h
  split_ifs at h <;> omega

/-- **C70, deviation.** When the negated rounded offset does not fit the storage type (a range that does not contain zero), the
dequantized value of every code is wrong, whatever the runtime casts the zero point to. -/
theorem zero_point_out_of_range (cast : Cast) (scale : List ℚ) (offset : Option (List ℚ)) (tile : List ℕ)
    (sh : List (Option ℕ)) (n : ℕ) (hp : ∀ os, offset = some os → os.length = scale.length) (i : ℕ) (s : ℚ)
    (hs : scale[i]? = some s) (hs0 : s ≠ 0)
    (hbad : -inferOffset (offset.bind (fun os => os[i]?)) < intMin n ∨ intMax n < -inferOffset (offset.bind (fun os => os[i]?))) :
    ∃ z, (lowerDequantize cast scale offset tile sh n).zeroPoint[i]? = some z
      ∧ ∀ c : ℤ, onnxDequantize s z c ≠ dequantizeScalar s (offset.bind (fun os => os[i]?)) c := by
  refine ⟨cast.fn n (-inferOffset (offset.bind (fun os => os[i]?))), ?_, ?_⟩
  · simp only [lowerDequantize, List.getElem?_map, zeroPoints_get hp hs, Option.map_some]
  · intro c h
    have hr := cast.inRange n (-inferOffset (offset.bind (fun os => os[i]?)))
    unfold onnxDequantize dequantizeScalar at h
    have h' := mul_right_cancel₀ hs0 h
    have h'' : c - cast.fn n (-inferOffset (offset.bind (fun os => os[i]?))) = c + inferOffset (offset.bind (fun os => os[i]?)) := by
      exact_mod_cast h'
    omega

/-- **C70.** Per-tensor quantization and quantization with one channel dimension: the runtime accepts the node, and uses for every
element the scale of the element's tile. `sh` is what is known of the shape at export time; the size of the channel dimension must
be known. -/
theorem same_parameter (shape tile : List ℕ) (sh : List (Option ℕ)) (hpos : ∀ d ∈ shape, 0 < d) (hkn : Known shape sh)
    (ht : tile = shape ∨ ∃ k d, shape[k]? = some d ∧ sh[k]? = some (some d) ∧ tile = shape.set k 1) :
    Accepted (axisFromTile tile sh) (grid shape tile).prod shape
    ∧ ∀ idx, InBounds shape idx → paramIndex (axisFromTile tile sh) (grid shape tile).prod idx = tileId shape tile idx := by
  have hper : tile = shape → Accepted (axisFromTile tile sh) (grid shape tile).prod shape
    ∧ ∀ idx, InBounds shape idx → paramIndex (axisFromTile tile sh) (grid shape tile).prod idx = tileId shape tile idx := by
    rintro rfl
    rw [grid_self_prod hpos]
    exact ⟨.inl rfl, fun idx hidx => by rw [tileId_self hidx]; rfl⟩
  rcases ht with ht | ⟨k, d, hk, hs, ht⟩
  · exact hper ht
  · by_cases hd : d = 1
    · apply hper
      rw [ht]
      apply List.ext_getElem?
      intro j
      by_cases hj : k = j
      · subst hj
        have hlt : k < shape.length := (List.getElem?_eq_some_iff.1 hk).1
        rw [List.getElem?_set_self hlt, hk, hd]
      · rw [List.getElem?_set_ne hj]
    · subst ht
      rw [axis_of_channel hk hd hs hkn, grid_channel_prod hpos hk]
      refine ⟨.inr hk, fun idx hidx => ?_⟩
      unfold paramIndex
      rw [if_neg hd]
      have hlt : k < shape.length := (List.getElem?_eq_some_iff.1 hk).1
      have hpy : pyIndex shape.length (k : ℤ) = some k := by
        unfold pyIndex
        rw [if_pos ⟨by omega, by exact_mod_cast hlt⟩]; simp
      have := per_channel_param_number (k : ℤ) k shape (shape.set k 1) idx
        (by simp [tileSize, setDim, hpy, bind, Except.bind, pure, Except.pure]) hpy hidx
      simp only [Option.getD_some, List.getD_eq_getElem?_getD, this]

/-- **C70, deviation.** Other tilings are not refused. Four 2×2 tiles of a 4×4 weight have four scales; the runtime accepts the node
and applies the scales to the columns: element (0, 1) belongs to tile 0 and gets scale 1. -/
theorem block_tiling_accepted :
    Accepted (axisFromTile [2, 2] [some 4, some 4]) (grid [4, 4] [2, 2]).prod [4, 4]
    ∧ paramIndex (axisFromTile [2, 2] [some 4, some 4]) (grid [4, 4] [2, 2]).prod [0, 1] = 1
    ∧ tileId [4, 4] [2, 2] [0, 1] = 0 := by
  refine ⟨.inr ?_, ?_, ?_⟩ <;> decide +kernel

/-- **C70, deviation.** A fractional bit-width is not refused but truncated: `8 + 1/2` bits are exported as 8 bits. -/
theorem fractional_bits_truncated (cast : Cast) (scale : List ℚ) (offset : Option (List ℚ)) (tile : List ℕ)
    (sh : List (Option ℕ)) :
    dtypeFor (17 / 2) = .error .exportError
    ∧ lowerQuantize cast scale offset tile sh (17 / 2) = .ok (lowerDequantize cast scale offset tile sh 8) := by
  refine ⟨by decide +kernel, ?_⟩
  have : truncBits (17 / 2) = 8 := by decide +kernel
  unfold lowerQuantize
  rw [this]
  rfl

/-- **C70.** The opset is at least 21 and available, the user's entries are kept, and both operators have a lowering: the user's if
there is one, otherwise FastForward's for the chosen opset. -/
theorem lowerings_merged (available : ℤ → Bool) (opset : Option ℤ) (table : List (Target × Lowering)) (v : ℤ)
    (t : List (Target × Lowering)) (h : withLowerings available opset table = .ok (v, t)) :
    21 ≤ v ∧ available v = true ∧ (∀ w, opset = some w → v = w)
    ∧ (∀ k l, Dict.get table k = some l → Dict.get t k = some l)
    ∧ Dict.get t .quantize = some ((Dict.get table .quantize).getD (.ffQuantize v))
    ∧ Dict.get t .dequantize = some ((Dict.get table .dequantize).getD (.ffDequantize v))
    ∧ ∀ k, Dict.get t (.other k) = Dict.get table (.other k) := by
  unfold withLowerings at h
  simp only at h
  split_ifs at h with h1 h2
  cases h
  have hsd : ∀ (d : List (Target × Lowering)) (k k' : Target) (l : Lowering),
      Dict.get (setDefault d k l) k' = if k = k' then some ((Dict.get d k).getD l) else Dict.get d k' := by
    intro d k k' l
    unfold setDefault
    cases hd : Dict.get d k with
    | some x =>
      simp only
      by_cases hk : k = k'
      · subst hk; rw [if_pos rfl, hd]; rfl
      · rw [if_neg hk]
    | none =>
      simp only
      rw [Dict.get_set]
      rfl
  refine ⟨by omega, by simpa using h2, fun w hw => by rw [hw]; rfl, ?_, ?_, ?_, ?_⟩
  · intro k l hl
    rw [hsd]
    by_cases h3 : Target.dequantize = k
    · subst h3; rw [if_pos rfl, hsd, if_neg (by simp), hl]; rfl
    · rw [if_neg h3, hsd]
      by_cases h4 : Target.quantize = k
      · subst h4; rw [if_pos rfl, hl]; rfl
      · rw [if_neg h4, hl]
  · rw [hsd, if_neg (by simp), hsd, if_pos rfl]
  · rw [hsd, if_pos rfl, hsd, if_neg (by simp)]
  · intro k
    rw [hsd, if_neg (by simp), hsd, if_neg (by simp)]

/-! ## Concrete cases -/

/-- A runtime that saturates. -/
def saturating : Cast where
  fn n z := clampZ (intMin n) (intMax n) z
  inRange n z := clampZ_mem (intMin_le_intMax n) z
  keeps _ _ h1 h2 := clampZ_of_mem h1 h2

example : lowerQuantize saturating [1/2, 1/4] (some [3, -5/2]) [1, 3] [some 2, some 3] 8
    = .ok ⟨some 0, [1/2, 1/4], [-3, 2], 8⟩ := by decide +kernel
/-- A 1×1 convolution weight, quantized for every output channel. -/
example : axisFromTile [1, 3, 1, 1] [some 8, some 3, some 1, some 1] = some 0 := by decide
example : Known [8, 3, 1, 1] [some 8, none, some 1, some 1] := by
  intro k d h
  match k with
  | 0 | 1 | 2 | 3 => simpa using h
  | k + 4 => simp at h
/-- A tie with an odd offset: `x / s = 5/2`, offset 1. -/
example : quantizeScalar 1 (some 1) 8 (5/2) = some 2 ∧ onnxQuantize 8 1 (-inferOffset (some 1)) (5/2) = 1 := by decide +kernel
/-- The range [10, 20] with 8 bits: the offset is 383 - 0.x, the zero point does not fit. -/
example : -inferOffset (some (10 / (10 / 255) + 128 : ℚ)) < intMin 8 := by decide +kernel
example : withLowerings (fun v => decide (v ≤ 23)) none [(.quantize, .user 0)]
    = .ok (21, [(.quantize, .user 0), (.dequantize, .ffDequantize 21)]) := by decide

end FF.Qdq
