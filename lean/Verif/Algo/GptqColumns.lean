import Verif.Tiling.QuantProps
import Verif.Granularity.Props
import Mathlib.Algebra.BigOperators.Ring.List

/-!
# GPTQ: quantizing one column of a weight

Models `column_quantizer` (`quantization/gptq.py:149-235`) and `update_partial_range` (`gptq.py:238-277`). Parameters are given as
flattened lists, as in `Verif.Tiling.QuantModel`. `quantization_context` only bundles its arguments; the output data type is not modelled.
-/

namespace FF.GptqCol
open FF.Tens FF.Tiling FF.Gran FF.Quant

/-! ## Model -/

/-- Exceptions: those of the shape code, and `TypeError`. -/
inductive GErr where
  | shape (e : TErr)
  | typeError
  deriving DecidableEq, Repr

/-- `l.view(a, b)[:, k]` (`gptq.py:189,206`). -/
def viewColumn (l : List ℚ) (a b k : ℕ) : Except GErr (List ℚ) :=
  if l.length ≠ a * b then .error (.shape .runtimeError)
  else if b ≤ k then .error (.shape .indexError)
  else .ok ((List.range a).map fun r => l.getD (r * b + k) 0)

/-- `l.repeat_interleave(k)` (`gptq.py:209,212`). -/
def repeatInterleave (l : List ℚ) (k : ℕ) : List ℚ := l.flatMap (List.replicate k)

/-- `gptq.py:198-217`: one parameter per row, for a granularity with a two-dimensional tile. -/
def blockParams (g : Granularity) (R C col : ℕ) (l : List ℚ) : Except GErr (List ℚ) :=
  match tileSize g [R, C] with
  | .error e => .error (.shape e)
  | .ok (some [rb, cb]) =>
    if rb = 0 ∨ cb = 0 then .error (.shape .zeroDivision)
    else match viewColumn l (R / rb) (C / cb) (col / cb) with
      | .error e => .error e
      | .ok v => .ok (repeatInterleave v rb)
  | .ok _ => .error (.shape .valueError)                              -- unpacking into two variables fails

/-- `gptq.py:170-221`: the parameters of the rows of column `col` of an `R × C` weight. -/
def rowParams (g : Granularity) (R C col : ℕ) (l : List ℚ) : Except GErr (List ℚ) :=
  match g with
  | .perTensor =>
    if l.length = 1 then .ok (List.replicate R (l.getD 0 0))          -- `expand`
    else if l.length = R then .ok l else .error (.shape .runtimeError)
  | .perChannel dims =>
    if dims = [0] then if l.length = R then .ok l else .error (.shape .runtimeError)
    else if dims = [1] then
      match l[col]? with
      | none => .error (.shape .indexError)
      | some v => .ok (List.replicate R v)
    else if dims = [0, 1] then viewColumn l R C col
    else .error .typeError
  | .perBlock bd bs cd strict =>
    if strict = false then .error (.shape .valueError) else blockParams (.perBlock bd bs cd strict) R C col l
  | .perTile tile => blockParams (.perTile tile) R C col l

/-- The same for the offset, which may be absent. -/
def rowOffsets (g : Granularity) (R C col : ℕ) : Option (List ℚ) → Except GErr (Option (List ℚ))
  | none => .ok none
  | some l => (rowParams g R C col l).map some

/-- Quantizing and dequantizing with given parameters (`QuantizedTensor.dequantize` uses those of quantization); `none` is `nan`. -/
def quantDequant (t : Tensor ℚ) (scale : List ℚ) (tile : Option (List ℕ)) (n : ℕ) (offset : Option (List ℚ)) :
    Except TErr (Tensor (Option ℚ)) := do
  let q ← quantizeByTile t scale tile n offset
  let rows ← tilesToRows q tile
  let d ← rowwise (fun s o (c : Option ℤ) => c.map (dequantizeScalar s o)) rows scale offset
  rowsToTiles d q.shape tile

/-- What the weight quantizer itself computes (`nn/linear_quantizer.py` `quantize`, then `dequantize`): the tile size is that of the
granularity for the shape of the data. -/
def quantizeWeight (g : Granularity) (W : Tensor ℚ) (scale : List ℚ) (n : ℕ) (offset : Option (List ℚ)) :
    Except TErr (Tensor (Option ℚ)) := do
  let tile ← tileSize g W.shape
  quantDequant W scale tile n offset

/-- `gptq.py:149-235`: `column_quantizer(...)(column)`; the column has the entries `column r`, `r < R`. -/
def quantizeColumn (g : Granularity) (R C col : ℕ) (scale : List ℚ) (n : ℕ) (offset : Option (List ℚ)) (column : ℕ → ℚ) :
    Except GErr (Tensor (Option ℚ)) := do
  let s ← rowParams g R C col scale
  let o ← rowOffsets g R C col offset
  match quantizeWeight (.perChannel [0]) ⟨[R, 1], column⟩ s n o with
  | .error e => .error (.shape e)
  | .ok t => .ok ⟨[R], t.get⟩                                           -- `flatten`

/-- `gptq.py:263-277`: `update_partial_range` on the entries `sel` of a quantizer with parameters `scale`, `offset`. The new entries
come from `parameters_for_range`; a missing offset is written as zero. -/
def updatePartialRange (eps : ℚ) (n : ℕ) (symmetric oneSided : Bool) (scale : List (Option ℚ)) (offset : Option (List ℚ))
    (sel : List ℕ) (ranges : List (ℚ × ℚ)) : Except Err (List (Option ℚ) × Option (List ℚ)) := do
  let (s, o) ← parametersForRange eps n symmetric oneSided ranges
  let write {α : Type} (l : List α) (vs : List α) : List α := (sel.zip vs).foldl (fun l p => l.set p.1 p.2) l
  return (write scale s, offset.map fun l => write l (o.getD (sel.map fun _ => 0)))

/-! ## Lemmas -/

theorem quantDequant_spec (t : Tensor ℚ) (tile : List ℕ) (h0 : t.numel ≠ 0) (hd : Divides t.shape tile) (n : ℕ)
    (scale : List ℚ) (offset : Option (List ℚ)) (h1 : Fits scale (grid t.shape tile).prod)
    (h2 : ∀ o ∈ offset, Fits o (grid t.shape tile).prod) :
    ∃ u, quantDequant t scale (some tile) n offset = .ok u ∧ u.shape = t.shape ∧
      ∀ i, InBounds t.shape i → ∃ s, paramAt scale (tileId t.shape tile i) = some s ∧
        u.at i = (quantizeScalar s (offset.bind fun o => paramAt o (tileId t.shape tile i)) n (t.at i)).map
          (dequantizeScalar s (offset.bind fun o => paramAt o (tileId t.shape tile i))) := by
  obtain ⟨q, a1, a2, a3⟩ := quantize_by_tile_elementwise t tile h0 hd n scale offset h1 h2
  have h0' : q.numel ≠ 0 := by unfold Tensor.numel; rw [a2]; exact h0
  obtain ⟨u, b1, b2, b3⟩ := tiled_map_spec (fun s o (c : Option ℤ) => c.map (dequantizeScalar s o)) q tile h0' (by rw [a2]; exact hd)
    scale offset (by rw [a2]; exact h1) (by rw [a2]; exact h2)
  refine ⟨u, ?_, by rw [b2, a2], ?_⟩
  · unfold quantDequant
    simp only [bind, Except.bind] at b1 ⊢
    simp only [a1]
    exact b1
  · intro i hi
    obtain ⟨s, hs, he⟩ := a3 i hi
    obtain ⟨s', hs', he'⟩ := b3 i (by rw [a2]; exact hi)
    rw [a2] at hs' he'
    have : s = s' := Option.some.inj (hs.symm.trans hs')
    subst this
    exact ⟨s, hs, by rw [he', he]⟩

theorem quantDequant_none (t : Tensor ℚ) (scale : List ℚ) (n : ℕ) (offset : Option (List ℚ)) (h0 : t.numel ≠ 0) :
    quantDequant t scale none n offset = quantDequant t scale (some t.shape) n offset := by
  have hq : quantizeByTile t scale none n offset = quantizeByTile t scale (some t.shape) n offset := rfl
  unfold quantDequant
  rw [hq]
  cases h : quantizeByTile t scale (some t.shape) n offset with
  | error e => rfl
  | ok q =>
    have hs : q.shape = t.shape := by
      by_cases hd : Divides t.shape t.shape
      · have hok := (quantize_by_tile_ok_iff t t.shape h0 hd n scale offset).1 ⟨q, h⟩
        obtain ⟨q', a1, a2, -⟩ := quantize_by_tile_elementwise t t.shape h0 hd n scale offset hok.1 hok.2
        rw [h] at a1
        cases a1
        exact a2
      · exfalso
        apply hd
        unfold Divides
        have hpos : ∀ d ∈ t.shape, 0 < d := by
          intro d hd'
          rcases Nat.eq_zero_or_pos d with h' | h'
          · exact absurd (List.prod_eq_zero (h' ▸ hd')) h0
          · exact h'
        clear h hq h0 hd
        revert hpos
        generalize t.shape = l
        intro hpos
        induction l with
        | nil => exact .nil
        | cons a l ih => exact .cons ⟨hpos a (by simp), dvd_refl a⟩ (ih fun d hd => hpos d (by simp [hd]))
    simp only [bind, Except.bind, tilesToRows, rowsToTiles, hs, Option.getD]

theorem tileId_two (R C rb cb r c : ℕ) : tileId [R, C] [rb, cb] [r, c] = r / rb * (C / cb) + c / cb := by
  simp [tileId, ravel, strides, dot, grid, divIdx]

theorem tileId_column (R r : ℕ) : tileId [R, 1] [1, 1] [r, 0] = r := by
  simp [tileId_two]

theorem inBounds_two {R C r c : ℕ} (hr : r < R) (hc : c < C) : InBounds [R, C] [r, c] := .cons hr (.cons hc .nil)

theorem repeatInterleave_getElem? (l : List ℚ) (k : ℕ) (hk : 0 < k) (i : ℕ) : (repeatInterleave l k)[i]? = l[i / k]? := by
  unfold repeatInterleave
  induction l generalizing i with
  | nil => simp
  | cons a l ih =>
    rw [List.flatMap_cons]
    rcases Nat.lt_or_ge i k with h | h
    · rw [List.getElem?_append_left (by simpa using h), Nat.div_eq_of_lt h]
      simp [h]
    · rw [List.getElem?_append_right (by simpa using h), List.length_replicate, ih]
      have : i / k = (i - k) / k + 1 := by
        rw [Nat.div_eq_sub_div hk h]
      rw [this, List.getElem?_cons_succ]

theorem repeatInterleave_length (l : List ℚ) (k : ℕ) : (repeatInterleave l k).length = l.length * k := by
  unfold repeatInterleave
  induction l with
  | nil => simp
  | cons a l ih => rw [List.flatMap_cons, List.length_append, ih, List.length_replicate, List.length_cons]; ring

theorem viewColumn_ok {l : List ℚ} {a b k : ℕ} (hl : l.length = a * b) (hk : k < b) :
    ∃ v, viewColumn l a b k = .ok v ∧ v.length = a ∧ ∀ r, r < a → v[r]? = l[r * b + k]? := by
  unfold viewColumn
  rw [if_neg (by simpa using hl), if_neg (by omega)]
  refine ⟨_, rfl, by simp, ?_⟩
  intro r hr
  have : r * b + k < l.length := by
    rw [hl]
    calc r * b + k < r * b + b := by omega
      _ = (r + 1) * b := by ring
      _ ≤ a * b := Nat.mul_le_mul_right b hr
  simp [hr, List.getD_eq_getElem?_getD, List.getElem?_eq_getElem this]

/-- The granularities `column_quantizer` accepts. -/
def Accepted : Granularity → Prop
  | .perTensor => True
  | .perChannel dims => dims = [0] ∨ dims = [1] ∨ dims = [0, 1]
  | .perBlock _ _ _ strict => strict = true
  | .perTile t => ∀ d ∈ t, 0 < d

theorem tileSize_two {g : Granularity} {R C : ℕ} (hR : 0 < R) (hC : 0 < C) (ha : Accepted g) {o : Option (List ℕ)}
    (h : tileSize g [R, C] = .ok o) :
    ∃ rb cb, o.getD [R, C] = [rb, cb] ∧ Divides [R, C] [rb, cb] ∧ parameterDimensionality g [R, C] = .ok (R / rb * (C / cb)) := by
  have hpos : ∀ d ∈ [R, C], 0 < d := by
    intro d hd
    simp only [List.mem_cons, List.not_mem_nil, or_false] at hd
    rcases hd with rfl | rfl <;> assumption
  cases o with
  | none =>
    refine ⟨R, C, rfl, .cons ⟨hR, dvd_refl R⟩ (.cons ⟨hC, dvd_refl C⟩ .nil), ?_⟩
    unfold parameterDimensionality
    rw [h, Nat.div_self hR, Nat.div_self hC]
    rfl
  | some tile =>
    obtain ⟨hd, hp⟩ := granularity_tile_divides g [R, C] tile hpos h (by
      cases g with
      | perTensor => trivial
      | perChannel d => trivial
      | perBlock a b c s => exact ha
      | perTile t => exact ha)
    have hlen := List.Forall₂.length_eq hd
    match tile, hlen with
    | [rb, cb], _ => exact ⟨rb, cb, rfl, hd, by simpa [grid] using hp⟩

/-- For an accepted granularity there is one parameter per row: that of the tile of the element in the given column. -/
theorem rowParams_spec {g : Granularity} {R C col : ℕ} (hR : 0 < R) (hcol : col < C) (ha : Accepted g) {o : Option (List ℕ)} {rb cb : ℕ}
    (h : tileSize g [R, C] = .ok o) (ho : o.getD [R, C] = [rb, cb]) (hd : Divides [R, C] [rb, cb]) (l : List ℚ)
    (hl : l.length = R / rb * (C / cb)) :
    ∃ v, rowParams g R C col l = .ok v ∧ v.length = R ∧ ∀ r, r < R → v[r]? = l[r / rb * (C / cb) + col / cb]? := by
  obtain ⟨⟨hrb, hrd⟩, hd'⟩ := List.forall₂_cons.1 hd
  obtain ⟨⟨hcb, hcd⟩, -⟩ := List.forall₂_cons.1 hd'
  have hblock : ∀ g', tileSize g' [R, C] = .ok (some [rb, cb]) →
      ∃ v, blockParams g' R C col l = .ok v ∧ v.length = R ∧ ∀ r, r < R → v[r]? = l[r / rb * (C / cb) + col / cb]? := by
    intro g' hg'
    obtain ⟨v, hv, hlen, hget⟩ := viewColumn_ok hl (Nat.div_lt_div_of_lt_of_dvd hcd hcol)
    refine ⟨repeatInterleave v rb, ?_, ?_, ?_⟩
    · unfold blockParams
      rw [hg']
      show (if rb = 0 ∨ cb = 0 then _ else _) = _
      rw [if_neg (by omega), hv]
    · rw [repeatInterleave_length, hlen, Nat.div_mul_cancel hrd]
    · intro r hr
      rw [repeatInterleave_getElem? _ _ hrb]
      exact hget _ (Nat.div_lt_div_of_lt_of_dvd hrd hr)
  cases g with
  | perTensor =>
    simp only [tileSize, Except.ok.injEq] at h
    subst h
    simp only [Option.getD, List.cons.injEq, and_true] at ho
    obtain ⟨rfl, rfl⟩ := ho
    rw [Nat.div_self hR, Nat.div_self hcb] at hl
    refine ⟨List.replicate R (l.getD 0 0), ?_, by simp, ?_⟩
    · unfold rowParams; dsimp only; rw [if_pos (by simpa using hl)]
    · intro r hr
      rw [Nat.div_eq_of_lt hr, Nat.div_eq_of_lt hcol, List.getElem?_replicate, if_pos hr, List.getD_eq_getElem?_getD]
      simp [hl]
  | perChannel dims =>
    rcases ha with rfl | rfl | rfl
    · simp [tileSize, setDim, pyIndex, bind, Except.bind, pure, Except.pure] at h
      subst h
      simp only [Option.getD, List.cons.injEq, and_true] at ho
      obtain ⟨rfl, rfl⟩ := ho
      rw [Nat.div_one, Nat.div_self hcb, Nat.mul_one] at hl
      refine ⟨l, ?_, hl, ?_⟩
      · unfold rowParams; dsimp only; rw [if_pos rfl, if_pos hl]
      · intro r _
        rw [Nat.div_one, Nat.div_self hcb, Nat.mul_one, Nat.div_eq_of_lt hcol, Nat.add_zero]
    · simp [tileSize, setDim, pyIndex, bind, Except.bind, pure, Except.pure] at h
      subst h
      simp only [Option.getD, List.cons.injEq, and_true] at ho
      obtain ⟨rfl, rfl⟩ := ho
      rw [Nat.div_one, Nat.div_self hR, Nat.one_mul] at hl
      refine ⟨List.replicate R l[col], ?_, by simp, ?_⟩
      · unfold rowParams
        dsimp only
        rw [if_neg (by decide), if_pos rfl, List.getElem?_eq_getElem (by omega)]
      · intro r hr
        rw [Nat.div_one, Nat.div_one, Nat.div_eq_of_lt hr, Nat.zero_mul, Nat.zero_add, List.getElem?_replicate, if_pos hr,
          List.getElem?_eq_getElem]
    · simp [tileSize, setDim, pyIndex, bind, Except.bind, pure, Except.pure] at h
      subst h
      simp only [Option.getD, List.cons.injEq, and_true] at ho
      obtain ⟨rfl, rfl⟩ := ho
      simp only [Nat.div_one] at hl ⊢
      obtain ⟨v, hv, hlen, hget⟩ := viewColumn_ok hl hcol
      refine ⟨v, ?_, hlen, hget⟩
      unfold rowParams
      dsimp only
      rw [if_neg (by decide), if_neg (by decide), if_pos rfl]
      exact hv
  | perBlock bd bs cd strict =>
    have hs : strict = true := ha
    subst hs
    cases o with
    | none =>
      simp only [tileSize, bind, Except.bind, pure, Except.pure] at h
      split at h
      · simp at h
      · split at h <;> simp at h
    | some tile =>
      simp only [Option.getD] at ho
      subst ho
      exact hblock _ h
  | perTile t =>
    cases o with
    | none =>
      simp only [tileSize, bind, Except.bind, pure, Except.pure] at h
      split at h <;> simp at h
    | some tile =>
      simp only [Option.getD] at ho
      subst ho
      exact hblock _ h

theorem paramAt_lt {l : List ℚ} {k : ℕ} (hk : k < l.length) : paramAt l k = l[k]? := by
  unfold paramAt
  split_ifs with h
  · have : k = 0 := by omega
    rw [this]
  · rfl

/-! ## Properties -/

/-- **C63.** For a granularity that is accepted and fits the weight, quantizing any column with the column quantizer gives in every
row exactly what quantizing the full weight with the weight quantizer gives at that row and column. -/
theorem column_quantizer_eq_full (g : Granularity) (R C col : ℕ) (hR : 0 < R) (hcol : col < C) (ha : Accepted g) (W : Tensor ℚ)
    (hW : W.shape = [R, C]) (o : Option (List ℕ)) (ht : tileSize g [R, C] = .ok o) (scale : List ℚ) (n : ℕ) (offset : Option (List ℚ))
    (hs : parameterDimensionality g [R, C] = .ok scale.length)
    (ho : ∀ l ∈ offset, parameterDimensionality g [R, C] = .ok l.length) :
    ∃ full column, quantizeWeight g W scale n offset = .ok full ∧ full.shape = [R, C] ∧
      quantizeColumn g R C col scale n offset (fun r => W.at [r, col]) = .ok column ∧ column.shape = [R] ∧
      ∀ r < R, column.at [r] = full.at [r, col] := by
  have hC : 0 < C := by omega
  obtain ⟨rb, cb, hrc, hd, hp⟩ := tileSize_two hR hC ha ht
  rw [hp, Except.ok.injEq] at hs
  obtain ⟨⟨hrb, hrd⟩, hd'⟩ := List.forall₂_cons.1 hd
  obtain ⟨⟨hcb, hcd⟩, -⟩ := List.forall₂_cons.1 hd'
  have h0 : W.numel ≠ 0 := by
    unfold Tensor.numel; rw [hW]
    simp; omega
  have hgrid : (grid W.shape [rb, cb]).prod = R / rb * (C / cb) := by rw [hW]; simp [grid]
  obtain ⟨full, f1, f2, f3⟩ := quantDequant_spec W [rb, cb] h0 (by rw [hW]; exact hd) n scale offset (by rw [hgrid]; exact .inr hs.symm)
    (by
      intro l hl
      have := ho l hl
      rw [hp, Except.ok.injEq] at this
      rw [hgrid]
      exact .inr this.symm)
  have hfull : quantizeWeight g W scale n offset = .ok full := by
    unfold quantizeWeight
    rw [hW, ht]
    simp only [bind, Except.bind]
    cases o with
    | none =>
      rw [quantDequant_none _ _ _ _ h0, hW]
      simp only [Option.getD] at hrc
      rw [hrc]; exact f1
    | some tile =>
      simp only [Option.getD] at hrc
      rw [hrc]; exact f1
  obtain ⟨sv, hsv, hsl, hsg⟩ := rowParams_spec hR hcol ha ht hrc hd scale hs.symm
  have hov : ∃ ov, rowOffsets g R C col offset = .ok ov ∧ (∀ v ∈ ov, v.length = R) ∧
      ∀ r, r < R → (ov.bind fun v => v[r]?) = offset.bind fun l => l[r / rb * (C / cb) + col / cb]? := by
    cases offset with
    | none => exact ⟨none, rfl, fun v hv => by simp at hv, fun r _ => rfl⟩
    | some l =>
      have := ho l rfl
      rw [hp, Except.ok.injEq] at this
      obtain ⟨v, hv, hvl, hvg⟩ := rowParams_spec hR hcol ha ht hrc hd l this.symm
      refine ⟨some v, by simp [rowOffsets, hv, Except.map], ?_, ?_⟩
      · intro v' hv'
        rw [Option.mem_some_iff] at hv'
        rw [← hv']; exact hvl
      · intro r hr
        simpa using hvg r hr
  obtain ⟨ov, hov1, hov2, hov3⟩ := hov
  have hcolpos : (⟨[R, 1], fun r => W.at [r, col]⟩ : Tensor ℚ).numel ≠ 0 := by
    unfold Tensor.numel; simp; omega
  have hcold : Divides [R, 1] [1, 1] := .cons ⟨by decide, one_dvd R⟩ (.cons ⟨by decide, one_dvd 1⟩ .nil)
  have hgrid1 : (grid [R, 1] [1, 1]).prod = R := by simp [grid]
  obtain ⟨u, u1, u2, u3⟩ := quantDequant_spec ⟨[R, 1], fun r => W.at [r, col]⟩ [1, 1] hcolpos hcold n sv ov
    (by rw [hgrid1]; exact .inr hsl) (by intro v hv; rw [hgrid1]; exact .inr (hov2 v hv))
  have htile : tileSize (.perChannel [0]) [R, 1] = .ok (some [1, 1]) := by
    simp [tileSize, setDim, pyIndex, bind, Except.bind, pure, Except.pure]
  refine ⟨full, ⟨[R], u.get⟩, hfull, by rw [f2, hW], ?_, rfl, ?_⟩
  · unfold quantizeColumn
    simp only [bind, Except.bind, hsv, hov1, quantizeWeight, htile, u1]
  · intro r hr
    obtain ⟨s, hs1, he1⟩ := f3 [r, col] (by rw [hW]; exact inBounds_two hr hcol)
    obtain ⟨s', hs2, he2⟩ := u3 [r, 0] (inBounds_two hr (by decide))
    rw [hW, tileId_two] at hs1 he1
    simp only [tileId_column] at hs2 he2
    have hlt : r / rb * (C / cb) + col / cb < R / rb * (C / cb) := by
      have h1 := Nat.div_lt_div_of_lt_of_dvd hrd hr
      have h2 := Nat.div_lt_div_of_lt_of_dvd hcd hcol
      calc r / rb * (C / cb) + col / cb < r / rb * (C / cb) + C / cb := by omega
        _ = (r / rb + 1) * (C / cb) := by ring
        _ ≤ _ := Nat.mul_le_mul_right _ h1
    have hss : s = s' := by
      rw [paramAt_lt (by omega)] at hs1 hs2
      rw [hsg r hr] at hs2
      exact Option.some.inj (hs1.symm.trans hs2)
    subst hss
    have hoo : (ov.bind fun v => paramAt v r) = offset.bind fun l => paramAt l (r / rb * (C / cb) + col / cb) := by
      have e1 : (ov.bind fun v => paramAt v r) = ov.bind fun v => v[r]? := by
        cases ov with
        | none => rfl
        | some v => simp only [Option.bind_some]; rw [paramAt_lt (by rw [hov2 v rfl]; exact hr)]
      rw [e1, hov3 r hr]
      cases offset with
      | none => rfl
      | some l =>
        have := ho l rfl
        rw [hp, Except.ok.injEq] at this
        simp only [Option.bind_some]; rw [paramAt_lt (by omega)]
    have hat : (⟨[R], u.get⟩ : Tensor (Option ℚ)).at [r] = u.at [r, 0] := by
      unfold Tensor.at
      rw [u2]
      simp [ravel, strides, dot]
    rw [hat, he2, he1, hoo]
    congr 1
    have : (⟨[R, 1], fun r => W.at [r, col]⟩ : Tensor ℚ).at [r, 0] = W.at [r, col] := by
      unfold Tensor.at
      simp [ravel, strides, dot]
    rw [this]

/-- **C63.** Blocks that need not divide the weight, and per-channel granularities written with other dimensions than `(0,)`, `(1,)` or
`(0, 1)`, are refused for every weight. -/
theorem other_granularities_refused (R C col : ℕ) (scale : List ℚ) (n : ℕ) (offset : Option (List ℚ)) (column : ℕ → ℚ) (g : Granularity)
    (h : ¬ Accepted g) (hg : ∀ t, g ≠ .perTile t) : ∃ e, quantizeColumn g R C col scale n offset column = .error e := by
  cases g with
  | perTensor => exact absurd trivial h
  | perChannel dims =>
    refine ⟨.typeError, ?_⟩
    unfold Accepted at h
    unfold quantizeColumn rowParams
    dsimp only
    rw [if_neg (fun e => h (.inl e)), if_neg (fun e => h (.inr (.inl e))), if_neg (fun e => h (.inr (.inr e)))]
    rfl
  | perBlock bd bs cd strict =>
    refine ⟨.shape .valueError, ?_⟩
    have hs : strict = false := by
      cases strict
      · rfl
      · exact absurd rfl h
    unfold quantizeColumn rowParams
    dsimp only
    rw [if_pos hs]
    rfl
  | perTile t => exact absurd rfl (hg t)

/-- **C63, deviation.** Channel dimensions that name the same granularity in another way (`-1` for the last dimension) are valid for
the weight quantizer, which quantizes the weight, but the column quantizer raises `TypeError`. -/
theorem negative_channel_refused : ∃ full,
    quantizeWeight (.perChannel [-1]) ⟨[2, 2], fun k => k⟩ [1, 1] 4 none = .ok full
    ∧ quantizeColumn (.perChannel [-1]) 2 2 0 [1, 1] 4 none (fun r => 2 * r) = .error .typeError := by
  obtain ⟨u, hu, -⟩ := quantDequant_spec ⟨[2, 2], fun k => k⟩ [2, 1] (by decide)
    (.cons (by decide) (.cons (by decide) .nil)) 4 [1, 1] none (.inr (by decide)) (by simp)
  exact ⟨u, by simpa [quantizeWeight, tileSize, setDim, pyIndex, bind, Except.bind, pure, Except.pure] using hu, rfl⟩

/-- The writes of `updatePartialRange`. -/
theorem foldl_set {α : Type} (ps : List (ℕ × α)) (l : List α) :
    (ps.foldl (fun l p => l.set p.1 p.2) l).length = l.length ∧
    ∀ k, (∀ p ∈ ps, p.1 ≠ k) → (ps.foldl (fun l p => l.set p.1 p.2) l)[k]? = l[k]? := by
  induction ps generalizing l with
  | nil => exact ⟨rfl, fun _ _ => rfl⟩
  | cons p ps ih =>
    rw [List.foldl_cons]
    refine ⟨by rw [(ih _).1, List.length_set], ?_⟩
    intro k hk
    rw [(ih _).2 k (fun q hq => hk q (by simp [hq])), List.getElem?_set_ne (hk p (by simp))]

theorem foldl_set_at {α : Type} (sel : List ℕ) (vs l : List α) (hn : sel.Nodup) (hl : ∀ k ∈ sel, k < l.length) (j : ℕ) (hj : j < sel.length)
    (hj' : j < vs.length) : ((sel.zip vs).foldl (fun l p => l.set p.1 p.2) l)[sel[j]]? = some vs[j] := by
  induction sel generalizing vs l j with
  | nil => simp at hj
  | cons k sel ih =>
    match vs with
    | [] => simp at hj'
    | v :: vs =>
      rw [List.zip_cons_cons, List.foldl_cons]
      have hn' := List.nodup_cons.1 hn
      match j with
      | 0 =>
        simp only [List.getElem_cons_zero]
        rw [(foldl_set _ _).2 k (by
          intro p hp e
          exact hn'.1 (e ▸ (List.of_mem_zip hp).1))]
        rw [List.getElem?_set_self (hl k (by simp))]
      | j + 1 =>
        simp only [List.getElem_cons_succ]
        exact ih vs _ hn'.2 (fun k' hk' => by rw [List.length_set]; exact hl k' (by simp [hk'])) j (by simpa using hj) (by simpa using hj')

/-- **C63.** Updating the range of some positions writes there the parameters for the given ranges (offset zero where there is none)
and leaves every other position and the presence of an offset as they are. -/
theorem partial_range_local (eps : ℚ) (n : ℕ) (symmetric oneSided : Bool) (scale : List (Option ℚ)) (offset : Option (List ℚ))
    (sel : List ℕ) (ranges : List (ℚ × ℚ)) (hn : sel.Nodup) (hr : ranges.length = sel.length) (hsel : sel ≠ [])
    (hs : ∀ k ∈ sel, k < scale.length) (ho : ∀ l ∈ offset, ∀ k ∈ sel, k < l.length) :
    ∃ s o scale' offset', parametersForRange eps n symmetric oneSided ranges = .ok (s, o)
      ∧ updatePartialRange eps n symmetric oneSided scale offset sel ranges = .ok (scale', offset')
      ∧ (∀ j (hj : j < sel.length), scale'[sel[j]]? = s[j]?)
      ∧ (∀ k, k ∉ sel → scale'[k]? = scale[k]?)
      ∧ offset'.isSome = offset.isSome
      ∧ (∀ l ∈ offset, ∃ l' ∈ offset', (∀ j (hj : j < sel.length), l'[sel[j]]? = (o.getD (sel.map fun _ => 0))[j]?)
        ∧ ∀ k, k ∉ sel → l'[k]? = l[k]?) := by
  have hrne : ranges ≠ [] := by
    intro e
    rw [e] at hr
    exact hsel (List.length_eq_zero_iff.1 hr.symm)
  obtain ⟨s, o, hp, hsl, hol⟩ : ∃ s o, parametersForRange eps n symmetric oneSided ranges = .ok (s, o)
      ∧ s.length = sel.length ∧ ∀ l ∈ o, l.length = sel.length := by
    obtain ⟨a, ra, rfl⟩ := List.exists_cons_of_ne_nil hrne
    unfold parametersForRange
    simp only [List.map_cons, listMin, bind, Except.bind, pure, Except.pure]
    split_ifs <;> refine ⟨_, _, rfl, by simpa using hr, ?_⟩ <;> simp <;> simpa using hr
  have hz : (o.getD (sel.map fun _ => 0)).length = sel.length := by
    cases o with
    | none => simp
    | some l => exact hol l rfl
  refine ⟨s, o, (sel.zip s).foldl (fun l p => l.set p.1 p.2) scale,
    offset.map (fun l => (sel.zip (o.getD (sel.map fun _ => 0))).foldl (fun l p => l.set p.1 p.2) l), hp,
    by simp only [updatePartialRange, hp, bind, Except.bind, pure, Except.pure], ?_, ?_, ?_, ?_⟩
  · intro j hj
    rw [foldl_set_at sel s scale hn hs j hj (by omega), List.getElem?_eq_getElem]
  · intro k hk
    exact (foldl_set _ _).2 k (fun p hp e => hk (e ▸ (List.of_mem_zip hp).1))
  · cases offset <;> rfl
  · intro l hl
    rw [Option.mem_def] at hl
    subst hl
    refine ⟨_, rfl, ?_, ?_⟩
    · intro j hj
      rw [foldl_set_at sel _ l hn (ho l rfl) j hj (by omega), List.getElem?_eq_getElem]
    · intro k hk
      exact (foldl_set _ _).2 k (fun p hp e => hk (e ▸ (List.of_mem_zip hp).1))

/-! ## Concrete cases -/

/-- Blocks of two rows and two columns in a `2 × 4` weight meet the hypotheses of `column_quantizer_eq_full`. -/
example : Accepted (.perBlock [0, 1] [2, 2] [] true) ∧ tileSize (.perBlock [0, 1] [2, 2] [] true) [2, 4] = .ok (some [2, 2])
    ∧ parameterDimensionality (.perBlock [0, 1] [2, 2] [] true) [2, 4] = .ok ([1, 1 / 2] : List ℚ).length := by
  refine ⟨rfl, by decide +kernel, by decide +kernel⟩

/-- The parameters of the rows of column 2 are those of the second block. -/
example : rowParams (.perBlock [1] [2] [0] true) 2 4 2 [1, 2, 3, 4] = .ok [2, 4] := by decide +kernel

example : updatePartialRange (1 / 1000) 4 true false [some 5, some 6, some 7] (some [1, 1, 1]) [1] [(-8, 7)]
    = .ok ([some 5, some 1, some 7], some [1, 0, 1]) := by
  decide +kernel

end FF.GptqCol
