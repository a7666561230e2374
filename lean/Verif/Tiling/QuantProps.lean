import Verif.Tiling.QuantModel
import Verif.Tiling.Props
import Verif.Quant.AffineProps

/-! # Property theorems about tiled quantization (C09) -/

namespace FF.Tiling
open FF.Tens FF.Quant

/-- Specification: the parameter that belongs to tile number `k`. A single parameter is shared by all tiles. -/
def paramAt (l : List ℚ) (k : ℕ) : Option ℚ := if l.length = 1 then l[0]? else l[k]?

/-- Specification: a list of parameters fits `k` tiles. -/
def Fits (l : List ℚ) (k : ℕ) : Prop := l.length = 1 ∨ l.length = k

theorem bIdx_getD {l : List ℚ} {k R : ℕ} (h : Fits l R) (hk : k < R) :
    paramAt l k = some (l.getD (bIdx l.length k) 0) := by
  unfold paramAt bIdx
  rcases h with h | h
  · simp only [h, if_true, List.getD_eq_getElem?_getD]
    rw [List.getElem?_eq_getElem (by omega)]; rfl
  · by_cases h1 : l.length = 1
    · simp only [h1, if_true, List.getD_eq_getElem?_getD]
      rw [List.getElem?_eq_getElem (by omega)]; rfl
    · simp only [h1, if_false, List.getD_eq_getElem?_getD]
      rw [List.getElem?_eq_getElem (by omega)]; rfl

theorem broadcastDim_fits {l R : ℕ} (h : l = 1 ∨ l = R) : broadcastDim R l = .ok R := by
  unfold broadcastDim
  rcases h with h | h
  · subst h
    by_cases h1 : R = 1 <;> simp [h1]
  · simp [h]

theorem broadcastDim_cases {a b c : ℕ} (h : broadcastDim a b = .ok c) :
    (a = b ∧ c = a) ∨ (a = 1 ∧ c = b) ∨ (b = 1 ∧ c = a) := by
  unfold broadcastDim at h
  split_ifs at h with h1 h2 h3
  · simp at h; omega
  · simp at h; omega
  · simp at h; omega

theorem rowwise_spec {α β : Type} (f : ℚ → Option ℚ → α → β) (rows : Tensor α) (R C : ℕ) (hs : rows.shape = [R, C])
    (scale : List ℚ) (offset : Option (List ℚ)) (h1 : Fits scale R) (h2 : ∀ o ∈ offset, Fits o R) :
    ∃ q, rowwise f rows scale offset = .ok q ∧ q.shape = [R, C] ∧
      ∀ r c, r < R → c < C → ∃ s, paramAt scale r = some s ∧
        q.at [r, c] = f s (offset.bind fun o => paramAt o r) (rows.at [r, c]) := by
  unfold rowwise
  have e1 : broadcastDim R scale.length = .ok R := broadcastDim_fits h1
  have e2 : broadcastDim R (offsetLen scale offset) = .ok R := by
    cases offset with
    | none => exact e1
    | some o => exact broadcastDim_fits (h2 o rfl)
  have hr : rows.shape.getD 0 0 = R := by rw [hs]; rfl
  have hc : rows.shape.getD 1 0 = C := by rw [hs]; rfl
  simp only [hr, hc, bind, Except.bind, e1, e2, pure, Except.pure]
  refine ⟨_, rfl, rfl, ?_⟩
  intro r c hr' hc'
  refine ⟨_, bIdx_getD h1 hr', ?_⟩
  have hrav : ravel [R, C] [r, c] = r * C + c := by simp [ravel, strides, dot]
  have hdiv : (r * C + c) / C = r := by
    rw [Nat.add_comm, Nat.add_mul_div_right _ _ (by omega), Nat.div_eq_of_lt hc', Nat.zero_add]
  have hmod : (r * C + c) % C = c := by rw [Nat.add_comm, Nat.add_mul_mod_self_right, Nat.mod_eq_of_lt hc']
  have hb : bIdx R r = r := by
    unfold bIdx; split_ifs with h
    · omega
    · rfl
  show f _ _ _ = _
  rw [hrav, hdiv, hmod, hb]
  congr 1
  cases offset with
  | none => rfl
  | some o => simp only [Option.map_some, Option.bind_some]; rw [bIdx_getD (h2 o rfl) hr']

theorem grid_pos {s t : List ℕ} (hd : Divides s t) (h0 : s.prod ≠ 0) : 0 < (grid s t).prod := by
  have := grid_prod hd
  rcases Nat.eq_zero_or_pos (grid s t).prod with h | h
  · rw [h] at this; omega
  · exact h

theorem tiled_map_spec {α β : Type} (f : ℚ → Option ℚ → α → β) (t : Tensor α) (tile : List ℕ) (h0 : t.numel ≠ 0)
    (hd : Divides t.shape tile) (scale : List ℚ) (offset : Option (List ℚ)) (h1 : Fits scale (grid t.shape tile).prod)
    (h2 : ∀ o ∈ offset, Fits o (grid t.shape tile).prod) :
    ∃ u, (do let rows ← tilesToRows t (some tile); let q ← rowwise f rows scale offset; rowsToTiles q t.shape (some tile)) = .ok u
      ∧ u.shape = t.shape ∧
      ∀ i, InBounds t.shape i → ∃ s, paramAt scale (tileId t.shape tile i) = some s ∧
        u.at i = f s (offset.bind fun o => paramAt o (tileId t.shape tile i)) (t.at i) := by
  obtain ⟨rows, a1, a2, a3⟩ := tiles_to_rows_spec t tile h0 hd
  obtain ⟨q, b1, b2, b3⟩ := rowwise_spec f rows _ _ a2 scale offset h1 h2
  obtain ⟨u, c1, c2, c3⟩ := rows_to_tiles_spec q t.shape tile h0 hd b2
  refine ⟨u, ?_, c2, ?_⟩
  · simp only [a1, b1, c1, bind, Except.bind]
  · intro i hi
    have hr : tileId t.shape tile i < (grid t.shape tile).prod := ravel_lt (divIdx_inBounds hd hi)
    have hc : posId tile i < tile.prod := ravel_lt (modIdx_inBounds hd hi)
    obtain ⟨s, hs, he⟩ := b3 _ _ hr hc
    exact ⟨s, hs, by rw [c3 i hi, he, a3 i hi]⟩

/-- **C09.** Quantizing by tile is element-wise scalar quantization with the parameters of the element's own tile. -/
theorem quantize_by_tile_elementwise (t : Tensor ℚ) (tile : List ℕ) (h0 : t.numel ≠ 0) (hd : Divides t.shape tile) (n : ℕ)
    (scale : List ℚ) (offset : Option (List ℚ)) (h1 : Fits scale (grid t.shape tile).prod)
    (h2 : ∀ o ∈ offset, Fits o (grid t.shape tile).prod) :
    ∃ q, quantizeByTile t scale (some tile) n offset = .ok q ∧ q.shape = t.shape ∧
      ∀ i, InBounds t.shape i → ∃ s, paramAt scale (tileId t.shape tile i) = some s ∧
        q.at i = quantizeScalar s (offset.bind fun o => paramAt o (tileId t.shape tile i)) n (t.at i) :=
  tiled_map_spec (fun s o x => quantizeScalar s o n x) t tile h0 hd scale offset h1 h2

/-- **C09.** Dequantizing by tile likewise. -/
theorem dequantize_by_tile_elementwise (t : Tensor ℤ) (tile : List ℕ) (h0 : t.numel ≠ 0) (hd : Divides t.shape tile)
    (scale : List ℚ) (offset : Option (List ℚ)) (h1 : Fits scale (grid t.shape tile).prod)
    (h2 : ∀ o ∈ offset, Fits o (grid t.shape tile).prod) :
    ∃ q, dequantizeByTile t scale (some tile) offset = .ok q ∧ q.shape = t.shape ∧
      ∀ i, InBounds t.shape i → ∃ s, paramAt scale (tileId t.shape tile i) = some s ∧
        q.at i = dequantizeScalar s (offset.bind fun o => paramAt o (tileId t.shape tile i)) (t.at i) :=
  tiled_map_spec (fun s o c => dequantizeScalar s o c) t tile h0 hd scale offset h1 h2

example : Divides [2, 2] [1, 2] ∧ (⟨[2, 2], fun k => k⟩ : Tensor ℚ).numel ≠ 0
    ∧ Fits [1, 1 / 2] (grid [2, 2] [1, 2]).prod := by
  refine ⟨?_, by decide, by unfold Fits; decide⟩
  unfold Divides; exact .cons (by decide) (.cons (by decide) .nil)

/-- Per-row scales on a `2 × 2` tensor `[[0,1],[2,3]]`: the second row uses scale `1/2`. -/
example : (quantizeByTile (⟨[2, 2], fun k => k⟩ : Tensor ℚ) [1, 1 / 2] (some [1, 2]) 4 none).toOption.map
    (fun q => (q.shape, (List.range 4).map q.get)) = some ([2, 2], [some 0, some 1, some 4, some 6]) := by decide +kernel

/-- **C09** (error branch). For a non-empty tensor and a fitting tile size, quantization succeeds only if the number of scales
(and of offsets) is one or the number of tiles. -/
theorem quantize_by_tile_ok_iff (t : Tensor ℚ) (tile : List ℕ) (h0 : t.numel ≠ 0) (hd : Divides t.shape tile) (n : ℕ)
    (scale : List ℚ) (offset : Option (List ℚ)) :
    (∃ q, quantizeByTile t scale (some tile) n offset = .ok q) ↔
      Fits scale (grid t.shape tile).prod ∧ ∀ o ∈ offset, Fits o (grid t.shape tile).prod := by
  constructor
  · rintro ⟨q, h⟩
    obtain ⟨rows, a1, a2, -⟩ := tiles_to_rows_spec t tile h0 hd
    have hR := grid_pos hd h0
    have hCpos := hd.prod_pos
    have hRC := grid_prod hd
    generalize hRdef : (grid t.shape tile).prod = R at *
    have hr : rows.shape.getD 0 0 = R := by rw [a2]; rfl
    have hc : rows.shape.getD 1 0 = tile.prod := by rw [a2]; rfl
    -- whatever the intermediate row count `r2` is, reassembling requires `r2 = R`
    have hfinal : ∀ (u : Tensor (Option ℤ)) (r2 : ℕ), u.shape = [r2, tile.prod] → rowsToTiles u t.shape (some tile) = .ok q → r2 = R := by
      intro u r2 hu hok
      unfold rowsToTiles at hok
      by_cases hz : u.numel = 0
      · rw [if_pos hz] at hok
        unfold Tensor.reshape at hok
        rw [if_neg] at hok
        · simp at hok
        · rw [hz]; exact h0
      · rw [if_neg hz] at hok
        simp only [Option.getD_some, check_ok_of_divides hd, bind, Except.bind, floorDiv_ok hd.prod_pos, grid_prod_eq hd, hRdef] at hok
        by_contra hne
        rw [if_pos (by rw [hu]; simpa using hne)] at hok
        simp [throw, throwThe, MonadExceptOf.throw] at hok
    unfold quantizeByTile at h
    simp only [a1, bind, Except.bind] at h
    unfold rowwise at h
    simp only [hr, hc, bind, Except.bind, pure, Except.pure] at h
    -- first broadcast
    have hS : ∃ r1, broadcastDim R scale.length = .ok r1 := by
      cases hb : broadcastDim R scale.length with
      | ok v => exact ⟨v, rfl⟩
      | error e => simp [hb] at h
    obtain ⟨r1, hb1⟩ := hS
    simp only [hb1] at h
    have hO : ∃ r2, broadcastDim r1 (offsetLen scale offset) = .ok r2 := by
      cases hb : broadcastDim r1 (offsetLen scale offset) with
      | ok v => exact ⟨v, rfl⟩
      | error e => simp [hb] at h
    obtain ⟨r2, hb2⟩ := hO
    simp only [hb2] at h
    have e2 : r2 = R := hfinal _ r2 rfl h
    subst e2
    have k1 := broadcastDim_cases hb1
    have k2 := broadcastDim_cases hb2
    clear hb1 hb2 h hfinal
    unfold Fits
    cases offset with
    | none =>
      simp only [offsetLen, Option.map_none, Option.getD_none] at k2
      exact ⟨by omega, by simp⟩
    | some o =>
      simp only [offsetLen, Option.map_some, Option.getD_some] at k2
      simp only [Option.mem_def, Option.some.injEq, forall_eq']
      omega
  · rintro ⟨h1, h2⟩
    obtain ⟨q, h, -⟩ := quantize_by_tile_elementwise t tile h0 hd n scale offset h1 h2
    exact ⟨q, h⟩

/-- **C02/C09 combined.** Quantize-dequantize of a whole tensor by tile: wherever the element lies in the range reported for its
tile's parameters, the reconstruction is within half of that tile's scale. -/
theorem tiled_qdq_half_step (t : Tensor ℚ) (tile : List ℕ) (h0 : t.numel ≠ 0) (hd : Divides t.shape tile) (n : ℕ)
    (scale : List ℚ) (hpos : ∀ s ∈ scale, 0 < s) (offset : Option (List ℚ)) (h1 : Fits scale (grid t.shape tile).prod)
    (h2 : ∀ o ∈ offset, Fits o (grid t.shape tile).prod) :
    ∃ q d, quantizeByTile t scale (some tile) n offset = .ok q
      ∧ dequantizeByTile (q.map fun c => c.getD 0) scale (some tile) offset = .ok d
      ∧ (∀ i, InBounds t.shape i → (q.at i).isSome)
      ∧ ∀ i, InBounds t.shape i → ∃ s, paramAt scale (tileId t.shape tile i) = some s ∧
        ((quantizationRange s (offset.bind fun o => paramAt o (tileId t.shape tile i)) n).1 ≤ t.at i →
         t.at i ≤ (quantizationRange s (offset.bind fun o => paramAt o (tileId t.shape tile i)) n).2 →
         |d.at i - t.at i| ≤ s / 2) := by
  obtain ⟨q, a1, a2, a3⟩ := quantize_by_tile_elementwise t tile h0 hd n scale offset h1 h2
  have hqs : (q.map fun c => c.getD 0).shape = t.shape := a2
  obtain ⟨d, b1, b2, b3⟩ := dequantize_by_tile_elementwise (q.map fun c => c.getD 0) tile (by unfold Tensor.numel; rw [hqs]; exact h0)
    (by rw [hqs]; exact hd) scale offset (by rw [hqs]; exact h1) (by rw [hqs]; exact h2)
  rw [hqs] at b3
  have hsp : ∀ k s, paramAt scale k = some s → 0 < s := by
    intro k s hk
    unfold paramAt at hk
    split_ifs at hk <;> exact hpos s (List.mem_of_getElem? hk)
  refine ⟨q, d, a1, b1, ?_, ?_⟩
  · intro i hi
    obtain ⟨s, hs, he⟩ := a3 i hi
    rw [he, quantizeScalar_ne (hsp _ _ hs).ne']; rfl
  · intro i hi
    obtain ⟨s, hs, he⟩ := a3 i hi
    obtain ⟨s', hs', he'⟩ := b3 i hi
    obtain rfl : s = s' := by rw [hs] at hs'; exact Option.some.inj hs'
    refine ⟨s, hs, ?_⟩
    intro hlo hhi
    obtain ⟨c, hc, herr⟩ := qdq_error_le_half_step s (hsp _ _ hs) _ n _ hlo hhi
    rw [he']
    have : (q.map fun c => c.getD 0).at i = c := by
      show (q.at i).getD 0 = c
      rw [he, hc]; rfl
    rw [this]; exact herr

end FF.Tiling
