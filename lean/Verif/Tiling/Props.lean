import Verif.Tiling.Lemmas

/-! # Property theorems about tiling (C08) -/

namespace FF.Tiling
open FF.Tens

variable {α : Type}

theorem prod_eq_zero_of_mem {l : List ℕ} (h : 0 ∈ l) : l.prod = 0 := by
  induction l with
  | nil => simp at h
  | cons a t ih =>
    rcases List.mem_cons.1 h with h | h
    · simp [← h]
    · simp [ih h]

theorem grid_prod {s t : List ℕ} (h : Divides s t) : (grid s t).prod * t.prod = s.prod := h.prod

theorem floorDiv_ok {a b : ℕ} (h : 0 < b) : floorDiv a b = .ok (a / b) := by
  unfold floorDiv; rw [if_neg (by omega)]

theorem grid_prod_eq {s t : List ℕ} (h : Divides s t) : s.prod / t.prod = (grid s t).prod := by
  rw [← grid_prod h, Nat.mul_div_cancel _ h.prod_pos]

/-- **C08.** Splitting a non-empty tensor into tiles gives one row per tile and one column per position in a tile; the element
at multi-index `i` lands in the row of its tile and the column of its position in that tile. -/
theorem tiles_to_rows_spec (t : Tensor α) (tile : List ℕ) (h0 : t.numel ≠ 0) (hd : Divides t.shape tile) :
    ∃ rows, tilesToRows t (some tile) = .ok rows ∧ rows.shape = [(grid t.shape tile).prod, tile.prod] ∧
      ∀ i, InBounds t.shape i → rows.at [tileId t.shape tile i, posId tile i] = t.at i := by
  have hl : (grid t.shape tile).length = tile.length := by simp [grid, hd.length_eq]
  have hgp := grid_prod hd
  have hn : t.numel = (grid t.shape tile).prod * tile.prod := hgp.symm
  have hg0 : 0 < (grid t.shape tile).prod := by
    rcases Nat.eq_zero_or_pos (grid t.shape tile).prod with h | h
    · rw [hn, h] at h0; simp at h0
    · exact h
  let tiled : Tensor α := ⟨inter (grid t.shape tile) tile, t.get⟩
  let p := tiled.permute (evens tiled.shape.length ++ odds tiled.shape.length)
  have hshape : p.shape = grid t.shape tile ++ tile := by
    show (evens tiled.shape.length ++ odds tiled.shape.length).map (tiled.shape.getD · 0) = _
    rw [List.map_append, evens_map_inter hl, odds_map_inter hl]
  have hpn : p.numel = (grid t.shape tile).prod * tile.prod := by
    unfold Tensor.numel; rw [hshape, List.prod_append]
  refine ⟨⟨[(grid t.shape tile).prod, tile.prod], p.get⟩, ?_, rfl, ?_⟩
  · unfold tilesToRows
    rw [if_neg h0]
    simp only [Option.getD_some, check_ok_of_divides hd, numDimBlocks_ok hd, bind, Except.bind, floorDiv_ok hd.prod_pos]
    rw [show List.zipWith (· / ·) t.shape tile = grid t.shape tile from rfl, interleave_eq hl]
    have e1 : t.reshape (inter (grid t.shape tile) tile) = .ok tiled := by
      unfold Tensor.reshape; rw [if_pos]
      rw [inter_prod hl, hgp]; rfl
    rw [e1]
    simp only
    have e2 : t.numel / tile.prod = (grid t.shape tile).prod := grid_prod_eq hd
    rw [e2, floorDiv_ok hg0]
    show p.reshape [(grid t.shape tile).prod, p.numel / (grid t.shape tile).prod] = _
    have e3 : p.numel / (grid t.shape tile).prod = tile.prod := by rw [hpn, Nat.mul_div_cancel_left _ hg0]
    rw [e3]
    unfold Tensor.reshape
    rw [if_pos (by rw [hpn]; simp)]
  · intro i hi
    have hq := divIdx_inBounds hd hi
    have hr := modIdx_inBounds hd hi
    have hp := (permute_split_get tiled (grid t.shape tile) tile hl rfl hq hr).2
    have e4 : ravel [(grid t.shape tile).prod, tile.prod] [tileId t.shape tile i, posId tile i]
        = ravel (grid t.shape tile ++ tile) (divIdx i tile ++ modIdx i tile) := by
      rw [ravel_append (by rw [hq.length_eq]; rfl)]
      simp [ravel, strides, dot, tileId, posId]
    show p.get (ravel [(grid t.shape tile).prod, tile.prod] [tileId t.shape tile i, posId tile i]) = _
    rw [e4]
    refine hp.trans ?_
    show t.get _ = t.get _
    rw [ravel_split hd hi]; rfl

/-- **C08.** Reassembling rows: every element of the result comes from the row of its tile and the column of its position. -/
theorem rows_to_tiles_spec (rows : Tensor α) (size tile : List ℕ) (h0 : size.prod ≠ 0) (hd : Divides size tile)
    (hs : rows.shape = [(grid size tile).prod, tile.prod]) :
    ∃ u, rowsToTiles rows size (some tile) = .ok u ∧ u.shape = size ∧
      ∀ i, InBounds size i → u.at i = rows.at [tileId size tile i, posId tile i] := by
  have hl : (grid size tile).length = tile.length := by simp [grid, hd.length_eq]
  have hgp := grid_prod hd
  have hrn : rows.numel = size.prod := by unfold Tensor.numel; rw [hs]; simpa using hgp
  let g := grid size tile
  let data : Tensor α := ⟨g ++ tile, rows.get⟩
  let rp := inter (List.range g.length) ((List.range g.length).map (g.length + ·))
  have hil : (inter g tile).length = 2 * g.length := inter_length hl
  have hpshape : (data.permute rp).shape = inter g tile := by
    show rp.map (data.shape.getD · 0) = _
    rw [map_inter]
    have e1 := map_range_getD g tile
    have e2 := map_range_add_getD g tile
    rw [← hl] at e2
    rw [e1]; congr 1
  refine ⟨⟨size, (data.permute rp).get⟩, ?_, rfl, ?_⟩
  · unfold rowsToTiles
    rw [if_neg (by rw [hrn]; exact h0)]
    simp only [Option.getD_some, check_ok_of_divides hd, numDimBlocks_ok hd, bind, Except.bind, floorDiv_ok hd.prod_pos]
    rw [grid_prod_eq hd, if_neg (by simp [hs])]
    rw [show List.zipWith (· / ·) size tile = g from rfl, interleave_eq hl]
    rw [List.map_append, evens_map_inter hl, odds_map_inter hl, hil, reverse_perm_eq]
    have e1 : rows.reshape (g ++ tile) = .ok data := by
      unfold Tensor.reshape; rw [if_pos (by rw [hrn, List.prod_append]; exact hgp)]
    rw [e1]
    show (data.permute rp).reshape size = _
    unfold Tensor.reshape
    rw [if_pos]
    unfold Tensor.numel
    rw [hpshape, inter_prod hl]; exact hgp.symm
  · intro i hi
    have hq := divIdx_inBounds hd hi
    have hr := modIdx_inBounds hd hi
    have hp := (permute_reverse_get data g tile hl rfl hq hr).2
    have e4 : ravel rows.shape [tileId size tile i, posId tile i]
        = ravel (g ++ tile) (divIdx i tile ++ modIdx i tile) := by
      rw [ravel_append (by rw [hq.length_eq]; rfl), hs]
      simp [ravel, strides, dot, tileId, posId, g]
    unfold Tensor.at
    rw [e4]
    refine Eq.trans ?_ hp
    show (data.permute rp).get _ = _
    rw [ravel_split hd hi]; rfl

/-- **C08.** Tiling is lossless: reassembling the rows gives the tensor back. -/
theorem tiling_roundtrip (t : Tensor α) (tile : List ℕ) (h0 : t.numel ≠ 0) (hd : Divides t.shape tile) :
    ∃ rows u, tilesToRows t (some tile) = .ok rows ∧ rowsToTiles rows t.shape (some tile) = .ok u ∧ u.Same t := by
  obtain ⟨rows, h1, h2, h3⟩ := tiles_to_rows_spec t tile h0 hd
  obtain ⟨u, e1, e2, e3⟩ := rows_to_tiles_spec rows t.shape tile h0 hd h2
  refine ⟨rows, u, h1, e1, e2, ?_⟩
  intro i hi
  rw [e2] at hi
  rw [e3 i hi, h3 i hi]

/-- **C08.** Empty tensors round-trip as well, whatever the tile size. -/
theorem tiling_roundtrip_empty (t : Tensor α) (tile : Option (List ℕ)) (h0 : t.numel = 0) :
    ∃ rows u, tilesToRows t tile = .ok rows ∧ rowsToTiles rows t.shape tile = .ok u ∧ u.Same t := by
  refine ⟨⟨[1, 0], t.get⟩, ⟨t.shape, t.get⟩, ?_, ?_, rfl, fun _ _ => rfl⟩
  · unfold tilesToRows; rw [if_pos h0]; unfold Tensor.reshape; simp [h0]
  · unfold rowsToTiles Tensor.reshape
    have : (⟨[1, 0], t.get⟩ : Tensor α).numel = 0 := rfl
    rw [if_pos this, if_pos]; exact h0

/-- **C08.** The literal `"data_shape"` is the tile size that covers the whole tensor: a single row in row-major order. -/
theorem tiles_to_rows_data_shape (t : Tensor α) (h0 : t.numel ≠ 0) :
    ∃ rows, tilesToRows t none = .ok rows ∧ rows.shape = [1, t.numel] ∧
      ∀ i, InBounds t.shape i → rows.at [0, ravel t.shape i] = t.at i := by
  have hd : Divides t.shape t.shape := by
    have hpos : ∀ d ∈ t.shape, 0 < d := by
      intro d hd
      rcases Nat.eq_zero_or_pos d with h | h
      · subst h; exact absurd (prod_eq_zero_of_mem hd) h0
      · exact h
    unfold Divides
    rw [List.forall₂_same]
    exact fun d hd => ⟨hpos d hd, dvd_refl d⟩
  have hpos : ∀ d ∈ t.shape, 0 < d := by
    intro d hd
    rcases Nat.eq_zero_or_pos d with h | h
    · subst h; exact absurd (prod_eq_zero_of_mem hd) h0
    · exact h
  obtain ⟨rows, h1, h2, h3⟩ := tiles_to_rows_spec t t.shape h0 hd
  have hg : (grid t.shape t.shape).prod = 1 := by
    have := grid_prod hd
    have hp : 0 < t.shape.prod := Nat.pos_of_ne_zero h0
    exact Nat.eq_of_mul_eq_mul_right hp (by rw [this, Nat.one_mul])
  refine ⟨rows, ?_, by rw [h2, hg]; rfl, ?_⟩
  · rw [← h1]; unfold tilesToRows; rfl
  · intro i hi
    have hz : ∀ (s i : List ℕ), InBounds s i → (grid s s).prod = 1 → tileId s s i = 0 ∧ modIdx i s = i := by
      intro s i hi hg
      constructor
      · have hb : Divides s s := by
          unfold Divides; rw [List.forall₂_same]
          intro d hd
          refine ⟨?_, dvd_refl d⟩
          obtain ⟨k, hk⟩ := List.mem_iff_getElem.1 hd
          have := List.forall₂_iff_get.1 hi
          have h5 := this.2 k (by rw [this.1]; exact hk.1) hk.1
          simp at h5
          rw [hk.2] at h5
          omega
        have := ravel_lt (divIdx_inBounds hb hi)
        have h6 : (List.zipWith (· / ·) s s).prod = 1 := hg
        rw [h6] at this
        unfold tileId grid
        omega
      · clear hg
        induction s generalizing i with
        | nil => simp at hi; simp [hi, modIdx]
        | cons d ds ih =>
          cases i with
          | nil => exact absurd hi not_inBounds_cons_nil
          | cons a as =>
            rw [inBounds_cons] at hi
            have := ih as hi.2
            simp only [modIdx] at this
            simp only [modIdx, List.zipWith_cons_cons, this, Nat.mod_eq_of_lt hi.1]
    obtain ⟨e1, e2⟩ := hz t.shape i hi hg
    have := h3 i hi
    rw [e1] at this
    unfold posId at this
    rwa [e2] at this

/-- **C08.** Two elements share a row exactly when they lie in the same tile. -/
theorem same_row_iff_same_tile (shape tile i j : List ℕ) (hd : Divides shape tile) (hi : InBounds shape i)
    (hj : InBounds shape j) : tileId shape tile i = tileId shape tile j ↔ divIdx i tile = divIdx j tile := by
  constructor
  · exact fun h => ravel_inj (divIdx_inBounds hd hi) (divIdx_inBounds hd hj) h
  · intro h; unfold tileId; rw [h]

/-- **C08.** Different elements land in different (row, column) cells, and every cell is hit: tiling is a bijection. -/
theorem tiling_bijective (shape tile : List ℕ) (hd : Divides shape tile) (r c : ℕ) (hr : r < (grid shape tile).prod)
    (hc : c < tile.prod) : ∃ i, (InBounds shape i ∧ tileId shape tile i = r ∧ posId tile i = c) ∧
      ∀ j, InBounds shape j → tileId shape tile j = r → posId tile j = c → j = i := by
  obtain ⟨e1, e2, e3⟩ := combine_spec hd (unravel_inBounds (s := grid shape tile) hr) (unravel_inBounds hc)
  refine ⟨combine tile (unravel (grid shape tile) r) (unravel tile c), ⟨e1, ?_, ?_⟩, ?_⟩
  · unfold tileId; rw [e2]; exact ravel_unravel hr
  · unfold posId; rw [e3]; exact ravel_unravel hc
  · intro j hj h1 h2
    rw [← combine_div_mod hd hj]
    have a1 : divIdx j tile = unravel (grid shape tile) r := by
      rw [← h1]; exact (unravel_ravel (divIdx_inBounds hd hj)).symm
    have a2 : modIdx j tile = unravel tile c := by
      rw [← h2]; exact (unravel_ravel (modIdx_inBounds hd hj)).symm
    rw [a1, a2]

/-- **C08** (error branch). For a non-empty tensor tiling succeeds exactly for tile sizes that divide the shape. -/
theorem tiles_to_rows_ok_iff (t : Tensor α) (tile : List ℕ) (h0 : t.numel ≠ 0) :
    (∃ rows, tilesToRows t (some tile) = .ok rows) ↔ Divides t.shape tile := by
  constructor
  · rintro ⟨rows, h⟩
    unfold tilesToRows at h
    rw [if_neg h0] at h
    simp only [Option.getD_some, bind, Except.bind] at h
    have hlen : t.shape.length = tile.length := by
      by_contra hne
      simp [checkTileCompatibility, hne] at h
    have hchk : ∀ p ∈ t.shape.zip tile, ¬ (0 < p.2 ∧ p.1 % p.2 ≠ 0) := by
      intro p hp hbad
      have : (t.shape.zip tile).any (fun p => decide (0 < p.2) && decide (p.1 % p.2 ≠ 0)) = true := by
        rw [List.any_eq_true]; exact ⟨p, hp, by simpa using hbad⟩
      have hc : checkTileCompatibility t.shape tile = .error .valueError := by
        unfold checkTileCompatibility
        rw [if_neg (by simpa using hlen), if_pos this]
      simp [hc] at h
    have hz : ∀ p ∈ t.shape.zip tile, p.2 ≠ 0 := by
      intro p hp hbad
      have hb : (t.shape.zip tile).any (fun p => decide (p.2 = 0)) = true := by
        rw [List.any_eq_true]; exact ⟨p, hp, by simpa using hbad⟩
      have hc : checkTileCompatibility t.shape tile = .ok () := by
        unfold checkTileCompatibility
        rw [if_neg (by simpa using hlen), if_neg]
        rw [Bool.not_eq_true, List.any_eq_false]
        intro p hp; have := hchk p hp; simpa using this
      simp [hc, numDimBlocks, hb] at h
    unfold Divides
    rw [List.forall₂_iff_zip]
    refine ⟨hlen.symm, ?_⟩
    intro a b hab
    have hab' : (b, a) ∈ t.shape.zip tile := by
      rw [List.mem_iff_getElem?] at hab ⊢
      obtain ⟨k, hk⟩ := hab
      refine ⟨k, ?_⟩
      rw [List.getElem?_zip_eq_some] at hk ⊢
      exact ⟨hk.2, hk.1⟩
    have h1 := hchk _ hab'
    have h2 := hz _ hab'
    simp only at h1 h2
    refine ⟨by omega, Nat.dvd_of_mod_eq_zero ?_⟩
    by_contra h3
    exact h1 ⟨by omega, h3⟩
  · intro hd
    obtain ⟨rows, h, -⟩ := tiles_to_rows_spec t tile h0 hd
    exact ⟨rows, h⟩

/-- A concrete case: a `4 × 6` tensor in `2 × 3` tiles; element `(3, 4)` is in tile number 3 at position 4. -/
example : Divides [4, 6] [2, 3] ∧ (⟨[4, 6], id⟩ : Tensor ℕ).numel ≠ 0 ∧ tileId [4, 6] [2, 3] [3, 4] = 3
    ∧ posId [2, 3] [3, 4] = 4 := by
  refine ⟨?_, by decide, by decide, by decide⟩
  unfold Divides; exact .cons (by decide) (.cons (by decide) .nil)

example : (tilesToRows (⟨[4, 6], id⟩ : Tensor ℕ) (some [2, 3])).toOption.map (fun r => (r.shape, (List.range 24).map r.get))
    = some ([4, 6], [0, 1, 2, 6, 7, 8, 3, 4, 5, 9, 10, 11, 12, 13, 14, 18, 19, 20, 15, 16, 17, 21, 22, 23]) := by
  decide +kernel

end FF.Tiling
