import Verif.Granularity.Lemmas
import Verif.Tiling.QuantProps

/-! # Property theorems about granularities (C09–C11) -/

namespace FF.Gran
open FF.Tens FF.Tiling

/-- **C10.** A per-channel granularity accepts a shape exactly when all its dimensions exist; its tile has extent one along
the channel dimensions and full extent along all others. -/
theorem per_channel_tile (dims : List ℤ) (shape : List ℕ) :
    ((∃ r, tileSize (.perChannel dims) shape = .ok r) ↔ ∀ d ∈ dims, (pyIndex shape.length d).isSome) ∧
    ∀ r, tileSize (.perChannel dims) shape = .ok r → ∃ tile : List ℕ, r = some tile ∧ tile.length = shape.length ∧
      ∀ (k dim : ℕ), shape[k]? = some dim →
        tile[k]? = some (if ∃ d ∈ dims, pyIndex shape.length d = some k then 1 else dim) := by
  obtain ⟨h1, h2⟩ := setDims_spec dims shape
  constructor
  · constructor
    · rintro ⟨r, h⟩
      simp only [tileSize, bind, Except.bind] at h
      cases hf : dims.foldlM (fun ts d => setDim ts d 1) shape with
      | error e => simp [hf] at h
      | ok ts => exact (h1 ts hf).2.1
    · intro h
      obtain ⟨ts, hts⟩ := h2 h
      exact ⟨some ts, by simp [tileSize, bind, Except.bind, hts, pure, Except.pure]⟩
  · intro r h
    simp only [tileSize, bind, Except.bind] at h
    cases hf : dims.foldlM (fun ts d => setDim ts d 1) shape with
    | error e => simp [hf] at h
    | ok ts =>
      simp [hf, pure, Except.pure] at h
      refine ⟨ts, h.symm, (h1 ts hf).1, ?_⟩
      intro k dim hk
      rw [(h1 ts hf).2.2 k, hk]
      split_ifs <;> rfl

example : tileSize (.perChannel [0, -1]) [4, 6, 5] = .ok (some [1, 6, 1]) := by decide +kernel

/-- **C10.** A per-block granularity accepts a shape exactly when its dimensions exist, no block exceeds its dimension and, in
strict mode, every block size is non-zero and divides its dimension. -/
theorem per_block_accepts_iff (bd : List ℤ) (bs : List ℕ) (cd : List ℤ) (strict : Bool) (shape : List ℕ) :
    (∃ r, tileSize (.perBlock bd bs cd strict) shape = .ok r) ↔
      (∀ d ∈ cd, (pyIndex shape.length d).isSome) ∧
      ∀ p ∈ bd.zip bs, ∃ k dim, pyIndex shape.length p.1 = some k ∧ shape[k]? = some dim ∧ p.2 ≤ dim ∧
        (strict = true → p.2 ≠ 0 ∧ p.2 ∣ dim) := by
  obtain ⟨h1, h2⟩ := setDims_spec cd shape
  constructor
  · rintro ⟨r, h⟩
    simp only [tileSize, bind, Except.bind] at h
    cases hf : cd.foldlM (fun ts d => setDim ts d 1) shape with
    | error e => simp [hf] at h
    | ok ts =>
      simp only [hf] at h
      cases hg : (bd.zip bs).foldlM (blockStep shape strict) ts with
      | error e => simp [hg] at h
      | ok ts2 =>
        exact ⟨(h1 ts hf).2.1, ((blocks_spec shape strict (bd.zip bs) ts (h1 ts hf).1).1 ts2 hg).2.1⟩
  · rintro ⟨ha, hb⟩
    obtain ⟨ts, hts⟩ := h2 ha
    obtain ⟨ts2, hts2⟩ := (blocks_spec shape strict (bd.zip bs) ts (h1 ts hts).1).2 hb
    exact ⟨some ts2, by simp [tileSize, bind, Except.bind, hts, hts2, pure, Except.pure]⟩

/-- **C10.** The tile of a per-block granularity: a block size along block dimensions, one along the remaining channel
dimensions, full extent elsewhere. -/
theorem per_block_tile (bd : List ℤ) (bs : List ℕ) (cd : List ℤ) (strict : Bool) (shape : List ℕ) (r : Option (List ℕ))
    (h : tileSize (.perBlock bd bs cd strict) shape = .ok r) :
    ∃ tile : List ℕ, r = some tile ∧ tile.length = shape.length ∧ ∀ (k dim : ℕ), shape[k]? = some dim →
      ((∃ p ∈ bd.zip bs, pyIndex shape.length p.1 = some k) →
        ∃ p ∈ bd.zip bs, pyIndex shape.length p.1 = some k ∧ tile[k]? = some p.2) ∧
      ((∀ p ∈ bd.zip bs, pyIndex shape.length p.1 ≠ some k) →
        tile[k]? = some (if ∃ d ∈ cd, pyIndex shape.length d = some k then 1 else dim)) := by
  obtain ⟨h1, -⟩ := setDims_spec cd shape
  simp only [tileSize, bind, Except.bind] at h
  cases hf : cd.foldlM (fun ts d => setDim ts d 1) shape with
  | error e => simp [hf] at h
  | ok ts =>
    simp only [hf] at h
    cases hg : (bd.zip bs).foldlM (blockStep shape strict) ts with
    | error e => simp [hg] at h
    | ok ts2 =>
      simp [hg, pure, Except.pure] at h
      obtain ⟨b1, -, b3, b4⟩ := (blocks_spec shape strict (bd.zip bs) ts (h1 ts hf).1).1 ts2 hg
      refine ⟨ts2, h.symm, b1, ?_⟩
      intro k dim hk
      refine ⟨b4 k, ?_⟩
      intro hno
      rw [b3 k hno, (h1 ts hf).2.2 k, hk]
      split_ifs <;> rfl

example : tileSize (.perBlock [1] [3] [0] true) [4, 6, 5] = .ok (some [1, 3, 5]) := by decide +kernel
example : tileSize (.perBlock [1] [4] [0] true) [4, 6, 5] = .error .valueError := by decide +kernel
example : tileSize (.perBlock [1] [7] [0] false) [4, 6, 5] = .error .valueError := by decide +kernel

/-- **C10.** Every tile a granularity hands out divides the (non-degenerate) data shape, except for non-strict blocks. Hence the
data can be tiled and the number of parameters is the number of tiles. -/
theorem granularity_tile_divides (g : Granularity) (shape tile : List ℕ) (hpos : ∀ d ∈ shape, 0 < d)
    (h : tileSize g shape = .ok (some tile))
    (hg : match g with
      | .perBlock _ _ _ strict => strict = true
      | .perTile t => ∀ d ∈ t, 0 < d
      | _ => True) :
    Divides shape tile ∧ parameterDimensionality g shape = .ok (grid shape tile).prod := by
  have key : Divides shape tile → Divides shape tile ∧ parameterDimensionality g shape = .ok (grid shape tile).prod := by
    intro hd
    refine ⟨hd, ?_⟩
    unfold parameterDimensionality
    simp only [h, bind, Except.bind, floorDiv_ok hd.prod_pos, grid_prod_eq hd]
  apply key
  cases g with
  | perTensor => simp [tileSize] at h
  | perChannel dims =>
    obtain ⟨t, ht, hl, hk⟩ := (per_channel_tile dims shape).2 _ h
    obtain rfl := Option.some.inj ht
    rw [divides_iff]
    refine ⟨hl, ?_⟩
    intro k d e hd he
    rw [hk k d hd] at he
    have := hpos d (List.mem_of_getElem? hd)
    have he := Option.some.inj he
    split_ifs at he <;> subst he
    · exact ⟨by omega, one_dvd d⟩
    · exact ⟨this, dvd_refl _⟩
  | perBlock bd bs cd strict =>
    obtain ⟨t, ht, hl, hk⟩ := per_block_tile bd bs cd strict shape _ h
    obtain rfl := Option.some.inj ht
    have hacc := (per_block_accepts_iff bd bs cd strict shape).1 ⟨_, h⟩
    rw [divides_iff]
    refine ⟨hl, ?_⟩
    intro k d e hd he
    have hd0 := hpos d (List.mem_of_getElem? hd)
    by_cases hex : ∃ p ∈ bd.zip bs, pyIndex shape.length p.1 = some k
    · obtain ⟨p, hp, hpk, hpe⟩ := (hk k d hd).1 hex
      obtain ⟨k', dim, e1, e2, e3, e4⟩ := hacc.2 p hp
      rw [hpk] at e1
      obtain rfl := Option.some.inj e1
      rw [hd] at e2
      obtain rfl := Option.some.inj e2
      rw [he] at hpe
      obtain rfl := Option.some.inj hpe
      have := e4 hg
      exact ⟨Nat.pos_of_ne_zero this.1, this.2⟩
    · rw [(hk k d hd).2 (fun p hp hpk => hex ⟨p, hp, hpk⟩)] at he
      have he := Option.some.inj he
      split_ifs at he <;> subst he
      · exact ⟨by omega, one_dvd d⟩
      · exact ⟨hd0, dvd_refl _⟩
  | perTile t =>
    simp only [tileSize, bind, Except.bind] at h
    cases hc : checkTileCompatibility shape t with
    | error e => simp [hc] at h
    | ok u =>
      simp [hc, pure, Except.pure] at h
      subst h
      have hp : ∀ d ∈ t, 0 < d := hg
      unfold checkTileCompatibility at hc
      by_cases hlen : shape.length = t.length
      swap
      · simp [hlen] at hc
      rw [if_neg (by simpa using hlen)] at hc
      split_ifs at hc with hany
      rw [Bool.not_eq_true, List.any_eq_false] at hany
      rw [divides_iff]
      refine ⟨hlen.symm, ?_⟩
      intro k d e hd he
      have h0 := hp e (List.mem_of_getElem? he)
      have hz : (d, e) ∈ shape.zip t := by
        rw [List.mem_iff_getElem?]
        exact ⟨k, by rw [List.getElem?_zip_eq_some]; exact ⟨hd, he⟩⟩
      have := hany _ hz
      simp [h0] at this
      exact ⟨h0, Nat.dvd_of_mod_eq_zero this⟩

example : (∀ d ∈ [4, 6, 5], 0 < d) ∧ tileSize (.perBlock [1] [3] [0] true) [4, 6, 5] = .ok (some [1, 3, 5])
    ∧ parameterDimensionality (.perBlock [1] [3] [0] true) [4, 6, 5] = .ok 8 := by decide +kernel

/-- **C10** (per-tensor): one parameter. -/
theorem per_tensor_one_parameter (shape : List ℕ) :
    tileSize .perTensor shape = .ok none ∧ parameterDimensionality .perTensor shape = .ok 1 := ⟨rfl, rfl⟩

/-- **C09.** Per-channel granularity: two elements use the same parameter exactly when they agree in all channel coordinates. -/
theorem per_channel_shares_iff (dims : List ℤ) (shape tile i j : List ℕ) (h : tileSize (.perChannel dims) shape = .ok (some tile))
    (hi : InBounds shape i) (hj : InBounds shape j) :
    tileId shape tile i = tileId shape tile j ↔
      ∀ d ∈ dims, ∀ k, pyIndex shape.length d = some k → i[k]? = j[k]? := by
  have hi' := inBounds_iff.1 hi
  have hj' := inBounds_iff.1 hj
  have hpos : ∀ d ∈ shape, 0 < d := by
    intro d hd
    obtain ⟨k, hk⟩ := List.mem_iff_getElem?.1 hd
    have hlt := (List.getElem?_eq_some_iff.1 hk).1
    have := hi'.2 k _ d (List.getElem?_eq_getElem (by omega)) hk
    omega
  have hdv := (granularity_tile_divides _ shape tile hpos h (by trivial)).1
  obtain ⟨t, ht, hl, hk⟩ := (per_channel_tile dims shape).2 _ h
  obtain rfl := Option.some.inj ht
  rw [same_row_iff_same_tile shape tile i j hdv hi hj, divIdx_eq_iff (by omega) (by omega)]
  constructor
  · intro hall d hd k hpk
    have hlt := pyIndex_lt hpk
    have e1 := hk k _ (List.getElem?_eq_getElem hlt)
    rw [if_pos ⟨d, hd, hpk⟩] at e1
    have := hall k _ _ _ (List.getElem?_eq_getElem (by omega)) (List.getElem?_eq_getElem (by omega)) e1
    simp only [Nat.div_one] at this
    rw [List.getElem?_eq_getElem (by omega), List.getElem?_eq_getElem (by omega), this]
  · intro hall k a b e ha hb he
    have hlt := (List.getElem?_eq_some_iff.1 he).1
    have hsk : shape[k]? = some shape[k] := List.getElem?_eq_getElem (by omega)
    rw [hk k _ hsk] at he
    have he := Option.some.inj he
    split_ifs at he with hex
    · obtain ⟨d, hd, hpk⟩ := hex
      have := hall d hd k hpk
      rw [ha, hb] at this
      rw [Option.some.inj this]
    · subst he
      rw [Nat.div_eq_of_lt (hi'.2 k a _ ha hsk), Nat.div_eq_of_lt (hj'.2 k b _ hb hsk)]

/-- **C09.** With a single channel dimension the parameter number of an element is its channel coordinate. -/
theorem per_channel_param_number (d : ℤ) (k : ℕ) (shape tile i : List ℕ) (h : tileSize (.perChannel [d]) shape = .ok (some tile))
    (hk : pyIndex shape.length d = some k) (hi : InBounds shape i) :
    i[k]? = some (tileId shape tile i) := by
  have hlt := pyIndex_lt hk
  have ht : tile = shape.set k 1 := by
    simp only [tileSize, List.foldlM_cons, List.foldlM_nil, bind, Except.bind, setDim, hk, pure, Except.pure] at h
    simpa using h.symm
  subst ht
  clear h hk
  unfold tileId
  induction shape generalizing i k with
  | nil => simp at hlt
  | cons a s ih =>
    cases i with
    | nil => exact absurd hi not_inBounds_cons_nil
    | cons b i =>
      rw [inBounds_cons] at hi
      have hself : ∀ (s i : List ℕ), InBounds s i → (grid s s).prod = 1 ∧ ravel (grid s s) (divIdx i s) = 0 := by
        intro s
        induction s with
        | nil => intro i _; simp [grid]
        | cons x s ih =>
          intro i hi
          cases i with
          | nil => exact absurd hi not_inBounds_cons_nil
          | cons y i =>
            rw [inBounds_cons] at hi
            have := ih i hi.2
            simp only [grid, divIdx] at this
            simp only [grid, divIdx, List.zipWith_cons_cons, List.prod_cons, ravel_cons, this,
              Nat.div_self (by omega : 0 < x), Nat.div_eq_of_lt hi.1]
            simp
      cases k with
      | zero =>
        have := hself s i hi.2
        simp only [grid, divIdx] at this
        simp only [List.set_cons_zero, grid, divIdx, List.zipWith_cons_cons, ravel_cons, Nat.div_one, this, Nat.mul_one,
          Nat.add_zero, List.getElem?_cons_zero]
      | succ k =>
        have := ih k i hi.2 (by simpa using hlt)
        simp only [grid, divIdx] at this
        simp only [List.set_cons_succ, grid, divIdx, List.zipWith_cons_cons, ravel_cons, Nat.div_eq_of_lt hi.1,
          Nat.zero_mul, Nat.zero_add, List.getElem?_cons_succ]
        exact this

example : tileSize (.perChannel [1]) [2, 3, 4] = .ok (some [2, 1, 4]) ∧ tileId [2, 3, 4] [2, 1, 4] [1, 2, 3] = 2 := by
  decide +kernel

/-- **C09.** Per-block granularity with distinct block dimensions, none of them also a channel dimension: two elements use the
same parameter exactly when they agree in all channel coordinates and lie in the same block along all block dimensions. -/
theorem per_block_shares_iff (bd : List ℤ) (bs : List ℕ) (cd : List ℤ) (shape tile i j : List ℕ)
    (h : tileSize (.perBlock bd bs cd true) shape = .ok (some tile)) (hi : InBounds shape i) (hj : InBounds shape j)
    (hdist : ∀ p ∈ bd.zip bs, ∀ q ∈ bd.zip bs, pyIndex shape.length p.1 = pyIndex shape.length q.1 → p = q)
    (hdisj : ∀ p ∈ bd.zip bs, ∀ d ∈ cd, pyIndex shape.length p.1 ≠ pyIndex shape.length d) :
    tileId shape tile i = tileId shape tile j ↔
      (∀ d ∈ cd, ∀ k, pyIndex shape.length d = some k → i[k]? = j[k]?) ∧
      (∀ p ∈ bd.zip bs, ∀ k, pyIndex shape.length p.1 = some k → (i[k]?).map (· / p.2) = (j[k]?).map (· / p.2)) := by
  have hi' := inBounds_iff.1 hi
  have hj' := inBounds_iff.1 hj
  have hpos : ∀ d ∈ shape, 0 < d := by
    intro d hd
    obtain ⟨k, hk⟩ := List.mem_iff_getElem?.1 hd
    have hlt := (List.getElem?_eq_some_iff.1 hk).1
    have := hi'.2 k _ d (List.getElem?_eq_getElem (by omega)) hk
    omega
  have hdv := (granularity_tile_divides _ shape tile hpos h (by trivial)).1
  obtain ⟨t, ht, hl, hk⟩ := per_block_tile bd bs cd true shape _ h
  obtain rfl := Option.some.inj ht
  rw [same_row_iff_same_tile shape tile i j hdv hi hj, divIdx_eq_iff (by omega) (by omega)]
  constructor
  · intro hall
    constructor
    · intro d hd k hpk
      have hlt := pyIndex_lt hpk
      have e1 := (hk k _ (List.getElem?_eq_getElem hlt)).2 (fun p hp hpk' => hdisj p hp d hd (hpk'.trans hpk.symm))
      rw [if_pos ⟨d, hd, hpk⟩] at e1
      have := hall k _ _ _ (List.getElem?_eq_getElem (by omega)) (List.getElem?_eq_getElem (by omega)) e1
      simp only [Nat.div_one] at this
      rw [List.getElem?_eq_getElem (by omega), List.getElem?_eq_getElem (by omega), this]
    · intro p hp k hpk
      have hlt := pyIndex_lt hpk
      obtain ⟨q, hq, hqk, hqe⟩ := (hk k _ (List.getElem?_eq_getElem hlt)).1 ⟨p, hp, hpk⟩
      have : p = q := hdist p hp q hq (hpk.trans hqk.symm)
      subst this
      have := hall k _ _ _ (List.getElem?_eq_getElem (by omega)) (List.getElem?_eq_getElem (by omega)) hqe
      rw [List.getElem?_eq_getElem (by omega), List.getElem?_eq_getElem (by omega)]
      simp only [Option.map_some, this]
  · rintro ⟨hc, hb⟩ k a b e ha hbk he
    have hlt := (List.getElem?_eq_some_iff.1 he).1
    have hsk : shape[k]? = some shape[k] := List.getElem?_eq_getElem (by omega)
    by_cases hex : ∃ p ∈ bd.zip bs, pyIndex shape.length p.1 = some k
    · obtain ⟨p, hp, hpk, hpe⟩ := (hk k _ hsk).1 hex
      rw [he] at hpe
      obtain rfl := Option.some.inj hpe
      have := hb p hp k hpk
      rw [ha, hbk] at this
      simpa using this
    · rw [(hk k _ hsk).2 (fun p hp hpk => hex ⟨p, hp, hpk⟩)] at he
      have he := Option.some.inj he
      split_ifs at he with hex'
      · obtain ⟨d, hd, hpk⟩ := hex'
        have := hc d hd k hpk
        rw [ha, hbk] at this
        rw [Option.some.inj this]
      · subst he
        rw [Nat.div_eq_of_lt (hi'.2 k a _ ha hsk), Nat.div_eq_of_lt (hj'.2 k b _ hbk hsk)]

/-- **C11 (partial).** Granularities that compare equal give the same tile size, unless they are per-block. -/
theorem granularity_eq_same_tiles_partial (g g' : Granularity) (h : geq g g' = true)
    (hb : ∀ bd bs cd st, g ≠ .perBlock bd bs cd st) (shape : List ℕ) : tileSize g shape = tileSize g' shape := by
  cases g <;> cases g' <;> simp [geq] at h
  · rfl
  · rw [h]
  · exact absurd rfl (hb _ _ _ _)
  · rw [h]

example : geq (.perChannel [0, 1]) (.perChannel [0, 1]) = true := by decide

/-- **C11, deviation.** Two per-block granularities with different blocks compare equal but tile differently. -/
theorem granularity_eq_unsound :
    ∃ (g g' : Granularity) (shape t t' : List ℕ), geq g g' = true ∧ tileSize g shape = .ok (some t)
      ∧ tileSize g' shape = .ok (some t') ∧ t ≠ t' :=
  ⟨.perBlock [0] [2] [] true, .perBlock [1] [3] [] true, [4, 6], [2, 6], [4, 3], by decide +kernel⟩

/-- **C10.** A granularity inferred from a data shape and a tile size that divides it has that tile size again. -/
theorem granularity_from_sizes_roundtrip (data tile : List ℕ) (hpos : ∀ d ∈ data, 0 < d) (hd : Divides data tile) :
    ∃ r, tileSize (granularityFromSizes data tile) data = .ok r ∧ r.getD data = tile := by
  obtain ⟨hlen, hdv⟩ := divides_iff.1 hd
  unfold granularityFromSizes
  by_cases heq : data = tile
  · rw [if_pos heq]; exact ⟨none, rfl, heq⟩
  rw [if_neg heq]
  have hgd : ∀ k, k < data.length → data[k]? = some (data.getD k 0) := by
    intro k hk; simp [List.getD_eq_getElem?_getD, hk]
  have hgt : ∀ k, k < data.length → tile[k]? = some (tile.getD k 0) := by
    intro k hk; rw [← hlen] at hk; simp [List.getD_eq_getElem?_getD, hk]
  simp only
  split_ifs with hall
  · -- per channel
    rw [List.all_eq_true] at hall
    have hcase : ∀ k, k < data.length → tile.getD k 0 = data.getD k 0 ∨ tile.getD k 0 = 1 := by
      intro k hk
      have hv := hdv k _ _ (hgd k hk) (hgt k hk)
      have := hall (if tile.getD k 0 = 0 then none else some ((data.getD k 0 : ℚ) / tile.getD k 0), data.getD k 0) (by
        rw [List.mem_iff_getElem?]
        refine ⟨k, ?_⟩
        rw [List.getElem?_zip_eq_some]
        refine ⟨?_, hgd k hk⟩
        simp only [List.getElem?_zipWith, hgd k hk, hgt k hk])
      rw [if_neg (by omega)] at this
      simp only [Option.some.injEq, Bool.or_eq_true, decide_eq_true_eq] at this
      have hne : (tile.getD k 0 : ℚ) ≠ 0 := by exact_mod_cast (by omega : tile.getD k 0 ≠ 0)
      rcases this with h1 | h1
      · left
        rw [div_eq_one_iff_eq hne] at h1
        exact_mod_cast h1.symm
      · right
        have hdd := hpos _ (List.mem_of_getElem? (hgd k hk))
        have hdne : (data.getD k 0 : ℚ) ≠ 0 := by exact_mod_cast (by omega : data.getD k 0 ≠ 0)
        rw [div_eq_iff hne] at h1
        have : (tile.getD k 0 : ℚ) = 1 := by
          have h2 : (data.getD k 0 : ℚ) * tile.getD k 0 = data.getD k 0 * 1 := by rw [mul_one]; exact h1.symm
          exact mul_left_cancel₀ hdne h2
        exact_mod_cast this
    have hacc := (per_channel_tile (((List.range data.length).filter fun i => decide (tile.getD i 0 = 1) && decide (1 < data.getD i 0)).map Int.ofNat) data)
    obtain ⟨r, hr⟩ := hacc.1.2 (by
      intro d hd
      obtain ⟨k, hk, rfl⟩ := List.mem_map.1 hd
      have := (List.mem_filter.1 hk).1
      rw [pyIndex_nat (List.mem_range.1 this)]; rfl)
    obtain ⟨t, rfl, hl, hk⟩ := hacc.2 r hr
    refine ⟨_, hr, ?_⟩
    simp only [Option.getD_some]
    apply List.ext_getElem?
    intro k
    by_cases hlt : k < data.length
    · rw [hk k _ (hgd k hlt), hgt k hlt]
      congr 1
      have hdd := hpos _ (List.mem_of_getElem? (hgd k hlt))
      split_ifs with hex
      · obtain ⟨d, hd, hpk⟩ := hex
        obtain ⟨k', hk', rfl⟩ := List.mem_map.1 hd
        have hf := List.mem_filter.1 hk'
        rw [pyIndex_nat (List.mem_range.1 hf.1)] at hpk
        obtain rfl := Option.some.inj hpk
        simp only [Bool.and_eq_true, decide_eq_true_eq] at hf
        exact hf.2.1.symm
      · rcases hcase k hlt with h1 | h1
        · exact h1.symm
        · by_cases h2 : 1 < data.getD k 0
          · exact absurd ⟨Int.ofNat k, List.mem_map_of_mem (List.mem_filter.2 ⟨List.mem_range.2 hlt, by
              simp only [Bool.and_eq_true, decide_eq_true_eq]; exact ⟨h1, h2⟩⟩), pyIndex_nat hlt⟩ hex
          · omega
    · rw [List.getElem?_eq_none (by omega), List.getElem?_eq_none (by omega)]
  · -- per block
    generalize hst : ((List.zipWith (fun (d t : ℕ) => if t = 0 then none else some ((d : ℚ) / t)) data tile).zip data).all
      (fun p => match p.1 with
        | none => false
        | some q => decide (((p.2 : ℚ) / q).den = 1)) = strict
    let P : ℕ → Bool := fun i => decide (tile.getD i 0 ≠ 1) && decide (tile.getD i 0 ≠ data.getD i 0)
    let C : ℕ → Bool := fun i => decide (tile.getD i 0 = 1) && decide (1 < data.getD i 0)
    let bd := (List.range data.length).filter P
    let cd := (List.range data.length).filter C
    show ∃ r, tileSize (.perBlock (bd.map Int.ofNat) (bd.map fun i => tile.getD i 0) (cd.map Int.ofNat) strict) data = .ok r ∧ _
    have hzip : ∀ p ∈ (bd.map Int.ofNat).zip (bd.map fun i => tile.getD i 0), ∃ k, k < data.length ∧ P k = true ∧
        p = (Int.ofNat k, tile.getD k 0) := by
      intro p hp
      rw [List.zip_map'] at hp
      obtain ⟨k, hk, rfl⟩ := List.mem_map.1 hp
      have hf := List.mem_filter.1 hk
      exact ⟨k, List.mem_range.1 hf.1, hf.2, rfl⟩
    obtain ⟨r, hr⟩ := (per_block_accepts_iff (bd.map Int.ofNat) (bd.map fun i => tile.getD i 0) (cd.map Int.ofNat) strict data).2 (by
      constructor
      · intro d hd
        obtain ⟨k, hk, rfl⟩ := List.mem_map.1 hd
        rw [pyIndex_nat (List.mem_range.1 (List.mem_filter.1 hk).1)]; rfl
      · intro p hp
        obtain ⟨k, hlt, -, rfl⟩ := hzip p hp
        have hv := hdv k _ _ (hgd k hlt) (hgt k hlt)
        have hdd := hpos _ (List.mem_of_getElem? (hgd k hlt))
        exact ⟨k, _, pyIndex_nat hlt, hgd k hlt, Nat.le_of_dvd hdd hv.2, fun _ => ⟨by simp only; omega, hv.2⟩⟩)
    obtain ⟨t, rfl, hl, hk⟩ := per_block_tile _ _ _ _ _ _ hr
    refine ⟨_, hr, ?_⟩
    simp only [Option.getD_some]
    apply List.ext_getElem?
    intro k
    by_cases hlt : k < data.length
    · have hdd := hpos _ (List.mem_of_getElem? (hgd k hlt))
      by_cases hP : P k = true
      · have hmem : (Int.ofNat k, tile.getD k 0) ∈ (bd.map Int.ofNat).zip (bd.map fun i => tile.getD i 0) := by
          rw [List.zip_map']
          exact List.mem_map.2 ⟨k, List.mem_filter.2 ⟨List.mem_range.2 hlt, hP⟩, rfl⟩
        obtain ⟨p, hp, hpk, hpe⟩ := (hk k _ (hgd k hlt)).1 ⟨_, hmem, pyIndex_nat hlt⟩
        obtain ⟨k', hlt', -, rfl⟩ := hzip p hp
        simp only [pyIndex_nat hlt'] at hpk
        obtain rfl := Option.some.inj hpk
        rw [hpe, hgt k' hlt]
      · rw [(hk k _ (hgd k hlt)).2 (by
          intro p hp hpk
          obtain ⟨k', hlt', hP', rfl⟩ := hzip p hp
          simp only [pyIndex_nat hlt'] at hpk
          obtain rfl := Option.some.inj hpk
          exact hP hP'), hgt k hlt]
        congr 1
        simp only [P, Bool.and_eq_true, decide_eq_true_eq, not_and, ne_eq, not_not] at hP
        split_ifs with hex
        · obtain ⟨d, hd, hpk⟩ := hex
          obtain ⟨k', hk', rfl⟩ := List.mem_map.1 hd
          have hf := List.mem_filter.1 hk'
          rw [pyIndex_nat (List.mem_range.1 hf.1)] at hpk
          obtain rfl := Option.some.inj hpk
          simp only [C, Bool.and_eq_true, decide_eq_true_eq] at hf
          exact hf.2.1.symm
        · by_cases h1 : tile.getD k 0 = 1
          · by_cases h2 : 1 < data.getD k 0
            · exact absurd ⟨Int.ofNat k, List.mem_map_of_mem (List.mem_filter.2 ⟨List.mem_range.2 hlt, by
                simp only [C, Bool.and_eq_true, decide_eq_true_eq]; exact ⟨h1, h2⟩⟩), pyIndex_nat hlt⟩ hex
            · omega
          · exact (hP h1).symm
    · rw [List.getElem?_eq_none (by omega), List.getElem?_eq_none (by omega)]

example : Divides [4, 6, 5] [1, 3, 5] ∧ granularityFromSizes [4, 6, 5] [1, 3, 5] = .perBlock [1] [3] [0] true := by
  constructor
  · rw [divides_iff]
    refine ⟨rfl, ?_⟩
    intro k d e hd he
    match k, hd, he with
    | 0, hd, he => simp at hd he; subst hd; subst he; decide
    | 1, hd, he => simp at hd he; subst hd; subst he; decide
    | 2, hd, he => simp at hd he; subst hd; subst he; decide
    | k + 3, hd, _ => simp at hd
  · decide +kernel

/-- **C10, deviation.** For a tile that does not divide the data the inferred granularity is strict and rejects the very shape it
was inferred from (in exact arithmetic; the division `5/2` is also exact in floating point). -/
theorem granularity_from_sizes_non_dividing :
    granularityFromSizes [5] [2] = .perBlock [0] [2] [] true
    ∧ tileSize (granularityFromSizes [5] [2]) [5] = .error .valueError := by decide +kernel

/-- **C10.** A per-block granularity can be created exactly with as many block sizes as block dimensions. -/
theorem per_block_created_iff (bd : List ℤ) (bs : List ℕ) (cd : List ℤ) (strict : Bool) :
    (∃ g, mkPerBlock bd bs cd strict = .ok g) ↔ bd.length = bs.length := by
  unfold mkPerBlock
  by_cases h : bd.length = bs.length <;> simp [h]

/-- **C10.** Channel dimensions may be counted from the end. -/
theorem per_channel_from_end (shape : List ℕ) (j : ℕ) (h0 : 0 < j) (hj : j ≤ shape.length) (ds es : List ℤ) :
    tileSize (.perChannel (ds ++ -(j : ℤ) :: es)) shape = tileSize (.perChannel (ds ++ ((shape.length - j : ℕ) : ℤ) :: es)) shape := by
  have hlen : ∀ (ds : List ℤ) (s t : List ℕ), ds.foldlM (fun ts d => setDim ts d 1) s = .ok t → t.length = s.length := by
    intro ds s t h
    exact ((setDims_spec ds s).1 t h).1
  have hset : ∀ t : List ℕ, t.length = shape.length → setDim t (-(j : ℤ)) 1 = setDim t ((shape.length - j : ℕ) : ℤ) 1 := by
    intro t ht
    have h1 : pyIndex t.length (-(j : ℤ)) = some (shape.length - j) := by
      unfold pyIndex
      rw [if_neg (by omega), if_pos (by omega)]
      congr 1
      omega
    have h2 : pyIndex t.length ((shape.length - j : ℕ) : ℤ) = some (shape.length - j) := by
      unfold pyIndex
      rw [if_pos (by omega)]
      simp
    unfold setDim
    rw [h1, h2]
  have key : (ds ++ -(j : ℤ) :: es).foldlM (fun ts d => setDim ts d 1) shape
      = (ds ++ ((shape.length - j : ℕ) : ℤ) :: es).foldlM (fun ts d => setDim ts d 1) shape := by
    rw [List.foldlM_append, List.foldlM_append]
    cases hd : ds.foldlM (fun ts d => setDim ts d 1) shape with
    | error e => rfl
    | ok t =>
      simp only [bind, Except.bind, List.foldlM_cons, hset t (hlen ds shape t hd)]
  simp only [tileSize]
  rw [key]

end FF.Gran
