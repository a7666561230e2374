import Verif.TensorOps.Props

/-! # Property theorems about shape operations on per-channel and per-tile tensors, and top-k (C16, C67) -/

namespace FF.TOps
open FF.Tens FF.Tiling FF.Quant FF.Gran

/-- Positions after inserting a dimension. -/
theorem ravel_insertIdx {s i : List ℕ} (d : ℕ) (hl : i.length = s.length) :
    ravel (s.insertIdx d 1) (i.insertIdx d 0) = ravel s i := by
  induction s generalizing i d with
  | nil =>
    have : i = [] := List.length_eq_zero_iff.1 (by simpa using hl)
    subst this
    cases d with
    | zero => simp [ravel, strides, dot]
    | succ d => simp
  | cons a as ih =>
    cases i with
    | nil => simp at hl
    | cons b bs =>
      cases d with
      | zero => simp [ravel, strides, dot]
      | succ d =>
        have := ih (i := bs) d (by simpa using hl)
        simp only [List.insertIdx_succ_cons]
        rw [ravel_cons, ravel_cons, this]
        congr 2
        clear ih this hl
        induction as generalizing d with
        | nil => cases d <;> simp
        | cons x xs ih =>
          cases d with
          | zero => simp
          | succ d => simp [ih]

theorem inBounds_insertIdx {s j : List ℕ} (d : ℕ) (hd : d ≤ s.length) (h : InBounds (s.insertIdx d 1) j) :
    ∃ i, InBounds s i ∧ j = i.insertIdx d 0 := by
  induction s generalizing j d with
  | nil =>
    have : d = 0 := by simpa using hd
    subst this
    cases j with
    | nil => simp at h; exact absurd h not_inBounds_cons_nil
    | cons x xs =>
      simp at h
      exact ⟨[], by simp, by simp [h]⟩
  | cons a as ih =>
    cases d with
    | zero =>
      cases j with
      | nil => simp at h; exact absurd h not_inBounds_cons_nil
      | cons x xs =>
        simp only [List.insertIdx_zero, inBounds_cons] at h
        refine ⟨xs, h.2, ?_⟩
        simp only [List.insertIdx_zero]
        congr 1; omega
    | succ d =>
      cases j with
      | nil => simp at h; exact absurd h not_inBounds_cons_nil
      | cons x xs =>
        simp only [List.insertIdx_succ_cons, inBounds_cons] at h
        obtain ⟨i, hi, rfl⟩ := ih d (by simpa using hd) h.2
        exact ⟨x :: i, by simp [h.1, hi], by simp⟩

theorem zipWith_insertIdx (f : ℕ → ℕ → ℕ) (a b : List ℕ) (d x y : ℕ) (hl : a.length = b.length) :
    List.zipWith f (a.insertIdx d x) (b.insertIdx d y) = (List.zipWith f a b).insertIdx d (f x y) := by
  induction a generalizing b d with
  | nil =>
    have : b = [] := List.length_eq_zero_iff.1 (by simpa using hl.symm)
    subst this
    cases d <;> simp
  | cons p ps ih =>
    cases b with
    | nil => simp at hl
    | cons q qs =>
      cases d with
      | zero => simp
      | succ d => simp [ih qs d (by simpa using hl)]

theorem divides_insertIdx {s t : List ℕ} (d : ℕ) (h : Divides s t) : Divides (s.insertIdx d 1) (t.insertIdx d 1) := by
  unfold Divides at *
  induction h generalizing d with
  | nil =>
    cases d with
    | zero => exact .cons ⟨by omega, dvd_refl _⟩ .nil
    | succ d => simp
  | cons h1 h2 ih =>
    cases d with
    | zero => exact .cons ⟨by omega, dvd_refl _⟩ (.cons h1 h2)
    | succ d => simp only [List.insertIdx_succ_cons]; exact .cons h1 (ih d)

theorem tileId_insertIdx {s t i : List ℕ} (d : ℕ) (h : Divides s t) (hi : InBounds s i) :
    tileId (s.insertIdx d 1) (t.insertIdx d 1) (i.insertIdx d 0) = tileId s t i := by
  unfold tileId grid divIdx
  rw [zipWith_insertIdx _ _ _ _ _ _ h.length_eq.symm, zipWith_insertIdx _ _ _ _ _ _ (by rw [hi.length_eq, h.length_eq])]
  apply ravel_insertIdx
  simp [List.length_zipWith, hi.length_eq]

theorem prod_insertIdx (s : List ℕ) (d : ℕ) : (s.insertIdx d 1).prod = s.prod := by
  induction s generalizing d with
  | nil => cases d <;> simp
  | cons a as ih => cases d with
    | zero => simp
    | succ d => simp [ih]

/-- The property C16 for `unsqueeze` of one tensor: whenever the operation succeeds, dequantizing the result is unsqueezing the
dequantized tensor. -/
def UnsqueezeFaithful (q : QTensor) (dim : ℤ) : Prop :=
  ∀ q' v, unsqueeze q dim = .ok q' → q.dequantize = .ok v →
    ∃ v' w, q'.dequantize = .ok v' ∧ torchUnsqueeze v dim = .ok w ∧ v'.Same w

/-- Core: if the tile of the result is the tile of the input with the new dimension inserted, values are preserved. -/
theorem unsqueeze_core (q : QTensor) (dim : ℤ) (d : ℕ) (hd : pyIndex (q.data.shape.length + 1) dim = some d) (h0 : q.data.numel ≠ 0)
    (tile : List ℕ) (ht : tileSize q.gran q.data.shape = .ok (some tile)) (hdiv : Divides q.data.shape tile) (g' : Granularity)
    (ht' : tileSize g' (q.data.shape.insertIdx d 1) = .ok (some (tile.insertIdx d 1)))
    (hsf : Fits q.scale (grid q.data.shape tile).prod) (hof : ∀ o ∈ q.offset, Fits o (grid q.data.shape tile).prod) (v : Tensor ℚ)
    (hv : q.dequantize = .ok v) :
    ∃ v' w, (QTensor.mk ⟨q.data.shape.insertIdx d 1, q.data.get⟩ q.scale q.offset g').dequantize = .ok v' ∧
      torchUnsqueeze v dim = .ok w ∧ v'.Same w := by
  have hshape := dequantize_shape hv
  have hdl : d ≤ q.data.shape.length := by have := pyIndex_lt hd; omega
  have hdiv' := divides_insertIdx d hdiv
  have hgrid : (grid (q.data.shape.insertIdx d 1) (tile.insertIdx d 1)).prod = (grid q.data.shape tile).prod := by
    unfold grid
    rw [zipWith_insertIdx _ _ _ _ _ _ hdiv.length_eq.symm]
    exact prod_insertIdx _ d
  obtain ⟨v1, e1, s1, f1⟩ := dequantize_by_tile_elementwise q.data tile h0 hdiv q.scale q.offset hsf hof
  have hv1 : v1 = v := by
    have : q.dequantize = .ok v1 := by
      unfold QTensor.dequantize; simp only [ht, bind, Except.bind]; exact e1
    rw [this] at hv; exact Except.ok.inj hv
  subst hv1
  obtain ⟨v2, e2, s2, f2⟩ := dequantize_by_tile_elementwise (⟨q.data.shape.insertIdx d 1, q.data.get⟩ : Tensor ℤ) (tile.insertIdx d 1)
    (by unfold Tensor.numel at *; rwa [prod_insertIdx]) hdiv' q.scale q.offset (by rw [hgrid]; exact hsf)
    (by intro o ho; rw [hgrid]; exact hof o ho)
  refine ⟨v2, ⟨v1.shape.insertIdx d 1, v1.get⟩, ?_, ?_, ?_⟩
  · unfold QTensor.dequantize
    simp only [ht', bind, Except.bind]; exact e2
  · unfold torchUnsqueeze; rw [hshape, hd]
  · refine ⟨by rw [s2, hshape], ?_⟩
    intro j hj
    rw [s2] at hj
    obtain ⟨i, hi, rfl⟩ := inBounds_insertIdx d hdl hj
    obtain ⟨sc, hsc, hval⟩ := f2 _ hj
    obtain ⟨sc', hsc', hval'⟩ := f1 _ hi
    have hid := tileId_insertIdx d hdiv hi
    dsimp only at hsc hval
    rw [hid] at hsc hval
    rw [hsc] at hsc'
    obtain rfl := Option.some.inj hsc'
    rw [hval]
    have hw : (⟨v1.shape.insertIdx d 1, v1.get⟩ : Tensor ℚ).at (i.insertIdx d 0) = v1.at i := by
      unfold Tensor.at
      rw [ravel_insertIdx d (by rw [hshape]; exact hi.length_eq)]
    have hx : (⟨q.data.shape.insertIdx d 1, q.data.get⟩ : Tensor ℤ).at (i.insertIdx d 0) = q.data.at i := by
      unfold Tensor.at
      rw [ravel_insertIdx d hi.length_eq]
    rw [hw, hval', hx]

theorem emod_pyIndex {n d : ℕ} {dim : ℤ} (h : pyIndex (n + 1) dim = some d) : (dim % ((n : ℤ) + 1)).toNat = d := by
  unfold pyIndex at h
  split_ifs at h with h1 h2
  · simp only [Option.some.injEq] at h
    rw [Int.emod_eq_of_lt h1.1 (by omega)]; exact h
  · simp only [Option.some.injEq] at h
    rw [← Int.add_emod_right, Int.emod_eq_of_lt (by omega) (by omega)]; omega

theorem tileSize_perTile {shape tile : List ℕ} (h : Divides shape tile) : tileSize (.perTile tile) shape = .ok (some tile) := by
  simp only [tileSize, bind, Except.bind, check_ok_of_divides h, pure, Except.pure]

/-- **C16 (partial, tiles).** `unsqueeze` of a non-empty tensor with per-tile granularity is faithful. -/
theorem unsqueeze_per_tile (q : QTensor) (dim : ℤ) (tile : List ℕ) (hg : q.gran = .perTile tile) (h0 : q.data.numel ≠ 0)
    (hdiv : Divides q.data.shape tile) (hsf : Fits q.scale (grid q.data.shape tile).prod)
    (hof : ∀ o ∈ q.offset, Fits o (grid q.data.shape tile).prod) : UnsqueezeFaithful q dim := by
  intro q' v hu hv
  unfold unsqueeze torchUnsqueeze at hu
  cases hp : pyIndex (q.data.shape.length + 1) dim with
  | none => simp [hp, bind, Except.bind] at hu
  | some d =>
    simp only [hp, hg, bind, Except.bind, Except.ok.injEq] at hu
    subst hu
    have e : (dim % ((tile.length : ℤ) + 1)).toNat = d := by rw [hdiv.length_eq]; exact emod_pyIndex hp
    rw [e]
    exact unsqueeze_core q dim d hp h0 tile (by rw [hg]; exact tileSize_perTile hdiv) hdiv _
      (tileSize_perTile (divides_insertIdx d hdiv)) hsf hof v hv

/-- **C16 (partial, channels).** `unsqueeze` of a non-empty per-channel tensor is faithful when, for every (non-negative)
channel axis, the computed axis happens to be the shifted one; e.g. for axis 0 and every non-negative position. What is missing:
all other axes, see `unsqueeze_wrong_axis`. -/
theorem unsqueeze_per_channel_partial (q : QTensor) (dim : ℤ) (axes : List ℤ) (hg : q.gran = .perChannel axes)
    (hdim : 0 ≤ dim) (hax : ∀ ax ∈ axes, 0 ≤ ax ∧ (if ax + ax ≥ dim then (1 : ℤ) else 0) = if dim ≤ ax then ax + 1 else ax)
    (hpos : ∀ d ∈ q.data.shape, 0 < d) (tile : List ℕ) (ht : tileSize q.gran q.data.shape = .ok (some tile))
    (hsf : Fits q.scale (grid q.data.shape tile).prod) (hof : ∀ o ∈ q.offset, Fits o (grid q.data.shape tile).prod) :
    UnsqueezeFaithful q dim := by
  intro q' v hu hv
  have h0 : q.data.numel ≠ 0 := by
    unfold Tensor.numel
    have : ∀ l : List ℕ, (∀ d ∈ l, 0 < d) → l.prod ≠ 0 := by
      intro l
      induction l with
      | nil => simp
      | cons a as ih =>
        intro h
        rw [List.prod_cons]
        exact Nat.mul_ne_zero (by have := h a (by simp); omega) (ih fun d hd => h d (by simp [hd]))
    exact this _ hpos
  have hdiv : Divides q.data.shape tile := by
    have ht2 := ht
    rw [hg] at ht2
    exact (granularity_tile_divides _ _ _ hpos ht2 trivial).1
  unfold unsqueeze torchUnsqueeze at hu
  cases hp : pyIndex (q.data.shape.length + 1) dim with
  | none => simp [hp, bind, Except.bind] at hu
  | some d =>
    simp only [hp, hg, bind, Except.bind, Except.ok.injEq] at hu
    subst hu
    refine unsqueeze_core q dim d hp h0 tile ht hdiv _ ?_ hsf hof v hv
    have hdeq : dim = d := by
      unfold pyIndex at hp
      split_ifs at hp with h1 h2
      · simp at hp; omega
      · omega
    subst hdeq
    have hdl : d ≤ q.data.shape.length := by have := pyIndex_lt hp; omega
    rw [hg] at ht
    have hmap : axes.map (fun ax => if ax + ax ≥ (d : ℤ) then (1 : ℤ) else 0)
        = axes.map fun ax => if (d : ℤ) ≤ ax then ax + 1 else ax :=
      List.map_congr_left fun ax h => (hax ax h).2
    rw [hmap]
    obtain ⟨hacc, htile⟩ := per_channel_tile axes q.data.shape
    have hin := hacc.1 ⟨_, ht⟩
    obtain ⟨tile', ht', hl, hk⟩ := htile _ ht
    obtain rfl := Option.some.inj ht'
    obtain ⟨hacc2, htile2⟩ := per_channel_tile (axes.map fun ax => if (d : ℤ) ≤ ax then ax + 1 else ax) (q.data.shape.insertIdx d 1)
    have hlen : (q.data.shape.insertIdx d 1).length = q.data.shape.length + 1 := List.length_insertIdx_of_le_length hdl 1
    have hnat : ∀ ax ∈ axes, ∃ k : ℕ, ax = k ∧ k < q.data.shape.length := by
      intro ax hax'
      have h1 := hin ax hax'
      have h2 := (hax ax hax').1
      obtain ⟨k, hk'⟩ := Option.isSome_iff_exists.1 h1
      have := pyIndex_lt hk'
      unfold pyIndex at hk'
      split_ifs at hk' with h3
      · simp at hk'; exact ⟨k, by omega, this⟩
      · omega
    have hidx : ∀ (n k : ℕ), k < n → pyIndex n (k : ℤ) = some k := fun n k h => pyIndex_nat h
    have hshift : ∀ (k : ℕ), (if (d : ℤ) ≤ (k : ℤ) then (k : ℤ) + 1 else (k : ℤ)) = ((if d ≤ k then k + 1 else k : ℕ) : ℤ) := by
      intro k; split_ifs with h1 h2 h2 <;> simp <;> omega
    obtain ⟨r, hr⟩ := hacc2.2 (by
      intro ax hax'
      rw [List.mem_map] at hax'
      obtain ⟨ax0, h1, rfl⟩ := hax'
      obtain ⟨k, rfl, hk1⟩ := hnat ax0 h1
      rw [hshift, hlen, hidx]
      · rfl
      · split_ifs <;> omega)
    obtain ⟨t2, rfl, hl2, hk2⟩ := htile2 _ hr
    rw [hr]
    congr 2
    apply List.ext_getElem?
    intro j
    by_cases hj : j < q.data.shape.length + 1
    swap
    · rw [List.getElem?_eq_none (by omega), List.getElem?_eq_none (by rw [List.length_insertIdx_of_le_length (by omega)]; omega)]
    have hgj : ∃ dim', (q.data.shape.insertIdx d 1)[j]? = some dim' := ⟨_, List.getElem?_eq_getElem (by omega)⟩
    obtain ⟨dim', hdim'⟩ := hgj
    rw [hk2 j dim' hdim']
    rw [List.getElem?_insertIdx] at hdim' ⊢
    have hcond : (∃ ax ∈ axes.map (fun ax => if (d : ℤ) ≤ ax then ax + 1 else ax), pyIndex (q.data.shape.insertIdx d 1).length ax = some j)
        ↔ ∃ k : ℕ, (k : ℤ) ∈ axes ∧ j = if d ≤ k then k + 1 else k := by
      constructor
      · rintro ⟨ax, hm, hpy⟩
        rw [List.mem_map] at hm
        obtain ⟨ax0, h1, rfl⟩ := hm
        obtain ⟨k, rfl, hk1⟩ := hnat ax0 h1
        rw [hshift, hlen, hidx _ _ (by split_ifs <;> omega)] at hpy
        exact ⟨k, h1, (Option.some.inj hpy).symm⟩
      · rintro ⟨k, hm, rfl⟩
        obtain ⟨k', hk', hk1⟩ := hnat _ hm
        have : k = k' := by omega
        subst this
        refine ⟨_, List.mem_map.2 ⟨_, hm, rfl⟩, ?_⟩
        rw [hshift, hlen, hidx _ _ (by split_ifs <;> omega)]
    classical
    rw [if_congr hcond rfl rfl]
    have hcond0 : ∀ j', (∃ ax ∈ axes, pyIndex q.data.shape.length ax = some j') ↔ (j' : ℤ) ∈ axes := by
      intro j'
      constructor
      · rintro ⟨ax, hm, hpy⟩
        obtain ⟨k, rfl, hk1⟩ := hnat ax hm
        rw [hidx _ _ hk1] at hpy
        rw [← Option.some.inj hpy]; exact hm
      · intro hm
        obtain ⟨k', hk', hk1⟩ := hnat _ hm
        have : j' = k' := by omega
        subst this
        exact ⟨_, hm, hidx _ _ hk1⟩
    by_cases hjd : j < d
    · rw [if_pos hjd] at hdim' ⊢
      rw [hk j dim' hdim']
      congr 1
      apply if_congr _ rfl rfl
      rw [hcond0]
      constructor
      · rintro ⟨k, hm, hj'⟩
        split_ifs at hj' with h1
        · omega
        · rw [hj']; exact hm
      · intro hm
        exact ⟨j, hm, by rw [if_neg (by omega)]⟩
    · rw [if_neg hjd] at hdim' ⊢
      by_cases hje : j = d
      · rw [if_pos hje] at hdim' ⊢
        have hj1 : j ≤ q.data.shape.length := by omega
        have hj2 : j ≤ tile.length := by omega
        simp only [hj1, hj2, if_true] at hdim' ⊢
        congr 1
        rw [if_neg]
        · exact (Option.some.inj hdim').symm
        · rintro ⟨k, _, hj'⟩
          split_ifs at hj' <;> omega
      · rw [if_neg hje] at hdim' ⊢
        rw [hk (j - 1) dim' hdim']
        congr 1
        apply if_congr _ rfl rfl
        rw [hcond0]
        constructor
        · rintro ⟨k, hm, hj'⟩
          split_ifs at hj' with h1
          · have : j - 1 = k := by omega
            rw [this]; exact hm
          · omega
        · intro hm
          exact ⟨j - 1, hm, by rw [if_pos (by omega)]; omega⟩

/-- Axis 0 satisfies the hypothesis for every non-negative position. -/
example (dim : ℤ) (h : 0 ≤ dim) : ∀ ax ∈ [(0 : ℤ)], 0 ≤ ax ∧ (if ax + ax ≥ dim then (1 : ℤ) else 0) = if dim ≤ ax then ax + 1 else ax := by
  intro ax hax
  have : ax = 0 := by simpa using hax
  subst this
  refine ⟨le_refl _, ?_⟩
  split_ifs <;> omega

/-- **C16, deviation.** `unsqueeze(0)` of a `2 × 2` tensor quantized per column (axis 1) keeps axis 1, which is now the row axis:
the scale of column 1 is applied to row 1. -/
theorem unsqueeze_wrong_axis : ∃ q dim, ¬ UnsqueezeFaithful q dim := by
  refine ⟨⟨⟨[2, 2], fun _ => 1⟩, [1, 10], none, .perChannel [1]⟩, 0, ?_⟩
  intro h
  obtain ⟨v', w, hv, hw, hsame⟩ := h ⟨⟨[1, 2, 2], _⟩, [1, 10], none, .perChannel [1]⟩ ⟨[2, 2], _⟩ rfl rfl
  have e1 : v'.at [0, 0, 1] = 1 := by rw [← Except.ok.inj hv]; decide +kernel
  have e2 : w.at [0, 0, 1] = 10 := by rw [← Except.ok.inj hw]; decide +kernel
  have e3 : v'.shape = [1, 2, 2] := by rw [← Except.ok.inj hv]
  have := hsame.2 [0, 0, 1] (by rw [e3]; exact .cons (by decide) (.cons (by decide) (.cons (by decide) .nil)))
  rw [e1, e2] at this
  exact absurd this (by norm_num)

end FF.TOps
