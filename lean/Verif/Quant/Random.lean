import Verif.Tiling.QuantProps

/-!
# Random quantized tensors

Models `random_quantized` (`quantization/random.py:14-64`): the parameters it passes on, when it refuses them, and the codes of the tensor it makes.

Simplifications: those of `Verif.Tiling.QuantModel`; the samples of `torch.randn` are arbitrary rationals; the tile size that the granularity gives is an argument; `requires_grad`,
`device` and the storage type are left out.
-/

namespace FF.Random

open FF.Quant FF.Tens FF.Tiling

/-! ## Model -/

/-- A parameter as it is given: a number, or a tensor with its elements. -/
inductive Given
  | num (q : ℚ)
  | tensor (l : List ℚ)

/-- The elements once it is a tensor (`tensor_or_none`, `common.py:59-75`, which `quantize_affine` calls): a number has one. -/
def Given.elems : Given → List ℚ
  | .num q => [q]
  | .tensor l => l

/-- What is raised: the `ValueError` of random.py:48-52, or an error while quantizing. -/
inductive Err
  | count
  | tile

/-- The offset that is passed on (random.py:45-52). -/
def offsetFor (scale : Given) (offset : Option Given) : Except Err (Option Given) :=
  match scale with
  | .num _ => .ok offset
  | .tensor s =>
    if 1 < s.length then
      match offset with
      | none => .ok (some (.tensor (s.map fun _ => 1 * 0)))
      | some (.num q) => .ok (some (.tensor (s.map fun _ => 1 * (if q ≠ 0 then q else 0))))
      | some (.tensor o) => if o.length ≠ s.length then .error .count else .ok (some (.tensor o))
    else .ok offset

/-- `random_quantized` (random.py:14-64) for the samples `noise`: the codes and the parameters of the result. -/
def randomQuantized (noise : Tensor ℚ) (scale : Given) (offset : Option Given) (tile : List ℕ) (bits : ℕ) :
    Except Err (Tensor (Option ℤ) × List ℚ × Option (List ℚ)) :=
  match offsetFor scale offset with
  | .error e => .error e
  | .ok o =>
    match quantizeByTile noise scale.elems (some tile) bits (o.map Given.elems) with
    | .error _ => .error .tile
    | .ok q => .ok (q, scale.elems, o.map Given.elems)

/-! ## Specification -/

/-- The parameter that is meant for tile `k`: a number, or a tensor with one element, is meant for all tiles. -/
def MeantFor (g : Given) (k : ℕ) (q : ℚ) : Prop :=
  match g with
  | .num x => q = x
  | .tensor [x] => q = x
  | .tensor l => l[k]? = some q

/-- The offset that is meant for tile `k`, which is zero if there is none. -/
def OffsetMeant (g : Option Given) (k : ℕ) (q : ℚ) : Prop :=
  match g with
  | none => q = 0
  | some g => MeantFor g k q

/-- `n` parameters, or one, for `n` tiles. -/
def Enough (g : Given) (n : ℕ) : Prop :=
  match g with
  | .num _ => True
  | .tensor l => l.length = 1 ∨ l.length = n

/-! ## Lemmas -/

theorem fits_elems {g : Given} {n : ℕ} : Tiling.Fits g.elems n ↔ Enough g n := by
  cases g with
  | num q => simp [Tiling.Fits, Given.elems, Enough]
  | tensor l => simp [Tiling.Fits, Given.elems, Enough]

theorem meant_of_paramAt {g : Given} {k : ℕ} {q : ℚ} (h : paramAt g.elems k = some q) : MeantFor g k q := by
  unfold paramAt at h
  unfold MeantFor
  cases g with
  | num x => simp [Given.elems] at h; exact h.symm
  | tensor l =>
    match l with
    | [] => simp [Given.elems] at h
    | [x] => simp [Given.elems] at h; exact h.symm
    | x :: y :: l => simpa [Given.elems] using h

theorem passed_enough {scale : Given} {offset o : Option Given} {n : ℕ} (hs : Enough scale n) (h : offsetFor scale offset = .ok o) :
    (∀ g ∈ o, Enough g n) ↔ ∀ g ∈ offset, Enough g n := by
  unfold offsetFor at h
  cases scale with
  | num q => cases h; rfl
  | tensor l =>
    dsimp only at h
    split at h
    · rename_i h1
      have hl : l.length = n := by
        unfold Enough at hs
        dsimp only at hs
        omega
      match offset, h with
      | none, h =>
        cases h
        simp [Enough, hl]
      | some (.num q), h =>
        cases h
        simp [Enough, hl]
      | some (.tensor o'), h =>
        dsimp only at h
        split at h
        · cases h
        · cases h; rfl
    · cases h; rfl

theorem passed_meant {scale : Given} {offset o : Option Given} {k : ℕ} {s q : ℚ} (h : offsetFor scale offset = .ok o) (hs : MeantFor scale k s)
    (hq : OffsetMeant o k q) : OffsetMeant offset k q := by
  unfold offsetFor at h
  cases scale with
  | num q => cases h; exact hq
  | tensor l =>
    dsimp only at h
    split at h
    · rename_i h1
      obtain ⟨x, y, l', rfl⟩ : ∃ x y l', l = x :: y :: l' := by
        match l, h1 with
        | x :: y :: l', _ => exact ⟨x, y, l', rfl⟩
      match offset, h with
      | none, h =>
        cases h
        unfold OffsetMeant MeantFor at hq
        dsimp only [List.map_cons] at hq
        have hm := List.mem_of_getElem? hq
        unfold OffsetMeant
        simp at hm ⊢
        grind
      | some (.num c), h =>
        cases h
        unfold OffsetMeant MeantFor at hq
        dsimp only [List.map_cons] at hq
        have hm := List.mem_of_getElem? hq
        unfold OffsetMeant MeantFor
        simp at hm ⊢
        grind
      | some (.tensor o'), h =>
        dsimp only at h
        split at h
        · cases h
        · cases h; exact hq
    · cases h; exact hq

/-! ## Properties -/

/-- **C152 (partial).** A random tensor is made exactly if scale and offset have one element or one for each tile; where the scale has several elements and the offset is a
tensor, it needs as many.

Missing: an offset with one element for several scales, which quantization accepts (`single_offset_refused`); empty tensors; tile sizes that do not divide the shape. -/
theorem accepted_iff_partial (noise : Tensor ℚ) (scale : Given) (offset : Option Given) (tile : List ℕ) (bits : ℕ) (h0 : noise.numel ≠ 0)
    (hd : Divides noise.shape tile) :
    (∃ r, randomQuantized noise scale offset tile bits = .ok r) ↔
      Enough scale (grid noise.shape tile).prod ∧ (∀ o ∈ offset, Enough o (grid noise.shape tile).prod) ∧
        ∀ s o, scale = .tensor s → offset = some (.tensor o) → 1 < s.length → o.length = s.length := by
  have hcount : (∃ o, offsetFor scale offset = .ok o) ↔ ∀ s o, scale = .tensor s → offset = some (.tensor o) → 1 < s.length → o.length = s.length := by
    unfold offsetFor
    cases scale with
    | num q => simp
    | tensor s =>
      by_cases h1 : 1 < s.length
      · match offset with
        | none => simp [h1]
        | some (.num q) => simp [h1]
        | some (.tensor o) =>
          by_cases h2 : o.length = s.length
          · simp only [h1, h2, if_true, ne_eq, not_true_eq_false, if_false]
            constructor
            · rintro - s' o' hs ho -
              cases hs; cases ho; exact h2
            · exact fun _ => ⟨_, rfl⟩
          · simp only [h1, h2, if_true, ne_eq, not_false_eq_true]
            constructor
            · rintro ⟨_, h⟩; cases h
            · intro h; exact absurd (h s o rfl rfl h1) h2
      · simp only [h1, if_false]
        constructor
        · rintro - s' o' hs - h
          cases hs; exact absurd h h1
        · exact fun _ => ⟨_, rfl⟩
  rw [← hcount]
  unfold randomQuantized
  cases ho : offsetFor scale offset with
  | error e => simp
  | ok o =>
    have hq := quantize_by_tile_ok_iff noise tile h0 hd bits scale.elems (o.map Given.elems)
    have hlist : (∀ l ∈ o.map Given.elems, Tiling.Fits l (grid noise.shape tile).prod) ↔ ∀ g ∈ o, Enough g (grid noise.shape tile).prod := by
      cases o with
      | none => simp
      | some g => simpa using fits_elems
    rw [fits_elems, hlist] at hq
    dsimp only
    constructor
    · rintro ⟨r, h⟩
      cases hqq : quantizeByTile noise scale.elems (some tile) bits (o.map Given.elems) with
      | error e => rw [hqq] at h; cases h
      | ok q =>
        obtain ⟨a, b⟩ := hq.1 ⟨q, hqq⟩
        exact ⟨a, (passed_enough a ho).1 b, o, rfl⟩
    · rintro ⟨a, b, -⟩
      obtain ⟨q, hqq⟩ := hq.2 ⟨a, (passed_enough a ho).2 b⟩
      rw [hqq]
      exact ⟨_, rfl⟩

/-- **C152.** Whatever is sampled, each element of a random tensor is the code nearest to the sample for the scale and the offset meant for its tile, the offset rounded to an
integer and the code limited to the codes of the number of bits. -/
theorem codes_meant (noise : Tensor ℚ) (scale : Given) (offset : Option Given) (tile : List ℕ) (bits : ℕ) (h0 : noise.numel ≠ 0)
    (hd : Divides noise.shape tile) (q : Tensor (Option ℤ)) (ss : List ℚ) (os : Option (List ℚ))
    (h : randomQuantized noise scale offset tile bits = .ok (q, ss, os)) :
    q.shape = noise.shape ∧ ∀ i, InBounds noise.shape i → ∃ s o : ℚ,
      MeantFor scale (tileId noise.shape tile i) s ∧ OffsetMeant offset (tileId noise.shape tile i) o ∧
      (s ≠ 0 → ∃ r z : ℤ, |(r : ℚ) - o| ≤ 1 / 2 ∧ |(z : ℚ) - (noise.at i / s - r)| ≤ 1 / 2 ∧
        q.at i = some (min (max z (-2 ^ (bits - 1))) (2 ^ (bits - 1) - 1))) := by
  have hacc := (accepted_iff_partial noise scale offset tile bits h0 hd).1 ⟨_, h⟩
  obtain ⟨ha, hb, -⟩ := hacc
  unfold randomQuantized at h
  cases ho : offsetFor scale offset with
  | error e => rw [ho] at h; cases h
  | ok o =>
    rw [ho] at h
    dsimp only at h
    have hb' := (passed_enough ha ho).2 hb
    have hfo : ∀ l ∈ o.map Given.elems, Tiling.Fits l (grid noise.shape tile).prod := by
      intro l hl
      obtain ⟨g, hg, rfl⟩ := Option.mem_map.1 hl
      exact fits_elems.2 (hb' g hg)
    obtain ⟨q', hq, hshape, hat⟩ := quantize_by_tile_elementwise noise tile h0 hd bits scale.elems (o.map Given.elems) (fits_elems.2 ha) hfo
    rw [hq] at h
    simp only [Except.ok.injEq, Prod.mk.injEq] at h
    obtain ⟨rfl, -, -⟩ := h
    refine ⟨hshape, fun i hi => ?_⟩
    obtain ⟨s, hs, hv⟩ := hat i hi
    have hms := meant_of_paramAt hs
    -- the offset of the tile
    obtain ⟨x, hx, hinf⟩ : ∃ x : ℚ, OffsetMeant o (tileId noise.shape tile i) x ∧
        inferOffset ((o.map Given.elems).bind fun o => paramAt o (tileId noise.shape tile i)) = roundHE x := by
      cases o with
      | none => exact ⟨0, rfl, by simpa [inferOffset] using (roundHE_intCast 0).symm⟩
      | some g =>
        cases hp : paramAt g.elems (tileId noise.shape tile i) with
        | some x => exact ⟨x, meant_of_paramAt hp, by simp [hp, inferOffset]⟩
        | none =>
          exfalso
          have hf := hfo g.elems (by simp)
          have hlt : tileId noise.shape tile i < (grid noise.shape tile).prod := ravel_lt (divIdx_inBounds hd hi)
          have := bIdx_getD hf hlt
          rw [hp] at this
          cases this
    refine ⟨s, x, hms, passed_meant ho hms hx, fun hs0 => ⟨roundHE x, roundHE (noise.at i / s - roundHE x), roundHE_err x, roundHE_err _, ?_⟩⟩
    rw [hv, quantizeScalar, if_neg hs0, hinf]
    unfold clampZ intMax intMin
    rw [neg_neg]

/-! ## Deviations -/

/-- **C152, deviation.** One offset in a tensor for several scales is refused, whatever the rest, although quantization with the same parameters succeeds, and although the same
offset given as a number is accepted. -/
theorem single_offset_refused (noise : Tensor ℚ) (s : List ℚ) (o : ℚ) (tile : List ℕ) (bits : ℕ) (h0 : noise.numel ≠ 0) (hd : Divides noise.shape tile)
    (hs : 1 < s.length) (hn : s.length = (grid noise.shape tile).prod) :
    randomQuantized noise (.tensor s) (some (.tensor [o])) tile bits = .error .count ∧
      (∃ q, quantizeByTile noise s (some tile) bits (some [o]) = .ok q) ∧
      ∃ r, randomQuantized noise (.tensor s) (some (.num o)) tile bits = .ok r := by
  refine ⟨?_, ?_, ?_⟩
  · have : ([o] : List ℚ).length ≠ s.length := by simp; omega
    simp only [randomQuantized, offsetFor, hs, if_true, this, ne_eq, not_false_eq_true]
  · exact (quantize_by_tile_ok_iff noise tile h0 hd bits s (some [o])).2 ⟨.inr hn, by simp [Tiling.Fits]⟩
  · refine (accepted_iff_partial noise _ _ tile bits h0 hd).2 ⟨.inr hn, by simp [Enough], ?_⟩
    intro s' o' _ h
    cases h

/-! ## Concrete cases -/

/-- Two rows with a scale each, and one offset as a number. -/
example : Divides [2, 2] [1, 2] ∧ (⟨[2, 2], fun k => k⟩ : Tensor ℚ).numel ≠ 0 ∧
    ∃ r, randomQuantized ⟨[2, 2], fun k => k⟩ (.tensor [1, 2]) (some (.num 1)) [1, 2] 3 = .ok r := by
  have hd : Divides [2, 2] [1, 2] := by
    unfold Divides; simp
  have h0 : (⟨[2, 2], fun k => k⟩ : Tensor ℚ).numel ≠ 0 := by simp [Tensor.numel]
  refine ⟨hd, h0, (accepted_iff_partial _ _ _ _ _ h0 hd).2 ⟨?_, ?_, ?_⟩⟩
  · simp [Enough, grid]
  · simp [Enough]
  · intro s o _ h; cases h

end FF.Random
