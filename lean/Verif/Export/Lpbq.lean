import Verif.Export.Gguf

/-!
# LPBQ: compression of block scales

Models `export/_lpbq.py`: the scales of a block-quantized weight are stored as small integers times one floating point scale for
each channel.
-/

namespace FF.Lpbq

open FF.Quant FF.Gguf

/-! ## Model -/

/-- Exceptions: `ValueError`, and what Python or PyTorch raises on unbound locals and mismatching shapes. -/
inductive Err
  | valueError
  | other
  deriving DecidableEq, Repr

/-- `_lpbq.py:17-46` `LPBQProcessor.__init__` and `__new__`: the two bit-widths, or an error.
Simplification: bit-widths are integers. -/
def construct (compressed decompressed : ℤ) : Except Err (ℕ × ℕ) :=
  if compressed ≤ 0 ∨ decompressed ≤ 0 then .error .valueError
  else if decompressed ≤ compressed then .error .valueError
  else if 8 < compressed then .error .valueError
  else if 32 < decompressed then .error .valueError
  else .ok (compressed.toNat, decompressed.toNat)

/-- The two block patterns of `_lpbq.py:104-111` and `:186-198`: blocks along the second dimension, one channel for each row
(`block_grouping = [1, -1]`), or blocks along the first dimension, one channel for each column (`[-1, 1]`). -/
inductive Grouping
  | perRow
  | perColumn
  deriving DecidableEq, Repr

/-- What `_lpbq.py:48-78` reads: the granularity when it is `PerBlock` (block dimensions, block sizes, channel dimensions),
whether the parameters are symmetric, the bit-width, the shape of the data, and the scales. -/
structure Params where
  perBlock : Option (List ℕ × List ℕ × List ℕ)
  symmetric : Bool
  bitwidth : ℕ
  shape : List ℕ
  scale : List ℚ

/-- `_lpbq.py:48-78` `_lpbq_granularity_and_block_size`: the block and channel dimension and the block size. -/
def suitable (compressed : ℕ) (p : Params) : Except Err (ℕ × ℕ × ℕ) :=
  match p.perBlock with
  | some ([bd], bs :: _, [cd]) =>
    if p.symmetric ∧ p.bitwidth = compressed then .ok (bd, bs, cd) else .error .valueError
  | _ => .error .valueError

/-- `_lpbq.py:104-111` and `:186-198` `_infer_scale_2d_shape`: the pattern and the shape of the scale matrix. For other
dimensions the `match` assigns nothing and the next use raises. -/
def pattern (bd bs cd : ℕ) (shape : List ℕ) : Except Err (Grouping × ℕ × ℕ) :=
  match bd, cd, shape with
  | 1, 0, s0 :: s1 :: _ => if bs = 0 then .error .other else .ok (.perRow, s0, s1 / bs)
  | 0, 1, s0 :: s1 :: _ => if bs = 0 then .error .other else .ok (.perColumn, s0 / bs, s1)
  | _, _, _ => .error .other

/-- `torch.amax` of a non-empty list. -/
def amax : List ℚ → ℚ
  | [] => 0
  | x :: xs => xs.foldl max x

/-- Number of channels of an `R × C` scale matrix. -/
def channels (g : Grouping) (R C : ℕ) : ℕ := match g with | .perRow => R | .perColumn => C

/-- Channel of the block at row `r`, column `c`. -/
def channelOf (g : Grouping) (r c : ℕ) : ℕ := match g with | .perRow => r | .perColumn => c

/-- The scales of channel `k`: the elements that `_lpbq.py:150-163` puts in one group. `reshape` to
`[R, 1, 1, C]` (or `[1, R, C, 1]`) and reduction over the second and fourth axis group a row (or a column). -/
def members (g : Grouping) (R C : ℕ) (s : ℕ → ℕ → ℚ) (k : ℕ) : List ℚ :=
  match g with
  | .perRow => (List.range C).map (fun j => s k j)
  | .perColumn => (List.range R).map (fun j => s j k)

/-- `_lpbq.py:160-163`: `max_scale / 2 ** bitwidth`. -/
def channelScale (g : Grouping) (R C : ℕ) (s : ℕ → ℕ → ℚ) (bw k : ℕ) : ℚ := amax (members g R C s k) / 2 ^ bw

/-- `_lpbq.py:165-168`: `clamp(round(scale / dynamic_scale), 1, 2 ** bitwidth)`.
Simplification: exact rationals; the channel scale is positive when the scales are. -/
def blockInt (g : Grouping) (R C : ℕ) (s : ℕ → ℕ → ℚ) (bw r c : ℕ) : ℤ :=
  clampZ 1 (2 ^ bw) (roundHE (s r c / channelScale g R C s bw (channelOf g r c)))

/-- The encoding of `_lpbq.py:80-139`. -/
structure Encoding where
  compressedBw : ℕ
  bw : ℕ
  blockSize : ℕ
  perBlockInt : List ℤ
  scale : List ℚ
  offset : List ℚ
  deriving DecidableEq

/-- `_lpbq.py:80-139` `generate_lpbq_encoding` with `grouped_dynamic_quantize` (`:141-170`): scales in row-major order,
`amax` raises on an empty matrix. -/
def encode (compressed decompressed : ℕ) (p : Params) : Except Err Encoding := do
  let (bd, bs, cd) ← suitable compressed p
  let (g, R, C) ← pattern bd bs cd p.shape
  if p.scale.length ≠ R * C then .error .other
  else if R * C = 0 then .error .other
  else
    let s : ℕ → ℕ → ℚ := fun r c => p.scale.getD (r * C + c) 0
    let floats := (List.range (channels g R C)).map (channelScale g R C s compressed)
    .ok { compressedBw := compressed, bw := decompressed, blockSize := bs
          perBlockInt := rowMajor R C (blockInt g R C s compressed)
          scale := floats
          offset := List.replicate floats.length (-(2 ^ (decompressed - 1))) }

/-! ## Lemmas -/

theorem pattern_row (bs s0 s1 : ℕ) : pattern 1 bs 0 [s0, s1] = if bs = 0 then .error .other else .ok (.perRow, s0, s1 / bs) := by
  unfold pattern; rfl

theorem pattern_column (bs s0 s1 : ℕ) :
    pattern 0 bs 1 [s0, s1] = if bs = 0 then .error .other else .ok (.perColumn, s0 / bs, s1) := by
  unfold pattern; rfl

theorem le_amax {l : List ℚ} {x : ℚ} (h : x ∈ l) : x ≤ amax l := by
  cases l with
  | nil => simp at h
  | cons a l =>
    have := le_foldl_max l a
    simp only [List.mem_cons] at h
    unfold amax
    rcases h with rfl | h
    · exact this.1
    · exact this.2 _ h

theorem amax_mem {l : List ℚ} (h : l ≠ []) : amax l ∈ l := by
  cases l with
  | nil => exact absurd rfl h
  | cons a l =>
    rcases foldl_max_mem l a with h | h
    · show l.foldl max a ∈ a :: l; rw [h]; simp
    · show l.foldl max a ∈ a :: l; exact List.mem_cons_of_mem _ h

theorem mem_members (g : Grouping) (R C : ℕ) (s : ℕ → ℕ → ℚ) (r c : ℕ) (hr : r < R) (hc : c < C) :
    s r c ∈ members g R C s (channelOf g r c) := by
  cases g
  · exact List.mem_map.2 ⟨c, by simpa using hc, rfl⟩
  · exact List.mem_map.2 ⟨r, by simpa using hr, rfl⟩

theorem members_are (g : Grouping) (R C : ℕ) (s : ℕ → ℕ → ℚ) (k : ℕ) (hk : k < channels g R C) (x : ℚ)
    (hx : x ∈ members g R C s k) : ∃ r c, r < R ∧ c < C ∧ channelOf g r c = k ∧ x = s r c := by
  cases g
  · obtain ⟨j, hj, rfl⟩ := List.mem_map.1 hx
    exact ⟨k, j, hk, by simpa using hj, rfl, rfl⟩
  · obtain ⟨j, hj, rfl⟩ := List.mem_map.1 hx
    exact ⟨j, k, by simpa using hj, hk, rfl, rfl⟩

theorem amax_pos (g : Grouping) (R C : ℕ) (s : ℕ → ℕ → ℚ) (hpos : ∀ r c, r < R → c < C → 0 < s r c) (r c : ℕ) (hr : r < R)
    (hc : c < C) : 0 < amax (members g R C s (channelOf g r c)) :=
  lt_of_lt_of_le (hpos r c hr hc) (le_amax (mem_members g R C s r c hr hc))

theorem channelScale_pos (g : Grouping) (R C : ℕ) (s : ℕ → ℕ → ℚ) (bw : ℕ) (hpos : ∀ r c, r < R → c < C → 0 < s r c)
    (r c : ℕ) (hr : r < R) (hc : c < C) : 0 < channelScale g R C s bw (channelOf g r c) :=
  div_pos (amax_pos g R C s hpos r c hr hc) (by positivity)

theorem blockInt_mem (g : Grouping) (R C : ℕ) (s : ℕ → ℕ → ℚ) (bw r c : ℕ) :
    1 ≤ blockInt g R C s bw r c ∧ blockInt g R C s bw r c ≤ 2 ^ bw := by
  have : (1 : ℤ) ≤ 2 ^ bw := by exact_mod_cast Nat.one_le_two_pow
  exact clampZ_mem this _

theorem blockInt_max (g : Grouping) (R C : ℕ) (s : ℕ → ℕ → ℚ) (bw r c : ℕ)
    (hpos : ∀ r c, r < R → c < C → 0 < s r c) (hr : r < R) (hc : c < C)
    (hmax : ∀ r' c', r' < R → c' < C → channelOf g r' c' = channelOf g r c → s r' c' ≤ s r c) :
    (blockInt g R C s bw r c : ℚ) * channelScale g R C s bw (channelOf g r c) = s r c := by
  have hk : channelOf g r c < channels g R C := by cases g <;> assumption
  have hne : members g R C s (channelOf g r c) ≠ [] := List.ne_nil_of_mem (mem_members g R C s r c hr hc)
  obtain ⟨r', c', hr', hc', hch, hx⟩ := members_are g R C s _ hk _ (amax_mem hne)
  have hmx : amax (members g R C s (channelOf g r c)) = s r c :=
    le_antisymm (by rw [hx]; exact hmax r' c' hr' hc' hch) (le_amax (mem_members g R C s r c hr hc))
  have hp := hpos r c hr hc
  unfold blockInt channelScale
  rw [hmx]
  have h2 : s r c / (s r c / 2 ^ bw) = ((2 ^ bw : ℤ) : ℚ) := by
    push_cast; field_simp
  rw [h2, roundHE_intCast, clampZ_of_mem (by exact_mod_cast Nat.one_le_two_pow) le_rfl]
  push_cast; field_simp

theorem blockInt_err (g : Grouping) (R C : ℕ) (s : ℕ → ℕ → ℚ) (bw r c : ℕ)
    (hpos : ∀ r c, r < R → c < C → 0 < s r c) (hr : r < R) (hc : c < C) :
    (channelScale g R C s bw (channelOf g r c) / 2 ≤ s r c →
      |(blockInt g R C s bw r c : ℚ) * channelScale g R C s bw (channelOf g r c) - s r c|
        ≤ channelScale g R C s bw (channelOf g r c) / 2) ∧
    (s r c < channelScale g R C s bw (channelOf g r c) / 2 → blockInt g R C s bw r c = 1) := by
  set d := channelScale g R C s bw (channelOf g r c) with hd
  have hdp : 0 < d := channelScale_pos g R C s bw hpos r c hr hc
  have hle : s r c / d ≤ 2 ^ bw := by
    have h1 := le_amax (mem_members g R C s r c hr hc)
    have h2 : amax (members g R C s (channelOf g r c)) = d * 2 ^ bw := by
      rw [hd]; unfold channelScale; field_simp
    rw [div_le_iff₀ hdp, mul_comm, ← h2]; exact h1
  have hone : (1 : ℤ) ≤ 2 ^ bw := by exact_mod_cast Nat.one_le_two_pow
  constructor
  · intro hge
    have h1 : (1 : ℚ) - 1 / 2 ≤ s r c / d := by
      rw [le_div_iff₀ hdp]; linarith
    have herr := clamp_round_err (lo := 1) (hi := 2 ^ bw) hone (v := s r c / d) (by push_cast; linarith)
      (by push_cast; linarith)
    have heq : (blockInt g R C s bw r c : ℚ) * d - s r c = ((clampZ 1 (2 ^ bw) (roundHE (s r c / d)) : ℚ) - s r c / d) * d := by
      unfold blockInt; rw [← hd, sub_mul, div_mul_cancel₀ _ (ne_of_gt hdp)]
    rw [heq, abs_mul, abs_of_pos hdp]
    calc _ ≤ 1 / 2 * d := mul_le_mul_of_nonneg_right herr hdp.le
      _ = d / 2 := by ring
  · intro hlt
    have h1 : s r c / d < ((0 : ℤ) : ℚ) + 1 / 2 := by
      rw [div_lt_iff₀ hdp]; push_cast; linarith
    have h2 := roundHE_le_of_lt h1
    unfold blockInt
    rw [← hd]
    unfold clampZ
    omega

/-! ## Properties -/

/-- **C54.** A processor exists exactly for bit-widths `0 < compressed < decompressed` with `compressed ≤ 8` and
`decompressed ≤ 32`. -/
theorem construct_iff (a b : ℤ) (cw dw : ℕ) :
    construct a b = .ok (cw, dw) ↔ a = cw ∧ b = dw ∧ 0 < cw ∧ cw < dw ∧ cw ≤ 8 ∧ dw ≤ 32 := by
  unfold construct
  constructor
  · intro h
    split at h
    · simp at h
    · split at h
      · simp at h
      · split at h
        · simp at h
        · split at h
          · simp at h
          · simp only [Except.ok.injEq, Prod.mk.injEq] at h
            omega
  · rintro ⟨rfl, rfl, h1, h2, h3, h4⟩
    rw [if_neg (by omega), if_neg (by omega), if_neg (by omega), if_neg (by omega)]
    simp

/-- **C54.** For every matrix of positive block scales: the integer of each block lies in `[1, 2 ^ bw]`, the scale of each
channel is positive, the largest scale of each channel is represented exactly, a block scale of at least half a step is off by at
most half a step, and a smaller one is represented by one step. Here `R × C` is the shape of the scale matrix, the channels are
its rows or its columns according to the block pattern, and all results are read from the exported lists. -/
theorem lpbq_scales (cw dw bs s0 s1 R C : ℕ) (g : Grouping) (p : Params) (enc : Encoding)
    (hpat : (g = .perRow ∧ p.perBlock = some ([1], [bs], [0]) ∧ R = s0 ∧ C = s1 / bs) ∨
      (g = .perColumn ∧ p.perBlock = some ([0], [bs], [1]) ∧ R = s0 / bs ∧ C = s1))
    (hshape : p.shape = [s0, s1]) (hpos : ∀ x ∈ p.scale, 0 < x) (henc : encode cw dw p = .ok enc) :
    ∀ r c, r < R → c < C → ∃ (q : ℤ) (d s : ℚ),
      enc.perBlockInt[r * C + c]? = some q ∧ enc.scale[channelOf g r c]? = some d ∧ p.scale[r * C + c]? = some s ∧
      1 ≤ q ∧ q ≤ 2 ^ cw ∧ 0 < d ∧
      (d / 2 ≤ s → |q * d - s| ≤ d / 2) ∧ (s < d / 2 → q = 1) ∧
      ((∀ (r' c' : ℕ) (s' : ℚ), r' < R → c' < C → channelOf g r' c' = channelOf g r c → p.scale[r' * C + c']? = some s' →
        s' ≤ s) → q * d = s) := by
  unfold encode at henc
  have hs : ∃ bd cd, suitable cw p = .ok (bd, bs, cd) ∧ pattern bd bs cd p.shape = .ok (g, R, C) := by
    rcases hpat with ⟨hg, hp, hR, hC⟩ | ⟨hg, hp, hR, hC⟩
    · refine ⟨1, 0, ?_, ?_⟩
      · unfold suitable; unfold suitable at henc; rw [hp] at henc ⊢; dsimp only at henc ⊢
        by_cases hsym : p.symmetric ∧ p.bitwidth = cw
        · rw [if_pos hsym]
        · rw [if_neg hsym] at henc; simp [bind, Except.bind] at henc
      · unfold suitable at henc; rw [hp] at henc; dsimp only at henc
        by_cases hsym : p.symmetric ∧ p.bitwidth = cw
        · rw [if_pos hsym] at henc
          simp only [bind, Except.bind] at henc
          rw [hshape] at henc ⊢
          rw [pattern_row] at henc ⊢
          by_cases hb : bs = 0
          · rw [if_pos hb] at henc; simp at henc
          · rw [if_neg hb, hg, hR, hC]
        · rw [if_neg hsym] at henc; simp [bind, Except.bind] at henc
    · refine ⟨0, 1, ?_, ?_⟩
      · unfold suitable; unfold suitable at henc; rw [hp] at henc ⊢; dsimp only at henc ⊢
        by_cases hsym : p.symmetric ∧ p.bitwidth = cw
        · rw [if_pos hsym]
        · rw [if_neg hsym] at henc; simp [bind, Except.bind] at henc
      · unfold suitable at henc; rw [hp] at henc; dsimp only at henc
        by_cases hsym : p.symmetric ∧ p.bitwidth = cw
        · rw [if_pos hsym] at henc
          simp only [bind, Except.bind] at henc
          rw [hshape] at henc ⊢
          rw [pattern_column] at henc ⊢
          by_cases hb : bs = 0
          · rw [if_pos hb] at henc; simp at henc
          · rw [if_neg hb, hg, hR, hC]
        · rw [if_neg hsym] at henc; simp [bind, Except.bind] at henc
  obtain ⟨bd, cd, h1, h2⟩ := hs
  rw [h1] at henc
  simp only [bind, Except.bind] at henc
  rw [h2] at henc
  dsimp only at henc
  split at henc
  · simp at henc
  · split at henc
    · simp at henc
    · rename_i hlen hne
      have hlen' : p.scale.length = R * C := by omega
      simp only [Except.ok.injEq] at henc
      subst henc
      intro r c hr hc
      have hidx : ∀ r c, r < R → c < C → r * C + c < p.scale.length := by
        intro r c hr hc
        rw [hlen']
        have := Nat.mul_le_mul_right C (show r + 1 ≤ R from hr)
        rw [Nat.succ_mul] at this
        omega
      have hget : ∀ r c, r < R → c < C → p.scale[r * C + c]? = some (p.scale.getD (r * C + c) 0) := by
        intro r c hr hc
        rw [List.getD_eq_getElem?_getD, List.getElem?_eq_getElem (hidx r c hr hc)]; rfl
      have hpos' : ∀ r c, r < R → c < C → 0 < p.scale.getD (r * C + c) 0 := fun r c hr hc =>
        hpos _ (List.mem_of_getElem? (hget r c hr hc))
      have hk : channelOf g r c < channels g R C := by cases g <;> assumption
      have herr := blockInt_err g R C (fun r c => p.scale.getD (r * C + c) 0) cw r c hpos' hr hc
      refine ⟨_, _, _, rowMajor_get R C _ r c hr hc, ?_, hget r c hr hc, (blockInt_mem ..).1, (blockInt_mem ..).2,
        channelScale_pos g R C (fun r c => p.scale.getD (r * C + c) 0) cw hpos' r c hr hc, herr.1, herr.2, ?_⟩
      · rw [List.getElem?_map, List.getElem?_range hk]; rfl
      · intro hmax
        exact blockInt_max g R C (fun r c => p.scale.getD (r * C + c) 0) cw r c hpos' hr hc
          (fun r' c' hr' hc' hch => hmax r' c' _ hr' hc' hch (hget r' c' hr' hc'))

/-- **C54.** The rest of an encoding: one offset `-2 ^ (bw - 1)` for each channel, and the configured bit-widths and block
size. Parameters that are not symmetric, have another bit-width or another granularity are refused. -/
theorem lpbq_rest (cw dw : ℕ) (p : Params) (enc : Encoding) (henc : encode cw dw p = .ok enc) :
    enc.offset = enc.scale.map (fun _ => -(2 ^ (dw - 1))) ∧ enc.compressedBw = cw ∧ enc.bw = dw ∧
      p.symmetric = true ∧ p.bitwidth = cw ∧
      ∃ bd bs rest cd, p.perBlock = some ([bd], bs :: rest, [cd]) ∧ enc.blockSize = bs := by
  unfold encode at henc
  cases hs : suitable cw p with
  | error e => rw [hs] at henc; simp [bind, Except.bind] at henc
  | ok v =>
    obtain ⟨bd, bs, cd⟩ := v
    rw [hs] at henc
    simp only [bind, Except.bind] at henc
    have hsuit : p.symmetric = true ∧ p.bitwidth = cw ∧ ∃ rest, p.perBlock = some ([bd], bs :: rest, [cd]) := by
      unfold suitable at hs
      split at hs
      · rename_i heq
        split at hs
        · rename_i hc
          simp only [Except.ok.injEq, Prod.mk.injEq] at hs
          obtain ⟨rfl, rfl, rfl⟩ := hs
          exact ⟨hc.1, hc.2, _, heq⟩
        · simp at hs
      · simp at hs
    cases hp : pattern bd bs cd p.shape with
    | error e => rw [hp] at henc; simp at henc
    | ok v =>
      obtain ⟨g, R, C⟩ := v
      rw [hp] at henc
      dsimp only at henc
      split at henc
      · simp at henc
      · split at henc
        · simp at henc
        · simp only [Except.ok.injEq] at henc
          subst henc
          obtain ⟨h1, h2, rest, h3⟩ := hsuit
          exact ⟨by rw [List.map_const'], rfl, rfl, h1, h2, bd, bs, rest, cd, h3, rfl⟩

/-! ## Concrete cases -/

/-- Two channels with two blocks of four elements each. -/
def sample : Params := ⟨some ([1], [4], [0]), true, 4, [2, 8], [1, 1 / 3, 2, 1 / 100]⟩

/-- The encoding of `sample`: the largest scale of each row is exact, the tiny one is one step. -/
example : encode 4 8 sample = .ok ⟨4, 8, 4, [16, 5, 16, 1], [1 / 16, 1 / 8], [-128, -128]⟩ := by decide +kernel

/-- `sample` meets the hypotheses of `lpbq_scales`. -/
example : (∀ x ∈ sample.scale, 0 < x) ∧ sample.shape = [2, 8] := by decide +kernel

/-- The other block pattern groups columns. -/
example : encode 4 8 ⟨some ([0], [4], [1]), true, 4, [8, 2], [1, 1 / 3, 2, 1 / 100]⟩ =
    .ok ⟨4, 8, 4, [8, 16, 16, 1], [1 / 8, 1 / 48], [-128, -128]⟩ := by decide +kernel

example : encode 4 8 { sample with symmetric := false } = .error .valueError := by decide +kernel

end FF.Lpbq
