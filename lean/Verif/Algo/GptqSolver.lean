import Verif.Quant.AffineProps
import Mathlib.Algebra.BigOperators.Intervals

/-!
# The GPTQ solver

Models the loops of `gptq` (`quantization/gptq.py:81-142`): error compensation in blocks of columns, column order, and recomputation of
the parameters of column groups. Numbers are exact rationals; division by a zero diagonal entry, which a Cholesky factor does not have,
gives zero.
-/

namespace FF.Gptq

open Finset

/-! ## Model -/

/-- A matrix: row, column. -/
abbrev Mat := ℕ → ℕ → ℚ

/-- What stays fixed: the number of columns, the upper triangular factor (`hessian_inverse`), the order of the columns, quantizing and
dequantizing one element of an original column under the current quantizer parameters (`gptq.py:124-126`), and the recomputation of
the parameters before a column is quantized (`gptq.py:109-122`), which reads the current weights. -/
structure Problem (Θ : Type) where
  columns : ℕ
  U : Mat
  order : ℕ → ℕ
  qd : Θ → ℕ → ℕ → ℚ → ℚ
  recompute : Θ → Mat → ℕ → Θ

/-- The variables of the loops. `wb` is `weights_block`, indexed by global columns. -/
structure St (Θ : Type) where
  θ : Θ
  w : Mat
  wb : Mat
  q : Mat
  e : Mat

/-- Assignment of a column. -/
def setCol (m : Mat) (c : ℕ) (v : ℕ → ℚ) : Mat := fun r k => if k = c then v r else m r k

section
variable {Θ : Type} (P : Problem Θ)

/-- `gptq.py:108-134`: the body of the inner loop for global column `c` in a block that ends before column `be`. -/
def column (be : ℕ) (s : St Θ) (c : ℕ) : St Θ :=
  let θ := P.recompute s.θ s.w c
  let qc : ℕ → ℚ := fun r => P.qd θ r (P.order c) (s.wb r c)
  let ec : ℕ → ℚ := fun r => (s.wb r c - qc r) / P.U c c
  { θ := θ
    w := s.w
    wb := fun r k => if c < k ∧ k < be then s.wb r k - ec r * P.U c k else s.wb r k
    q := setCol s.q c qc
    e := setCol s.e c ec }

/-- `gptq.py:101-136`: the body of the outer loop for the block that begins at column `i`. -/
def block (blockSize : ℕ) (s : St Θ) (i : ℕ) : St Θ :=
  let be := min (i + blockSize) P.columns
  let s' := ((List.range (be - i)).map (i + ·)).foldl (column P be) { s with wb := s.w }
  { s' with w := fun r k => if be ≤ k then s'.w r k - ∑ c ∈ Ico i be, s'.e r c * P.U c k else s'.w r k }

/-- The outer loop `for i in range(0, columns, block_size)`. -/
def run (blockSize : ℕ) (s : St Θ) : St Θ :=
  ((List.range ((P.columns + blockSize - 1) / blockSize)).map (· * blockSize)).foldl (block P blockSize) s

/-- `gptq.py:84-88`: the weights with their columns in order, and zeros. -/
def start (θ : Θ) (W : Mat) : St Θ := { θ := θ, w := fun r k => W r (P.order k), wb := fun _ _ => 0, q := fun _ _ => 0, e := fun _ _ => 0 }

/-- `gptq.py:138`: `argsort(column_order)`, for an order that is a permutation: the position of a column in the order. -/
def restore (c : ℕ) : ℕ := (List.range P.columns).findIdx (fun k => P.order k == c)

/-- `gptq.py:84-142`: the quantizer parameters and the weights written back. -/
def gptq (blockSize : ℕ) (θ : Θ) (W : Mat) : Θ × Mat :=
  let s := run P blockSize (start P θ W)
  (s.θ, fun r c => s.q r (restore P c))

end

/-- The parameters of a linear quantizer by tile number: scales and, if there is one, offsets. -/
structure Params where
  s : ℕ → ℚ
  o : Option (ℕ → ℚ)

/-- A call of `gptq` after calibration: an `R × C` weight with tiles of `rb × cb` (`blocked`: the granularity is `PerBlock` or `PerTile`),
`n` bits, the settings of the quantizer, the factor and the order by activations. -/
structure Setup where
  R : ℕ
  C : ℕ
  rb : ℕ
  cb : ℕ
  blocked : Bool
  actorder : Bool
  perm : ℕ → ℕ
  U : Mat
  n : ℕ
  eps : ℚ
  symmetric : Bool
  oneSided : Bool

namespace Setup
variable (S : Setup)

/-- The tile of an element (`FF.GptqCol.column_quantizer_eq_full` shows that this is what `column_quantizer` selects). -/
def tile (r c : ℕ) : ℕ := r / S.rb * (S.C / S.cb) + c / S.cb

/-- `gptq.py:124-126`: the column quantizer on one element. Simplification: a zero scale (for which the code produces `nan`) gives zero. -/
def qd (θ : Params) (r c : ℕ) (x : ℚ) : ℚ :=
  let s := θ.s (S.tile r c)
  let o := θ.o.map (· (S.tile r c))
  ((FF.Quant.quantizeScalar s o S.n x).map (FF.Quant.dequantizeScalar s o)).getD 0

/-- `gptq.py:92-99`: `recompute_scales`. -/
def recomputes : Bool := S.blocked && decide (1 < S.C / S.cb) && !S.actorder

/-- `gptq.py:111-115`: one row of `group_weights.reshape(num_row_blocks, -1)`. -/
def groupValues (w : Mat) (b c : ℕ) : List ℚ :=
  (List.range S.rb).flatMap fun i => (List.range S.cb).map fun j => w (b * S.rb + i) (c + j)

/-- `gptq.py:109-122` with `update_partial_range` (`gptq.py:263-277`): new parameters for the tiles of the column group that begins at
column `c`. Simplification: an infinite scale (one bit, symmetric) is written as zero. -/
def recompute (θ : Params) (w : Mat) (c : ℕ) : Params :=
  if S.recomputes = true ∧ c % S.cb = 0 then
    match FF.Quant.parametersForRange S.eps S.n S.symmetric S.oneSided
        ((List.range (S.R / S.rb)).map fun b => FF.Quant.rowRange (S.groupValues w b c)) with
    | .error _ => θ                                                    -- no rows; the reduction at line 118 fails
    | .ok (s, o) =>
      { s := fun k => if k % (S.C / S.cb) = c / S.cb then (s.getD (k / (S.C / S.cb)) none).getD 0 else θ.s k
        o := θ.o.map fun l k => if k % (S.C / S.cb) = c / S.cb then (o.map fun l => l.getD (k / (S.C / S.cb)) 0).getD 0 else l k }
  else θ

/-- The loops of this call. `gptq.py:81-83`: the columns are in their order unless `actorder` is set. -/
def problem : Problem Params :=
  { columns := S.C, U := S.U, order := fun c => if S.actorder then S.perm c else c, qd := S.qd, recompute := S.recompute }

end Setup

/-! ## Specification: one column at a time -/

section
variable {Θ : Type}

/-- The weights corrected for the errors of the columns before `c`. -/
def corrected (U W e : Mat) (c : ℕ) : Mat := fun r k => W r k - ∑ j ∈ range c, e r j * U j k

/-- The GPTQ recurrence for the (ordered) weights `W`: each column is corrected for the errors of all columns before it and then
quantized; `e` is its error relative to the diagonal. `θ c` are the quantizer parameters before column `c`; the parameters for a group
of columns are recomputed from the weights corrected for the columns before column `seen c`. -/
structure Solves (P : Problem Θ) (seen : ℕ → ℕ) (W : Mat) (θ : ℕ → Θ) (q e : Mat) (n : ℕ) : Prop where
  params : ∀ c < n, θ (c + 1) = P.recompute (θ c) (corrected P.U W e (seen c)) c
  quantized : ∀ c < n, ∀ r, q r c = P.qd (θ (c + 1)) r (P.order c) (corrected P.U W e c r c)
  error : ∀ c < n, ∀ r, e r c = (corrected P.U W e c r c - q r c) / P.U c c

/-- Recomputing the parameters before column `c` reads the weights from column `c` on only. -/
def ReadsAhead (P : Problem Θ) : Prop :=
  ∀ θ M M' c, (∀ r k, c ≤ k → M r k = M' r k) → P.recompute θ M c = P.recompute θ M' c

/-- The order of the columns is a permutation. -/
def IsOrder (P : Problem Θ) : Prop :=
  (∀ c < P.columns, P.order c < P.columns) ∧ (∀ c < P.columns, ∀ c' < P.columns, P.order c = P.order c' → c = c')
    ∧ ∀ c < P.columns, ∃ k < P.columns, P.order k = c

/-! ## Lemmas -/

theorem corrected_congr (U W e e' : Mat) (c : ℕ) (r k : ℕ) (h : ∀ j < c, e r j = e' r j) :
    corrected U W e c r k = corrected U W e' c r k := by
  unfold corrected
  congr 1
  exact sum_congr rfl (fun j hj => by rw [h j (mem_range.1 hj)])

theorem corrected_succ (U W e : Mat) (c r k : ℕ) : corrected U W e (c + 1) r k = corrected U W e c r k - e r c * U c k := by
  unfold corrected
  rw [sum_range_succ]
  ring

/-- The recurrence has one solution. -/
theorem Solves.unique {P : Problem Θ} {seen : ℕ → ℕ} {W : Mat} {θ θ' : ℕ → Θ} {q e q' e' : Mat} {n : ℕ}
    (hseen : ∀ c < n, seen c ≤ c) (h : Solves P seen W θ q e n) (h' : Solves P seen W θ' q' e' n) (h0 : θ 0 = θ' 0) :
    (∀ c ≤ n, θ c = θ' c) ∧ ∀ c < n, ∀ r, q r c = q' r c ∧ e r c = e' r c := by
  have key : ∀ m ≤ n, (∀ c ≤ m, θ c = θ' c) ∧ ∀ c < m, ∀ r, q r c = q' r c ∧ e r c = e' r c := by
    intro m
    induction m with
    | zero => exact fun _ => ⟨fun c hc => by rw [Nat.le_zero.1 hc, h0], fun c hc => absurd hc (Nat.not_lt_zero c)⟩
    | succ m ih =>
      intro hm
      obtain ⟨ih1, ih2⟩ := ih (by omega)
      have hcor : ∀ c ≤ m, corrected P.U W e c = corrected P.U W e' c := by
        intro c hc
        funext r k
        exact corrected_congr _ _ _ _ _ _ _ (fun j hj => (ih2 j (by omega) r).2)
      have hθ : θ (m + 1) = θ' (m + 1) := by
        rw [h.params m (by omega), h'.params m (by omega), ih1 m (Nat.le_refl m), hcor _ (hseen m (by omega))]
      have hq : ∀ r, q r m = q' r m := by
        intro r
        rw [h.quantized m (by omega), h'.quantized m (by omega), hθ, hcor m (Nat.le_refl m)]
      refine ⟨?_, ?_⟩
      · intro c hc
        rcases Nat.lt_or_ge c (m + 1) with hlt | hge
        · exact ih1 c (by omega)
        · have : c = m + 1 := by omega
          rw [this, hθ]
      · intro c hc r
        rcases Nat.lt_or_ge c m with hlt | hge
        · exact ih2 c hlt r
        · have : c = m := by omega
          subst this
          refine ⟨hq r, ?_⟩
          rw [h.error c (by omega), h'.error c (by omega), hq r, hcor c (Nat.le_refl c)]
  exact key n (Nat.le_refl n)

/-- Invariant inside the block that begins at column `i`, before column `c`. -/
structure Inv (P : Problem Θ) (seen : ℕ → ℕ) (W : Mat) (θ0 : Θ) (i be c : ℕ) (s : St Θ) (θ : ℕ → Θ) : Prop where
  solves : Solves P seen W θ s.q s.e c
  zero : θ 0 = θ0
  here : s.θ = θ c
  outer : ∀ r k, i ≤ k → s.w r k = corrected P.U W s.e i r k
  inner : ∀ r k, c ≤ k → k < be → s.wb r k = corrected P.U W s.e c r k

theorem column_inv {P : Problem Θ} {seen : ℕ → ℕ} {W : Mat} {θ0 : Θ} {i be c : ℕ} {s : St Θ} {θ : ℕ → Θ} (hr : ReadsAhead P)
    (hi : i ≤ c) (hc : c < be) (hs : seen c = i) (hs' : ∀ k < c, seen k ≤ k) (h : Inv P seen W θ0 i be c s θ) :
    ∃ θ', Inv P seen W θ0 i be (c + 1) (column P be s c) θ' := by
  have hne : ∀ j < c, ∀ r, (column P be s c).e r j = s.e r j := by
    intro j hj r
    simp only [column, setCol]
    rw [if_neg (by omega)]
  have hnq : ∀ j < c, ∀ r, (column P be s c).q r j = s.q r j := by
    intro j hj r
    simp only [column, setCol]
    rw [if_neg (by omega)]
  have hcor : ∀ k ≤ c, corrected P.U W (column P be s c).e k = corrected P.U W s.e k := by
    intro k hk
    funext r l
    exact corrected_congr _ _ _ _ _ _ _ (fun j hj => hne j (by omega) r)
  have hθ : (column P be s c).θ = P.recompute (θ c) (corrected P.U W s.e i) c := by
    show P.recompute s.θ s.w c = _
    rw [h.here]
    exact hr _ _ _ _ (fun r k hk => h.outer r k (by omega))
  have hqc : ∀ r, (column P be s c).q r c = P.qd (column P be s c).θ r (P.order c) (corrected P.U W s.e c r c) := by
    intro r
    rw [← h.inner r c (Nat.le_refl c) hc]
    simp only [column, setCol, if_true]
  have hec : ∀ r, (column P be s c).e r c = (corrected P.U W s.e c r c - (column P be s c).q r c) / P.U c c := by
    intro r
    rw [← h.inner r c (Nat.le_refl c) hc]
    simp only [column, setCol, if_true]
  refine ⟨fun k => if k ≤ c then θ k else (column P be s c).θ, ?_, ?_, ?_, ?_, ?_⟩
  · refine ⟨?_, ?_, ?_⟩
    · intro k hk
      rcases Nat.lt_or_ge k c with hlt | hge
      · rw [if_pos (by omega), if_pos (by omega), h.solves.params k hlt, hcor _ (by have := hs' k hlt; omega)]
      · have : k = c := by omega
        subst this
        rw [if_neg (by omega), if_pos (Nat.le_refl k), hθ, hcor _ (by omega), hs]
    · intro k hk r
      rcases Nat.lt_or_ge k c with hlt | hge
      · rw [if_pos (by omega), hnq k hlt, h.solves.quantized k hlt, hcor _ (by omega)]
      · have : k = c := by omega
        subst this
        rw [if_neg (by omega), hqc, hcor _ (Nat.le_refl k)]
    · intro k hk r
      rcases Nat.lt_or_ge k c with hlt | hge
      · rw [hne k hlt, hnq k hlt, h.solves.error k hlt, hcor _ (by omega)]
      · have : k = c := by omega
        subst this
        rw [hec, hcor _ (Nat.le_refl k)]
  · rw [if_pos (Nat.zero_le c), h.zero]
  · rw [if_neg (by omega)]
  · intro r k hk
    rw [hcor i hi]
    exact h.outer r k hk
  · intro r k hk hk'
    rw [corrected_succ, hcor c (Nat.le_refl c), hec]
    have : (column P be s c).wb r k = s.wb r k - (s.wb r c - (column P be s c).q r c) / P.U c c * P.U c k := by
      simp only [column, setCol, if_true]
      rw [if_pos ⟨by omega, hk'⟩]
    rw [this, h.inner r k (by omega) hk', h.inner r c (Nat.le_refl c) hc]

theorem columns_inv {P : Problem Θ} {seen : ℕ → ℕ} {W : Mat} {θ0 : Θ} {i be : ℕ} (hr : ReadsAhead P)
    (hs : ∀ c, i ≤ c → c < be → seen c = i) (hs' : ∀ k < be, seen k ≤ k) (n : ℕ) (hn : i + n ≤ be) (s : St Θ) (θ : ℕ → Θ)
    (h : Inv P seen W θ0 i be i s θ) :
    ∃ θ', Inv P seen W θ0 i be (i + n) (((List.range n).map (i + ·)).foldl (column P be) s) θ' := by
  induction n with
  | zero => exact ⟨θ, h⟩
  | succ n ih =>
    obtain ⟨θ', h'⟩ := ih (by omega)
    rw [List.range_succ, List.map_append, List.foldl_append]
    exact column_inv (c := i + n) hr (by omega) (by omega) (hs _ (by omega) (by omega)) (fun k hk => hs' k (by omega)) h'

/-- Invariant between blocks, before column `i`. -/
structure Outer (P : Problem Θ) (seen : ℕ → ℕ) (W : Mat) (θ0 : Θ) (i : ℕ) (s : St Θ) (θ : ℕ → Θ) : Prop where
  solves : Solves P seen W θ s.q s.e i
  zero : θ 0 = θ0
  here : s.θ = θ i
  outer : ∀ r k, i ≤ k → s.w r k = corrected P.U W s.e i r k

theorem block_inv {P : Problem Θ} {seen : ℕ → ℕ} {W : Mat} {θ0 : Θ} {i bs : ℕ} {s : St Θ} {θ : ℕ → Θ} (hr : ReadsAhead P)
    (hi : i ≤ P.columns) (hs : ∀ c, i ≤ c → c < min (i + bs) P.columns → seen c = i)
    (hs' : ∀ k < P.columns, seen k ≤ k) (h : Outer P seen W θ0 i s θ) :
    ∃ θ', Outer P seen W θ0 (min (i + bs) P.columns) (block P bs s i) θ' := by
  have hle : i ≤ min (i + bs) P.columns := by omega
  obtain ⟨θ', h'⟩ := columns_inv (P := P) (seen := seen) (W := W) (θ0 := θ0) (i := i) (be := min (i + bs) P.columns) hr hs
    (fun k hk => hs' k (by omega)) (min (i + bs) P.columns - i) (by omega) { s with wb := s.w } θ
    ⟨h.solves, h.zero, h.here, h.outer, fun r k hk _ => h.outer r k hk⟩
  rw [Nat.add_sub_cancel' hle] at h'
  refine ⟨θ', h'.solves, h'.zero, h'.here, ?_⟩
  intro r k hk
  simp only [block]
  rw [if_pos hk, h'.outer r k (by omega)]
  unfold corrected
  rw [sub_sub, Finset.sum_range_add_sum_Ico _ hle]

theorem blockStart_eq {bs b c : ℕ} (h1 : b * bs ≤ c) (h2 : c < b * bs + bs) : c - c % bs = b * bs := by
  have hm : c % bs = c - b * bs := by
    obtain ⟨d, rfl⟩ := Nat.exists_eq_add_of_le h1
    rw [Nat.add_comm, Nat.add_mul_mod_self_right, Nat.mod_eq_of_lt (by omega)]
    omega
  omega

theorem run_solves (P : Problem Θ) (bs : ℕ) (hbs : 0 < bs) (hr : ReadsAhead P) (θ0 : Θ) (s0 : St Θ) (hθ : s0.θ = θ0) :
    ∃ θ, θ 0 = θ0 ∧ (run P bs s0).θ = θ P.columns
      ∧ Solves P (fun c => c - c % bs) s0.w θ (run P bs s0).q (run P bs s0).e P.columns := by
  have key : ∀ n, (n - 1) * bs ≤ P.columns → ∃ θ, Outer P (fun c => c - c % bs) s0.w θ0 (min (n * bs) P.columns)
      (((List.range n).map (· * bs)).foldl (block P bs) s0) θ := by
    intro n
    induction n with
    | zero =>
      intro _
      refine ⟨fun _ => θ0, ?_, rfl, hθ, ?_⟩
      · rw [Nat.zero_mul, Nat.zero_min]
        exact ⟨fun c hc => absurd hc (Nat.not_lt_zero c), fun c hc => absurd hc (Nat.not_lt_zero c),
          fun c hc => absurd hc (Nat.not_lt_zero c)⟩
      · intro r k _
        rw [Nat.zero_mul, Nat.zero_min]
        simp [corrected]
    | succ n ih =>
      intro hn
      rw [Nat.add_sub_cancel] at hn
      obtain ⟨θ, h⟩ := ih (Nat.le_trans (Nat.mul_le_mul_right bs (Nat.sub_le n 1)) hn)
      rw [Nat.min_eq_left hn] at h
      rw [List.range_succ, List.map_append, List.foldl_append]
      have := block_inv (P := P) (bs := bs) (i := n * bs) hr hn
        (fun c h1 h2 => blockStart_eq h1 (by omega)) (fun k _ => Nat.sub_le k _) h
      rw [Nat.succ_mul]
      exact this
  have hlast : ((P.columns + bs - 1) / bs - 1) * bs ≤ P.columns := by
    have := Nat.div_mul_le_self (P.columns + bs - 1) bs
    rw [Nat.sub_mul, Nat.one_mul]
    omega
  obtain ⟨θ, h⟩ := key _ hlast
  have hcover : min ((P.columns + bs - 1) / bs * bs) P.columns = P.columns := by
    apply Nat.min_eq_right
    have := Nat.div_add_mod (P.columns + bs - 1) bs
    have hm := Nat.mod_lt (P.columns + bs - 1) hbs
    rw [Nat.mul_comm] at this
    omega
  rw [hcover] at h
  exact ⟨θ, h.zero, h.here, h.solves⟩

theorem restore_order {P : Problem Θ} (h : IsOrder P) {c : ℕ} (hc : c < P.columns) : restore P (P.order c) = c := by
  unfold restore
  rw [List.findIdx_eq (by simpa using hc)]
  refine ⟨by simp, ?_⟩
  intro j hj
  simp only [List.getElem_range, beq_eq_false_iff_ne, ne_eq]
  intro e
  have := h.2.1 j (by omega) c hc e
  omega

/-- What the recomputation sees may be replaced by something the recomputation cannot tell from it. -/
theorem Solves.seen {P : Problem Θ} {seen seen' : ℕ → ℕ} {W : Mat} {θ : ℕ → Θ} {q e : Mat} {n : ℕ} (h : Solves P seen W θ q e n)
    (hs : ∀ c < n, ∀ θ, P.recompute θ (corrected P.U W e (seen c)) c = P.recompute θ (corrected P.U W e (seen' c)) c) :
    Solves P seen' W θ q e n :=
  ⟨fun c hc => by rw [h.params c hc, hs c hc], h.quantized, h.error⟩

theorem setup_readsAhead (S : Setup) : ReadsAhead S.problem := by
  intro θ M M' c h
  have hg : ∀ b, S.groupValues M b c = S.groupValues M' b c := by
    intro b
    unfold Setup.groupValues
    congr 1
    funext i
    exact List.map_congr_left (fun j _ => h _ _ (Nat.le_add_right c j))
  show S.recompute θ M c = S.recompute θ M' c
  unfold Setup.recompute
  simp only [hg]

theorem setup_recompute_seen (S : Setup) (bs : ℕ) (h : S.recomputes = false ∨ bs ∣ S.cb) (f : ℕ → Mat) (θ : Params) (c : ℕ) :
    S.recompute θ (f (c - c % bs)) c = S.recompute θ (f c) c := by
  by_cases hc : S.recomputes = true ∧ c % S.cb = 0
  · rcases h with h | h
    · rw [h] at hc
      exact absurd hc.1 (by decide)
    · have : c % bs = 0 := Nat.mod_eq_zero_of_dvd (Nat.dvd_trans h (Nat.dvd_of_mod_eq_zero hc.2))
      rw [this, Nat.sub_zero]
  · unfold Setup.recompute
    rw [if_neg hc, if_neg hc]

/-- The parameters of a tile are not changed after a column of the tile has been reached. -/
theorem params_settled (S : Setup) (hcd : S.cb ∣ S.C) {seen : ℕ → ℕ} {W : Mat} {θ : ℕ → Params} {q e : Mat}
    (h : Solves S.problem seen W θ q e S.C) (r c : ℕ) (hc : c < S.C) (m : ℕ) (hm : c + 1 + m ≤ S.C) :
    (θ (c + 1 + m)).s (S.tile r c) = (θ (c + 1)).s (S.tile r c)
    ∧ (θ (c + 1 + m)).o.map (· (S.tile r c)) = (θ (c + 1)).o.map (· (S.tile r c)) := by
  induction m with
  | zero => exact ⟨rfl, rfl⟩
  | succ m ih =>
    obtain ⟨ih1, ih2⟩ := ih (by omega)
    have hp := h.params (c + 1 + m) (by show _ < S.C; omega)
    rw [← ih1, ← ih2, ← Nat.add_assoc, hp]
    show (S.recompute _ _ _).s _ = _ ∧ (S.recompute _ _ _).o.map _ = _
    unfold Setup.recompute
    by_cases hr : S.recomputes = true ∧ (c + 1 + m) % S.cb = 0
    · rw [if_pos hr]
      have hlt : c / S.cb < S.C / S.cb := Nat.div_lt_div_of_lt_of_dvd hcd hc
      have hmod : S.tile r c % (S.C / S.cb) = c / S.cb := by
        unfold Setup.tile
        rw [Nat.add_comm, Nat.add_mul_mod_self_right, Nat.mod_eq_of_lt hlt]
      have hne : ¬ S.tile r c % (S.C / S.cb) = (c + 1 + m) / S.cb := by
        rw [hmod]
        intro e
        have h1 := Nat.div_add_mod (c + 1 + m) S.cb
        rw [hr.2, Nat.add_zero, ← e] at h1
        have h2 := Nat.mul_div_le c S.cb
        omega
      split
      · exact ⟨rfl, rfl⟩
      · dsimp only
        rw [if_neg hne]
        refine ⟨rfl, ?_⟩
        cases (θ (c + 1 + m)).o with
        | none => rfl
        | some l => simp only [Option.map_some]; rw [if_neg hne]
    · rw [if_neg hr]
      exact ⟨rfl, rfl⟩

/-- Smallest and largest value of a matrix over a rectangle. -/
structure IsRange (M : Mat) (rows cols : ℕ → Prop) (lo hi : ℚ) : Prop where
  lower : ∀ r c, rows r → cols c → lo ≤ M r c
  upper : ∀ r c, rows r → cols c → M r c ≤ hi
  lowerAttained : ∃ r c, rows r ∧ cols c ∧ M r c = lo
  upperAttained : ∃ r c, rows r ∧ cols c ∧ M r c = hi

theorem groupValues_range (S : Setup) (w : Mat) (b c0 : ℕ) (hrb : 0 < S.rb) (hcb : 0 < S.cb) (hc : c0 % S.cb = 0) :
    IsRange w (fun r => r / S.rb = b) (fun c => c / S.cb = c0 / S.cb) (FF.Quant.rowRange (S.groupValues w b c0)).1
      (FF.Quant.rowRange (S.groupValues w b c0)).2 := by
  have hmem : ∀ r c, r / S.rb = b → c / S.cb = c0 / S.cb → w r c ∈ S.groupValues w b c0 := by
    intro r c hr hc'
    unfold Setup.groupValues
    refine List.mem_flatMap.2 ⟨r % S.rb, List.mem_range.2 (Nat.mod_lt _ hrb), List.mem_map.2 ⟨c % S.cb, List.mem_range.2 (Nat.mod_lt _ hcb), ?_⟩⟩
    have h1 := Nat.div_add_mod r S.rb
    have h2 := Nat.div_add_mod c S.cb
    have h3 := Nat.div_add_mod c0 S.cb
    rw [hr, Nat.mul_comm] at h1
    rw [hc'] at h2
    rw [hc, Nat.add_zero] at h3
    rw [h1, show c0 + c % S.cb = c by omega]
  have hinv : ∀ x ∈ S.groupValues w b c0, ∃ r c, r / S.rb = b ∧ c / S.cb = c0 / S.cb ∧ w r c = x := by
    intro x hx
    unfold Setup.groupValues at hx
    obtain ⟨i, hi, hx⟩ := List.mem_flatMap.1 hx
    obtain ⟨j, hj, rfl⟩ := List.mem_map.1 hx
    rw [List.mem_range] at hi hj
    refine ⟨_, _, ?_, ?_, rfl⟩
    · rw [Nat.add_comm, Nat.add_mul_div_right _ _ hrb, Nat.div_eq_of_lt hi, Nat.zero_add]
    · obtain ⟨d, hd⟩ := Nat.dvd_of_mod_eq_zero hc
      rw [hd, Nat.mul_div_cancel_left _ hcb, Nat.add_comm, Nat.add_mul_div_left _ _ hcb, Nat.div_eq_of_lt hj, Nat.zero_add]
  have hne : S.groupValues w b c0 ≠ [] := by
    refine List.ne_nil_of_mem (hmem (b * S.rb) c0 ?_ rfl)
    exact Nat.mul_div_cancel _ hrb
  obtain ⟨h1, h2⟩ := FF.Quant.rowRange_fst_mem _ hne
  exact ⟨fun r c hr hc => (FF.Quant.rowRange_mem _ _ (hmem r c hr hc)).1, fun r c hr hc => (FF.Quant.rowRange_mem _ _ (hmem r c hr hc)).2,
    by obtain ⟨r, c, a, b, e⟩ := hinv _ h1; exact ⟨r, c, a, b, e⟩, by obtain ⟨r, c, a, b, e⟩ := hinv _ h2; exact ⟨r, c, a, b, e⟩⟩

end

/-! ## Properties -/

/-- **C73.** For every positive block size, the weights and parameters `gptq` leaves behind are the solution of the GPTQ recurrence, in
which every column is corrected for the errors of all columns before it; new parameters for a group of columns are computed from the
weights corrected for the columns before the block the group begins in. Results are stored at the original position of each column. -/
theorem gptq_solves (S : Setup) (bs : ℕ) (hbs : 0 < bs) (ho : IsOrder S.problem) (θ₀ : Params) (W : Mat) :
    ∃ θ q e, Solves S.problem (fun c => c - c % bs) (fun r k => W r (S.problem.order k)) θ q e S.C ∧ θ 0 = θ₀
      ∧ (gptq S.problem bs θ₀ W).1 = θ S.C ∧ ∀ r, ∀ c < S.C, (gptq S.problem bs θ₀ W).2 r (S.problem.order c) = q r c := by
  obtain ⟨θ, h0, h1, h2⟩ := run_solves S.problem bs hbs (setup_readsAhead S) θ₀ (start S.problem θ₀ W) rfl
  refine ⟨θ, _, _, h2, h0, h1, ?_⟩
  intro r c hc
  show (run S.problem bs (start S.problem θ₀ W)).q r (restore S.problem (S.problem.order c)) = _
  rw [restore_order ho hc]

/-- **C73 (partial).** If no parameters are recomputed, or if the block size divides the width of the column groups, then the block size
does not matter: the result is the solution of the column-by-column recurrence in which every column and every group of columns is
corrected for the errors of all columns before it. Missing: groups that begin inside a block (see `stale_group_weights`). -/
theorem block_size_irrelevant_partial (S : Setup) (bs : ℕ) (hbs : 0 < bs) (hg : S.recomputes = false ∨ bs ∣ S.cb)
    (ho : IsOrder S.problem) (θ₀ : Params) (W : Mat) (θ : ℕ → Params) (q e : Mat) (h0 : θ 0 = θ₀)
    (h : Solves S.problem (fun c => c) (fun r k => W r (S.problem.order k)) θ q e S.C) :
    (gptq S.problem bs θ₀ W).1 = θ S.C ∧ ∀ r, ∀ c < S.C, (gptq S.problem bs θ₀ W).2 r (S.problem.order c) = q r c := by
  obtain ⟨θ', q', e', h', h0', h1', h2'⟩ := gptq_solves S bs hbs ho θ₀ W
  have hs := h'.seen (seen' := fun c => c) (fun c _ θ =>
    setup_recompute_seen S bs hg (corrected S.problem.U (fun r k => W r (S.problem.order k)) e') θ c)
  obtain ⟨u1, u2⟩ := Solves.unique (fun c _ => Nat.le_refl c) hs h (h0'.trans h0.symm)
  refine ⟨by rw [h1', u1 S.C (Nat.le_refl _)], ?_⟩
  intro r c hc
  rw [h2' r c hc, (u2 c hc r).1]

/-- **C73 (partial).** Under the same conditions two calls with different block sizes leave the same parameters and weights. -/
theorem block_sizes_agree_partial (S : Setup) (bs bs' : ℕ) (hbs : 0 < bs) (hbs' : 0 < bs')
    (hg : S.recomputes = false ∨ bs ∣ S.cb ∧ bs' ∣ S.cb) (ho : IsOrder S.problem) (θ₀ : Params) (W : Mat) :
    (gptq S.problem bs θ₀ W).1 = (gptq S.problem bs' θ₀ W).1
    ∧ ∀ r, ∀ c < S.C, (gptq S.problem bs θ₀ W).2 r c = (gptq S.problem bs' θ₀ W).2 r c := by
  obtain ⟨θ', q', e', h', h0', h1', h2'⟩ := gptq_solves S bs' hbs' ho θ₀ W
  have hs := h'.seen (seen' := fun c => c) (fun c _ θ =>
    setup_recompute_seen S bs' (hg.imp id And.right) (corrected S.problem.U (fun r k => W r (S.problem.order k)) e') θ c)
  obtain ⟨a1, a2⟩ := block_size_irrelevant_partial S bs hbs (hg.imp id And.left) ho θ₀ W θ' q' e' h0' hs
  refine ⟨by rw [a1, h1'], ?_⟩
  intro r c hc
  obtain ⟨k, hk, rfl⟩ := ho.2.2 c hc
  rw [a2 r k hk, h2' r k hk]

/-- **C73.** If the parameters of column groups are recomputed, the quantizer parameters `gptq` leaves for the tiles of a group are those
for the smallest and largest (corrected) weights of these tiles: for the group that begins at column `c₀` and row block `b`, entry `b` of
what `parameters_for_range` (C05, C06) gives for the ranges of the row blocks. A missing offset is stored as zero. The corrected weights are
those of the recurrence before the block in which the group begins. -/
theorem group_parameters (S : Setup) (bs : ℕ) (hbs : 0 < bs) (hrec : S.recomputes = true) (hrb : 0 < S.rb) (hrd : S.rb ∣ S.R) (hR : 0 < S.R)
    (hcb : 0 < S.cb) (hcd : S.cb ∣ S.C) (θ₀ : Params) (W : Mat) :
    ∃ θ q e, Solves S.problem (fun c => c - c % bs) W θ q e S.C ∧ (∀ r, ∀ c < S.C, (gptq S.problem bs θ₀ W).2 r c = q r c)
      ∧ ∀ c₀ < S.C, c₀ % S.cb = 0 → ∃ rs s o,
      FF.Quant.parametersForRange S.eps S.n S.symmetric S.oneSided rs = .ok (s, o) ∧ rs.length = S.R / S.rb
      ∧ (∀ b lo hi, rs[b]? = some (lo, hi) → IsRange (corrected S.U W e (c₀ - c₀ % bs)) (fun r => r / S.rb = b) (fun c => c / S.cb = c₀ / S.cb) lo hi)
      ∧ ∀ r < S.R, ∀ c < S.C, c / S.cb = c₀ / S.cb →
        (gptq S.problem bs θ₀ W).1.s (S.tile r c) = (s.getD (r / S.rb) none).getD 0
        ∧ (gptq S.problem bs θ₀ W).1.o.map (· (S.tile r c)) = θ₀.o.map (fun _ => (o.map fun l => l.getD (r / S.rb) 0).getD 0) := by
  have hact : S.actorder = false := by
    unfold Setup.recomputes at hrec
    cases h : S.actorder
    · rfl
    · rw [h] at hrec; simp at hrec
  have hord : ∀ k, S.problem.order k = k := by
    intro k
    show (if S.actorder then S.perm k else k) = k
    rw [hact]; rfl
  have ho : IsOrder S.problem := ⟨fun c hc => by rw [hord]; exact hc, fun c _ c' _ h => by rwa [hord, hord] at h, fun c hc => ⟨c, hc, hord c⟩⟩
  obtain ⟨θ, q, e, h, h0, h1, h2⟩ := gptq_solves S bs hbs ho θ₀ W
  simp only [hord] at h h2
  have hsome : ∀ m ≤ S.C, (θ m).o.isSome = θ₀.o.isSome := by
    intro m
    induction m with
    | zero => intro _; rw [h0]
    | succ m ih =>
      intro hm
      rw [h.params m (by omega), ← ih (by omega)]
      show (S.recompute _ _ _).o.isSome = _
      unfold Setup.recompute
      split
      · split
        · rfl
        · simp
      · rfl
  refine ⟨θ, q, e, h, h2, ?_⟩
  intro c₀ hc₀ hmod
  have hp := h.params c₀ hc₀
  have hbpos : 0 < S.R / S.rb := Nat.div_pos (Nat.le_of_dvd hR hrd) hrb
  generalize hM : corrected S.problem.U W e (c₀ - c₀ % bs) = M at hp
  have hM' : corrected S.U W e (c₀ - c₀ % bs) = M := hM
  rw [hM']
  generalize hrs : (List.range (S.R / S.rb)).map (fun b => FF.Quant.rowRange (S.groupValues M b c₀)) = rs
  have hlen : rs.length = S.R / S.rb := by rw [← hrs]; simp
  obtain ⟨s, o, hso⟩ : ∃ s o, FF.Quant.parametersForRange S.eps S.n S.symmetric S.oneSided rs = .ok (s, o) := by
    obtain ⟨a, ra, hra⟩ := List.exists_cons_of_ne_nil (List.ne_nil_of_length_pos (by omega : 0 < rs.length))
    rw [hra]
    unfold FF.Quant.parametersForRange
    simp only [List.map_cons, FF.Quant.listMin, bind, Except.bind, pure, Except.pure]
    split_ifs <;> exact ⟨_, _, rfl⟩
  refine ⟨rs, s, o, hso, hlen, ?_, ?_⟩
  · intro b lo hi hb
    have hlt : b < S.R / S.rb := by
      rw [← hlen]
      exact (List.getElem?_eq_some_iff.1 hb).1
    rw [← hrs, List.getElem?_map, List.getElem?_range hlt, Option.map_some, Option.some.injEq] at hb
    have := groupValues_range S M b c₀ hrb hcb hmod
    rw [hb] at this
    exact this
  · intro r hr c hc hcc
    have htile : S.tile r c = S.tile r c₀ := by unfold Setup.tile; rw [hcc]
    have hset := params_settled S hcd h r c₀ hc₀ (S.C - (c₀ + 1)) (by omega)
    rw [Nat.add_sub_cancel' (by omega : c₀ + 1 ≤ S.C)] at hset
    rw [htile, h1, hset.1, hset.2, hp]
    have hlt : c₀ / S.cb < S.C / S.cb := Nat.div_lt_div_of_lt_of_dvd hcd hc₀
    have hm : S.tile r c₀ % (S.C / S.cb) = c₀ / S.cb := by
      unfold Setup.tile
      rw [Nat.add_comm, Nat.add_mul_mod_self_right, Nat.mod_eq_of_lt hlt]
    have hd : S.tile r c₀ / (S.C / S.cb) = r / S.rb := by
      unfold Setup.tile
      rw [Nat.add_comm, Nat.add_mul_div_right _ _ (by omega), Nat.div_eq_of_lt hlt, Nat.zero_add]
    show (S.recompute _ _ _).s _ = _ ∧ (S.recompute _ _ _).o.map _ = _
    unfold Setup.recompute
    rw [if_pos ⟨hrec, hmod⟩, hrs, hso]
    dsimp only
    rw [if_pos hm, hd]
    refine ⟨rfl, ?_⟩
    have hsm := hsome c₀ (by omega)
    cases hθ : (θ c₀).o with
    | none =>
      rw [hθ] at hsm
      cases hθ' : θ₀.o with
      | none => rfl
      | some _ => rw [hθ'] at hsm; cases hsm
    | some l =>
      rw [hθ] at hsm
      cases hθ' : θ₀.o with
      | none => rw [hθ'] at hsm; cases hsm
      | some _ => simp only [Option.map_some, if_pos hm, hd]

/-- **C74.** After `gptq`, for every block size, column order and granularity, quantizing the stored weight with the stored quantizer
parameters gives back the stored weight, wherever the scale is not zero. -/
theorem requantizing_changes_nothing (S : Setup) (bs : ℕ) (hbs : 0 < bs) (hcd : S.cb ∣ S.C) (ho : IsOrder S.problem)
    (θ₀ : Params) (W : Mat) (r c : ℕ) (hc : c < S.C) (hs : (gptq S.problem bs θ₀ W).1.s (S.tile r c) ≠ 0) :
    S.qd (gptq S.problem bs θ₀ W).1 r c ((gptq S.problem bs θ₀ W).2 r c) = (gptq S.problem bs θ₀ W).2 r c := by
  obtain ⟨θ, q, e, h, h0, h1, h2⟩ := gptq_solves S bs hbs ho θ₀ W
  obtain ⟨k, hk, hkc⟩ := ho.2.2 c hc
  have hk' : k < S.C := hk
  have hsame : (θ S.C).s (S.tile r c) = (θ (k + 1)).s (S.tile r c)
      ∧ (θ S.C).o.map (· (S.tile r c)) = (θ (k + 1)).o.map (· (S.tile r c)) := by
    by_cases ha : S.actorder = true
    · have hno : ∀ θ w c, S.recompute θ w c = θ := by
        intro θ w c
        unfold Setup.recompute
        rw [if_neg (by simp [Setup.recomputes, ha])]
      have hconst : ∀ m, m ≤ S.C → θ m = θ 0 := by
        intro m
        induction m with
        | zero => exact fun _ => rfl
        | succ m ih =>
          intro hm
          rw [h.params m (by omega), ← ih (by omega)]
          exact hno _ _ _
      rw [hconst _ (Nat.le_refl _), hconst (k + 1) (by omega)]
      exact ⟨rfl, rfl⟩
    · have hord : S.problem.order k = k := by
        show (if S.actorder then S.perm k else k) = k
        rw [if_neg (by simpa using ha)]
      have hkc' : k = c := hord.symm.trans hkc
      subst hkc'
      have := params_settled S hcd h r k hk' (S.C - (k + 1)) (by omega)
      rw [Nat.add_sub_cancel' (by omega : k + 1 ≤ S.C)] at this
      exact this
  have hq := h.quantized k hk r
  rw [← h2 r k hk, hkc] at hq
  rw [h1] at hs ⊢
  rw [hq]
  generalize hx : corrected _ _ _ _ _ _ = x
  show S.qd _ _ _ (S.qd (θ (k + 1)) r c x) = S.qd (θ (k + 1)) r c x
  unfold Setup.qd
  simp only [hsame.1, hsame.2]
  rw [hsame.1] at hs
  generalize (θ (k + 1)).s (S.tile r c) = s at hs ⊢
  generalize (θ (k + 1)).o.map (· (S.tile r c)) = o
  obtain ⟨z, hz⟩ : ∃ z, FF.Quant.quantizeScalar s o S.n x = some z := by
    unfold FF.Quant.quantizeScalar
    rw [if_neg hs]
    exact ⟨_, rfl⟩
  rw [hz]
  simp only [Option.map_some, Option.getD_some]
  rw [FF.Quant.qdq_idempotent s hs o S.n x z hz]
  rfl

/-- Four columns in two groups whose parameters are recomputed; the factor lets half of each error flow into the later columns. -/
def twoGroups : Setup :=
  { R := 1, C := 4, rb := 1, cb := 2, blocked := true, actorder := false, perm := fun c => c
    U := fun i j => if i = j then 1 else if i < j then 1 / 2 else 0
    n := 4, eps := 1 / 1000, symmetric := true, oneSided := false }

theorem twoGroups_order : IsOrder twoGroups.problem :=
  ⟨fun _ hc => hc, fun _ _ _ _ h => h, fun c hc => ⟨c, hc, rfl⟩⟩

/-- **C73, deviation.** With blocks larger than the groups (the default block size is 128) the scale of a group that begins inside a
block is computed from weights that are not corrected for the earlier columns of the block, although the weights that are quantized
with it are: in this instance the second group's scale is `1` with blocks of four columns, and `83/84` with blocks of two. -/
theorem stale_group_weights :
    let W : Mat := fun _ c => if c = 0 then 1 / 3 else if c = 3 then 0 else 7
    (gptq twoGroups.problem 4 ⟨fun _ => 1, none⟩ W).1.s 1 = 1 ∧ (gptq twoGroups.problem 2 ⟨fun _ => 1, none⟩ W).1.s 1 = 83 / 84 := by
  decide +kernel

/-! ## Concrete cases -/

example : twoGroups.recomputes = true ∧ 2 ∣ twoGroups.cb ∧ 1 ∣ twoGroups.cb := by decide

/-- Four columns in reverse order, per-tensor parameters. -/
def reversed : Setup :=
  { R := 1, C := 4, rb := 1, cb := 4, blocked := false, actorder := true, perm := fun c => 3 - c
    U := fun i j => if i = j then 1 else if i < j then 1 / 2 else 0
    n := 4, eps := 1 / 1000, symmetric := true, oneSided := true }

example : IsOrder reversed.problem :=
  ⟨fun c hc => (by have h : c < 4 := hc; show 3 - c < 4; omega),
   fun c hc c' hc' h => (by have h1 : c < 4 := hc; have h2 : c' < 4 := hc'; have h3 : 3 - c = 3 - c' := h; omega),
   fun c hc => ⟨3 - c, (by show 3 - c < 4; omega), (by have h : c < 4 := hc; show 3 - (3 - c) = c; omega)⟩⟩

example : reversed.recomputes = false := rfl

/-- The weights are stored at their original columns; column 0 comes last in the order and its `7/10` becomes `0`, not `1`, to
compensate the errors of the other columns. -/
example : (List.range 4).map ((gptq reversed.problem 3 ⟨fun _ => 1, none⟩ (fun _ c => if c = 0 then 7 / 10 else c + 2 / 5)).2 0)
    = [0, 1, 2, 3] := by
  decide +kernel

end FF.Gptq
