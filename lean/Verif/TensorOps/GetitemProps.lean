import Verif.TensorOps.ChannelProps

/-! # Indexing a per-channel quantized tensor (C16) -/

namespace FF.TOps
open FF.Tens FF.Tiling FF.Quant FF.Gran

/-- The tile of a parameter shape `p` over data shape `s`. -/
def tileOf (p s : List ℕ) : List ℕ := List.zipWith (fun p d => if p = 1 then d else 1) p s

theorem tileOf_spec {p s : List ℕ} (h : Compat p s) (hpos : ∀ d ∈ s, 0 < d) :
    Divides s (tileOf p s) ∧ grid s (tileOf p s) = p ∧ ∀ i, InBounds s i → divIdx i (tileOf p s) = squash p i := by
  induction h with
  | nil =>
    refine ⟨.nil, rfl, ?_⟩
    intro i hi
    simp [divIdx, squash, tileOf]
  | @cons p d ps ds h1 h2 ih =>
    obtain ⟨a, b, c⟩ := ih fun d hd => hpos d (by simp [hd])
    have hd : 0 < d := hpos d (by simp)
    refine ⟨?_, ?_, ?_⟩
    · refine .cons ?_ a
      dsimp only
      split_ifs
      · exact ⟨hd, dvd_refl _⟩
      · exact ⟨by omega, one_dvd _⟩
    · show _ :: grid ds (tileOf ps ds) = _
      rw [b]
      congr 1
      dsimp only
      split_ifs with hp
      · rw [hp]; exact Nat.div_self hd
      · rcases h1 with h1 | h1
        · exact absurd h1 hp
        · rw [h1]; exact Nat.div_one _
    · intro i hi
      cases i with
      | nil => exact absurd hi not_inBounds_cons_nil
      | cons x xs =>
        rw [inBounds_cons] at hi
        show _ :: divIdx xs (tileOf ps ds) = _
        rw [c xs hi.2, squash_cons]
        congr 1
        dsimp only
        split_ifs with hp
        · exact Nat.div_eq_of_lt hi.1
        · exact Nat.div_one _

theorem compat_length {p s : List ℕ} (h : Compat p s) : p.length = s.length := h.length_eq

theorem compat_get {p s : List ℕ} (h : Compat p s) (k d : ℕ) (hk : s[k]? = some d) :
    ∃ x, p[k]? = some x ∧ (x = 1 ∨ x = d) := by
  induction h generalizing k with
  | nil => simp at hk
  | @cons p d ps ds h1 _ ih =>
    cases k with
    | zero => simp at hk; subst hk; exact ⟨p, rfl, h1⟩
    | succ k => simpa using ih k (by simpa using hk)

/-- The tile of a per-channel granularity whose channel dimensions are exactly those with a parameter per entry. -/
theorem tileSize_tileOf {p s : List ℕ} (h : Compat p s) (dims : List ℤ)
    (hin : ∀ d ∈ dims, (pyIndex s.length d).isSome)
    (hch : ∀ (k d x : ℕ), s[k]? = some d → p[k]? = some x → d ≠ 1 → (x ≠ 1 ↔ ∃ c ∈ dims, pyIndex s.length c = some k)) :
    tileSize (.perChannel dims) s = .ok (some (tileOf p s)) := by
  obtain ⟨hacc, htile⟩ := per_channel_tile dims s
  obtain ⟨r, hr⟩ := hacc.2 hin
  obtain ⟨t, rfl, hl, hk⟩ := htile _ hr
  rw [hr]
  congr 2
  have hlp := compat_length h
  apply List.ext_getElem?
  intro k
  by_cases hks : k < s.length
  swap
  · rw [List.getElem?_eq_none (by omega), List.getElem?_eq_none (by unfold tileOf; rw [List.length_zipWith]; omega)]
  have hg : s[k]? = some s[k] := List.getElem?_eq_getElem hks
  obtain ⟨x, hx, hx'⟩ := compat_get h k _ hg
  rw [hk k _ hg]
  unfold tileOf
  rw [List.getElem?_zipWith, hx, hg]
  simp only
  congr 1
  by_cases hd1 : s[k] = 1
  · rw [hd1]; split_ifs <;> rfl
  · have := hch k _ x hg hx hd1
    classical
    by_cases hx1 : x = 1
    · rw [if_pos hx1, if_neg]
      intro hc; exact this.2 hc hx1
    · rw [if_neg hx1, if_pos (this.1 hx1)]

theorem prod_pos_of {l : List ℕ} (h : ∀ d ∈ l, 0 < d) : l.prod ≠ 0 := by
  induction l with
  | nil => simp
  | cons a as ih =>
    rw [List.prod_cons]
    exact Nat.mul_ne_zero (by have := h a (by simp); omega) (ih fun d hd => h d (by simp [hd]))

theorem pos_of_inBounds {s i : List ℕ} (h : InBounds s i) : ∀ d ∈ s, 0 < d := by
  induction s generalizing i with
  | nil => simp
  | cons a as ih =>
    cases i with
    | nil => exact absurd h not_inBounds_cons_nil
    | cons x xs =>
      rw [inBounds_cons] at h
      intro d hd
      rcases List.mem_cons.1 hd with rfl | hd
      · omega
      · exact ih h.2 d hd

theorem pos_of_prod {s : List ℕ} (h : s.prod ≠ 0) : ∀ d ∈ s, 0 < d := by
  induction s with
  | nil => simp
  | cons a as ih =>
    rw [List.prod_cons] at h
    intro d hd
    rcases List.mem_cons.1 hd with rfl | hd
    · exact Nat.pos_of_ne_zero (left_ne_zero_of_mul h)
    · exact ih (right_ne_zero_of_mul h) d hd

theorem exists_inBounds {s : List ℕ} (h : ∀ d ∈ s, 0 < d) : ∃ i, InBounds s i := by
  induction s with
  | nil => exact ⟨[], by simp⟩
  | cons a as ih =>
    obtain ⟨i, hi⟩ := ih fun d hd => h d (by simp [hd])
    exact ⟨0 :: i, by rw [inBounds_cons]; exact ⟨h a (by simp), hi⟩⟩

theorem squash_inBounds {p s i : List ℕ} (h : Compat p s) (hi : InBounds s i) : InBounds p (squash p i) := by
  induction h generalizing i with
  | nil => simp [squash]
  | @cons p d ps ds h1 _ ih =>
    cases i with
    | nil => exact absurd hi not_inBounds_cons_nil
    | cons x xs =>
      rw [inBounds_cons] at hi
      rw [squash_cons, inBounds_cons]
      refine ⟨?_, ih hi.2⟩
      split_ifs with hp
      · omega
      · rcases h1 with h1 | h1
        · exact absurd h1 hp
        · omega

theorem paramAt_lt {l : List ℚ} {j : ℕ} (h : j < l.length) : paramAt l j = some (l.getD j 0) := by
  unfold paramAt
  split_ifs with h1
  · have : j = 0 := by omega
    subst this
    simp [List.getD_eq_getElem?_getD, List.getElem?_eq_getElem h]
  · simp [List.getD_eq_getElem?_getD, List.getElem?_eq_getElem h]

theorem torchGetitem_ok {α : Type} {t u : Tensor α} {items : List Item} (h : torchGetitem t items = .ok u) :
    ∃ out m, indexShape items t.shape = .ok (out, m) ∧ u.shape = out ∧ ∀ idx, InBounds out idx → u.at idx = t.at (m idx) := by
  unfold torchGetitem at h
  cases hr : indexShape items t.shape with
  | error e => simp [hr, bind, Except.bind] at h
  | ok r =>
    simp only [hr, bind, Except.bind, pure, Except.pure, Except.ok.injEq] at h
    subst h
    refine ⟨r.1, r.2, rfl, rfl, ?_⟩
    intro idx hi
    show t.at (r.2 (unravel r.1 (ravel r.1 idx))) = _
    rw [unravel_ravel hi]

theorem viewParams_ok {l : List ℚ} {s : List ℕ} {t : Tensor ℚ} (h : viewParams l s = .ok t) :
    t.shape = s ∧ l.length = s.prod ∧ ∀ k, t.get k = l.getD k 0 := by
  unfold viewParams Tensor.reshape at h
  split_ifs at h with h1
  obtain rfl := Except.ok.inj h
  exact ⟨rfl, by simpa [Tensor.numel] using h1.symm, fun k => rfl⟩

/-- The parameters after indexing. -/
theorem param_getitem {l : List ℚ} {s pout out : List ℕ} {t u : Tensor ℚ} {eff : List Item} {pm : List ℕ → List ℕ}
    (h1 : viewParams l s = .ok t) (h2 : torchGetitem t eff = .ok u) (hp : indexShape eff s = .ok (pout, pm))
    (hc : Compat pout out) : (flatten u).length = pout.prod ∧
      ∀ idx, InBounds out idx → paramAt (flatten u) (ravel pout (squash pout idx)) = paramAt l (ravel s (pm (squash pout idx))) := by
  obtain ⟨hs, hl, hg⟩ := viewParams_ok h1
  obtain ⟨o, m, ho, hus, hat⟩ := torchGetitem_ok h2
  rw [hs, hp] at ho
  obtain ⟨rfl, rfl⟩ := Prod.mk.inj (Except.ok.inj ho)
  have hlen : (flatten u).length = pout.prod := by simp [flatten, Tensor.numel, hus]
  refine ⟨hlen, ?_⟩
  intro idx hi
  have hb := squash_inBounds hc hi
  have hlt := ravel_lt hb
  have hsb := indexShape_inBounds hp hb
  rw [paramAt_lt (by omega), paramAt_lt (by rw [hl]; exact ravel_lt hsb)]
  congr 1
  have e1 : (flatten u).getD (ravel pout (squash pout idx)) 0 = u.get (ravel pout (squash pout idx)) := by
    unfold flatten
    rw [List.getD_eq_getElem?_getD, List.getElem?_map, List.getElem?_range (by simpa [Tensor.numel, hus] using hlt)]
    rfl
  have e2 : u.get (ravel pout (squash pout idx)) = u.at (squash pout idx) := by unfold Tensor.at; rw [hus]
  rw [e1, e2, hat _ hb]
  unfold Tensor.at
  rw [hs, hg]

/-- **C16.** Indexing a per-channel quantized tensor (integers, positive-step slices, `None` and `...`, in any combination)
gives a quantized tensor whose values are the indexed values: `dequantize(q[items]) = dequantize(q)[items]`. -/
theorem getitem_per_channel_value (q q' : QTensor) (items : List Item) (v : Tensor ℚ) (hv : q.dequantize = .ok v)
    (h : getitemPerChannel q items = some (.ok q')) :
    ∃ v' w, q'.dequantize = .ok v' ∧ torchGetitem v items = .ok w ∧ v'.Same w := by
  unfold getitemPerChannel at h
  cases hg : q.gran with
  | perTensor => simp [hg] at h
  | perBlock a b c d => simp [hg] at h
  | perTile t => simp [hg] at h
  | perChannel dims =>
    rw [hg] at h
    simp only [Option.some.injEq] at h
    set cd : List ℤ := dims.map fun c => if c < 0 then (q.data.shape.length : ℤ) + c else c with hcd
    set chan : ℕ → Bool := fun i => cd.contains (i : ℤ) with hchan
    have hps : paramShape chan q.data.shape = pshapeFrom chan 0 q.data.shape := by
      unfold paramShape pshapeFrom; simp
    by_cases hneg : cd.any (fun x => decide (x < 0)) = true
    · simp [hneg, bind, Except.bind, throw, throwThe, MonadExceptOf.throw] at h
    simp only [hneg, bind, Except.bind, pure, Except.pure] at h
    cases ht : viewParams q.scale (paramShape chan q.data.shape) with
    | error e => simp [ht] at h
    | ok t =>
    cases hu : torchGetitem t (effective chan q.data.shape.length 0 items) with
    | error e => simp [ht, hu] at h
    | ok u =>
    simp only [ht, hu, Bool.false_eq_true, if_false] at h
    -- the offset
    have hoff : ∃ off' : Option (List ℚ), ∃ data', torchGetitem q.data items = .ok data' ∧
        q' = QTensor.mk data' (flatten u) off' (Granularity.perChannel
          (((List.range u.shape.length).filter fun i => decide (1 < u.shape.getD i 0)).map Int.ofNat)) ∧
        ((q.offset = none ∧ off' = none) ∨ ∃ o t' u', q.offset = some o ∧ off' = some (flatten u') ∧
          viewParams o (paramShape chan q.data.shape) = .ok t' ∧
          torchGetitem t' (effective chan q.data.shape.length 0 items) = .ok u') := by
      cases ho : q.offset with
      | none =>
        simp only [ho] at h
        cases hd : torchGetitem q.data items with
        | error e => simp [hd] at h
        | ok d => simp only [hd] at h; exact ⟨none, d, rfl, (Except.ok.inj h).symm, Or.inl ⟨rfl, rfl⟩⟩
      | some o =>
        simp only [ho] at h
        cases ht' : viewParams o (paramShape chan q.data.shape) with
        | error e => simp [ht'] at h
        | ok t' =>
        cases hu' : torchGetitem t' (effective chan q.data.shape.length 0 items) with
        | error e => simp [ht', hu'] at h
        | ok u' =>
        simp only [ht', hu'] at h
        cases hd : torchGetitem q.data items with
        | error e => simp [hd] at h
        | ok d =>
          simp only [hd] at h
          exact ⟨some (flatten u'), d, rfl, (Except.ok.inj h).symm, Or.inr ⟨o, t', u', rfl, rfl, ht', hu'⟩⟩
    obtain ⟨off', data', hd, rfl, hoff⟩ := hoff
    clear h
    rw [hps] at ht hoff
    obtain ⟨out, m, hidx, hds, hdat⟩ := torchGetitem_ok hd
    obtain ⟨pout, pm, hpidx, hcompat, hpm⟩ := effective_spec chan q.data.shape.length items 0 q.data.shape out m (by omega) hidx
    have hvs := dequantize_shape hv
    -- the indexed value
    have hw : ∃ w, torchGetitem v items = .ok w := by
      unfold torchGetitem; rw [hvs, hidx]; exact ⟨_, rfl⟩
    obtain ⟨w, hw⟩ := hw
    obtain ⟨out2, m2, hidx2, hws, hwat⟩ := torchGetitem_ok hw
    rw [hvs, hidx] at hidx2
    obtain ⟨rfl, rfl⟩ := Prod.mk.inj (Except.ok.inj hidx2)
    have hus : u.shape = pout := by
      obtain ⟨_, _, h1, h2, _⟩ := torchGetitem_ok hu
      rw [(viewParams_ok ht).1, hpidx] at h1
      rw [h2]; exact (Prod.mk.inj (Except.ok.inj h1)).1.symm
    obtain ⟨hfl, hfp⟩ := param_getitem ht hu hpidx hcompat
    have hofl : offsetLen (flatten u) off' = (flatten u).length := by
      rcases hoff with ⟨_, rfl⟩ | ⟨o, t', u', _, rfl, h1, h2⟩
      · rfl
      · have := (param_getitem h1 h2 hpidx hcompat).1
        simp [offsetLen, this, hfl]
    set nd : List ℤ := ((List.range u.shape.length).filter fun i => decide (1 < u.shape.getD i 0)).map Int.ofNat with hnd
    have hnin : ∀ d ∈ nd, (pyIndex out.length d).isSome := by
      intro d hd'
      rw [hnd, List.mem_map] at hd'
      obtain ⟨k, hk, rfl⟩ := hd'
      rw [List.mem_filter, List.mem_range, hus, compat_length hcompat] at hk
      rw [pyIndex_nat hk.1]; rfl
    by_cases h0 : out.prod = 0
    · obtain ⟨r, hr⟩ := (per_channel_tile nd out).1.2 hnin
      obtain ⟨v', hv', hvs'⟩ := dequantizeByTile_empty data' (flatten u) r off' (by unfold Tensor.numel; rw [hds]; exact h0) hofl
      refine ⟨v', w, ?_, hw, by rw [hvs', hds, hws], ?_⟩
      · unfold QTensor.dequantize
        simp only [bind, Except.bind]
        rw [hds, hr]; exact hv'
      · intro i hi
        rw [hvs', hds] at hi
        have := ravel_lt hi
        omega
    · have hopos := pos_of_prod h0
      obtain ⟨i0, hi0⟩ := exists_inBounds hopos
      have hspos := pos_of_inBounds (indexShape_inBounds hidx hi0)
      have hpc := compat_pshape chan 0 q.data.shape
      -- the original tile
      have htile : tileSize q.gran q.data.shape = .ok (some (tileOf (pshapeFrom chan 0 q.data.shape) q.data.shape)) := by
        have hin : ∀ d ∈ dims, (pyIndex q.data.shape.length d).isSome := by
          rw [← (per_channel_tile dims q.data.shape).1]
          unfold QTensor.dequantize at hv
          rw [hg] at hv
          cases hts : tileSize (.perChannel dims) q.data.shape with
          | error e => simp [hts, bind, Except.bind] at hv
          | ok r => exact ⟨r, rfl⟩
        rw [hg]
        refine tileSize_tileOf hpc dims hin ?_
        intro k d x hk hx hd1
        have hkl : k < q.data.shape.length := by
          by_contra hc
          rw [List.getElem?_eq_none (by omega)] at hk
          exact absurd hk (by simp)
        have hxx : x = if chan k then d else 1 := by
          unfold pshapeFrom at hx
          rw [List.getElem?_mapIdx, hk] at hx
          simpa using hx.symm
        have hck : chan k = true ↔ ∃ c ∈ dims, pyIndex q.data.shape.length c = some k := by
          rw [hchan]
          simp only [List.contains_iff_mem, hcd, List.mem_map]
          constructor
          · rintro ⟨c, hc, he⟩
            refine ⟨c, hc, ?_⟩
            have hi' := hin c hc
            unfold pyIndex at hi' ⊢
            split_ifs at he hi' ⊢ <;> simp_all <;> omega
          · rintro ⟨c, hc, he⟩
            refine ⟨c, hc, ?_⟩
            unfold pyIndex at he
            split_ifs at he ⊢ <;> simp_all <;> omega
        rw [← hck, hxx]
        by_cases hc : chan k = true
        · simp [hc, hd1]
        · simp [hc]
      have hrtile : tileSize (.perChannel nd) out = .ok (some (tileOf pout out)) := by
        refine tileSize_tileOf hcompat nd hnin ?_
        intro k d x hk hx hd1
        have hkl : k < out.length := by
          by_contra hc
          rw [List.getElem?_eq_none (by omega)] at hk
          exact absurd hk (by simp)
        have hdpos : 0 < d := hopos d (List.mem_of_getElem? hk)
        obtain ⟨x', hx', hxd⟩ := compat_get hcompat k d hk
        obtain rfl : x = x' := Option.some.inj (hx.symm.trans hx')
        have hmem : (∃ c ∈ nd, pyIndex out.length c = some k) ↔ 1 < x := by
          rw [hnd]
          simp only [List.mem_map, List.mem_filter, List.mem_range, hus, compat_length hcompat, decide_eq_true_eq]
          constructor
          · rintro ⟨c, ⟨k', ⟨hk', h1⟩, rfl⟩, hpy⟩
            rw [pyIndex_nat hk'] at hpy
            obtain rfl := Option.some.inj hpy
            rw [List.getD_eq_getElem?_getD, hx] at h1
            exact h1
          · intro h1
            refine ⟨(k : ℤ), ⟨k, ⟨hkl, ?_⟩, rfl⟩, pyIndex_nat hkl⟩
            rw [List.getD_eq_getElem?_getD, hx]; exact h1
        rw [hmem]
        omega
      obtain ⟨d1, g1, s1⟩ := tileOf_spec hpc hspos
      obtain ⟨d2, g2, s2⟩ := tileOf_spec hcompat hopos
      have hsl := (viewParams_ok ht).2.1
      obtain ⟨v1, e1, sh1, f1⟩ := dequantize_by_tile_elementwise q.data _ (prod_pos_of hspos) d1 q.scale q.offset
        (by right; rw [g1, hsl]) (by
          intro o ho
          right
          rcases hoff with ⟨hn, _⟩ | ⟨o', t', u', hs, _, h1, h2⟩
          · rw [hn] at ho; exact absurd ho (by simp)
          · rw [hs] at ho
            obtain rfl := Option.some.inj ho
            rw [g1]; exact (viewParams_ok h1).2.1)
      have hv1 : v1 = v := by
        have : q.dequantize = .ok v1 := by
          unfold QTensor.dequantize; simp only [htile, bind, Except.bind]; exact e1
        rw [this] at hv; exact Except.ok.inj hv
      subst hv1
      obtain ⟨v2, e2, sh2, f2⟩ := dequantize_by_tile_elementwise data' (tileOf pout out)
        (by unfold Tensor.numel; rw [hds]; exact h0) (by rw [hds]; exact d2) (flatten u) off'
        (by right; rw [hds, g2, hfl]) (by
          intro o ho
          right
          rcases hoff with ⟨_, rfl⟩ | ⟨o', t', u', hs, rfl, h1, h2⟩
          · exact absurd ho (by simp)
          · obtain rfl := Option.some.inj ho
            rw [hds, g2]; exact (param_getitem h1 h2 hpidx hcompat).1)
      refine ⟨v2, w, ?_, hw, by rw [sh2, hds, hws], ?_⟩
      · unfold QTensor.dequantize
        simp only [bind, Except.bind]
        rw [hds, hrtile]; exact e2
      · intro idx hi
        rw [sh2, hds] at hi
        have hmi := indexShape_inBounds hidx hi
        obtain ⟨a1, b1, c1⟩ := f1 _ hmi
        obtain ⟨a2, b2, c2⟩ := f2 idx (by rw [hds]; exact hi)
        have t1 : tileId q.data.shape (tileOf (pshapeFrom chan 0 q.data.shape) q.data.shape) (m idx)
            = ravel (pshapeFrom chan 0 q.data.shape) (pm (squash pout idx)) := by
          unfold tileId; rw [g1, s1 _ hmi, hpm idx hi]
        have t2 : tileId data'.shape (tileOf pout out) idx = ravel pout (squash pout idx) := by
          unfold tileId; rw [hds, g2, s2 _ hi]
        rw [t1] at b1 c1
        rw [t2] at b2 c2
        rw [hfp idx hi, b1] at b2
        obtain rfl := Option.some.inj b2
        rw [c2, hwat idx hi, c1, hdat idx hi]
        congr 1
        rcases hoff with ⟨hn, rfl⟩ | ⟨o, t', u', hs, rfl, h1, h2⟩
        · rw [hn]; rfl
        · rw [hs]
          exact (param_getitem h1 h2 hpidx hcompat).2 idx hi

/-- A `2 × 3` tensor with per-row scale 1 and 10: `q[1, None, ::2]` keeps the scale of row 1. -/
example : ((getitemPerChannel ⟨⟨[2, 3], fun k => k⟩, [1, 10], none, .perChannel [0]⟩
      [.int 1, .newaxis, .slice none none 2]).map fun r => r.toOption.map fun q => (q.data.shape, q.scale,
        q.dequantize.toOption.map fun v => (List.range v.numel).map v.get))
    = some (some ([1, 2], [10], some [30, 50])) := by decide +kernel

example : ((QTensor.dequantize ⟨⟨[2, 3], fun k => k⟩, [1, 10], none, .perChannel [0]⟩).toOption.isSome) = true := by
  decide +kernel

theorem full_slices : ∀ (k : ℕ) (post : List Item) (shape out : List ℕ) (m : List ℕ → List ℕ), k ≤ shape.length →
    indexShape (List.replicate k (.slice none none 1) ++ post) shape = .ok (out, m) →
      ∃ out' m', indexShape post (shape.drop k) = .ok (out', m') ∧ out = shape.take k ++ out' ∧
        ∀ idx, InBounds out idx → m idx = idx.take k ++ m' (idx.drop k)
  | 0, post, shape, out, m, _, h => ⟨out, m, by simpa using h, by simp, by simp⟩
  | k + 1, post, [], out, m, hk, h => by simp at hk
  | k + 1, post, d :: ds, out, m, hk, h => by
    rw [List.replicate_succ, List.cons_append, indexShape, if_neg (by decide)] at h
    cases hr : indexShape (List.replicate k (.slice none none 1) ++ post) ds with
    | error e => simp [hr, bind, Except.bind] at h
    | ok r =>
      obtain ⟨out1, m1⟩ := r
      simp only [hr, bind, Except.bind, pure, Except.pure, Except.ok.injEq, Prod.mk.injEq] at h
      obtain ⟨rfl, rfl⟩ := h
      obtain ⟨out', m', h1, h2, h3⟩ := full_slices k post ds out1 m1 (by simpa using hk) hr
      refine ⟨out', m', by simpa using h1, by simp [sliceIndices, h2], ?_⟩
      intro idx hi
      cases idx with
      | nil => exact absurd hi not_inBounds_cons_nil
      | cons x xs =>
        rw [inBounds_cons] at hi
        simp [sliceIndices, h3 xs hi.2]

/-- **C16.** What indexing means: `...` stands for as many full slices `:` as there are dimensions that no other entry takes; `None` takes none. -/
theorem ellipsis_full_slices (pre post : List Item) (shape out : List ℕ) (m : List ℕ → List ℕ) (k : ℕ) (hpre : .ellipsis ∉ pre) (hpost : .ellipsis ∉ post)
    (hk : k + (pre ++ post).countP (· ≠ .newaxis) = shape.length)
    (h : indexShape (pre ++ List.replicate k (.slice none none 1) ++ post) shape = .ok (out, m)) :
    ∃ m', indexShape (pre ++ .ellipsis :: post) shape = .ok (out, m') ∧ ∀ idx, InBounds out idx → m' idx = m idx := by
  induction pre generalizing shape out m with
  | nil =>
    have hc : consumed post = post.countP (· ≠ .newaxis) := by
      unfold consumed
      rw [List.countP_eq_length_filter]
      congr 1
      apply List.filter_congr
      intro x hx
      cases x <;> simp
      exact hpost hx
    simp only [List.nil_append] at hk h ⊢
    obtain ⟨out', m', h1, h2, h3⟩ := full_slices k post shape out m (by omega) h
    have hsk : shape.length - consumed post = k := by omega
    rw [indexShape, if_neg (by simpa using hpost), if_neg (by omega), hsk]
    simp only [h1, bind, Except.bind, pure, Except.pure]
    exact ⟨_, by rw [h2], fun idx hi => (h3 idx hi).symm⟩
  | cons x pre ih =>
    simp only [List.mem_cons, not_or] at hpre
    cases x with
    | ellipsis => exact absurd rfl hpre.1
    | newaxis =>
      simp only [List.cons_append, indexShape] at h ⊢
      cases hr : indexShape (pre ++ List.replicate k (.slice none none 1) ++ post) shape with
      | error e =>
        rw [hr] at h
        cases h
      | ok r =>
        simp only [hr, bind, Except.bind, pure, Except.pure, Except.ok.injEq, Prod.mk.injEq] at h
        obtain ⟨rfl, rfl⟩ := h
        obtain ⟨m', h1, h2⟩ := ih shape r.1 r.2 hpre.2 (by simpa using hk) hr
        refine ⟨_, by rw [h1]; rfl, ?_⟩
        intro idx hi
        cases idx with
        | nil => exact absurd hi not_inBounds_cons_nil
        | cons y ys =>
          rw [inBounds_cons] at hi
          exact h2 ys hi.2
    | int i =>
      cases shape with
      | nil => simp at hk
      | cons d ds =>
        simp only [List.cons_append, indexShape] at h ⊢
        cases hpy : pyIndex d i with
        | none => simp [hpy] at h
        | some a =>
          simp only [hpy] at h ⊢
          cases hr : indexShape (pre ++ List.replicate k (.slice none none 1) ++ post) ds with
          | error e =>
            rw [hr] at h
            cases h
          | ok r =>
            simp only [hr, bind, Except.bind, pure, Except.pure, Except.ok.injEq, Prod.mk.injEq] at h
            obtain ⟨rfl, rfl⟩ := h
            obtain ⟨m', h1, h2⟩ := ih ds r.1 r.2 hpre.2 (by simp at hk ⊢; omega) hr
            refine ⟨_, by rw [h1]; rfl, ?_⟩
            intro idx hi
            simp only [h2 idx hi]
    | slice a b c =>
      cases shape with
      | nil => simp at hk
      | cons d ds =>
        simp only [List.cons_append, indexShape] at h ⊢
        by_cases hc : c = 0
        · simp [hc] at h
        · rw [if_neg hc] at h ⊢
          cases hr : indexShape (pre ++ List.replicate k (.slice none none 1) ++ post) ds with
          | error e =>
            rw [hr] at h
            cases h
          | ok r =>
            simp only [hr, bind, Except.bind, pure, Except.pure, Except.ok.injEq, Prod.mk.injEq] at h
            obtain ⟨rfl, rfl⟩ := h
            obtain ⟨m', h1, h2⟩ := ih ds r.1 r.2 hpre.2 (by simp at hk ⊢; omega) hr
            refine ⟨_, by rw [h1]; rfl, ?_⟩
            intro idx hi
            cases idx with
            | nil => exact absurd hi not_inBounds_cons_nil
            | cons y ys =>
              rw [inBounds_cons] at hi
              simp only [List.tail_cons, h2 ys hi.2]

/-- `x[0, ..., None]` on a tensor with three dimensions. -/
example : (indexShape ([.int 0] ++ List.replicate 2 (.slice none none 1) ++ [.newaxis]) [2, 3, 4]).toOption.map Prod.fst = some [3, 4, 1] ∧
    (indexShape [.int 0, .ellipsis, .newaxis] [2, 3, 4]).toOption.map Prod.fst = some [3, 4, 1] := by decide +kernel

end FF.TOps
