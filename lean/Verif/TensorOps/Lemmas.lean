import Verif.TensorOps.Model
import Verif.Granularity.Props

/-! # Tensor operations: helper lemmas -/

namespace FF.TOps
open FF.Tens FF.Tiling FF.Quant FF.Gran

variable {α β : Type}

/-! ### Dequantization -/

theorem rowsToTiles_shape {rows u : Tensor α} {size : List ℕ} {tile : Option (List ℕ)} (h : rowsToTiles rows size tile = .ok u) :
    u.shape = size := by
  unfold rowsToTiles at h
  split_ifs at h
  · unfold Tensor.reshape at h
    split_ifs at h
    simp at h; rw [← h]
  · simp only [bind, Except.bind, throw, throwThe, MonadExceptOf.throw] at h
    cases h1 : checkTileCompatibility size (tile.getD size) with
    | error e => simp [h1] at h
    | ok _ =>
      cases h2 : floorDiv size.prod (tile.getD size).prod with
      | error e => simp [h1, h2] at h
      | ok er =>
        simp only [h1, h2] at h
        split at h
        · simp at h
        · cases h3 : numDimBlocks size (tile.getD size) with
          | error e => simp [h3] at h
          | ok nb =>
            simp only [h3] at h
            split at h
            · simp at h
            · unfold Tensor.reshape at h
              split_ifs at h
              simp at h; rw [← h]

theorem dequantizeByTile_shape {t : Tensor ℤ} {v : Tensor ℚ} {scale : List ℚ} {tile : Option (List ℕ)} {offset : Option (List ℚ)}
    (h : dequantizeByTile t scale tile offset = .ok v) : v.shape = t.shape := by
  unfold dequantizeByTile at h
  simp only [bind, Except.bind] at h
  split at h
  · simp at h
  · split at h
    · simp at h
    · exact rowsToTiles_shape h

theorem dequantize_shape {q : QTensor} {v : Tensor ℚ} (h : q.dequantize = .ok v) : v.shape = q.data.shape := by
  unfold QTensor.dequantize at h
  simp only [bind, Except.bind] at h
  split at h
  · simp at h
  · exact dequantizeByTile_shape h

theorem dequantizeByTile_none (t : Tensor ℤ) (scale : List ℚ) (offset : Option (List ℚ)) :
    dequantizeByTile t scale none offset = dequantizeByTile t scale (some t.shape) offset := rfl

theorem dequantizeByTile_empty (t : Tensor ℤ) (scale : List ℚ) (tile : Option (List ℕ)) (offset : Option (List ℚ))
    (h0 : t.numel = 0) (hl : offsetLen scale offset = scale.length) :
    ∃ v, dequantizeByTile t scale tile offset = .ok v ∧ v.shape = t.shape := by
  unfold dequantizeByTile
  have h1 : tilesToRows t tile = .ok ⟨[1, 0], t.get⟩ := by
    unfold tilesToRows; rw [if_pos h0]; unfold Tensor.reshape; rw [if_pos (by simp [h0])]
  have hr : broadcastDim 1 scale.length = .ok scale.length := by
    unfold broadcastDim
    by_cases h : 1 = scale.length
    · rw [if_pos h, ← h]
    · rw [if_neg h, if_pos rfl]
  have hr2 : broadcastDim scale.length scale.length = .ok scale.length := by simp [broadcastDim]
  simp only [bind, Except.bind, h1]
  unfold rowwise
  have e : ([1, 0] : List ℕ).getD 0 0 = 1 := rfl
  simp only [e, bind, Except.bind, hr, hl, hr2, pure, Except.pure]
  unfold rowsToTiles
  rw [if_pos (by simp [Tensor.numel])]
  unfold Tensor.reshape
  rw [if_pos (by have : t.shape.prod = 0 := h0
                 simp [Tensor.numel, this])]
  exact ⟨_, rfl, rfl⟩

/-! ### Multiplying -/

theorem reshape_map (f : α → β) (t : Tensor α) (s : List ℕ) : (t.map f).reshape s = (t.reshape s).map (Tensor.map f) := by
  unfold Tensor.reshape Tensor.map Tensor.numel
  split_ifs <;> rfl

theorem permute_map (f : α → β) (t : Tensor α) (p : List ℕ) : (t.map f).permute p = (t.permute p).map f := rfl

theorem rowsToTiles_map (f : α → β) (t : Tensor α) (size : List ℕ) (tile : Option (List ℕ)) :
    rowsToTiles (t.map f) size tile = (rowsToTiles t size tile).map (Tensor.map f) := by
  unfold rowsToTiles
  have hn : (t.map f).numel = t.numel := rfl
  have hsh : (t.map f).shape = t.shape := rfl
  rw [hn, hsh]
  split_ifs
  · exact reshape_map f t size
  · simp only [bind, Except.bind, throw, throwThe, MonadExceptOf.throw]
    cases h1 : checkTileCompatibility size (tile.getD size) with
    | error e => rfl
    | ok _ =>
      cases h2 : floorDiv size.prod (tile.getD size).prod with
      | error e => rfl
      | ok er =>
        dsimp only
        by_cases hne : t.shape ≠ [er, (tile.getD size).prod]
        · rw [if_pos hne, if_pos hne]; rfl
        · rw [if_neg hne, if_neg hne]
          cases h3 : numDimBlocks size (tile.getD size) with
          | error e => rfl
          | ok nb =>
            dsimp only
            rw [reshape_map]
            generalize hr : t.reshape _ = r
            cases r with
            | error e => rfl
            | ok d =>
              simp only [Except.map]
              rw [permute_map, reshape_map]
              rfl

theorem getD_map_mul (l : List ℚ) (a : ℚ) (k : ℕ) : (l.map (· * a)).getD k 0 = l.getD k 0 * a := by
  simp only [List.getD_eq_getElem?_getD, List.getElem?_map]
  cases l[k]? <;> simp

theorem rowwise_mul (rows : Tensor ℤ) (scale : List ℚ) (offset : Option (List ℚ)) (a : ℚ) :
    rowwise (fun s o c => dequantizeScalar s o c) rows (scale.map (· * a)) offset
      = (rowwise (fun s o c => dequantizeScalar s o c) rows scale offset).map (Tensor.map (· * a)) := by
  unfold rowwise
  have hl : offsetLen (scale.map (· * a)) offset = offsetLen scale offset := by simp [offsetLen]
  simp only [hl, List.length_map, bind, Except.bind]
  split
  · rfl
  · split
    · rfl
    · simp only [pure, Except.pure, Except.map, Tensor.map, getD_map_mul]
      congr 2
      funext k
      simp only [dequantizeScalar]
      ring

theorem dequantizeByTile_mul (t : Tensor ℤ) (scale : List ℚ) (tile : Option (List ℕ)) (offset : Option (List ℚ)) (a : ℚ) :
    dequantizeByTile t (scale.map (· * a)) tile offset = (dequantizeByTile t scale tile offset).map (Tensor.map (· * a)) := by
  unfold dequantizeByTile
  simp only [bind, Except.bind]
  split
  · rfl
  · rw [rowwise_mul]
    generalize hr : rowwise _ _ scale offset = r
    cases r with
    | error e => rfl
    | ok d => simp only [Except.map]; rw [rowsToTiles_map]; rfl

/-! ### Per-tensor values -/

theorem divides_self {s : List ℕ} (h : s.prod ≠ 0) : Divides s s := by
  rw [divides_iff]
  refine ⟨rfl, fun k d e h1 h2 => ?_⟩
  rw [h1] at h2
  obtain rfl := Option.some.inj h2
  refine ⟨?_, dvd_refl _⟩
  rcases Nat.eq_zero_or_pos d with h0 | h0
  · exact absurd (prod_eq_zero_of_mem (h0 ▸ List.mem_of_getElem? h1)) h
  · exact h0

theorem grid_self {s : List ℕ} (h : s.prod ≠ 0) : (grid s s).prod = 1 := by
  have := grid_prod (divides_self h)
  exact Nat.eq_of_mul_eq_mul_right (Nat.pos_of_ne_zero h) (by omega)

/-- The value of a per-tensor quantized tensor, element by element. -/
theorem per_tensor_value (q : QTensor) (hg : q.gran = .perTensor) (s : ℚ) (hs : q.scale = [s]) (o : Option ℚ)
    (ho : q.offset = o.map fun x => [x]) :
    ∃ v, q.dequantize = .ok v ∧ v.Same (q.data.map (dequantizeScalar s o)) := by
  unfold QTensor.dequantize
  simp only [hg, tileSize, bind, Except.bind]
  by_cases h0 : q.data.numel = 0
  · obtain ⟨v, hv, hvs⟩ := dequantizeByTile_empty q.data q.scale none q.offset h0 (by
      rw [hs, ho]; cases o <;> simp [offsetLen])
    refine ⟨v, hv, hvs, fun idx hi => ?_⟩
    have := ravel_lt hi
    rw [hvs] at this
    unfold Tensor.numel at h0
    omega
  · have hd := divides_self h0
    have hg1 := grid_self h0
    obtain ⟨v, hv, hvs, hval⟩ := dequantize_by_tile_elementwise q.data q.data.shape h0 hd q.scale q.offset
      (by left; simp [hs]) (by intro l hl; left; rw [ho] at hl; cases o <;> simp at hl; simp [← hl])
    refine ⟨v, by rw [dequantizeByTile_none]; exact hv, hvs, fun idx hi => ?_⟩
    rw [hvs] at hi
    obtain ⟨s', hs', he⟩ := hval idx hi
    rw [he]
    have e1 : s' = s := by
      rw [hs] at hs'; simpa [paramAt] using hs'.symm
    have e2 : (q.offset.bind fun l => paramAt l (tileId q.data.shape q.data.shape idx)) = o := by
      rw [ho]; cases o <;> simp [paramAt]
    rw [e1, e2]
    rfl

/-! ### Concatenation -/

theorem catGet_map (f : α → β) (d : ℕ) (ts : List (Tensor α)) (idx : List ℕ) :
    catGet d (ts.map (Tensor.map f)) idx = (catGet d ts idx).map f := by
  induction ts generalizing idx with
  | nil => rfl
  | cons t ts ih =>
    simp only [List.map_cons, catGet]
    have : (t.map f).shape = t.shape := rfl
    rw [this]
    split_ifs
    · rfl
    · exact ih _

theorem torchCat_map (f : α → β) (ts : List (Tensor α)) (dim : ℤ) :
    torchCat (ts.map (Tensor.map f)) dim = (torchCat ts dim).map (Tensor.map f) := by
  cases ts with
  | nil => rfl
  | cons t ts =>
    unfold torchCat
    simp only [List.map_cons]
    have hsh : ∀ t : Tensor α, (t.map f).shape = t.shape := fun _ => rfl
    rw [hsh]
    cases hp : pyIndex t.shape.length dim with
    | none => rfl
    | some d =>
      dsimp only
      have hall : ((t.map f :: ts.map (Tensor.map f)).all fun u => decide (u.shape.length = t.shape.length) &&
          decide (u.shape.set d 0 = t.shape.set d 0)) = ((t :: ts).all fun u => decide (u.shape.length = t.shape.length) &&
          decide (u.shape.set d 0 = t.shape.set d 0)) := by
        simp only [List.all_cons, List.all_map, hsh]
        rfl
      rw [hall]
      split_ifs
      · have hsum : ((ts.map (Tensor.map f)).map fun u => u.shape.getD d 0) = ts.map fun u => u.shape.getD d 0 := by
          rw [List.map_map]; rfl
        rw [hsum]
        simp only [Except.map]
        congr 1
        show Tensor.mk _ _ = Tensor.mk _ _
        congr 1
        funext k
        have := catGet_map f d (t :: ts)
        simp only [List.map_cons] at this
        rw [this]
        dsimp only
        cases catGet d (t :: ts) _ <;> rfl
      · rfl

theorem inBounds_set {s i : List ℕ} {d x n : ℕ} (h : InBounds s i) (hx : x < n) : InBounds (s.set d n) (i.set d x) := by
  induction s generalizing i d with
  | nil => simp at h; simp [h]
  | cons a as ih =>
    cases i with
    | nil => exact absurd h not_inBounds_cons_nil
    | cons b bs =>
      simp only [inBounds_cons] at h
      cases d with
      | zero => simp [h.2, hx]
      | succ d => simp [h.1, ih h.2]

theorem inBounds_getD {s i : List ℕ} {d : ℕ} (h : InBounds s i) (hd : d < s.length) : i.getD d 0 < s.getD d 0 := by
  have := inBounds_iff.1 h
  simp only [List.getD_eq_getElem?_getD]
  rw [List.getElem?_eq_getElem hd, List.getElem?_eq_getElem (by omega)]
  exact this.2 d _ _ (List.getElem?_eq_getElem (by omega)) (List.getElem?_eq_getElem hd)

theorem set_getD_self (l : List ℕ) (d : ℕ) : l.set d (l.getD d 0) = l := by
  induction l generalizing d with
  | nil => rfl
  | cons a as ih =>
    cases d with
    | zero => rfl
    | succ d => simp only [List.set_cons_succ, List.getD_cons_succ, ih]

theorem inBounds_of_set {s i : List ℕ} {d n : ℕ} (h : InBounds (s.set d n) i) (hx : i.getD d 0 < s.getD d 0) : InBounds s i := by
  have := inBounds_set (d := d) (x := i.getD d 0) h hx
  rwa [set_getD_self, List.set_set, set_getD_self] at this

theorem catGet_same (d : ℕ) (base : List ℕ) (hd : d < base.length) (ts us : List (Tensor α)) (h : List.Forall₂ Tensor.Same ts us)
    (hb : ∀ t ∈ ts, t.shape.length = base.length ∧ t.shape.set d 0 = base.set d 0) (n : ℕ)
    (idx : List ℕ) (hi : InBounds (base.set d n) idx) :
    catGet d ts idx = catGet d us idx := by
  induction h generalizing idx n with
  | nil => rfl
  | @cons t u ts us htu hrest ih =>
    simp only [catGet]
    rw [← htu.1]
    have hb' := hb t (by simp)
    have hshape : t.shape.set d n = base.set d n := by
      have h1 := congrArg (·.set d n) hb'.2
      simpa only [List.set_set] using h1
    split_ifs with hlt
    · congr 1
      apply htu.2
      rw [← hshape] at hi
      exact inBounds_of_set hi hlt
    · have hidx : idx.getD d 0 < n := by
        have := inBounds_getD hi (by simpa using hd)
        simpa [List.getD_eq_getElem?_getD, hd] using this
      refine ih (fun t ht => hb t (by simp [ht])) n _ ?_
      have := inBounds_set (d := d) (x := idx.getD d 0 - t.shape.getD d 0) (n := n) hi (by omega)
      rwa [List.set_set] at this

theorem shapes_of_same {ts us : List (Tensor α)} (h : List.Forall₂ Tensor.Same ts us) : ts.map Tensor.shape = us.map Tensor.shape := by
  induction h with
  | nil => rfl
  | cons h1 _ ih => simp only [List.map_cons, h1.1, ih]

theorem torchCat_same {ts us : List (Tensor α)} (h : List.Forall₂ Tensor.Same ts us) (dim : ℤ) {a : Tensor α}
    (ha : torchCat ts dim = .ok a) : ∃ b, torchCat us dim = .ok b ∧ a.Same b := by
  cases h with
  | nil => simp [torchCat] at ha
  | @cons t u ts us htu hrest =>
    unfold torchCat at ha ⊢
    dsimp only at ha ⊢
    rw [← htu.1]
    cases hp : pyIndex t.shape.length dim with
    | none => simp [hp] at ha
    | some d =>
      simp only [hp] at ha ⊢
      have hshapes : (u :: us).map Tensor.shape = (t :: ts).map Tensor.shape := by
        exact (shapes_of_same (.cons htu hrest)).symm
      have hallEq : ∀ l : List (Tensor α), (l.all fun u => decide (u.shape.length = t.shape.length) &&
          decide (u.shape.set d 0 = t.shape.set d 0)) = ((l.map Tensor.shape).all fun s => decide (s.length = t.shape.length) &&
          decide (s.set d 0 = t.shape.set d 0)) := by
        intro l; rw [List.all_map]; rfl
      have hsumEq : ∀ l : List (Tensor α), (l.map fun t => t.shape.getD d 0) = (l.map Tensor.shape).map (·.getD d 0) := by
        intro l; rw [List.map_map]; rfl
      rw [hallEq, hsumEq] at ha
      rw [hallEq, hsumEq, hshapes]
      split_ifs at ha with hall
      rw [if_pos hall]
      simp only [Except.ok.injEq] at ha
      subst ha
      refine ⟨_, rfl, rfl, ?_⟩
      intro idx hi
      show Option.getD (catGet d (t :: ts) _) _ = Option.getD (catGet d (u :: us) _) _
      dsimp only at hi ⊢
      rw [unravel_ravel hi]
      have hmem : ∀ x ∈ t :: ts, x.shape.length = t.shape.length ∧ x.shape.set d 0 = t.shape.set d 0 := by
        intro x hx
        rw [← hallEq, List.all_eq_true] at hall
        simpa using hall x hx
      have hd := pyIndex_lt hp
      rw [catGet_same d t.shape hd (t :: ts) (u :: us) (.cons htu hrest) hmem _ idx hi]
      -- the element exists, so the default is irrelevant
      have hsome : ∀ (l : List (Tensor α)) (idx : List ℕ), idx.getD d 0 < (l.map fun t => t.shape.getD d 0).sum → d < idx.length →
          (catGet d l idx).isSome := by
        intro l
        induction l with
        | nil => intro idx h; simp at h
        | cons x xs ih =>
          intro idx h hl
          simp only [catGet]
          split_ifs with h1
          · rfl
          · apply ih
            · simp only [List.map_cons, List.sum_cons] at h
              simp only [List.getD_eq_getElem?_getD] at h h1 ⊢
              simp only [List.getElem?_set_self hl, Option.getD_some]
              omega
            · simpa using hl
      have hin := inBounds_getD (d := d) hi (by simpa using hd)
      have hl : d < idx.length := by rw [hi.length_eq]; simpa using hd
      have : (catGet d (u :: us) idx).isSome := by
        apply hsome _ _ _ hl
        rw [hsumEq, hshapes]
        simpa [List.getD_eq_getElem?_getD, hd] using hin
      obtain ⟨z, hz⟩ := Option.isSome_iff_exists.1 this
      rw [hz]; rfl

end FF.TOps
