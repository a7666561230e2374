import Verif.Tiling.Model
import Verif.Tiling.Spec
import Verif.Tensor.Lemmas

/-! # Helper lemmas on tiling -/

namespace FF.Tiling
open FF.Tens

variable {α : Type}

/-- Alternate the elements of two lists of equal length. -/
def inter : List ℕ → List ℕ → List ℕ
  | a :: as, b :: bs => a :: b :: inter as bs
  | _, _ => []

theorem inter_length {a b : List ℕ} (h : a.length = b.length) : (inter a b).length = 2 * a.length := by
  induction a generalizing b with
  | nil => simp [inter]
  | cons x xs ih =>
    cases b with
    | nil => simp at h
    | cons y ys => simp [inter, ih (by simpa using h)]; ring

theorem interleave_aux (l r : List ℕ) (k : ℕ) (hk : k + l.length ≤ r.length) :
    (l.zipIdx k).flatMap (fun p => [p.1, r.getD (p.2 % r.length) 0]) = inter l ((r.drop k).take l.length) := by
  induction l generalizing k with
  | nil => simp [inter]
  | cons x xs ih =>
    simp only [List.length_cons] at hk
    have hlt : k < r.length := by omega
    rw [List.zipIdx_cons, List.flatMap_cons, ih (k + 1) (by omega), List.drop_eq_getElem_cons hlt, List.length_cons,
      List.take_succ_cons]
    simp only [inter, Nat.mod_eq_of_lt hlt, List.getD_eq_getElem?_getD, List.getElem?_eq_getElem hlt, Option.getD_some,
      List.cons_append, List.nil_append]

theorem interleave_eq {l r : List ℕ} (h : l.length = r.length) : interleave l r = inter l r := by
  unfold interleave
  have hn : ¬ (l.length = 1 ∧ 1 < r.length) := by omega
  simp only [hn, if_false]
  by_cases hr : r = []
  · subst hr; have : l = [] := List.length_eq_zero_iff.1 h
    simp [this, inter]
  · rw [if_neg hr]
    have := interleave_aux l r 0 (by omega)
    rw [List.drop_zero, h, List.take_length] at this
    exact this

theorem inter_getElem?_even {a b : List ℕ} (h : a.length = b.length) (i : ℕ) : (inter a b)[2 * i]? = a[i]? := by
  induction a generalizing b i with
  | nil => simp [inter]
  | cons x xs ih =>
    cases b with
    | nil => simp at h
    | cons y ys =>
      cases i with
      | zero => simp [inter]
      | succ i =>
        have : 2 * (i + 1) = 2 * i + 1 + 1 := by ring
        simp only [inter, this, List.getElem?_cons_succ]
        exact ih (by simpa using h) i

theorem inter_getElem?_odd {a b : List ℕ} (h : a.length = b.length) (i : ℕ) : (inter a b)[2 * i + 1]? = b[i]? := by
  induction a generalizing b i with
  | nil => simp at h; have : b = [] := List.length_eq_zero_iff.1 h.symm; simp [inter, this]
  | cons x xs ih =>
    cases b with
    | nil => simp at h
    | cons y ys =>
      cases i with
      | zero => simp [inter]
      | succ i =>
        have : 2 * (i + 1) + 1 = 2 * i + 1 + 1 + 1 := by ring
        simp only [inter, this, List.getElem?_cons_succ]
        exact ih (by simpa using h) i

theorem evens_map_inter {a b : List ℕ} (h : a.length = b.length) :
    (evens (inter a b).length).map ((inter a b).getD · 0) = a := by
  rw [inter_length h]
  apply List.ext_getElem?
  intro i
  simp only [evens, List.map_map, List.getElem?_map]
  have e : (2 * a.length + 1) / 2 = a.length := by omega
  rw [e]
  by_cases hi : i < a.length
  · simp [hi, List.getD_eq_getElem?_getD, inter_getElem?_even h]
  · simp [hi]

theorem odds_map_inter {a b : List ℕ} (h : a.length = b.length) :
    (odds (inter a b).length).map ((inter a b).getD · 0) = b := by
  rw [inter_length h]
  apply List.ext_getElem?
  intro i
  simp only [odds, List.map_map, List.getElem?_map]
  have e : (2 * a.length) / 2 = a.length := by omega
  rw [e]
  by_cases hi : i < a.length
  · have hb : i < b.length := by omega
    simp [hi, hb, List.getD_eq_getElem?_getD, inter_getElem?_odd h]
  · have hb : ¬ i < b.length := by omega
    simp [hi, hb]

theorem inter_prod {a b : List ℕ} (h : a.length = b.length) : (inter a b).prod = a.prod * b.prod := by
  induction a generalizing b with
  | nil => simp at h; have : b = [] := List.length_eq_zero_iff.1 h.symm; simp [inter, this]
  | cons x xs ih =>
    cases b with
    | nil => simp at h
    | cons y ys => simp only [inter, List.prod_cons, ih (b := ys) (by simpa using h)]; ring

/-- strides of an interleaved shape are themselves interleaved -/
theorem strides_inter {a b : List ℕ} (h : a.length = b.length) :
    ∃ x y, strides (inter a b) = inter x y ∧ x.length = a.length ∧ y.length = a.length := by
  induction a generalizing b with
  | nil => exact ⟨[], [], by simp [inter, strides], rfl, rfl⟩
  | cons p ps ih =>
    cases b with
    | nil => simp at h
    | cons q qs =>
      obtain ⟨x, y, e, hx, hy⟩ := ih (b := qs) (by simpa using h)
      exact ⟨(q :: inter ps qs).prod :: x, (inter ps qs).prod :: y, by simp [inter, strides, e], by simp [hx], by simp [hy]⟩

theorem dot_inter {i j x y : List ℕ} (h1 : i.length = x.length) (h2 : j.length = y.length) (h3 : i.length = j.length) :
    dot (inter i j) (inter x y) = dot i x + dot j y := by
  induction i generalizing j x y with
  | nil =>
    have : j = [] := List.length_eq_zero_iff.1 h3.symm
    simp [inter, dot, this]
  | cons a as ih =>
    match j, x, y, h1, h2, h3 with
    | b :: bs, p :: ps, q :: qs, h1, h2, h3 =>
      simp only [inter, dot, ih (j := bs) (x := ps) (y := qs) (by simpa using h1) (by simpa using h2) (by simpa using h3)]
      ring

theorem Divides.length_eq {s t : List ℕ} (h : Divides s t) : t.length = s.length := List.Forall₂.length_eq h

@[simp] theorem divides_cons {d t : ℕ} {ds ts : List ℕ} : Divides (d :: ds) (t :: ts) ↔ (0 < t ∧ t ∣ d) ∧ Divides ds ts := by
  unfold Divides; exact List.forall₂_cons

theorem Divides.prod {s t : List ℕ} (h : Divides s t) : (List.zipWith (· / ·) s t).prod * t.prod = s.prod := by
  induction s generalizing t with
  | nil => cases t with
    | nil => simp
    | cons => have := h.length_eq; simp at this
  | cons d ds ih =>
    cases t with
    | nil => have := h.length_eq; simp at this
    | cons a as =>
      rw [divides_cons] at h
      have e : d / a * a = d := Nat.div_mul_cancel h.1.2
      simp only [List.zipWith_cons_cons, List.prod_cons]
      calc d / a * (List.zipWith (· / ·) ds as).prod * (a * as.prod)
          = (d / a * a) * ((List.zipWith (· / ·) ds as).prod * as.prod) := by ring
        _ = d * ds.prod := by rw [e, ih h.2]

theorem Divides.prod_pos {s t : List ℕ} (h : Divides s t) : 0 < t.prod := by
  induction s generalizing t with
  | nil => cases t with
    | nil => simp
    | cons => have := h.length_eq; simp at this
  | cons d ds ih =>
    cases t with
    | nil => have := h.length_eq; simp at this
    | cons a as =>
      rw [divides_cons] at h
      simp only [List.prod_cons]
      exact Nat.mul_pos h.1.1 (ih h.2)

theorem divIdx_inBounds {s t i : List ℕ} (h : Divides s t) (hi : InBounds s i) :
    InBounds (List.zipWith (· / ·) s t) (divIdx i t) := by
  induction s generalizing t i with
  | nil => simp at hi; simp [divIdx, hi]
  | cons d ds ih =>
    match t, i, h, hi with
    | [], _, h, _ => have := h.length_eq; simp at this
    | _ :: _, [], _, hi => exact absurd hi not_inBounds_cons_nil
    | a :: as, b :: bs, h, hi =>
      rw [divides_cons] at h
      rw [inBounds_cons] at hi
      simp only [divIdx, List.zipWith_cons_cons, inBounds_cons]
      refine ⟨?_, ih h.2 hi.2⟩
      rw [Nat.div_lt_iff_lt_mul h.1.1, Nat.div_mul_cancel h.1.2]
      exact hi.1

theorem modIdx_inBounds {s t i : List ℕ} (h : Divides s t) (hi : InBounds s i) : InBounds t (modIdx i t) := by
  induction s generalizing t i with
  | nil => simp at hi; cases t with
    | nil => simp [modIdx]
    | cons => have := h.length_eq; simp at this
  | cons d ds ih =>
    match t, i, h, hi with
    | [], _, h, _ => have := h.length_eq; simp at this
    | _ :: _, [], _, hi => exact absurd hi not_inBounds_cons_nil
    | a :: as, b :: bs, h, hi =>
      rw [divides_cons] at h
      rw [inBounds_cons] at hi
      simp only [modIdx, List.zipWith_cons_cons, inBounds_cons]
      exact ⟨Nat.mod_lt _ h.1.1, ih h.2 hi.2⟩

/-- Splitting every dimension into (block, position) does not move elements. -/
theorem ravel_split {s t i : List ℕ} (h : Divides s t) (hi : InBounds s i) :
    ravel s i = ravel (inter (List.zipWith (· / ·) s t) t) (inter (divIdx i t) (modIdx i t)) := by
  induction s generalizing t i with
  | nil => simp at hi; simp [hi, inter]
  | cons d ds ih =>
    match t, i, h, hi with
    | [], _, h, _ => have := h.length_eq; simp at this
    | _ :: _, [], _, hi => exact absurd hi not_inBounds_cons_nil
    | a :: as, b :: bs, h, hi =>
      rw [divides_cons] at h
      rw [inBounds_cons] at hi
      have hl : (List.zipWith (· / ·) ds as).length = as.length := by simp [h.2.length_eq]
      have hp := h.2.prod
      have e := ih h.2 hi.2
      simp only [divIdx, modIdx] at e
      simp only [ravel_cons, divIdx, modIdx, List.zipWith_cons_cons, inter, List.prod_cons, inter_prod hl, hp, ← e]
      have := Nat.div_add_mod b a
      calc b * ds.prod + ravel ds bs = (a * (b / a) + b % a) * ds.prod + ravel ds bs := by rw [this]
        _ = _ := by ring

theorem unravel_length (s : List ℕ) (k : ℕ) : (unravel s k).length = s.length := by
  induction s generalizing k with
  | nil => rfl
  | cons d ds ih => simp [unravel, ih]

/-- Recombine block index and in-tile index. -/
def combine (t q r : List ℕ) : List ℕ := List.zipWith (· + ·) (List.zipWith (· * ·) t q) r

theorem combine_div_mod {s t i : List ℕ} (h : Divides s t) (hi : InBounds s i) : combine t (divIdx i t) (modIdx i t) = i := by
  induction s generalizing t i with
  | nil => simp at hi; simp [combine, divIdx, modIdx, hi]
  | cons d ds ih =>
    match t, i, h, hi with
    | [], _, h, _ => have := h.length_eq; simp at this
    | _ :: _, [], _, hi => exact absurd hi not_inBounds_cons_nil
    | a :: as, b :: bs, h, hi =>
      rw [divides_cons] at h
      rw [inBounds_cons] at hi
      have e := ih h.2 hi.2
      simp only [combine, divIdx, modIdx] at e
      simp only [combine, divIdx, modIdx, List.zipWith_cons_cons, e, Nat.div_add_mod]

theorem combine_spec {s t q r : List ℕ} (h : Divides s t) (hq : InBounds (List.zipWith (· / ·) s t) q) (hr : InBounds t r) :
    InBounds s (combine t q r) ∧ divIdx (combine t q r) t = q ∧ modIdx (combine t q r) t = r := by
  induction s generalizing t q r with
  | nil =>
    cases t with
    | nil => simp at hq hr; simp [combine, divIdx, modIdx, hq, hr]
    | cons => have := h.length_eq; simp at this
  | cons d ds ih =>
    match t, h with
    | [], h => have := h.length_eq; simp at this
    | a :: as, h =>
      match q, r, hq, hr with
      | [], _, hq, _ => exact absurd hq (by simpa using not_inBounds_cons_nil)
      | _, [], _, hr => exact absurd hr not_inBounds_cons_nil
      | x :: xs, y :: ys, hq, hr =>
        rw [divides_cons] at h
        simp only [List.zipWith_cons_cons, inBounds_cons] at hq hr
        obtain ⟨e1, e2, e3⟩ := ih h.2 hq.2 hr.2
        simp only [combine, divIdx, modIdx] at e1 e2 e3
        simp only [combine, divIdx, modIdx, List.zipWith_cons_cons, inBounds_cons, e1, e2, e3, and_true, List.cons.injEq]
        obtain ⟨c, rfl⟩ := h.1.2
        rw [Nat.mul_div_cancel_left _ h.1.1] at hq
        refine ⟨?_, ?_, ?_⟩
        · calc a * x + y < a * x + a := by omega
            _ = a * (x + 1) := by ring
            _ ≤ a * c := Nat.mul_le_mul_left _ hq.1
        · rw [Nat.mul_add_div h.1.1, Nat.div_eq_of_lt hr.1, Nat.add_zero]
        · rw [Nat.mul_add_mod, Nat.mod_eq_of_lt hr.1]

theorem check_ok_of_divides {s t : List ℕ} (h : Divides s t) : checkTileCompatibility s t = .ok () := by
  unfold checkTileCompatibility
  rw [if_neg (by simp [h.length_eq]), if_neg]
  rw [Bool.not_eq_true, List.any_eq_false]
  induction s generalizing t with
  | nil => simp
  | cons d ds ih =>
    cases t with
    | nil => simp
    | cons a as =>
      rw [divides_cons] at h
      intro p hp
      simp only [List.zip_cons_cons, List.mem_cons] at hp
      rcases hp with rfl | hp
      · simp [Nat.mod_eq_zero_of_dvd h.1.2]
      · exact ih h.2 p hp

theorem numDimBlocks_ok {s t : List ℕ} (h : Divides s t) : numDimBlocks s t = .ok (List.zipWith (· / ·) s t) := by
  unfold numDimBlocks
  rw [if_neg]
  rw [Bool.not_eq_true, List.any_eq_false]
  induction s generalizing t with
  | nil => simp
  | cons d ds ih =>
    cases t with
    | nil => simp
    | cons a as =>
      rw [divides_cons] at h
      intro p hp
      simp only [List.zip_cons_cons, List.mem_cons] at hp
      rcases hp with rfl | hp
      · simp; omega
      · exact ih h.2 p hp

/-- The shape and the content of the permuted tensor. -/
theorem permute_split_get (t : Tensor α) (nb tile : List ℕ) (hl : nb.length = tile.length) (hs : t.shape = inter nb tile)
    {q r : List ℕ} (hq : InBounds nb q) (hr : InBounds tile r) :
    (t.permute (evens t.shape.length ++ odds t.shape.length)).shape = nb ++ tile ∧
    (t.permute (evens t.shape.length ++ odds t.shape.length)).get (ravel (nb ++ tile) (q ++ r))
      = t.get (ravel (inter nb tile) (inter q r)) := by
  have hql := hq.length_eq
  have hrl := hr.length_eq
  have hshape : (evens t.shape.length ++ odds t.shape.length).map (t.shape.getD · 0) = nb ++ tile := by
    rw [hs, List.map_append, evens_map_inter hl, odds_map_inter hl]
  refine ⟨hshape, ?_⟩
  simp only [Tensor.permute, hshape]
  rw [unravel_ravel (inBounds_append hq hr)]
  congr 1
  rw [hs, List.map_append]
  obtain ⟨x, y, e, hx, hy⟩ := strides_inter hl
  have hxy : x.length = y.length := by omega
  have hlen : (inter nb tile).length = (inter x y).length := by rw [inter_length hl, inter_length hxy, hx]
  rw [e, hlen, evens_map_inter hxy, odds_map_inter hxy]
  unfold ravel
  rw [e, dot_append (by omega), dot_inter (by omega) (by omega) (by omega)]

theorem reverse_perm_eq {k : ℕ} : interleave (List.range (2 * k / 2)) ((List.range (2 * k - 2 * k / 2)).map (2 * k / 2 + ·))
    = inter (List.range k) ((List.range k).map (k + ·)) := by
  have e1 : 2 * k / 2 = k := by omega
  have e2 : 2 * k - k = k := by omega
  rw [e1, e2]
  exact interleave_eq (by simp)

theorem map_inter (f : ℕ → ℕ) (a b : List ℕ) : (inter a b).map f = inter (a.map f) (b.map f) := by
  induction a generalizing b with
  | nil => simp [inter]
  | cons x xs ih =>
    cases b with
    | nil => simp [inter]
    | cons y ys => simp [inter, ih]

theorem map_range_getD (a b : List ℕ) : (List.range a.length).map ((a ++ b).getD · 0) = a := by
  apply List.ext_getElem?
  intro i
  by_cases hi : i < a.length
  · simp [hi, List.getD_eq_getElem?_getD, List.getElem?_append_left]
  · simp [hi]

theorem map_range_add_getD (a b : List ℕ) : ((List.range b.length).map (a.length + ·)).map ((a ++ b).getD · 0) = b := by
  apply List.ext_getElem?
  intro i
  by_cases hi : i < b.length
  · simp [hi, List.getD_eq_getElem?_getD]
  · simp [hi]

/-- The reverse permutation undoes the split permutation. -/
theorem permute_reverse_get (t : Tensor α) (nb tile : List ℕ) (hl : nb.length = tile.length) (hs : t.shape = nb ++ tile)
    {q r : List ℕ} (hq : InBounds nb q) (hr : InBounds tile r) :
    (t.permute (inter (List.range nb.length) ((List.range nb.length).map (nb.length + ·)))).shape = inter nb tile ∧
    (t.permute (inter (List.range nb.length) ((List.range nb.length).map (nb.length + ·)))).get
        (ravel (inter nb tile) (inter q r)) = t.get (ravel (nb ++ tile) (q ++ r)) := by
  have hql := hq.length_eq
  have hrl := hr.length_eq
  have key : ∀ a b : List ℕ, a.length = nb.length → b.length = nb.length →
      (inter (List.range nb.length) ((List.range nb.length).map (nb.length + ·))).map ((a ++ b).getD · 0) = inter a b := by
    intro a b ha hb
    rw [map_inter]
    have e1 := map_range_getD a b
    have e2 := map_range_add_getD a b
    rw [ha] at e1
    rw [hb, ha] at e2
    rw [e1, e2]
  have hshape : (inter (List.range nb.length) ((List.range nb.length).map (nb.length + ·))).map (t.shape.getD · 0)
      = inter nb tile := by
    rw [hs]; exact key nb tile rfl hl.symm
  refine ⟨hshape, ?_⟩
  simp only [Tensor.permute, hshape]
  have hb : InBounds (inter nb tile) (inter q r) := by
    clear hshape key hs
    induction nb generalizing tile q r with
    | nil => simp at hq; simp [hq, inter]
    | cons d ds ih =>
      match tile, q, r, hq, hr with
      | [], _, _, _, _ => simp at hl
      | _ :: _, [], _, hq, _ => exact absurd hq not_inBounds_cons_nil
      | _ :: _, _ :: _, [], _, hr => exact absurd hr not_inBounds_cons_nil
      | a :: as, x :: xs, y :: ys, hq, hr =>
        simp only [inBounds_cons] at hq hr
        simp only [inter, inBounds_cons]
        exact ⟨hq.1, hr.1, ih as (by simpa using hl) hq.2 hr.2 hq.2.length_eq hr.2.length_eq⟩
  rw [unravel_ravel hb]
  congr 1
  rw [hs]
  have hst : ∃ x y, strides (nb ++ tile) = x ++ y ∧ x.length = nb.length ∧ y.length = nb.length := by
    refine ⟨(strides (nb ++ tile)).take nb.length, (strides (nb ++ tile)).drop nb.length, by simp, by simp, by simp [hl]⟩
  obtain ⟨x, y, e, hx, hy⟩ := hst
  rw [e, key x y hx hy, dot_inter (by omega) (by omega) (by omega)]
  unfold ravel
  rw [e, dot_append (by omega)]

end FF.Tiling
