import Verif.TensorOps.Lemmas

/-! # Indexing per-channel tensors: helper lemmas -/

namespace FF.TOps
open FF.Tens FF.Tiling FF.Quant FF.Gran

/-- Set the coordinates of size-one dimensions to zero. -/
def squash (p idx : List ℕ) : List ℕ := List.zipWith (fun p x => if p = 1 then 0 else x) p idx

theorem squash_cons (p : ℕ) (ps : List ℕ) (x : ℕ) (xs : List ℕ) :
    squash (p :: ps) (x :: xs) = (if p = 1 then 0 else x) :: squash ps xs := rfl

theorem sliceIndices_lt {a b : Option ℤ} {c d x : ℕ} (hc : c ≠ 0) (hx : x < (sliceIndices a b c d).2) :
    (sliceIndices a b c d).1 + x * c < d := by
  unfold sliceIndices at *
  simp only at *
  generalize (Option.map (clampBound d) a).getD 0 = s at *
  have hb : (Option.map (clampBound d) b).getD d ≤ d := by
    cases b with
    | none => simp
    | some b => simp only [Option.map_some, Option.getD_some, clampBound]; split_ifs <;> omega
  generalize (Option.map (clampBound d) b).getD d = e at *
  have h1 : (x + 1) * c ≤ e - s + c - 1 := by
    have := Nat.div_mul_le_self (e - s + c - 1) c
    calc (x + 1) * c ≤ ((e - s + c - 1) / c) * c := Nat.mul_le_mul_right c hx
      _ ≤ _ := this
  have : (x + 1) * c = x * c + c := by ring
  omega

theorem inBounds_take_drop {s t idx : List ℕ} (h : InBounds (s ++ t) idx) :
    InBounds s (idx.take s.length) ∧ InBounds t (idx.drop s.length) := by
  induction s generalizing idx with
  | nil => simpa using h
  | cons a as ih =>
    cases idx with
    | nil => exact absurd h not_inBounds_cons_nil
    | cons b bs =>
      simp only [List.cons_append, inBounds_cons] at h
      have := ih h.2
      simp [h.1, this]

/-- Indexing maps indices of the result to indices of the input. -/
theorem indexShape_inBounds {items : List Item} {ds out : List ℕ} {m : List ℕ → List ℕ}
    (h : indexShape items ds = .ok (out, m)) {idx : List ℕ} (hi : InBounds out idx) : InBounds ds (m idx) := by
  induction items generalizing ds out m idx with
  | nil =>
    simp only [indexShape, Except.ok.injEq, Prod.mk.injEq] at h
    obtain ⟨rfl, rfl⟩ := h
    exact hi
  | cons it is ih =>
    cases it with
    | newaxis =>
      simp only [indexShape, bind, Except.bind, pure, Except.pure] at h
      cases hr : indexShape is ds with
      | error e => simp [hr] at h
      | ok r =>
        simp only [hr, Except.ok.injEq, Prod.mk.injEq] at h
        obtain ⟨rfl, rfl⟩ := h
        cases idx with
        | nil => exact absurd hi not_inBounds_cons_nil
        | cons a as =>
          simp only [inBounds_cons] at hi
          exact ih (by rw [hr]) hi.2
    | int i =>
      cases ds with
      | nil => simp [indexShape] at h
      | cons d ds =>
        simp only [indexShape] at h
        cases hp : pyIndex d i with
        | none => simp [hp] at h
        | some k =>
          simp only [hp, bind, Except.bind, pure, Except.pure] at h
          cases hr : indexShape is ds with
          | error e => simp [hr] at h
          | ok r =>
            simp only [hr, Except.ok.injEq, Prod.mk.injEq] at h
            obtain ⟨rfl, rfl⟩ := h
            simp only [inBounds_cons]
            exact ⟨pyIndex_lt hp, ih (by rw [hr]) hi⟩
    | slice a b c =>
      cases ds with
      | nil => simp [indexShape] at h
      | cons d ds =>
        simp only [indexShape] at h
        split_ifs at h with hc
        simp only [bind, Except.bind, pure, Except.pure] at h
        cases hr : indexShape is ds with
        | error e => simp [hr] at h
        | ok r =>
          simp only [hr, Except.ok.injEq, Prod.mk.injEq] at h
          obtain ⟨rfl, rfl⟩ := h
          cases idx with
          | nil => exact absurd hi not_inBounds_cons_nil
          | cons x xs =>
            simp only [inBounds_cons] at hi ⊢
            exact ⟨sliceIndices_lt hc hi.1, ih (by rw [hr]) hi.2⟩
    | ellipsis =>
      simp only [indexShape] at h
      split_ifs at h with h1 h2
      simp only [bind, Except.bind, pure, Except.pure] at h
      cases hr : indexShape is (ds.drop (ds.length - consumed is)) with
      | error e => simp [hr] at h
      | ok r =>
        simp only [hr, Except.ok.injEq, Prod.mk.injEq] at h
        obtain ⟨rfl, rfl⟩ := h
        have hlen : (ds.take (ds.length - consumed is)).length = ds.length - consumed is := by simp
        have := inBounds_take_drop hi
        rw [hlen] at this
        have h3 := inBounds_append this.1 (ih (by rw [hr]) this.2)
        rwa [List.take_append_drop] at h3

/-- Parameter shape of the dimensions starting at `o`. -/
def pshapeFrom (chan : ℕ → Bool) (o : ℕ) (ds : List ℕ) : List ℕ := ds.mapIdx fun i d => if chan (o + i) then d else 1

theorem pshapeFrom_cons (chan : ℕ → Bool) (o d : ℕ) (ds : List ℕ) :
    pshapeFrom chan o (d :: ds) = (if chan o then d else 1) :: pshapeFrom chan (o + 1) ds := by
  unfold pshapeFrom
  rw [List.mapIdx_cons]
  simp only [Nat.add_zero]
  congr 1
  apply List.ext_getElem?
  intro i
  simp only [List.getElem?_mapIdx]
  congr 1
  funext x
  have : o + (i + 1) = o + 1 + i := by omega
  rw [this]

theorem pshapeFrom_length (chan : ℕ → Bool) (o : ℕ) (ds : List ℕ) : (pshapeFrom chan o ds).length = ds.length := by
  simp [pshapeFrom]

theorem pshapeFrom_drop (chan : ℕ → Bool) (o k : ℕ) (ds : List ℕ) (_hk : k ≤ ds.length) :
    (pshapeFrom chan o ds).drop k = pshapeFrom chan (o + k) (ds.drop k) := by
  apply List.ext_getElem?
  intro i
  simp only [pshapeFrom, List.getElem?_drop, List.getElem?_mapIdx]
  congr 1
  funext x
  have : o + (k + i) = o + k + i := by omega
  rw [this]

theorem pshapeFrom_append (chan : ℕ → Bool) (o k : ℕ) (ds : List ℕ) (hk : k ≤ ds.length) :
    pshapeFrom chan o ds = pshapeFrom chan o (ds.take k) ++ pshapeFrom chan (o + k) (ds.drop k) := by
  rw [← pshapeFrom_drop _ _ _ _ hk]
  have : pshapeFrom chan o (ds.take k) = (pshapeFrom chan o ds).take k := by
    apply List.ext_getElem?
    intro i
    simp only [pshapeFrom, List.getElem?_mapIdx, List.getElem?_take]
    split_ifs <;> simp
  rw [this, List.take_append_drop]

theorem squash_append {p p' i i' : List ℕ} (h : p.length = i.length) : squash (p ++ p') (i ++ i') = squash p i ++ squash p' i' := by
  unfold squash
  rw [List.zipWith_append (h := h)]

theorem consumed_effective (chan : ℕ → Bool) (ndim o : ℕ) (items : List Item) :
    consumed (effective chan ndim o items) = consumed items := by
  induction items generalizing o with
  | nil => rfl
  | cons it is ih =>
    unfold consumed at ih ⊢
    cases it with
    | newaxis => simpa [effective] using ih o
    | ellipsis => simpa [effective] using ih _
    | int i => simp only [effective]; split_ifs <;> simpa using ih (o + 1)
    | slice a b c => simp only [effective]; split_ifs <;> simpa using ih (o + 1)

theorem contains_effective (chan : ℕ → Bool) (ndim o : ℕ) (items : List Item) :
    (effective chan ndim o items).contains .ellipsis = items.contains .ellipsis := by
  induction items generalizing o with
  | nil => rfl
  | cons it is ih =>
    cases it with
    | newaxis => simpa [effective] using ih o
    | ellipsis => simp [effective]
    | int i => simp only [effective]; split_ifs <;> simpa using ih (o + 1)
    | slice a b c => simp only [effective]; split_ifs <;> simpa using ih (o + 1)

/-- Each dimension of the indexed parameters has size one or the size of the indexed data. -/
def Compat (pout out : List ℕ) : Prop := List.Forall₂ (fun p d => p = 1 ∨ p = d) pout out

theorem compat_pshape (chan : ℕ → Bool) (o : ℕ) (ds : List ℕ) : Compat (pshapeFrom chan o ds) ds := by
  induction ds generalizing o with
  | nil => exact .nil
  | cons d ds ih =>
    rw [pshapeFrom_cons]
    refine .cons ?_ (ih _)
    split_ifs <;> simp

theorem compat_append {a b c d : List ℕ} (h1 : Compat a c) (h2 : Compat b d) : Compat (a ++ b) (c ++ d) := by
  induction h1 with
  | nil => exact h2
  | cons h _ ih => exact .cons h ih

/-- The index applied to the parameters selects, for each element of the indexed data, the parameter of the element it came
from. -/
theorem effective_spec (chan : ℕ → Bool) (ndim : ℕ) (items : List Item) (o : ℕ) (ds out : List ℕ) (m : List ℕ → List ℕ)
    (ho : o + ds.length = ndim) (h : indexShape items ds = .ok (out, m)) :
    ∃ pout pm, indexShape (effective chan ndim o items) (pshapeFrom chan o ds) = .ok (pout, pm) ∧ Compat pout out ∧
      ∀ idx, InBounds out idx → pm (squash pout idx) = squash (pshapeFrom chan o ds) (m idx) := by
  induction items generalizing o ds out m with
  | nil =>
    simp only [indexShape, Except.ok.injEq, Prod.mk.injEq] at h
    obtain ⟨rfl, rfl⟩ := h
    exact ⟨_, _, rfl, compat_pshape chan o ds, fun idx _ => rfl⟩
  | cons it is ih =>
    cases it with
    | newaxis =>
      simp only [indexShape, bind, Except.bind, pure, Except.pure] at h
      cases hr : indexShape is ds with
      | error e => simp [hr] at h
      | ok r =>
        simp only [hr, Except.ok.injEq, Prod.mk.injEq] at h
        obtain ⟨rfl, rfl⟩ := h
        obtain ⟨pout, pm, h1, h2, h3⟩ := ih o ds r.1 r.2 ho (by rw [hr])
        refine ⟨1 :: pout, fun idx => pm idx.tail, ?_, .cons (Or.inl rfl) h2, ?_⟩
        · simp only [effective, indexShape, bind, Except.bind, pure, Except.pure, h1]
        · intro idx hi
          cases idx with
          | nil => exact absurd hi not_inBounds_cons_nil
          | cons a as =>
            simp only [inBounds_cons] at hi
            simpa [squash] using h3 as hi.2
    | int i =>
      cases ds with
      | nil => simp [indexShape] at h
      | cons d ds =>
        simp only [indexShape] at h
        cases hp : pyIndex d i with
        | none => simp [hp] at h
        | some k =>
          simp only [hp, bind, Except.bind, pure, Except.pure] at h
          cases hr : indexShape is ds with
          | error e => simp [hr] at h
          | ok r =>
            simp only [hr, Except.ok.injEq, Prod.mk.injEq] at h
            obtain ⟨rfl, rfl⟩ := h
            obtain ⟨pout, pm, h1, h2, h3⟩ := ih (o + 1) ds r.1 r.2 (by simp at ho; omega) (by rw [hr])
            rw [pshapeFrom_cons]
            by_cases hch : chan o = true
            · refine ⟨pout, fun idx => k :: pm idx, ?_, h2, ?_⟩
              · simp only [effective, hch, if_true, indexShape, hp, bind, Except.bind, pure, Except.pure, h1]
              · intro idx hi
                have hk := pyIndex_lt hp
                simp only [hch, if_true, squash_cons]
                rw [h3 idx hi]
                congr 1
                split_ifs <;> omega
            · refine ⟨pout, fun idx => 0 :: pm idx, ?_, h2, ?_⟩
              · have h0 : pyIndex 1 0 = some 0 := by decide
                simp only [effective, hch]
                simp [indexShape, h0, bind, Except.bind, pure, Except.pure, h1]
              · intro idx hi
                simp only [hch, squash_cons]
                rw [h3 idx hi]
                simp
    | slice a b c =>
      cases ds with
      | nil => simp [indexShape] at h
      | cons d ds =>
        simp only [indexShape] at h
        split_ifs at h with hc
        simp only [bind, Except.bind, pure, Except.pure] at h
        cases hr : indexShape is ds with
        | error e => simp [hr] at h
        | ok r =>
          simp only [hr, Except.ok.injEq, Prod.mk.injEq] at h
          obtain ⟨rfl, rfl⟩ := h
          obtain ⟨pout, pm, h1, h2, h3⟩ := ih (o + 1) ds r.1 r.2 (by simp at ho; omega) (by rw [hr])
          rw [pshapeFrom_cons]
          by_cases hch : chan o = true
          · refine ⟨(sliceIndices a b c d).2 :: pout,
              fun idx => ((sliceIndices a b c d).1 + idx.headD 0 * c) :: pm idx.tail, ?_, .cons (Or.inr rfl) h2, ?_⟩
            · simp only [effective, hch, if_true, indexShape, hc, if_false, bind, Except.bind, pure, Except.pure, h1]
            · intro idx hi
              cases idx with
              | nil => exact absurd hi not_inBounds_cons_nil
              | cons x xs =>
                simp only [inBounds_cons] at hi
                have hlt := sliceIndices_lt hc hi.1
                simp only [hch, if_true, squash_cons, List.headD_cons, List.tail_cons]
                rw [h3 xs hi.2]
                congr 1
                have hx := hi.1
                by_cases e1 : (sliceIndices a b c d).2 = 1
                · have : x = 0 := by omega
                  subst this
                  simp only [e1, if_true, Nat.zero_mul, Nat.add_zero] at hlt ⊢
                  split_ifs <;> omega
                · simp only [e1, if_false]
                  split_ifs <;> omega
          · refine ⟨1 :: pout, fun idx => (0 + idx.headD 0 * 1) :: pm idx.tail, ?_, .cons (Or.inl rfl) h2, ?_⟩
            · have hs : sliceIndices none none 1 1 = (0, 1) := by decide
              simp only [effective, hch]
              simp [indexShape, hs, bind, Except.bind, pure, Except.pure, h1]
            · intro idx hi
              cases idx with
              | nil => exact absurd hi not_inBounds_cons_nil
              | cons x xs =>
                simp only [inBounds_cons] at hi
                have := h3 xs hi.2
                simp only [hch, squash_cons, List.headD_cons, List.tail_cons] at this ⊢
                rw [this]
                simp
    | ellipsis =>
      simp only [indexShape] at h
      split_ifs at h with h1 h2
      simp only [bind, Except.bind, pure, Except.pure] at h
      cases hr : indexShape is (ds.drop (ds.length - consumed is)) with
      | error e => simp [hr] at h
      | ok r =>
        simp only [hr, Except.ok.injEq, Prod.mk.injEq] at h
        obtain ⟨rfl, rfl⟩ := h
        set skip := ds.length - consumed is with hskip
        have hsk : skip ≤ ds.length := by omega
        obtain ⟨pout, pm, h3, h4, h5⟩ := ih (ndim - consumed is) (ds.drop skip) r.1 r.2 (by simp; omega) (by rw [hr])
        have ho' : ndim - consumed is = o + skip := by omega
        rw [ho'] at h3 h5
        refine ⟨(pshapeFrom chan o ds).take skip ++ pout, fun idx => idx.take skip ++ pm (idx.drop skip), ?_, ?_, ?_⟩
        · simp only [effective, indexShape, contains_effective, h1, consumed_effective, pshapeFrom_length, h2, ← hskip, ho',
            pshapeFrom_drop _ _ _ _ hsk, bind, Except.bind, pure, Except.pure, h3]
          simp
        · apply compat_append _ h4
          have : (pshapeFrom chan o ds).take skip = pshapeFrom chan o (ds.take skip) := by
            rw [pshapeFrom_append chan o skip ds hsk, List.take_left' (by simp [pshapeFrom_length, hsk])]
          rw [this]
          exact compat_pshape _ _ _
        · intro idx hi
          have hlen : (ds.take skip).length = skip := by simp [hsk]
          have hb := inBounds_take_drop hi
          rw [hlen] at hb
          have htl : ((pshapeFrom chan o ds).take skip).length = skip := by simp [pshapeFrom_length, hsk]
          have hil : (idx.take skip).length = skip := by rw [hb.1.length_eq, hlen]
          have e1 : squash ((pshapeFrom chan o ds).take skip ++ pout) idx =
              squash ((pshapeFrom chan o ds).take skip) (idx.take skip) ++ squash pout (idx.drop skip) := by
            conv_lhs => rw [← List.take_append_drop skip idx]
            exact squash_append (by rw [htl, hil])
          have e2 : (squash ((pshapeFrom chan o ds).take skip) (idx.take skip)).length = skip := by
            simp only [squash, List.length_zipWith, htl, hil, Nat.min_self]
          dsimp only
          rw [e1, List.take_left' e2, List.drop_left' e2, h5 _ hb.2]
          conv_rhs => rw [← List.take_append_drop skip (pshapeFrom chan o ds)]
          rw [squash_append (by rw [htl, hil]), pshapeFrom_drop _ _ _ _ hsk]

end FF.TOps
