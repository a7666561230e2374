import Verif.Tensor.Basic

/-! # Helper lemmas on row-major indexing -/

namespace FF.Tens

@[simp] theorem strides_length (s : List ℕ) : (strides s).length = s.length := by
  induction s with
  | nil => rfl
  | cons d ds ih => simp [strides, ih]

theorem InBounds.length_eq {s i : List ℕ} (h : InBounds s i) : i.length = s.length := List.Forall₂.length_eq h

@[simp] theorem inBounds_nil_left {i : List ℕ} : InBounds [] i ↔ i = [] := by
  unfold InBounds
  constructor
  · intro h; cases h; rfl
  · rintro rfl; exact .nil

@[simp] theorem inBounds_cons {d i : ℕ} {ds is : List ℕ} : InBounds (d :: ds) (i :: is) ↔ i < d ∧ InBounds ds is := by
  unfold InBounds; exact List.forall₂_cons

theorem not_inBounds_cons_nil {d : ℕ} {ds : List ℕ} : ¬ InBounds (d :: ds) [] := by
  intro h; cases h

@[simp] theorem ravel_nil (i : List ℕ) : ravel [] i = 0 := by cases i <;> rfl

@[simp] theorem ravel_cons (d : ℕ) (ds : List ℕ) (i : ℕ) (is : List ℕ) :
    ravel (d :: ds) (i :: is) = i * ds.prod + ravel ds is := rfl

theorem ravel_lt {s i : List ℕ} (h : InBounds s i) : ravel s i < s.prod := by
  induction s generalizing i with
  | nil => simp
  | cons d ds ih =>
    cases i with
    | nil => exact absurd h not_inBounds_cons_nil
    | cons a as =>
      rw [inBounds_cons] at h
      have := ih h.2
      simp only [ravel_cons, List.prod_cons]
      calc a * ds.prod + ravel ds as < a * ds.prod + ds.prod := by omega
        _ = (a + 1) * ds.prod := by ring
        _ ≤ d * ds.prod := Nat.mul_le_mul_right _ h.1

theorem unravel_ravel {s i : List ℕ} (h : InBounds s i) : unravel s (ravel s i) = i := by
  induction s generalizing i with
  | nil => simp at h; simp [h, unravel]
  | cons d ds ih =>
    cases i with
    | nil => exact absurd h not_inBounds_cons_nil
    | cons a as =>
      rw [inBounds_cons] at h
      have hl := ravel_lt h.2
      have hp : 0 < ds.prod := by omega
      have e1 : (a * ds.prod + ravel ds as) / ds.prod = a := by
        rw [Nat.add_comm, Nat.add_mul_div_right _ _ hp, Nat.div_eq_of_lt hl, Nat.zero_add]
      have e2 : (a * ds.prod + ravel ds as) % ds.prod = ravel ds as := by
        rw [Nat.add_comm, Nat.add_mul_mod_self_right, Nat.mod_eq_of_lt hl]
      simp only [ravel_cons, unravel, e1, e2, ih h.2]

theorem unravel_inBounds {s : List ℕ} {k : ℕ} (h : k < s.prod) : InBounds s (unravel s k) := by
  induction s generalizing k with
  | nil => simp [unravel]
  | cons d ds ih =>
    simp only [List.prod_cons] at h
    have hp : 0 < ds.prod := by
      rcases Nat.eq_zero_or_pos ds.prod with h0 | h0
      · rw [h0] at h; omega
      · exact h0
    simp only [unravel, inBounds_cons]
    exact ⟨(Nat.div_lt_iff_lt_mul hp).2 h, ih (Nat.mod_lt _ hp)⟩

theorem ravel_unravel {s : List ℕ} {k : ℕ} (h : k < s.prod) : ravel s (unravel s k) = k := by
  induction s generalizing k with
  | nil => simp at h; simp [h]
  | cons d ds ih =>
    simp only [List.prod_cons] at h
    have hp : 0 < ds.prod := by
      rcases Nat.eq_zero_or_pos ds.prod with h0 | h0
      · rw [h0] at h; omega
      · exact h0
    simp only [unravel, ravel_cons, ih (Nat.mod_lt k hp)]
    exact Nat.div_add_mod' k ds.prod

theorem ravel_inj {s i j : List ℕ} (hi : InBounds s i) (hj : InBounds s j) (h : ravel s i = ravel s j) : i = j := by
  rw [← unravel_ravel hi, ← unravel_ravel hj, h]

theorem dot_append {a b c d : List ℕ} (h : a.length = c.length) : dot (a ++ b) (c ++ d) = dot a c + dot b d := by
  induction a generalizing c with
  | nil =>
    cases c with
    | nil => simp [dot]
    | cons x xs => simp at h
  | cons x xs ih =>
    cases c with
    | nil => simp at h
    | cons y ys =>
      simp only [List.cons_append, dot, ih (by simpa using h)]
      omega

theorem inBounds_append {s t i j : List ℕ} (hi : InBounds s i) (hj : InBounds t j) : InBounds (s ++ t) (i ++ j) := by
  induction s generalizing i with
  | nil => simp at hi; simpa [hi] using hj
  | cons d ds ih =>
    cases i with
    | nil => exact absurd hi not_inBounds_cons_nil
    | cons a as => simp only [List.cons_append, inBounds_cons] at *; exact ⟨hi.1, ih hi.2⟩

theorem ravel_append {s t i j : List ℕ} (h : i.length = s.length) :
    ravel (s ++ t) (i ++ j) = ravel s i * t.prod + ravel t j := by
  induction s generalizing i with
  | nil =>
    have : i = [] := List.length_eq_zero_iff.1 (by simpa using h)
    simp [this]
  | cons d ds ih =>
    cases i with
    | nil => simp at h
    | cons a as =>
      simp only [List.cons_append, ravel_cons, ih (i := as) (by simpa using h), List.prod_append]
      ring

/-- Tensors agree when they agree on all row-major positions. -/
theorem same_of_get {α : Type} {t u : Tensor α} (hs : t.shape = u.shape) (h : ∀ k, k < t.shape.prod → t.get k = u.get k) :
    t.Same u := by
  refine ⟨hs, fun idx hb => ?_⟩
  unfold Tensor.at
  rw [h _ (ravel_lt hb), hs]

theorem get_eq_at {α : Type} (t : Tensor α) {k : ℕ} (h : k < t.shape.prod) : t.get k = t.at (unravel t.shape k) := by
  unfold Tensor.at; rw [ravel_unravel h]

end FF.Tens
