import Verif.Quant.Affine

/-! # Helper lemmas on rounding, clamping and the affine maps -/

namespace FF.Quant

theorem roundHE_intCast (k : ℤ) : roundHE (k : ℚ) = k := by
  simp [roundHE]

theorem roundHE_err (q : ℚ) : |(roundHE q : ℚ) - q| ≤ 1 / 2 := by
  have h1 := Int.floor_le q
  have h2 := Int.lt_floor_add_one q
  unfold roundHE
  split_ifs <;> rw [abs_le] <;> push_cast <;> constructor <;> linarith

theorem roundHE_le (q : ℚ) : (roundHE q : ℚ) ≤ q + 1 / 2 := by
  have := abs_le.1 (roundHE_err q); linarith [this.2]

theorem le_roundHE (q : ℚ) : q - 1 / 2 ≤ (roundHE q : ℚ) := by
  have := abs_le.1 (roundHE_err q); linarith [this.1]

theorem roundHE_mono {p q : ℚ} (h : p ≤ q) : roundHE p ≤ roundHE q := by
  by_contra hlt
  push Not at hlt
  have h1 : (roundHE q : ℚ) + 1 ≤ roundHE p := by exact_mod_cast hlt
  have h2 := roundHE_le p
  have h3 := le_roundHE q
  have h4 : p = q := le_antisymm h (by linarith)
  subst h4
  omega

/-- Rounding returns a nearest integer. -/
theorem roundHE_nearest (q : ℚ) (k : ℤ) : |(roundHE q : ℚ) - q| ≤ |(k : ℚ) - q| := by
  by_cases hk : k = roundHE q
  · rw [hk]
  · have h1 := roundHE_err q
    rcases lt_or_gt_of_ne hk with h | h
    · have h2 : (k : ℚ) + 1 ≤ roundHE q := by exact_mod_cast h
      have h3 := roundHE_le q
      rw [abs_of_nonpos (a := (k : ℚ) - q) (by linarith)]
      linarith
    · have h2 : (roundHE q : ℚ) + 1 ≤ k := by exact_mod_cast h
      have h3 := le_roundHE q
      rw [abs_of_nonneg (a := (k : ℚ) - q) (by linarith)]
      linarith

theorem roundHE_le_of_lt {q : ℚ} {k : ℤ} (h : q < k + 1 / 2) : roundHE q ≤ k := by
  by_contra hlt
  push Not at hlt
  have h1 : (k : ℚ) + 1 ≤ roundHE q := by exact_mod_cast hlt
  have h2 := roundHE_le q
  linarith

theorem le_roundHE_of_lt {q : ℚ} {k : ℤ} (h : k - 1 / 2 < q) : k ≤ roundHE q := by
  by_contra hlt
  push Not at hlt
  have h1 : (roundHE q : ℚ) + 1 ≤ k := by exact_mod_cast hlt
  have h2 := le_roundHE q
  linarith

theorem intMin_le_intMax (n : ℕ) : intMin n ≤ intMax n := by
  unfold intMax intMin
  have : (1 : ℤ) ≤ 2 ^ (n - 1) := one_le_pow₀ (by norm_num)
  omega

theorem intMin_neg (n : ℕ) : intMin n ≤ -1 := by
  unfold intMin
  have : (1 : ℤ) ≤ 2 ^ (n - 1) := one_le_pow₀ (by norm_num)
  omega

theorem intMax_nonneg (n : ℕ) : 0 ≤ intMax n := by
  have := intMin_neg n
  unfold intMax; omega

theorem intMax_sub_intMin (n : ℕ) (hn : 1 ≤ n) : intMax n - intMin n = 2 ^ n - 1 := by
  unfold intMax intMin
  obtain ⟨m, rfl⟩ : ∃ m, n = m + 1 := ⟨n - 1, by omega⟩
  simp [pow_succ]; ring

theorem intMin_pred_eq (n : ℕ) : intMin n = -(2 ^ (n - 1)) := rfl
theorem intMax_eq (n : ℕ) : intMax n = 2 ^ (n - 1) - 1 := by unfold intMax intMin; ring

theorem clampZ_mem {lo hi : ℤ} (h : lo ≤ hi) (x : ℤ) : lo ≤ clampZ lo hi x ∧ clampZ lo hi x ≤ hi := by
  unfold clampZ; omega

theorem clampZ_of_mem {lo hi x : ℤ} (h1 : lo ≤ x) (h2 : x ≤ hi) : clampZ lo hi x = x := by
  unfold clampZ; omega

theorem clampZ_mono {lo hi x y : ℤ} (h : x ≤ y) : clampZ lo hi x ≤ clampZ lo hi y := by
  unfold clampZ; omega

theorem quantizeScalar_ne {s : ℚ} (hs : s ≠ 0) (o : Option ℚ) (n : ℕ) (x : ℚ) :
    quantizeScalar s o n x
      = some (clampZ (intMin n) (intMax n) (roundHE (x / s - inferOffset o))) := by
  simp [quantizeScalar, hs]

theorem inferOffset_err (o : Option ℚ) : |(inferOffset o : ℚ) - o.getD 0| ≤ 1 / 2 := by
  cases o with
  | none => simp [inferOffset]
  | some o => simpa [inferOffset] using roundHE_err o

/-- Distance of the clamped rounding to a real point within half of the clamp interval. -/
theorem clamp_round_err {lo hi : ℤ} (hle : lo ≤ hi) {v : ℚ} (h1 : (lo : ℚ) - 1 / 2 ≤ v) (h2 : v ≤ hi + 1 / 2) :
    |(clampZ lo hi (roundHE v) : ℚ) - v| ≤ 1 / 2 := by
  have e1 := roundHE_le v
  have e2 := le_roundHE v
  rcases lt_trichotomy (roundHE v) lo with h | h | h
  · have : clampZ lo hi (roundHE v) = lo := by unfold clampZ; omega
    rw [this]
    have h' : (roundHE v : ℚ) + 1 ≤ lo := by exact_mod_cast h
    rw [abs_le]; constructor <;> linarith
  · have : clampZ lo hi (roundHE v) = roundHE v := by unfold clampZ; omega
    rw [this]; exact roundHE_err v
  · rcases le_or_gt (roundHE v) hi with h3 | h3
    · have : clampZ lo hi (roundHE v) = roundHE v := by unfold clampZ; omega
      rw [this]; exact roundHE_err v
    · have : clampZ lo hi (roundHE v) = hi := by unfold clampZ; omega
      rw [this]
      have h' : (hi : ℚ) + 1 ≤ roundHE v := by exact_mod_cast h3
      rw [abs_le]; constructor <;> linarith

/-- The clamped rounding is a nearest point of the clamp interval. -/
theorem clamp_round_nearest {lo hi : ℤ} (v : ℚ) {k : ℤ} (hk1 : lo ≤ k) (hk2 : k ≤ hi) :
    |(clampZ lo hi (roundHE v) : ℚ) - v| ≤ |(k : ℚ) - v| := by
  have e1 := roundHE_le v
  have e2 := le_roundHE v
  rcases lt_or_ge (roundHE v) lo with h | h
  · have : clampZ lo hi (roundHE v) = lo := by unfold clampZ; omega
    rw [this]
    have h' : (roundHE v : ℚ) + 1 ≤ lo := by exact_mod_cast h
    have hk : (lo : ℚ) ≤ k := by exact_mod_cast hk1
    rw [abs_of_nonneg (by linarith), abs_of_nonneg (by linarith)]
    linarith
  · rcases le_or_gt (roundHE v) hi with h3 | h3
    · have : clampZ lo hi (roundHE v) = roundHE v := by unfold clampZ; omega
      rw [this]; exact roundHE_nearest v k
    · have : clampZ lo hi (roundHE v) = hi := by unfold clampZ; omega
      rw [this]
      have h' : (hi : ℚ) + 1 ≤ roundHE v := by exact_mod_cast h3
      have hk : (k : ℚ) ≤ hi := by exact_mod_cast hk2
      rw [abs_of_nonpos (by linarith), abs_of_nonpos (by linarith)]
      linarith

theorem deq_sub (s : ℚ) (hs : 0 < s) (o : Option ℚ) (c : ℤ) (x : ℚ) :
    |dequantizeScalar s o c - x| = s * |(c : ℚ) - (x / s - inferOffset o)| := by
  have : dequantizeScalar s o c - x = s * ((c : ℚ) - (x / s - inferOffset o)) := by
    unfold dequantizeScalar; field_simp; ring
  rw [this, abs_mul, abs_of_pos hs]

theorem foldl_min_le (xs : List ℚ) (x : ℚ) :
    xs.foldl min x ≤ x ∧ ∀ y ∈ xs, xs.foldl min x ≤ y := by
  induction xs generalizing x with
  | nil => simp
  | cons a t ih =>
    simp only [List.foldl_cons, List.mem_cons, forall_eq_or_imp]
    obtain ⟨h1, h2⟩ := ih (min x a)
    exact ⟨h1.trans (min_le_left _ _), h1.trans (min_le_right _ _), h2⟩

theorem foldl_min_mem (xs : List ℚ) (x : ℚ) : xs.foldl min x = x ∨ xs.foldl min x ∈ xs := by
  induction xs generalizing x with
  | nil => simp
  | cons a t ih =>
    simp only [List.foldl_cons, List.mem_cons]
    rcases ih (min x a) with h | h
    · rcases min_choice x a with h' | h' <;> rw [h, h'] <;> simp
    · simp [h]

theorem le_foldl_max (xs : List ℚ) (x : ℚ) :
    x ≤ xs.foldl max x ∧ ∀ y ∈ xs, y ≤ xs.foldl max x := by
  induction xs generalizing x with
  | nil => simp
  | cons a t ih =>
    simp only [List.foldl_cons, List.mem_cons, forall_eq_or_imp]
    obtain ⟨h1, h2⟩ := ih (max x a)
    exact ⟨(le_max_left _ _).trans h1, (le_max_right _ _).trans h1, h2⟩

theorem foldl_max_mem (xs : List ℚ) (x : ℚ) : xs.foldl max x = x ∨ xs.foldl max x ∈ xs := by
  induction xs generalizing x with
  | nil => simp
  | cons a t ih =>
    simp only [List.foldl_cons, List.mem_cons]
    rcases ih (max x a) with h | h
    · rcases max_choice x a with h' | h' <;> rw [h, h'] <;> simp
    · simp [h]

theorem asymScale_pos {eps : ℚ} (he : 0 < eps) (n : ℕ) (r : ℚ × ℚ) : 0 < asymScale eps n r :=
  lt_of_lt_of_le he (le_max_right _ _)

theorem two_pow_sub_one_pos {n : ℕ} (hn : 1 ≤ n) : (0 : ℚ) < 2 ^ n - 1 := by
  have : (2 : ℚ) ^ 1 ≤ 2 ^ n := pow_le_pow_right₀ (by norm_num) hn
  linarith

theorem le_asymScale_mul {eps : ℚ} {n : ℕ} (hn : 1 ≤ n) (r : ℚ × ℚ) :
    r.2 - r.1 ≤ asymScale eps n r * (2 ^ n - 1) := by
  have h := two_pow_sub_one_pos hn
  have h1 : (r.2 - r.1) / (2 ^ n - 1) ≤ asymScale eps n r := le_max_left _ _
  rwa [div_le_iff₀ h] at h1

end FF.Quant
