import Verif.Quant.Affine

/-!
# Storage dtypes: the model of `can_support_bitwidth` and theorems (C12)
-/

namespace FF.Quant

/-- The dtypes distinguished by `_quantizer_impl.py:45-75`. `intN b` is a signed integer dtype of `b` bits, `uintN b` an unsigned one. -/
inductive DType where
  | bfloat16 | float16 | float32 | float64
  | float8_e4m3fn | float8_e4m3fnuz | float8_e5m2 | float8_e5m2fnuz
  | intN (bits : ℕ)
  | uintN (bits : ℕ)
  deriving DecidableEq, Repr

/-- `available_precision_bits` of `_quantizer_impl.py:47-68`. -/
def precisionBits : DType → ℕ
  | .bfloat16 => 7
  | .float16 => 10
  | .float32 => 23
  | .float64 => 52
  | .float8_e4m3fn | .float8_e4m3fnuz => 3
  | .float8_e5m2 | .float8_e5m2fnuz => 2
  | .intN b => b
  | .uintN b => b

/-- `_quantizer_impl.py:45-75` `can_support_bitwidth`. Not modelled: floating dtypes unknown to the `match` (accepted with a
warning) and `bool` (no `iinfo`). -/
def canSupportBitwidth (d : DType) (n : ℕ) : Bool := decide (n ≤ precisionBits d + 2)

/-! ## Specification: which integers a dtype represents -/

/-- Largest finite magnitude of a floating dtype (IEEE 754 and the OCP float8 formats). -/
def maxFinite : DType → ℕ
  | .bfloat16 => (2 ^ 8 - 1) * 2 ^ 120
  | .float16 => 65504
  | .float32 => (2 ^ 24 - 1) * 2 ^ 104
  | .float64 => (2 ^ 53 - 1) * 2 ^ 971
  | .float8_e4m3fn => 448
  | .float8_e4m3fnuz => 240
  | .float8_e5m2 | .float8_e5m2fnuz => 57344
  | .intN _ | .uintN _ => 0

/-- Number of explicitly stored mantissa bits. -/
def mantissa : DType → Option ℕ
  | .bfloat16 => some 7
  | .float16 => some 10
  | .float32 => some 23
  | .float64 => some 52
  | .float8_e4m3fn | .float8_e4m3fnuz => some 3
  | .float8_e5m2 | .float8_e5m2fnuz => some 2
  | .intN _ | .uintN _ => none

/-- The integer `k` is exactly representable in `d`. A float with `m` stored mantissa bits represents the integers
`a · 2^e` with `|a| < 2^(m+1)` up to its largest finite value. -/
def Represents (d : DType) (k : ℤ) : Prop :=
  match d with
  | .intN b => -(2 ^ (b - 1)) ≤ k ∧ k ≤ 2 ^ (b - 1) - 1 ∧ 1 ≤ b
  | .uintN b => 0 ≤ k ∧ k ≤ 2 ^ b - 1
  | d => |k| ≤ maxFinite d ∧ ∃ (a : ℤ) (e : ℕ), |a| < 2 ^ ((mantissa d).getD 0 + 1) ∧ k = a * 2 ^ e

/-- The codes of `n`-bit quantization. -/
def IsCode (n : ℕ) (c : ℤ) : Prop := -(2 ^ (n - 1)) ≤ c ∧ c ≤ 2 ^ (n - 1) - 1

theorem float_code_repr {n m : ℕ} (h : n ≤ m + 2) {c : ℤ} (hc : IsCode n c) :
    |c| ≤ 2 ^ (m + 1) ∧ ∃ (a : ℤ) (e : ℕ), |a| < 2 ^ (m + 1) ∧ c = a * 2 ^ e := by
  obtain ⟨h1, h2⟩ := hc
  have hp : (2 : ℤ) ^ (n - 1) ≤ 2 ^ (m + 1) := pow_le_pow_right₀ (by norm_num) (by omega)
  have hpos : (1 : ℤ) ≤ 2 ^ (n - 1) := one_le_pow₀ (by norm_num)
  refine ⟨abs_le.2 ⟨by omega, by omega⟩, ?_⟩
  by_cases he : c = -(2 ^ (n - 1))
  · refine ⟨-1, n - 1, ?_, by rw [he]; ring⟩
    have : (1 : ℤ) < 2 ^ (m + 1) := one_lt_pow₀ (by norm_num) (by omega)
    simpa using this
  · exact ⟨c, 0, abs_lt.2 ⟨by omega, by omega⟩, by simp⟩

theorem float_code_not_repr {n m : ℕ} (h : m + 2 < n) :
    IsCode n (2 ^ (m + 1) + 1) ∧ ¬ ∃ (a : ℤ) (e : ℕ), |a| < 2 ^ (m + 1) ∧ (2 ^ (m + 1) + 1 : ℤ) = a * 2 ^ e := by
  have hp : (2 : ℤ) ^ (m + 2) ≤ 2 ^ (n - 1) := pow_le_pow_right₀ (by norm_num) (by omega)
  have hpos : (2 : ℤ) ≤ 2 ^ (m + 1) := by
    calc (2 : ℤ) = 2 ^ 1 := by norm_num
      _ ≤ 2 ^ (m + 1) := pow_le_pow_right₀ (by norm_num) (by omega)
  have e2 : (2 : ℤ) ^ (m + 2) = 2 * 2 ^ (m + 1) := by ring
  refine ⟨⟨by omega, by omega⟩, ?_⟩
  rintro ⟨a, e, ha, heq⟩
  cases e with
  | zero =>
    have := abs_lt.1 ha
    simp at heq
    omega
  | succ e =>
    have h2 : (2 : ℤ) ^ (m + 1) = 2 * 2 ^ m := by ring
    have h3 : a * 2 ^ (e + 1) = 2 * (a * 2 ^ e) := by ring
    rw [h3, h2] at heq
    omega

/-- **C12 (partial).** For every floating dtype: a bit-width is accepted exactly when every code of that width is exactly
representable. -/
theorem float_dtype_accepts_iff_partial (d : DType) (n : ℕ) (hf : (mantissa d).isSome) :
    canSupportBitwidth d n = true ↔ ∀ c, IsCode n c → Represents d c := by
  have acc : ∀ m, n ≤ m + 2 → ∀ mx : ℕ, 2 ^ (m + 1) ≤ mx → ∀ c, IsCode n c →
      |c| ≤ (mx : ℤ) ∧ ∃ (a : ℤ) (e : ℕ), |a| < 2 ^ (m + 1) ∧ c = a * 2 ^ e := by
    intro m hm mx hmx c hc
    have := float_code_repr hm hc
    have hmx' : (2 : ℤ) ^ (m + 1) ≤ mx := by exact_mod_cast hmx
    exact ⟨le_trans this.1 hmx', this.2⟩
  have rej : ∀ m, (∀ c, IsCode n c → ∃ (a : ℤ) (e : ℕ), |a| < 2 ^ (m + 1) ∧ c = a * 2 ^ e) → n ≤ m + 2 := by
    intro m h
    by_contra hlt
    obtain ⟨h1, h2⟩ := float_code_not_repr (n := n) (m := m) (by omega)
    exact h2 (h _ h1)
  have main : ∀ m mx : ℕ, 2 ^ (m + 1) ≤ mx →
      (decide (n ≤ m + 2) = true ↔ ∀ c, IsCode n c → |c| ≤ (mx : ℤ) ∧ ∃ (a : ℤ) (e : ℕ), |a| < 2 ^ (m + 1) ∧ c = a * 2 ^ e) := by
    intro m mx hmx
    rw [decide_eq_true_iff]
    exact ⟨fun h => acc m h mx hmx, fun h => rej m fun c hc => (h c hc).2⟩
  cases d <;> simp [mantissa] at hf
  · exact main 7 _ (by norm_num [maxFinite])
  · exact main 10 _ (by norm_num [maxFinite])
  · exact main 23 _ (by norm_num [maxFinite])
  · refine main 52 _ ?_
    have h : (2 ^ 53 - 1) * 2 ^ 1 ≤ (2 ^ 53 - 1) * 2 ^ 971 :=
      Nat.mul_le_mul_left _ (Nat.pow_le_pow_right (by norm_num) (by norm_num))
    have h2 : (2 : ℕ) ^ (52 + 1) ≤ (2 ^ 53 - 1) * 2 ^ 1 := by norm_num
    exact le_trans h2 h
  · exact main 3 _ (by norm_num [maxFinite])
  · exact main 3 _ (by norm_num [maxFinite])
  · exact main 2 _ (by norm_num [maxFinite])
  · exact main 2 _ (by norm_num [maxFinite])

example : canSupportBitwidth .float32 25 = true ∧ canSupportBitwidth .float32 26 = false := by decide

/-- **C12 (partial).** A signed integer dtype represents all codes up to its own width. -/
theorem int_dtype_represents_partial (b n : ℕ) (hb : 1 ≤ b) (h : n ≤ b) (c : ℤ) (hc : IsCode n c) : Represents (.intN b) c := by
  obtain ⟨h1, h2⟩ := hc
  have hp : (2 : ℤ) ^ (n - 1) ≤ 2 ^ (b - 1) := pow_le_pow_right₀ (by norm_num) (by omega)
  exact ⟨by omega, by omega, hb⟩

/-- **C12, deviation.** The two extra bits are also granted to integer dtypes: every signed integer dtype of `b` bits is accepted
for `b+1` and `b+2` bits although it cannot hold the code `2^(b-1)`; every unsigned one although it cannot hold `-1`. -/
theorem int_dtype_accepts_too_much (b : ℕ) (hb : 1 ≤ b) :
    (canSupportBitwidth (.intN b) (b + 1) = true ∧ canSupportBitwidth (.intN b) (b + 2) = true
      ∧ IsCode (b + 1) (2 ^ (b - 1)) ∧ ¬ Represents (.intN b) (2 ^ (b - 1)))
    ∧ (canSupportBitwidth (.uintN b) b = true ∧ IsCode b (-1) ∧ ¬ Represents (.uintN b) (-1)) := by
  have hpos : (1 : ℤ) ≤ 2 ^ (b - 1) := one_le_pow₀ (by norm_num)
  have e : (2 : ℤ) ^ b = 2 * 2 ^ (b - 1) := by
    obtain ⟨k, rfl⟩ : ∃ k, b = k + 1 := ⟨b - 1, by omega⟩
    simp [pow_succ]; ring
  refine ⟨⟨by simp [canSupportBitwidth, precisionBits], by simp [canSupportBitwidth, precisionBits], ?_, ?_⟩, ?_, ?_, ?_⟩
  · simp only [IsCode, Nat.add_sub_cancel]; omega
  · rintro ⟨h1, h2, h3⟩; omega
  · simp [canSupportBitwidth, precisionBits]
  · simp only [IsCode]; omega
  · rintro ⟨h1, h2⟩; omega

end FF.Quant
