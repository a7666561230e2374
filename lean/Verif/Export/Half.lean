import Verif.Quant.AffineLemmas
import Mathlib.Data.Int.Log

/-!
# Half precision scales

The GGUF block formats store each block scale as an IEEE 754 half precision number (`float16`), in two bytes.  This file
models the conversion `scales.to(torch.float16)` of `export/stages/gguf/_packing.py:48,76` (round to nearest, ties to even,
overflow to infinity) and the value a reader gives to the sixteen bits.
-/

namespace FF.Half

open FF.Quant

/-! ## Model -/

/-- The exponent of the half precision numbers next to `x > 0`: numbers below `2 ^ -14` share the exponent `-14`
(subnormal numbers). Part of `tensor.to(torch.float16)`, `_packing.py:48,76`. -/
def expo (x : ℚ) : ℤ := max (Int.log 2 x) (-14)

/-- Magnitude bits of `tensor.to(torch.float16)` (`_packing.py:48,76`) for `x ≥ 0`: the significand is rounded to eleven
bits, ties to even, and a carry moves into the exponent; what is too large becomes infinity (`0x7C00`). -/
def magBits (x : ℚ) : ℕ :=
  if x = 0 then 0
  else min 31744 ((expo x + 14) * 1024 + roundHE (x / 2 ^ (expo x - 10))).toNat

/-- `tensor.to(torch.float16)` (`_packing.py:48,76`), as sixteen bits: the sign bit and the magnitude.
Simplification: rational input, so no NaN and no negative zero. -/
def toHalf (x : ℚ) : ℕ := if x < 0 then 32768 + magBits (-x) else magBits x

/-! ## Specification -/

/-- The value of the fifteen magnitude bits of an IEEE 754 half precision number: five exponent bits and ten fraction
bits. `none` for infinity and NaN. -/
def magValue (b : ℕ) : Option ℚ :=
  if b / 1024 = 0 then some (((b % 1024 : ℕ) : ℚ) * 2 ^ (-24 : ℤ))
  else if b / 1024 < 31 then some (((1024 + b % 1024 : ℕ) : ℚ) * 2 ^ (((b / 1024 : ℕ) : ℤ) - 25))
  else none

/-- The value of the sixteen bits of an IEEE 754 half precision number. -/
def ofHalf (b : ℕ) : Option ℚ :=
  if b < 32768 then magValue b else (magValue (b - 32768)).map (fun v => -v)

/-- A number that half precision represents. -/
def Representable (x : ℚ) : Prop := ∃ b : ℕ, b < 65536 ∧ ofHalf b = some x

/-! ## Lemmas -/

theorem log_eq {x : ℚ} (hx : 0 < x) {e : ℤ} (h1 : (2 : ℚ) ^ e ≤ x) (h2 : x < (2 : ℚ) ^ (e + 1)) : Int.log 2 x = e := by
  have a := (Int.zpow_le_iff_le_log (b := 2) (by norm_num) hx (x := e)).1 (by exact_mod_cast h1)
  have b := (Int.lt_zpow_iff_log_lt (b := 2) (by norm_num) hx (x := e + 1)).1 (by exact_mod_cast h2)
  omega

theorem log_le_self {x : ℚ} (hx : 0 < x) : (2 : ℚ) ^ (Int.log 2 x) ≤ x := by
  exact_mod_cast Int.zpow_log_le_self (b := 2) (by norm_num) hx

theorem lt_log_succ (x : ℚ) : x < (2 : ℚ) ^ (Int.log 2 x + 1) := by
  exact_mod_cast Int.lt_zpow_succ_log_self (b := 2) (by norm_num) x

theorem log_lt {x : ℚ} (hx : 0 < x) {e : ℤ} (h : x < (2 : ℚ) ^ e) : Int.log 2 x < e :=
  (Int.lt_zpow_iff_log_lt (b := 2) (by norm_num) hx (x := e)).1 (by exact_mod_cast h)

theorem le_log {x : ℚ} (hx : 0 < x) {e : ℤ} (h : (2 : ℚ) ^ e ≤ x) : e ≤ Int.log 2 x :=
  (Int.zpow_le_iff_le_log (b := 2) (by norm_num) hx (x := e)).1 (by exact_mod_cast h)

theorem pow_pos' (e : ℤ) : (0 : ℚ) < 2 ^ e := zpow_pos (by norm_num) e

theorem pow_add' (a b : ℤ) : (2 : ℚ) ^ (a + b) = 2 ^ a * 2 ^ b := zpow_add₀ (by norm_num) a b

theorem lt_expo (x : ℚ) : x < (2 : ℚ) ^ (expo x + 1) := by
  refine lt_of_lt_of_le (lt_log_succ x) ?_
  apply zpow_le_zpow_right₀ (by norm_num)
  unfold expo; omega

theorem magBits_lt (x : ℚ) : magBits x ≤ 31744 := by
  unfold magBits; split
  · omega
  · exact min_le_left _ _

/-- The significand is at most `2 ^ 11`. -/
theorem sig_le (x : ℚ) : roundHE (x / 2 ^ (expo x - 10)) ≤ 2048 := by
  have h := lt_expo x
  have hp := pow_pos' (expo x - 10)
  have h1 : x / 2 ^ (expo x - 10) < 2048 := by
    rw [div_lt_iff₀ hp]
    calc x < 2 ^ (expo x + 1) := h
      _ = 2 ^ ((11 : ℤ) + (expo x - 10)) := by congr 1; ring
      _ = 2048 * 2 ^ (expo x - 10) := by rw [pow_add']; norm_num
  have := roundHE_mono h1.le
  have h2 := roundHE_intCast 2048
  simp only [Int.cast_ofNat] at h2
  omega

theorem sig_nonneg {x : ℚ} (hx : 0 ≤ x) : 0 ≤ roundHE (x / 2 ^ (expo x - 10)) := by
  have hp := pow_pos' (expo x - 10)
  have h := roundHE_mono (div_nonneg hx hp.le)
  have h2 := roundHE_intCast 0
  simp only [Int.cast_zero] at h2
  omega

/-- Normal numbers have a full significand. -/
theorem sig_ge {x : ℚ} (hx : 0 < x) (h : -14 ≤ Int.log 2 x) : 1024 ≤ roundHE (x / 2 ^ (expo x - 10)) := by
  have he : expo x = Int.log 2 x := by unfold expo; omega
  have hp := pow_pos' (expo x - 10)
  have h1 : (1024 : ℚ) ≤ x / 2 ^ (expo x - 10) := by
    rw [le_div_iff₀ hp]
    calc (1024 : ℚ) * 2 ^ (expo x - 10) = 2 ^ ((10 : ℤ) + (expo x - 10)) := by rw [pow_add']; norm_num
      _ = 2 ^ Int.log 2 x := by congr 1; omega
      _ ≤ x := log_le_self hx
  have := roundHE_mono h1
  have h2 := roundHE_intCast 1024
  simp only [Int.cast_ofNat] at h2
  omega

theorem magValue_of_subnormal {b : ℕ} (h : b < 1024) : magValue b = some ((b : ℚ) * 2 ^ (-24 : ℤ)) := by
  unfold magValue
  rw [if_pos (by omega), Nat.mod_eq_of_lt h]

theorem magValue_of_normal {E M : ℕ} (h1 : 1 ≤ E) (h2 : E < 31) (hM : M < 1024) :
    magValue (E * 1024 + M) = some (((1024 + M : ℕ) : ℚ) * 2 ^ ((E : ℤ) - 25)) := by
  unfold magValue
  have a : (E * 1024 + M) / 1024 = E := by omega
  have b : (E * 1024 + M) % 1024 = M := by omega
  rw [a, b, if_neg (by omega), if_pos h2]

/-- The value of a significand and an exponent, in the common form of normal, subnormal and carried significands. -/
theorem magValue_sig {e : ℤ} {m : ℕ} (he : -14 ≤ e) (hm : m ≤ 2048) (hn : e = -14 ∨ 1024 ≤ m)
    (hb : (e + 14) * 1024 + m < 31744) :
    magValue ((e + 14) * 1024 + m).toNat = some ((m : ℚ) * 2 ^ (e - 10)) := by
  obtain ⟨k, hk⟩ : ∃ k : ℕ, e = (k : ℤ) - 14 := ⟨(e + 14).toNat, by omega⟩
  subst hk
  have h0 : ((((k : ℤ) - 14) + 14) * 1024 + m).toNat = k * 1024 + m := by omega
  rw [h0]
  by_cases h1 : m < 1024
  · have hk0 : k = 0 := by omega
    subst hk0
    rw [show 0 * 1024 + m = m by omega, magValue_of_subnormal h1]
    norm_num
  · by_cases h2 : m < 2048
    · have : k * 1024 + m = (k + 1) * 1024 + (m - 1024) := by omega
      rw [this, magValue_of_normal (by omega) (by omega) (by omega)]
      have e1 : 1024 + (m - 1024) = m := by omega
      have e2 : ((k + 1 : ℕ) : ℤ) - 25 = (k : ℤ) - 14 - 10 := by push_cast; ring
      rw [e1, e2]
    · have hm' : m = 2048 := by omega
      subst hm'
      have : k * 1024 + 2048 = (k + 2) * 1024 + 0 := by omega
      rw [this, magValue_of_normal (by omega) (by omega) (by omega)]
      congr 1
      have : (2 : ℚ) ^ (((k + 2 : ℕ) : ℤ) - 25) = 2 ^ (1 : ℤ) * 2 ^ ((k : ℤ) - 14 - 10) := by
        rw [← pow_add']; congr 1; push_cast; ring
      rw [this]; push_cast; ring

/-- What the bits of a positive number are worth, unless they are infinity. -/
theorem magValue_magBits {x : ℚ} (hx : 0 < x) (hfin : magBits x < 31744) :
    magValue (magBits x) = some ((roundHE (x / 2 ^ (expo x - 10)) : ℚ) * 2 ^ (expo x - 10)) := by
  have hne : x ≠ 0 := ne_of_gt hx
  have h0 := sig_nonneg hx.le
  have h1 := sig_le x
  have he : -14 ≤ expo x := by unfold expo; omega
  have hn : expo x = -14 ∨ 1024 ≤ roundHE (x / 2 ^ (expo x - 10)) := by
    by_cases h : -14 ≤ Int.log 2 x
    · exact Or.inr (sig_ge hx h)
    · left; unfold expo; omega
  unfold magBits at hfin ⊢
  rw [if_neg hne] at hfin ⊢
  obtain ⟨m, hm⟩ : ∃ m : ℕ, roundHE (x / 2 ^ (expo x - 10)) = m := ⟨_, (Int.toNat_of_nonneg h0).symm⟩
  rw [hm] at hfin hn h1 ⊢
  rw [min_eq_right (by omega), magValue_sig he (by omega) (by omega) (by omega)]
  simp

theorem magValue_neg_free {b : ℕ} {v : ℚ} (h : magValue b = some v) : 0 ≤ v := by
  unfold magValue at h
  split at h
  · simp only [Option.some.injEq] at h; rw [← h]; exact mul_nonneg (Nat.cast_nonneg _) (pow_pos' _).le
  · split at h
    · simp only [Option.some.injEq] at h; rw [← h]; exact mul_nonneg (Nat.cast_nonneg _) (pow_pos' _).le
    · simp at h

/-- Encoding the value of finite magnitude bits gives the bits back. -/
theorem magBits_magValue {b : ℕ} (hb : b < 32768) {x : ℚ} (h : magValue b = some x) : magBits x = b := by
  unfold magValue at h
  split at h
  · rename_i h0
    simp only [Option.some.injEq] at h
    have hb' : b < 1024 := by omega
    rw [Nat.mod_eq_of_lt hb'] at h
    rcases Nat.eq_zero_or_pos b with hz | hz
    · subst hz; subst h; simp [magBits]
    · have hx : 0 < x := by rw [← h]; positivity
      have hlt : x < 2 ^ (-14 : ℤ) := by
        rw [← h]
        have : (b : ℚ) < 1024 := by exact_mod_cast hb'
        norm_num; linarith
      have hl := log_lt hx hlt
      have he : expo x = -14 := by unfold expo; omega
      unfold magBits
      rw [if_neg (ne_of_gt hx), he]
      have : x / 2 ^ ((-14 : ℤ) - 10) = ((b : ℤ) : ℚ) := by rw [← h]; norm_num
      rw [this, roundHE_intCast]
      omega
  · split at h
    · rename_i h0 h1
      simp only [Option.some.injEq] at h
      set E := b / 1024 with hE
      set M := b % 1024 with hM
      have hMlt : M < 1024 := Nat.mod_lt _ (by norm_num)
      have hp := pow_pos' ((E : ℤ) - 25)
      have hMq : (M : ℚ) < 1024 := by exact_mod_cast hMlt
      have hM0 : (0 : ℚ) ≤ M := by positivity
      have hx : 0 < x := by rw [← h]; positivity
      have e1 : (2 : ℚ) ^ ((E : ℤ) - 15) = 1024 * 2 ^ ((E : ℤ) - 25) := by
        rw [show (E : ℤ) - 15 = 10 + (E - 25) by ring, pow_add']; norm_num
      have e2 : (2 : ℚ) ^ ((E : ℤ) - 15 + 1) = 2048 * 2 ^ ((E : ℤ) - 25) := by
        rw [show (E : ℤ) - 15 + 1 = 11 + (E - 25) by ring, pow_add']; norm_num
      have hl : Int.log 2 x = (E : ℤ) - 15 := by
        apply log_eq hx
        · rw [e1, ← h]; push_cast; nlinarith
        · rw [e2, ← h]; push_cast; nlinarith
      have he : expo x = (E : ℤ) - 15 := by unfold expo; omega
      unfold magBits
      rw [if_neg (ne_of_gt hx), he]
      have hd : x / 2 ^ ((E : ℤ) - 15 - 10) = (((1024 + M : ℕ) : ℤ) : ℚ) := by
        rw [← h, show (E : ℤ) - 15 - 10 = E - 25 by ring]
        rw [mul_div_assoc, div_self (ne_of_gt hp)]; simp
      rw [hd, roundHE_intCast]
      omega
    · simp at h

/-! ## Properties -/

/-- Half precision numbers convert to themselves. -/
theorem toHalf_exact {x : ℚ} (h : Representable x) : ofHalf (toHalf x) = some x := by
  obtain ⟨b, hb, hv⟩ := h
  unfold ofHalf at hv
  split at hv
  · rename_i hlt
    have hx := magValue_neg_free hv
    have := magBits_magValue hlt hv
    unfold toHalf
    rw [if_neg (by linarith), this]
    unfold ofHalf
    rw [if_pos hlt, hv]
  · rename_i hge
    cases hm : magValue (b - 32768) with
    | none => rw [hm] at hv; simp at hv
    | some v =>
      rw [hm] at hv
      simp only [Option.map_some, Option.some.injEq] at hv
      have hv0 := magValue_neg_free hm
      have hbits := magBits_magValue (by omega) hm
      by_cases hz : v = 0
      · subst hz
        simp only [neg_zero] at hv
        subst hv
        simp [toHalf, magBits, ofHalf, magValue]
      · have : 0 < v := lt_of_le_of_ne hv0 (Ne.symm hz)
        subst hv
        unfold toHalf
        rw [if_pos (by linarith), neg_neg, hbits]
        unfold ofHalf
        rw [if_neg (by omega), Nat.add_sub_cancel_left, hm]
        rfl

theorem magValue_near {x : ℚ} (hx : 0 < x) (hmax : x ≤ 65504) :
    ∃ y, magValue (magBits x) = some y ∧ |y - x| ≤ 2 ^ (expo x - 11) := by
  have hp := pow_pos' (expo x - 10)
  have hmax' : x < 2 ^ (16 : ℤ) := by norm_num; linarith
  have hlog := log_lt hx hmax'
  have hexp : expo x ≤ 15 := by unfold expo; omega
  have hfin : magBits x < 31744 := by
    unfold magBits
    rw [if_neg (ne_of_gt hx)]
    have h1 := sig_le x
    by_cases he : expo x = 15
    · have : roundHE (x / 2 ^ (expo x - 10)) ≤ 2047 := by
        have h2 : x / 2 ^ (expo x - 10) ≤ 2047 := by
          rw [div_le_iff₀ hp, he]; norm_num; linarith
        have := roundHE_mono h2
        have h3 := roundHE_intCast 2047
        simp only [Int.cast_ofNat] at h3
        omega
      rw [he] at this ⊢
      omega
    · omega
  refine ⟨_, magValue_magBits hx hfin, ?_⟩
  have herr := roundHE_err (x / 2 ^ (expo x - 10))
  have hxe : x = x / 2 ^ (expo x - 10) * 2 ^ (expo x - 10) := by
    field_simp
  have : (roundHE (x / 2 ^ (expo x - 10)) : ℚ) * 2 ^ (expo x - 10) - x
      = (roundHE (x / 2 ^ (expo x - 10)) - x / 2 ^ (expo x - 10)) * 2 ^ (expo x - 10) := by
    rw [sub_mul, ← hxe]
  rw [this, abs_mul, abs_of_pos hp]
  calc _ ≤ 1 / 2 * 2 ^ (expo x - 10) := mul_le_mul_of_nonneg_right herr hp.le
    _ = 2 ^ (expo x - 11) := by
      rw [show expo x - 10 = 1 + (expo x - 11) by ring, pow_add']; ring

theorem ofHalf_toHalf (x : ℚ) : ofHalf (toHalf x) =
    if x < 0 then (magValue (magBits (-x))).map (fun v => -v) else magValue (magBits x) := by
  unfold toHalf
  split
  · unfold ofHalf
    rw [if_neg (by omega), Nat.add_sub_cancel_left]
  · unfold ofHalf
    rw [if_pos (by have := magBits_lt x; omega)]

/-- A number that is at most the largest half precision number is stored with an absolute error of at most half a unit in
the last place: relative error `2 ^ -11` for normal numbers, absolute error `2 ^ -25` below. -/
theorem toHalf_near (x : ℚ) (hmax : |x| ≤ 65504) :
    ∃ y, ofHalf (toHalf x) = some y ∧ |y - x| ≤ max (|x| / 2048) (1 / 2 ^ 25) := by
  have key : ∀ z : ℚ, 0 < z → z ≤ 65504 → ∃ y, magValue (magBits z) = some y ∧ |y - z| ≤ max (z / 2048) (1 / 2 ^ 25) := by
    intro z hz hm
    obtain ⟨y, hy, he⟩ := magValue_near hz hm
    refine ⟨y, hy, le_trans he ?_⟩
    by_cases hl : -14 ≤ Int.log 2 z
    · have hez : expo z = Int.log 2 z := by unfold expo; omega
      refine le_trans ?_ (le_max_left _ _)
      rw [hez, show Int.log 2 z - 11 = Int.log 2 z + (-11) by ring, pow_add']
      have := log_le_self hz
      norm_num
      linarith
    · have hez : expo z = -14 := by unfold expo; omega
      refine le_trans ?_ (le_max_right _ _)
      rw [hez]; norm_num
  rw [ofHalf_toHalf]
  rcases lt_trichotomy x 0 with h | h | h
  · rw [abs_of_neg h] at hmax ⊢
    obtain ⟨y, hy, he⟩ := key (-x) (by linarith) hmax
    rw [if_pos h, hy]
    refine ⟨-y, rfl, ?_⟩
    rwa [show -y - x = -(y - -x) by ring, abs_neg]
  · subst h
    refine ⟨0, by simp [magBits, magValue], by simp⟩
  · rw [abs_of_pos h] at hmax ⊢
    rw [if_neg (by linarith)]
    exact key x h hmax

/-- Numbers of magnitude at most `2 ^ -25` are stored as zero. -/
theorem toHalf_underflow (x : ℚ) (h : |x| ≤ 1 / 2 ^ 25) : ofHalf (toHalf x) = some 0 := by
  have key : ∀ z : ℚ, 0 < z → z ≤ 1 / 2 ^ 25 → magValue (magBits z) = some 0 := by
    intro z hz hm
    have hlt : z < 2 ^ (-14 : ℤ) := by
      refine lt_of_le_of_lt hm ?_; norm_num
    have hl := log_lt hz hlt
    have he : expo z = -14 := by unfold expo; omega
    have hr : roundHE (z / 2 ^ ((-14 : ℤ) - 10)) = 0 := by
      have h1 : z / 2 ^ ((-14 : ℤ) - 10) ≤ 1 / 2 := by
        rw [div_le_iff₀ (pow_pos' _)]
        norm_num at hm ⊢; linarith
      have h2 : 0 ≤ z / 2 ^ ((-14 : ℤ) - 10) := div_nonneg hz.le (pow_pos' _).le
      have h3 := roundHE_mono h1
      have h4 := roundHE_mono h2
      have h5 : roundHE (1 / 2) = 0 := by decide +kernel
      have h6 := roundHE_intCast 0
      simp only [Int.cast_zero] at h6
      omega
    have hb : magBits z = 0 := by
      unfold magBits
      rw [if_neg (ne_of_gt hz), he, hr]
      rfl
    rw [hb]; simp [magValue]
  rw [ofHalf_toHalf]
  rcases lt_trichotomy x 0 with h' | h' | h'
  · rw [abs_of_neg h'] at h
    rw [if_pos h', key _ (by linarith) h]; simp
  · subst h'; simp [magBits, magValue]
  · rw [abs_of_pos h'] at h
    rw [if_neg (by linarith), key _ h' h]

/-- Numbers from 65520 on are stored as infinity. -/
theorem toHalf_overflow (x : ℚ) (h : 65520 ≤ |x|) : ofHalf (toHalf x) = none := by
  have key : ∀ z : ℚ, 65520 ≤ z → magValue (magBits z) = none := by
    intro z hm
    have hz : 0 < z := by linarith
    have hl := le_log hz (e := 15) (by norm_num; linarith)
    have he : expo z = Int.log 2 z := by unfold expo; omega
    have hs := sig_ge hz (by omega)
    have hb : magBits z = 31744 := by
      unfold magBits
      rw [if_neg (ne_of_gt hz)]
      apply min_eq_left
      by_cases h15 : Int.log 2 z = 15
      · have : 2048 ≤ roundHE (z / 2 ^ (expo z - 10)) := by
          have h1 : (2047 + 1 / 2 : ℚ) ≤ z / 2 ^ (expo z - 10) := by
            rw [le_div_iff₀ (pow_pos' _), he, h15]; norm_num; linarith
          have h2 := roundHE_mono h1
          have h3 : roundHE (2047 + 1 / 2) = 2048 := by decide +kernel
          omega
        rw [he, h15] at this ⊢
        omega
      · omega
    rw [hb]
    simp [magValue]
  rw [ofHalf_toHalf]
  rcases lt_or_ge x 0 with h' | h'
  · rw [abs_of_neg h'] at h
    rw [if_pos h', key _ h]; rfl
  · rw [abs_of_nonneg h'] at h
    rw [if_neg (by linarith), key _ h]

theorem toHalf_lt (x : ℚ) : toHalf x < 65536 := by
  unfold toHalf
  split
  · have := magBits_lt (-x); omega
  · have := magBits_lt x; omega

/-! ## Concrete cases -/

example : toHalf 1 = 15360 ∧ toHalf (-2) = 49152 ∧ toHalf 65504 = 31743 ∧ toHalf (1 / 2 ^ 24) = 1 := by decide +kernel
example : ofHalf 15360 = some 1 ∧ ofHalf 31744 = none := by decide +kernel
example : Representable (1 / 16) := ⟨11264, by decide, by decide +kernel⟩
example : ofHalf (toHalf (1 / 3)) = some (1365 / 4096) := by decide +kernel

end FF.Half
