import Verif.Spec.TqliFl
import Mathlib.Data.Int.Log
import Mathlib.Algebra.Order.Round

/-!
# Rounding to `p` bits without limits of the exponent
-/

noncomputable section

namespace Primate

open Spec

/-- The nearest number with `p` significant bits, of any exponent. -/
def roundP (p : ℕ) (x : ℝ) : ℝ := round (x / (2 : ℝ) ^ (Int.log 2 |x| + 1 - p)) * (2 : ℝ) ^ (Int.log 2 |x| + 1 - p)

theorem roundP_err (p : ℕ) (x : ℝ) : |roundP p x - x| ≤ (2 : ℝ) ^ (-(p : ℤ)) * |x| := by
  unfold roundP
  generalize hk : Int.log 2 |x| + 1 - (p : ℤ) = k
  have h2 : (0 : ℝ) < (2 : ℝ) ^ k := by positivity
  have h1 := abs_sub_round (x / (2 : ℝ) ^ k)
  by_cases hx : x = 0
  · simp [hx]
  have hx' : 0 < |x| := abs_pos.2 hx
  have h3 := Int.zpow_log_le_self (b := 2) (by norm_num) hx'
  push_cast at h3
  have e : (round (x / (2 : ℝ) ^ k) : ℝ) * (2 : ℝ) ^ k - x = -((x / (2 : ℝ) ^ k - round (x / (2 : ℝ) ^ k)) * (2 : ℝ) ^ k) := by
    field_simp; ring
  rw [e, abs_neg, abs_mul, abs_of_pos h2]
  calc |x / (2 : ℝ) ^ k - round (x / (2 : ℝ) ^ k)| * (2 : ℝ) ^ k ≤ 1 / 2 * (2 : ℝ) ^ k := mul_le_mul_of_nonneg_right h1 h2.le
    _ = (2 : ℝ) ^ (-(p : ℤ)) * (2 : ℝ) ^ Int.log 2 |x| := by
      rw [← zpow_add₀ two_ne_zero, ← hk, show (1 / 2 : ℝ) = (2 : ℝ) ^ (-1 : ℤ) by norm_num, ← zpow_add₀ two_ne_zero]
      congr 1; ring
    _ ≤ _ := mul_le_mul_of_nonneg_left h3 (by positivity)

/-- Numbers with `p` bits are not changed. -/
theorem roundP_of_int (p : ℕ) (N j : ℤ) (x : ℝ) (hx : x = N * (2 : ℝ) ^ j) (hj : Int.log 2 |x| + 1 - p ≤ j) : roundP p x = x := by
  unfold roundP
  generalize Int.log 2 |x| + 1 - (p : ℤ) = k at hj
  obtain ⟨a, ha⟩ : ∃ a : ℕ, j = k + a := ⟨(j - k).toNat, by omega⟩
  have h2 : (2 : ℝ) ^ k ≠ 0 := by positivity
  have : x / (2 : ℝ) ^ k = ((N * 2 ^ a : ℤ) : ℝ) := by
    rw [hx, ha, zpow_add₀ two_ne_zero, zpow_natCast]
    push_cast
    field_simp
  rw [this, round_intCast, ← this]
  field_simp

theorem roundP_idem (p : ℕ) (hp : 1 ≤ p) (x : ℝ) : roundP p (roundP p x) = roundP p x := by
  by_cases hx : x = 0
  · simp [hx, roundP]
  by_cases hy : roundP p x = 0
  · rw [hy]; simp [roundP]
  have hx' : 0 < |x| := abs_pos.2 hx
  have hy' : 0 < |roundP p x| := abs_pos.2 hy
  obtain ⟨L, hL⟩ : ∃ L, L = Int.log 2 |x| := ⟨_, rfl⟩
  obtain ⟨N, hN⟩ : ∃ N : ℤ, N = round (x / (2 : ℝ) ^ (L + 1 - (p : ℤ))) := ⟨_, rfl⟩
  have hval : roundP p x = N * (2 : ℝ) ^ (L + 1 - (p : ℤ)) := by unfold roundP; rw [hN, hL]
  have hlt := Int.lt_zpow_succ_log_self (b := 2) (by norm_num) |x|
  push_cast at hlt
  rw [← hL] at hlt
  have h2 : (0 : ℝ) < (2 : ℝ) ^ (L + 1 - (p : ℤ)) := by positivity
  have hpow : (2 : ℝ) ^ (L + 1) = (2 : ℝ) ^ p * (2 : ℝ) ^ (L + 1 - (p : ℤ)) := by
    rw [← zpow_natCast, ← zpow_add₀ two_ne_zero]; congr 1; ring
  have hNle : |N| ≤ 2 ^ p := by
    have h1 := abs_sub_round (x / (2 : ℝ) ^ (L + 1 - (p : ℤ)))
    rw [← hN] at h1
    have h3 : |x / (2 : ℝ) ^ (L + 1 - (p : ℤ))| < 2 ^ p := by
      rw [abs_div, abs_of_pos h2, div_lt_iff₀ h2, ← hpow]; exact hlt
    have h4 : |(N : ℝ)| < 2 ^ p + 1 := by
      have := abs_sub_abs_le_abs_sub (N : ℝ) (x / (2 : ℝ) ^ (L + 1 - (p : ℤ)))
      rw [abs_sub_comm] at this
      linarith
    have h5 : |N| < 2 ^ p + 1 := by exact_mod_cast h4
    omega
  rcases (by omega : Int.log 2 |roundP p x| ≤ L ∨ L + 1 ≤ Int.log 2 |roundP p x|) with h | h
  · exact roundP_of_int p N _ _ hval (by omega)
  · have h3 := (Int.zpow_le_iff_le_log (R := ℝ) (b := 2) (by norm_num) hy').2 h
    push_cast at h3
    rw [hval, abs_mul, abs_of_pos h2, hpow] at h3
    have h4 : (2 : ℝ) ^ p ≤ |(N : ℝ)| := le_of_mul_le_mul_right h3 h2
    have h5 : (2 : ℤ) ^ p ≤ |N| := by exact_mod_cast h4
    have h6 : |N| = 2 ^ p := le_antisymm hNle h5
    have hlog : Int.log 2 |roundP p x| = L + 1 := by
      rw [hval, abs_mul, abs_of_pos h2, show |(N : ℝ)| = 2 ^ p by exact_mod_cast h6, ← hpow]
      exact_mod_cast Int.log_zpow (R := ℝ) (b := 2) (by norm_num) (L + 1)
    have hs : N = 2 * (N / 2) := by
      have hd : (2 : ℤ) ∣ N := by
        rw [← dvd_abs, h6]
        exact dvd_pow_self 2 (by omega)
      omega
    refine roundP_of_int p (N / 2) (L + 2 - (p : ℤ)) _ ?_ (by omega)
    rw [hval, show L + 2 - (p : ℤ) = (L + 1 - (p : ℤ)) + 1 by ring, zpow_add₀ two_ne_zero]
    have hs' : (N : ℝ) = 2 * ((N / 2 : ℤ) : ℝ) := by exact_mod_cast hs
    rw [hs', zpow_one]; ring

/-- The operations rounded to `p` bits. -/
def TqliKernels.bits (p : ℕ) : TqliKernels := ⟨roundP p, fun x y => roundP p (Real.sqrt (x ^ 2 + y ^ 2))⟩

theorem bits_ok (p : ℕ) (hp : 1 ≤ p) : TqliOk (TqliKernels.bits p) ((2 : ℝ) ^ (-(p : ℤ))) where
  round := roundP_err p
  idem := roundP_idem p hp
  hyp := fun x y => by
    have := roundP_err p (Real.sqrt (x ^ 2 + y ^ 2))
    rwa [abs_of_nonneg (Real.sqrt_nonneg (x ^ 2 + y ^ 2))] at this

end Primate
