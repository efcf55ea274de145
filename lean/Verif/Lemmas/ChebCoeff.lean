import Mathlib.Analysis.SpecialFunctions.Trigonometric.Chebyshev.ChebyshevGauss
import Mathlib.Analysis.SpecialFunctions.Trigonometric.Chebyshev.RootsExtrema

/-! Chebyshev expansions of polynomials. -/

noncomputable section

namespace Primate

open Polynomial Polynomial.Chebyshev MeasureTheory Real

theorem sumZeroes_le {N : ℕ} (hN : N ≠ 0) (P : ℝ[X]) {G : ℝ} (hG : ∀ x, |x| ≤ 1 → |P.eval x| ≤ G) : |sumZeroes N P| ≤ π * G := by
  unfold sumZeroes
  have hN' : (0 : ℝ) < N := by exact_mod_cast Nat.pos_of_ne_zero hN
  rw [abs_mul, abs_of_pos (by positivity)]
  have h1 : |∑ i ∈ Finset.range N, P.eval (cos ((2 * i + 1) / (2 * N) * π))| ≤ N * G := by
    refine (Finset.abs_sum_le_sum_abs _ _).trans ?_
    refine (Finset.sum_le_sum fun i _ => hG _ (abs_cos_le_one _)).trans (le_of_eq ?_)
    rw [Finset.sum_const, Finset.card_range, nsmul_eq_mul]
  calc π / N * |∑ i ∈ Finset.range N, P.eval (cos ((2 * i + 1) / (2 * N) * π))| ≤ π / N * (N * G) := mul_le_mul_of_nonneg_left h1 (by positivity)
    _ = π * G := by field_simp

/-- A polynomial that is bounded by `G` on `[-1, 1]` is a combination of Chebyshev polynomials with coefficients bounded by `2 G`. -/
theorem cheb_expand (g : ℝ[X]) (N : ℕ) (hg : g.natDegree < N) {G : ℝ} (hG : ∀ x, |x| ≤ 1 → |g.eval x| ≤ G) :
    ∃ c : ℕ → ℝ, g = ∑ j ∈ Finset.range N, c j • T ℝ j ∧ ∀ j < N, |c j| ≤ 2 * G := by
  have hmem : g ∈ degreeLT ℝ N := by
    rw [mem_degreeLT]
    exact (degree_le_natDegree).trans_lt (by exact_mod_cast hg)
  rw [← Sequence.span_degreeLT (chebyshevTsequence ℝ) (by simp), show Set.Iio N = Finset.range N by simp,
    Submodule.mem_span_image_finset_iff_exists_fun'] at hmem
  obtain ⟨c, hc⟩ := hmem
  refine ⟨c, hc.symm, fun m hm => ?_⟩
  have hG0 : 0 ≤ G := (abs_nonneg _).trans (hG 0 (by simp))
  have i1 : ∫ x, (g * T ℝ m).eval x ∂measureT = c m * ∫ x, (T ℝ m).eval x * (T ℝ m).eval x ∂measureT := by
    rw [← hc]
    simp_rw [Finset.sum_mul, eval_finsetSum, eval_mul, eval_smul, smul_eq_mul, mul_assoc]
    rw [integral_finsetSum]
    · simp_rw [integral_const_mul]
      rw [Finset.sum_eq_single m]
      · rfl
      · intro j _ hj
        have := integral_eval_T_real_mul_eval_T_real_measureT_of_ne hj
        show c j * ∫ x, (T ℝ j).eval x * (T ℝ m).eval x ∂measureT = 0
        rw [this, mul_zero]
      · intro h
        exact absurd (Finset.mem_range.2 hm) h
    · intro j _
      exact integrable_measureT (by fun_prop)
  have i2 : |∫ x, (g * T ℝ m).eval x ∂measureT| ≤ π * G := by
    have hd : (g * T ℝ m).degree < 2 * ((N : ℕ) : WithBot ℕ) := by
      refine (degree_mul_le _ _).trans_lt ?_
      have h1 : g.degree < (N : WithBot ℕ) := (degree_le_natDegree).trans_lt (by exact_mod_cast hg)
      have h2 : (T ℝ (m : ℤ)).degree = ((m : ℕ) : WithBot ℕ) := by
        rw [degree_T]
        simp
      rw [h2]
      have h3 : ((m : ℕ) : WithBot ℕ) < N := by exact_mod_cast hm
      rw [two_mul]
      by_cases hgz : g = 0
      · rw [hgz, degree_zero, WithBot.bot_add]
        exact_mod_cast WithBot.bot_lt_coe (N + N)
      · rw [degree_eq_natDegree hgz]
        exact_mod_cast (by omega : g.natDegree + m < N + N)
    rw [integral_eq_sumZeroes (n := N) (by omega) (by exact_mod_cast hd)]
    refine sumZeroes_le (by omega) _ fun x hx => ?_
    rw [eval_mul, abs_mul]
    have h1 := hG x hx
    have h2 := abs_eval_T_real_le_one m hx
    calc |g.eval x| * |(T ℝ m).eval x| ≤ G * 1 := mul_le_mul h1 h2 (abs_nonneg _) hG0
      _ = G := mul_one _
  rw [i1, abs_mul] at i2
  have i3 : π / 2 ≤ |∫ x, (T ℝ (m : ℤ)).eval x * (T ℝ (m : ℤ)).eval x ∂measureT| := by
    by_cases h0 : m = 0
    · subst h0
      have := integral_eval_T_real_mul_self_measureT_zero
      rw [Nat.cast_zero, this, abs_of_pos pi_pos]
      linarith [pi_pos]
    · rw [integral_T_real_mul_self_measureT_of_ne_zero h0]
      exact le_abs_self _
  have i4 : |c m| * (π / 2) ≤ π * G := (mul_le_mul_of_nonneg_left i3 (abs_nonneg _)).trans i2
  have := pi_pos
  nlinarith

/-- The derivative of a Chebyshev polynomial. -/
theorem cheb_deriv_le (j : ℕ) {x : ℝ} (hx : |x| ≤ 1) : |(derivative (T ℝ j)).eval x| ≤ (j : ℝ) ^ 2 := by
  have h := abs_iterate_derivative_T_real_le j 1 hx
  rw [Function.iterate_one] at h
  refine h.trans (le_of_eq ?_)
  rw [T_derivative_eq_U, eval_mul, U_eval_one]
  simp
  ring

end Primate
