import Mathlib.Analysis.Complex.Exponential
import Mathlib.Analysis.SpecialFunctions.Exponential
import Mathlib.Analysis.SpecialFunctions.Log.Deriv
import Mathlib.Algebra.Order.Field.GeomSum
import Mathlib.RingTheory.Polynomial.Bernstein
import Mathlib.Algebra.Order.Chebyshev
import Mathlib.Algebra.BigOperators.Field
import Mathlib.Algebra.Polynomial.BigOperators

/-!
# Polynomial approximation with explicit constants

Bernstein polynomials of Lipschitz functions and Taylor polynomials of `exp`, `1 / t` and `log`.
-/

open Polynomial Finset

namespace Primate

/-! ## Lipschitz functions -/

/-- The Bernstein polynomial of degree `m` of a function on `[0, 1]`. -/
noncomputable def bern (m : ℕ) (g : ℝ → ℝ) : ℝ[X] := ∑ v ∈ range (m + 1), C (g (v / m)) * bernsteinPolynomial ℝ m v

theorem bern_natDegree (m : ℕ) (g : ℝ → ℝ) : (bern m g).natDegree ≤ m := by
  refine natDegree_sum_le_of_forall_le _ _ fun v hv => (natDegree_C_mul_le _ _).trans ?_
  have hv' : v ≤ m := Nat.lt_succ_iff.1 (mem_range.1 hv)
  unfold bernsteinPolynomial
  calc ((m.choose v : ℝ[X]) * X ^ v * (1 - X) ^ (m - v)).natDegree
      ≤ ((m.choose v : ℝ[X]) * X ^ v).natDegree + ((1 - X : ℝ[X]) ^ (m - v)).natDegree := natDegree_mul_le
    _ ≤ v + (m - v) := by
        gcongr
        · refine natDegree_mul_le.trans ?_
          rw [natDegree_natCast, natDegree_X_pow, zero_add]
        · refine natDegree_pow_le.trans ?_
          have : (1 - X : ℝ[X]).natDegree ≤ 1 := (natDegree_sub_le _ _).trans (by simp)
          calc (m - v) * (1 - X : ℝ[X]).natDegree ≤ (m - v) * 1 := Nat.mul_le_mul_left _ this
            _ = m - v := mul_one _
    _ = m := by omega

theorem bern_near (m : ℕ) (hm : 0 < m) (g : ℝ → ℝ) (L : ℝ) (hL : 0 ≤ L)
    (hg : ∀ s, 0 ≤ s → s ≤ 1 → ∀ t, 0 ≤ t → t ≤ 1 → |g s - g t| ≤ L * |s - t|) (x : ℝ) (h0 : 0 ≤ x) (h1 : x ≤ 1) :
    |g x - (bern m g).eval x| ≤ L / (2 * Real.sqrt m) := by
  have hm' : (0 : ℝ) < m := by exact_mod_cast hm
  set w : ℕ → ℝ := fun v => (bernsteinPolynomial ℝ m v).eval x with hw
  have hw0 : ∀ v, 0 ≤ w v := fun v => by
    simp only [hw, bernsteinPolynomial, eval_mul, eval_pow, eval_sub, eval_one, eval_X, eval_natCast]
    have : 0 ≤ 1 - x := by linarith
    positivity
  have hw1 : ∑ v ∈ range (m + 1), w v = 1 := by
    simpa [eval_finsetSum, hw] using congrArg (eval x) (bernsteinPolynomial.sum ℝ m)
  have hw2 : ∑ v ∈ range (m + 1), (x - v / m) ^ 2 * w v = x * (1 - x) / m := by
    have h := congrArg (eval x) (bernsteinPolynomial.variance (R := ℝ) m)
    simp only [eval_finsetSum, eval_mul, eval_pow, eval_sub, eval_X, eval_natCast, eval_one, nsmul_eq_mul] at h
    have h2 : ∑ v ∈ range (m + 1), (x - v / m) ^ 2 * w v = (∑ v ∈ range (m + 1), (m * x - v) ^ 2 * w v) / m ^ 2 := by
      rw [Finset.sum_div]
      refine Finset.sum_congr rfl fun v _ => ?_
      field_simp
    rw [h2, h]
    field_simp
  have hw3 : ∑ v ∈ range (m + 1), |x - v / m| * w v ≤ 1 / (2 * Real.sqrt m) := by
    have h2 : (∑ v ∈ range (m + 1), |x - v / m| * w v) ^ 2 ≤ x * (1 - x) / m := by
      have h3 := Finset.sum_mul_sq_le_sq_mul_sq (range (m + 1)) (fun v => |x - v / m| * Real.sqrt (w v)) fun v => Real.sqrt (w v)
      have e1 : ∀ v : ℕ, |x - v / m| * Real.sqrt (w v) * Real.sqrt (w v) = |x - v / m| * w v := fun v => by
        rw [mul_assoc, Real.mul_self_sqrt (hw0 v)]
      have e2 : ∀ v : ℕ, (|x - v / m| * Real.sqrt (w v)) ^ 2 = (x - v / m) ^ 2 * w v := fun v => by
        rw [mul_pow, Real.sq_sqrt (hw0 v), sq_abs]
      have e3 : ∀ v : ℕ, Real.sqrt (w v) ^ 2 = w v := fun v => Real.sq_sqrt (hw0 v)
      simp only [e1, e2, e3, hw1, hw2, mul_one] at h3
      exact h3
    have h4 : x * (1 - x) / m ≤ (1 / (2 * Real.sqrt m)) ^ 2 := by
      rw [div_pow, mul_pow, Real.sq_sqrt hm'.le, one_pow, div_le_div_iff₀ hm' (by positivity)]
      nlinarith [sq_nonneg (2 * x - 1), mul_nonneg hm'.le (sq_nonneg (2 * x - 1))]
    exact le_of_sq_le_sq (h2.trans h4) (by positivity)
  have hv : ∀ v ∈ range (m + 1), (0 : ℝ) ≤ v / m ∧ (v : ℝ) / m ≤ 1 := fun v hv => by
    refine ⟨by positivity, (div_le_one hm').2 ?_⟩
    exact_mod_cast Nat.lt_succ_iff.1 (mem_range.1 hv)
  have he : g x - (bern m g).eval x = ∑ v ∈ range (m + 1), (g x - g (v / m)) * w v := by
    simp only [sub_mul, Finset.sum_sub_distrib, ← Finset.mul_sum, hw1, mul_one, bern, eval_finsetSum, eval_mul, eval_C]
    rfl
  rw [he]
  calc |∑ v ∈ range (m + 1), (g x - g (v / m)) * w v| ≤ ∑ v ∈ range (m + 1), |(g x - g (v / m)) * w v| := Finset.abs_sum_le_sum_abs _ _
    _ ≤ ∑ v ∈ range (m + 1), L * (|x - v / m| * w v) := Finset.sum_le_sum fun v h => by
        rw [abs_mul, abs_of_nonneg (hw0 v), ← mul_assoc]
        exact mul_le_mul_of_nonneg_right (hg x h0 h1 _ (hv v h).1 (hv v h).2) (hw0 v)
    _ = L * ∑ v ∈ range (m + 1), |x - v / m| * w v := (Finset.mul_sum _ _ _).symm
    _ ≤ L * (1 / (2 * Real.sqrt m)) := mul_le_mul_of_nonneg_left hw3 hL
    _ = L / (2 * Real.sqrt m) := by ring

/-- A function that is Lipschitz with constant `L` on `[lo, hi]` is within `L (hi - lo) / (2 sqrt m)` of a polynomial of degree at most `m`. -/
theorem lipschitz_approx (m : ℕ) (hm : 0 < m) (f : ℝ → ℝ) (lo hi L : ℝ) (hlh : lo ≤ hi) (hL : 0 ≤ L)
    (hf : ∀ s ∈ Set.Icc lo hi, ∀ t ∈ Set.Icc lo hi, |f s - f t| ≤ L * |s - t|) :
    ∃ p : ℝ[X], p.natDegree ≤ m ∧ ∀ t ∈ Set.Icc lo hi, |f t - p.eval t| ≤ L * (hi - lo) / (2 * Real.sqrt m) := by
  rcases hlh.eq_or_lt with rfl | hlt
  · refine ⟨C (f lo), by simp, fun t ht => ?_⟩
    have : t = lo := le_antisymm ht.2 ht.1
    simp [this]
  · have hd : 0 < hi - lo := sub_pos.2 hlt
    set g : ℝ → ℝ := fun s => f (lo + s * (hi - lo)) with hg
    refine ⟨(bern m g).comp (C (1 / (hi - lo)) * (X - C lo)), ?_, fun t ht => ?_⟩
    · refine natDegree_comp_le.trans ?_
      have h1 : (C (1 / (hi - lo)) * (X - C lo)).natDegree ≤ 1 := (natDegree_C_mul_le _ _).trans (natDegree_X_sub_C_le _)
      calc _ ≤ m * 1 := Nat.mul_le_mul (bern_natDegree m g) h1
        _ = m := mul_one m
    · set x := 1 / (hi - lo) * (t - lo) with hx
      have hgx : g x = f t := by
        simp only [hg, hx]
        congr 1
        field_simp
        ring
      have h0 : 0 ≤ x := mul_nonneg (by positivity) (sub_nonneg.2 ht.1)
      have h1 : x ≤ 1 := by
        rw [hx, one_div, inv_mul_le_iff₀ hd, mul_one]
        linarith [ht.2]
      have hin : ∀ s, 0 ≤ s → s ≤ 1 → lo + s * (hi - lo) ∈ Set.Icc lo hi := fun s a b => ⟨by nlinarith, by nlinarith⟩
      have h2 := bern_near m hm g (L * (hi - lo)) (mul_nonneg hL hd.le) (fun s a b t c d => by
        refine (hf _ (hin s a b) _ (hin t c d)).trans (le_of_eq ?_)
        rw [show lo + s * (hi - lo) - (lo + t * (hi - lo)) = (s - t) * (hi - lo) by ring, abs_mul, abs_of_pos hd]
        ring) x h0 h1
      rw [hgx] at h2
      have hev : (C (1 / (hi - lo)) * (X - C lo) : ℝ[X]).eval t = x := by simp [hx]
      rw [eval_comp, hev]
      exact h2

/-! ## The exponential function -/

theorem exp_tail (r : ℝ) (hr : 0 ≤ r) (n : ℕ) : Real.exp r - ∑ i ∈ range n, r ^ i / i.factorial ≤ r ^ n / n.factorial * Real.exp r := by
  have h1 : Filter.Tendsto (fun j => ∑ i ∈ range j, r ^ i / i.factorial) Filter.atTop (nhds (Real.exp r)) := by
    rw [Real.exp_eq_exp_ℝ]
    exact (NormedSpace.expSeries_div_hasSum_exp (𝔸 := ℝ) r).tendsto_sum_nat
  refine le_of_tendsto (h1.sub_const _) ?_
  filter_upwards [Filter.eventually_ge_atTop n] with j hj
  rw [← Finset.sum_Ico_eq_sub _ hj, Finset.sum_Ico_eq_sum_range]
  calc ∑ i ∈ range (j - n), r ^ (n + i) / (n + i).factorial ≤ ∑ i ∈ range (j - n), r ^ n / n.factorial * (r ^ i / i.factorial) :=
        Finset.sum_le_sum fun i _ => by
          rw [div_mul_div_comm, ← pow_add]
          refine div_le_div_of_nonneg_left (by positivity) (by positivity) ?_
          exact_mod_cast Nat.le_of_dvd (Nat.factorial_pos _) (Nat.factorial_mul_factorial_dvd_factorial_add n i)
    _ = r ^ n / n.factorial * ∑ i ∈ range (j - n), r ^ i / i.factorial := (Finset.mul_sum _ _ _).symm
    _ ≤ _ := mul_le_mul_of_nonneg_left (Real.sum_le_exp_of_nonneg hr _) (by positivity)

theorem exp_taylor (y : ℝ) (n : ℕ) : |Real.exp y - ∑ i ∈ range n, y ^ i / i.factorial| ≤ |y| ^ n / n.factorial * Real.exp |y| := by
  have h := Complex.norm_exp_sub_sum_le_exp_norm_sub_sum (y : ℂ) n
  have e : Complex.exp y - ∑ m ∈ range n, (y : ℂ) ^ m / m.factorial = ((Real.exp y - ∑ i ∈ range n, y ^ i / i.factorial : ℝ) : ℂ) := by
    push_cast
    rfl
  rw [e, Complex.norm_real, Complex.norm_real] at h
  exact h.trans (exp_tail |y| (abs_nonneg y) n)

/-- On `[c - h, c + h]` the function `exp(t s)` is within `exp(t c + |t| h) (|t| h)^(m+1) / (m+1)!` of a polynomial of degree at most `m`. -/
theorem exp_approx (m : ℕ) (t c h : ℝ) : ∃ p : ℝ[X], p.natDegree ≤ m ∧ ∀ s, |s - c| ≤ h →
    |Real.exp (t * s) - p.eval s| ≤ Real.exp (t * c + |t| * h) * ((|t| * h) ^ (m + 1) / (m + 1).factorial) := by
  refine ⟨∑ i ∈ range (m + 1), C (Real.exp (t * c) * t ^ i / i.factorial) * (X - C c) ^ i, ?_, fun s hs => ?_⟩
  · refine natDegree_sum_le_of_forall_le _ _ fun i hi => (natDegree_C_mul_le _ _).trans (natDegree_pow_le.trans ?_)
    calc i * (X - C c).natDegree ≤ i * 1 := Nat.mul_le_mul_left _ (natDegree_X_sub_C_le _)
      _ ≤ m := by have := mem_range.1 hi; omega
  · have he : Real.exp (t * s) - (∑ i ∈ range (m + 1), C (Real.exp (t * c) * t ^ i / i.factorial) * (X - C c) ^ i : ℝ[X]).eval s =
        Real.exp (t * c) * (Real.exp (t * (s - c)) - ∑ i ∈ range (m + 1), (t * (s - c)) ^ i / i.factorial) := by
      rw [mul_sub, ← Real.exp_add, show t * c + t * (s - c) = t * s by ring, Finset.mul_sum, eval_finsetSum]
      congr 1
      refine Finset.sum_congr rfl fun i _ => ?_
      simp only [eval_mul, eval_C, eval_pow, eval_sub, eval_X, mul_pow]
      ring
    have hy : |t * (s - c)| ≤ |t| * h := by
      rw [abs_mul]
      exact mul_le_mul_of_nonneg_left hs (abs_nonneg t)
    rw [he, abs_mul, abs_of_pos (Real.exp_pos _), Real.exp_add, mul_assoc]
    refine mul_le_mul_of_nonneg_left ((exp_taylor _ _).trans ?_) (Real.exp_pos _).le
    rw [mul_comm]
    refine mul_le_mul (Real.exp_le_exp.2 hy) ?_ (by positivity) (Real.exp_pos _).le
    exact div_le_div_of_nonneg_right (pow_le_pow_left₀ (abs_nonneg _) hy _) (by positivity)

/-! ## The reciprocal and the logarithm -/

theorem centre_ratio (lo hi t : ℝ) (hlo : 0 < lo) (ht : t ∈ Set.Icc lo hi) :
    |1 - 2 / (lo + hi) * t| ≤ (hi - lo) / (hi + lo) ∧ (hi - lo) / (hi + lo) < 1 := by
  have hs : 0 < hi + lo := by linarith [ht.1, ht.2]
  have e : 1 - 2 / (lo + hi) * t = (hi + lo - 2 * t) / (hi + lo) := by
    rw [add_comm lo hi]
    field_simp
  refine ⟨?_, by rw [div_lt_one hs]; linarith⟩
  rw [e, abs_div, abs_of_pos hs]
  refine div_le_div_of_nonneg_right (abs_le.2 ⟨?_, ?_⟩) hs.le
  · linarith [ht.2]
  · linarith [ht.1]

/-- The sum `∑ a i (1 - b X)^i` for `i <= m`. -/
noncomputable def centredPoly (m : ℕ) (a : ℕ → ℝ) (b : ℝ) : ℝ[X] := ∑ i ∈ range (m + 1), C (a i) * (1 - C b * X) ^ i

theorem centredPoly_natDegree (m : ℕ) (a : ℕ → ℝ) (b : ℝ) : (centredPoly m a b).natDegree ≤ m := by
  refine natDegree_sum_le_of_forall_le _ _ fun i hi => (natDegree_C_mul_le _ _).trans (natDegree_pow_le.trans ?_)
  have h1 : (1 - C b * X : ℝ[X]).natDegree ≤ 1 := (natDegree_sub_le _ _).trans (by
    rw [natDegree_one]
    exact max_le zero_le_one ((natDegree_C_mul_le _ _).trans natDegree_X_le))
  calc i * (1 - C b * X : ℝ[X]).natDegree ≤ i * 1 := Nat.mul_le_mul_left _ h1
    _ ≤ m := by have := mem_range.1 hi; omega

theorem centredPoly_eval (m : ℕ) (a : ℕ → ℝ) (b t : ℝ) : (centredPoly m a b).eval t = ∑ i ∈ range (m + 1), a i * (1 - b * t) ^ i := by
  simp [centredPoly, eval_finsetSum]

/-- On `[lo, hi]` with `lo > 0` the reciprocal is within `q^(m+1) / lo` of a polynomial of degree at most `m`, where `q = (hi - lo) / (hi + lo)`. -/
theorem inv_approx (m : ℕ) (lo hi : ℝ) (hlo : 0 < lo) : ∃ p : ℝ[X], p.natDegree ≤ m ∧ ∀ t ∈ Set.Icc lo hi,
    |1 / t - p.eval t| ≤ ((hi - lo) / (hi + lo)) ^ (m + 1) / lo := by
  refine ⟨centredPoly m (fun _ => 2 / (lo + hi)) (2 / (lo + hi)), centredPoly_natDegree _ _ _, fun t ht => ?_⟩
  have ht0 : 0 < t := hlo.trans_le ht.1
  have hs : 0 < lo + hi := by linarith [ht.1, ht.2]
  obtain ⟨h1, h2⟩ := centre_ratio lo hi t hlo ht
  have e : 1 / t - (centredPoly m (fun _ => 2 / (lo + hi)) (2 / (lo + hi))).eval t = (1 - 2 / (lo + hi) * t) ^ (m + 1) / t := by
    rw [centredPoly_eval, ← Finset.mul_sum]
    have hg := mul_neg_geom_sum (1 - 2 / (lo + hi) * t) (m + 1)
    have hg' : 2 / (lo + hi) * (∑ i ∈ range (m + 1), (1 - 2 / (lo + hi) * t) ^ i) * t = 1 - (1 - 2 / (lo + hi) * t) ^ (m + 1) := by
      rw [← hg]
      ring
    rw [eq_div_iff ht0.ne', sub_mul, hg', one_div, inv_mul_cancel₀ ht0.ne']
    ring
  rw [e, abs_div, abs_pow, abs_of_pos ht0]
  exact div_le_div₀ (pow_nonneg ((abs_nonneg _).trans h1) _) (pow_le_pow_left₀ (abs_nonneg _) h1 _) hlo ht.1

/-- On `[lo, hi]` with `lo > 0` the logarithm is within `q^(m+1) / (1 - q)` of a polynomial of degree at most `m`, where `q = (hi - lo) / (hi + lo)`. -/
theorem log_approx (m : ℕ) (lo hi : ℝ) (hlo : 0 < lo) : ∃ p : ℝ[X], p.natDegree ≤ m ∧ ∀ t ∈ Set.Icc lo hi,
    |Real.log t - p.eval t| ≤ ((hi - lo) / (hi + lo)) ^ (m + 1) / (1 - (hi - lo) / (hi + lo)) := by
  refine ⟨centredPoly m (fun i => if i = 0 then Real.log ((lo + hi) / 2) else -1 / i) (2 / (lo + hi)), centredPoly_natDegree _ _ _, fun t ht => ?_⟩
  have ht0 : 0 < t := hlo.trans_le ht.1
  have hs : 0 < lo + hi := by linarith [ht.1, ht.2]
  obtain ⟨h1, h2⟩ := centre_ratio lo hi t hlo ht
  have h3 := Real.abs_log_sub_add_sum_range_le (h1.trans_lt h2) m
  have e : Real.log t - (centredPoly m (fun i => if i = 0 then Real.log ((lo + hi) / 2) else -1 / i) (2 / (lo + hi))).eval t =
      (∑ i ∈ range m, (1 - 2 / (lo + hi) * t) ^ (i + 1) / (i + 1)) + Real.log (1 - (1 - 2 / (lo + hi) * t)) := by
    rw [centredPoly_eval, Finset.sum_range_succ']
    have hl : Real.log t = Real.log ((lo + hi) / 2) + Real.log (1 - (1 - 2 / (lo + hi) * t)) := by
      rw [sub_sub_cancel, ← Real.log_mul (by positivity) (by positivity)]
      congr 1
      field_simp
    rw [hl]
    simp only [Nat.add_eq_zero_iff, one_ne_zero, and_false, if_false, if_true, pow_zero, mul_one]
    have : ∑ i ∈ range m, (1 - 2 / (lo + hi) * t) ^ (i + 1) / ((i : ℝ) + 1) = -∑ i ∈ range m, -1 / ((i + 1 : ℕ) : ℝ) * (1 - 2 / (lo + hi) * t) ^ (i + 1) := by
      rw [← Finset.sum_neg_distrib]
      refine Finset.sum_congr rfl fun i _ => ?_
      push_cast
      ring
    rw [this]
    ring
  rw [e]
  refine h3.trans (div_le_div₀ (pow_nonneg ((abs_nonneg _).trans h1) _) (pow_le_pow_left₀ (abs_nonneg _) h1 _) (by linarith) (by linarith))

end Primate
