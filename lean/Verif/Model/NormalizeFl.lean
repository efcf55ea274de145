import Verif.Model.Operators

/-!
# Model of `normalize_unit` (`src/primate/operators.py:186-193`) with rounding
-/

noncomputable section

namespace Primate

/-- `normalize_unit(A, interval)`, cf. `normalizeUnit`: `A` is the product as computed, `alpha` what ARPACK returns.  SciPy computes the factor `1.0 / (2 * alpha)` once, scales
the vector by `alpha`, adds it to the product and multiplies the sum with the factor. -/
def normalizeUnitFl (fl : ℝ → ℝ) {n : ℕ} (A : Vec n → Vec n) (alpha : ℝ) (_interval : ℝ × ℝ) : Py (Vec n → Vec n) :=
  if n ≤ 1 then .error .type
  else if fl (2 * alpha) = 0 then .error .zeroDivision
  else .ok fun x i => fl (fl (1 / fl (2 * alpha)) * fl (A x i + fl (alpha * x i)))

end Primate
