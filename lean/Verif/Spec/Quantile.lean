import Mathlib.Probability.Distributions.Gaussian.Real
import Mathlib.Probability.ProductMeasure

/-!
# Quantiles

What `scipy` documents about the quantile functions used by `confidence_interval` and `ConfidenceCriterion`.
-/

noncomputable section

namespace Primate.Spec

open MeasureTheory ProbabilityTheory

/-- `scipy.stats.norm.ppf`: the quantiles of the standard normal distribution. -/
def NormalQuantile (nppf : ℝ → ℝ) : Prop := ∀ p, 0 < p → p < 1 → (gaussianReal 0 1).real (Set.Iic (nppf p)) = p

/-- `scipy.stats.t.ppf`: the quantiles of Student's distribution with `df` degrees of freedom, the law of `z₀ / √((z₁² + ... + z_df²) / df)` for independent
standard normal numbers `z`. -/
def StudentQuantile (tppf : ℝ → ℕ → ℝ) : Prop := ∀ p df, 0 < p → p < 1 → 1 ≤ df →
  (Measure.infinitePi fun _ : ℕ => gaussianReal 0 1).real {z | z 0 / Real.sqrt ((∑ i ∈ Finset.range df, z (i + 1) ^ 2) / df) ≤ tppf p df} = p

/-- `√2 * scipy.special.erfinv(c)`: a standard normal number is at most this in modulus with probability `c`. -/
def TwoSided (zscore : ℝ → ℝ) : Prop := ∀ c, 0 < c → c < 1 → (gaussianReal 0 1).real {z | |z| ≤ zscore c} = c

end Primate.Spec
