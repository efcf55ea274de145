import Mathlib.Probability.Distributions.Gaussian.Real
import Mathlib.Probability.HasLaw
import Mathlib.Probability.Independence.Basic
import Mathlib.MeasureTheory.Measure.Lebesgue.Basic

/-!
# Ideal random number generators

Streams of independent random numbers with the distributions documented for `np.random.Generator.standard_normal` and
`np.random.Generator.random`.
-/

noncomputable section

namespace Primate.Spec

open MeasureTheory ProbabilityTheory

/-- Independent standard normal numbers. -/
structure IidNormal {Ω : Type*} [MeasurableSpace Ω] (P : Measure Ω) (X : ℕ → Ω → ℝ) : Prop where
  law : ∀ q, HasLaw (X q) (gaussianReal 0 1) P
  indep : iIndepFun X P

/-- Independent numbers with the uniform distribution on `[0, 1)`. -/
structure IidUniform {Ω : Type*} [MeasurableSpace Ω] (P : Measure Ω) (X : ℕ → Ω → ℝ) : Prop where
  law : ∀ q, HasLaw (X q) (volume.restrict (Set.Ico (0 : ℝ) 1)) P
  indep : iIndepFun X P

end Primate.Spec
