import Mathlib.Algebra.BigOperators.Group.List.Basic
import Mathlib.Algebra.Field.Defs
import Mathlib.Data.Matrix.Basic

/-!
# Textbook sample statistics (independent of the model)
-/

namespace Primate.Spec

variable {K : Type} [Field K] {d : ℕ}

/-- Arithmetic mean of a list of observations. -/
def sampleMean (xs : List (Fin d → K)) : Fin d → K :=
  fun i => (xs.map fun x => x i).sum / (xs.length : K)

/-- Sample covariance with divisor `length - ddof`. -/
def sampleCov (ddof : ℤ) (xs : List (Fin d → K)) : Matrix (Fin d) (Fin d) K :=
  fun i j => (xs.map fun x => (x i - sampleMean xs i) * (x j - sampleMean xs j)).sum
    / (((xs.length : ℤ) - ddof : ℤ) : K)

end Primate.Spec
