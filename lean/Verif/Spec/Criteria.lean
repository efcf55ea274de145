import Verif.Spec.Sample
import Mathlib.Analysis.InnerProductSpace.PiL2

/-!
# Specifications for the stopping criteria (independent of the model)
-/

noncomputable section

namespace Primate.Spec

variable {d : ℕ}

/-- Euclidean norm, from Mathlib's `EuclideanSpace`. -/
def norm2 (x : Fin d → ℝ) : ℝ := ‖(WithLp.toLp 2 x : EuclideanSpace ℝ (Fin d))‖

/-- Sum of absolute values. -/
def norm1 (x : Fin d → ℝ) : ℝ := ∑ i, |x i|

/-- Supremum norm, Mathlib's norm of functions. -/
def normInf (x : Fin d → ℝ) : ℝ := ‖x‖

/-- Sample standard deviation (divisor `n - 1`) of scalar observations. -/
def sampleStd (xs : List (Fin 1 → ℝ)) : ℝ := Real.sqrt (sampleCov 1 xs 0 0)

/-- Running means of a sequence: `runningMean v k` is the mean of the first `k+1` values. -/
def runningMean (v : ℕ → ℝ) (k : ℕ) : ℝ := (∑ i ∈ Finset.range (k + 1), v i) / ((k : ℝ) + 1)

/-- Total variation of `c` up to index `k + 1`. -/
def variation (c : ℕ → ℝ) (k : ℕ) : ℝ := ∑ i ∈ Finset.range (k + 1), |c (i + 1) - c i|

/-- The kneedle decision on a curve with the `N` points `c 0 .. c (N-1)`: the total
variation, rescaled to run from 0 to 1, rises at some index by more than `S / (N - 2)`
above the straight line from 0 to 1. -/
def knee (S : ℝ) (c : ℕ → ℝ) (N : ℕ) : Prop :=
  0 < S ∧ variation c 0 < variation c (N - 2) ∧
    ∃ k, k < N - 1 ∧ S / ((N : ℝ) - 2) <
      (variation c k - variation c 0) / (variation c (N - 2) - variation c 0)
        - (k : ℝ) / ((N : ℝ) - 2)

end Primate.Spec
