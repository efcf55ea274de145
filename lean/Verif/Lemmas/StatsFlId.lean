import Verif.Model.StatsFl

/-! # The model with rounding agrees with the exact one when nothing is rounded -/

namespace Primate

variable {d : ℕ}

/-- Without rounding this is the model of `Model/Stats.lean`. -/
theorem Mean.updateRowsFl_id (m : Mean ℝ d) (X : List (Fin d → ℝ)) :
    m.updateRowsFl id X (fun i => (X.map fun x => x i).sum) = m.updateRows X := rfl

/-- Without rounding this is the model of `Model/Stats.lean`. -/
theorem Covariance.updateRowsFl_id (c : Covariance ℝ d) (X : List (Fin d → ℝ)) :
    c.updateRowsFl id X (fun i => (X.map fun x => x i).sum)
      (fun i j => ((X.map fun (x : Fin d → ℝ) i => x i - colMean X i).map fun (x : Fin d → ℝ) => x i * x j).sum) = c.updateRows X := by
  unfold Covariance.updateRowsFl Covariance.updateRows
  simp only [Nat.cast_mul]
  rfl

theorem Covariance.covarianceFl_id (c : Covariance ℝ d) (ddof : ℤ) : c.covarianceFl id ddof = c.covariance ddof := rfl

end Primate
