import Verif.Model.Stats
import Mathlib.Data.Real.Basic

/-!
# Model of `src/primate/stats.py` with rounding

The same lines as in `Model/Stats.lean`, with the rounding `fl` of the element type after every operation.  The order in which NumPy adds the
rows of a batch (`np.add.reduce`) and evaluates `X_centered.T @ X_centered` is not specified, so the results of these two kernels are arguments:
`s` for the column sums and `G` for the matrix product.  With `fl = id` and exact kernels the definitions agree with `Model/Stats.lean`
(`Mean.updateRowsFl_id`, `Covariance.updateRowsFl_id` in Lemmas/StatsFlId.lean).  Overflow to infinity is not represented: theorems assume a bound on the data
which excludes it.
-/

namespace Primate

variable {d : ℕ}

/-- `X.mean(axis=0)`: column sums divided by the number of rows (`src/primate/stats.py:34, 77`). -/
noncomputable def batchMeanFl (fl : ℝ → ℝ) (X : List (Fin d → ℝ)) (s : Fin d → ℝ) : Fin d → ℝ :=
  fun i => fl (s i / (X.length : ℝ))

/-- `self.mu += (X.shape[0] / new_n) * delta_mean` for one coordinate, from the batch mean `bm` and the old mean `mu`
(`src/primate/stats.py:35-37, 78-80`); the quotient of two Python integers is correctly rounded. -/
noncomputable def meanStepFl (fl : ℝ → ℝ) (n b : ℕ) (mu bm : ℝ) : ℝ :=
  fl (mu + fl (fl ((b : ℝ) / ((n + b : ℕ) : ℝ)) * fl (bm - mu)))

/-- `Mean.update` after promotion and the shape assertion (`src/primate/stats.py:33-38`), cf. `Mean.updateRows`. -/
noncomputable def Mean.updateRowsFl (fl : ℝ → ℝ) (m : Mean ℝ d) (X : List (Fin d → ℝ)) (s : Fin d → ℝ) : Py (Mean ℝ d) :=
  let new_n := m.n + X.length
  if new_n = 0 then .error .zeroDivision
  else if X.length = 0 then .ok { m with n := new_n, nan := true }
  else
    .ok { n := new_n
          mu := fun i => meanStepFl fl m.n X.length (m.mu i) (batchMeanFl fl X s i)
          nan := m.nan }

/-- A history of updates, each with the column sums NumPy computed. -/
noncomputable def Mean.updatesFl (fl : ℝ → ℝ) (m : Mean ℝ d) (H : List (List (Fin d → ℝ) × (Fin d → ℝ))) : Py (Mean ℝ d) :=
  H.foldlM (fun m B => m.updateRowsFl fl B.1 B.2) m

/-- `X_centered = X - batch_mean` (`src/primate/stats.py:83`). -/
noncomputable def centeredFl (fl : ℝ → ℝ) (X : List (Fin d → ℝ)) (s : Fin d → ℝ) : List (Fin d → ℝ) :=
  X.map fun x i => fl (x i - batchMeanFl fl X s i)

/-- `Covariance.update` after promotion and the shape assertion (`src/primate/stats.py:76-86`), cf. `Covariance.updateRows`.  The product
`self.n * X.shape[0]` is one of Python integers and exact.  `delta_mean[:, None] @ delta_mean[None, :]` has inner products of one term. -/
noncomputable def Covariance.updateRowsFl (fl : ℝ → ℝ) (c : Covariance ℝ d) (X : List (Fin d → ℝ)) (s : Fin d → ℝ)
    (G : Matrix (Fin d) (Fin d) ℝ) : Py (Covariance ℝ d) :=
  let new_n := c.n + X.length
  if new_n = 0 then .error .zeroDivision
  else if X.length = 0 then .ok { c with n := new_n, nan := true }
  else
    let delta_mean := fun i => fl (batchMeanFl fl X s i - c.mu i)
    let X_shift : Matrix (Fin d) (Fin d) ℝ := fun i j => fl (delta_mean i * delta_mean j)
    .ok { n := new_n
          mu := fun i => meanStepFl fl c.n X.length (c.mu i) (batchMeanFl fl X s i)
          S := fun i j => fl (c.S i j + fl (G i j + fl (fl (((c.n * X.length : ℕ) : ℝ) / (new_n : ℝ)) * X_shift i j)))
          nan := c.nan }

/-- A history of updates, each with the results of the two kernels. -/
noncomputable def Covariance.updatesFl (fl : ℝ → ℝ) (c : Covariance ℝ d)
    (H : List (List (Fin d → ℝ) × (Fin d → ℝ) × Matrix (Fin d) (Fin d) ℝ)) : Py (Covariance ℝ d) :=
  H.foldlM (fun c B => c.updateRowsFl fl B.1 B.2.1 B.2.2) c

/-- `Covariance.__call__` (`src/primate/stats.py:51-64`), cf. `Covariance.covariance`. -/
noncomputable def Covariance.covarianceFl (fl : ℝ → ℝ) (c : Covariance ℝ d) (ddof : ℤ) : Py (NumArr (Matrix (Fin d) (Fin d) ℝ)) :=
  if (c.n : ℤ) - ddof ≤ 0 then (if d = 0 then .error .value else .ok .inf)
  else if c.nan then .ok .nan
  else .ok (.val fun i j => fl (c.S i j / (((c.n : ℤ) - ddof : ℤ) : ℝ)))

end Primate
