import Verif.Model.Estimators
import Verif.Model.StatsFl

/-!
# Model of `ControlVariableEstimator` (`src/primate/estimators.py:148-196`) with rounding

Batches come as in `Model/StatsFl.lean`, with the results of the kernels used by `Covariance.update`.  `solve` is `np.linalg.solve`.
-/

noncomputable section

namespace Primate

variable {k : ℕ}

/-- A batch of observations with its column sums and the product of the centred rows. -/
abbrev CVBatch (k : ℕ) := List (Fin (k + 1) → ℝ) × (Fin (k + 1) → ℝ) × Matrix (Fin (k + 1)) (Fin (k + 1)) ℝ

open Classical in
/-- Lines 171-173 of `update`, cf. `cvAlpha`.  A quotient with denominator zero is NaN here (with rounding the numerator could be nonzero and the quotient infinite). -/
def cvAlphaFl (fl : ℝ → ℝ) (solve : Matrix (Fin k) (Fin k) ℝ → (Fin k → ℝ) → Py (Fin k → ℝ)) (C : NumArr (Matrix (Fin (k + 1)) (Fin (k + 1)) ℝ)) : Py (AlphaVal k) :=
  if k = 0 then .error .type
  else
    match C with
    | .inf => .error .type
    | .nan => .ok .nan
    | .val C =>
      if k + 1 = 2 then
        if ∃ i : Fin k, C i.succ i.succ = 0 then .ok .nan
        else .ok (.val fun i => fl (C 0 i.succ / C i.succ i.succ))
      else
        match solve (fun i j => C i.succ j.succ) (fun i => C i.succ 0) with
        | .error e => .error e
        | .ok a => .ok (.val a)

/-- `ControlVariableEstimator.update` (`src/primate/estimators.py:166-180`), cf. `CVEst.update`. -/
def CVEst.updateFl (fl : ℝ → ℝ) (solve : Matrix (Fin k) (Fin k) ℝ → (Fin k → ℝ) → Py (Fin k → ℝ)) (s : CVEst k) (B : CVBatch k) : Py Unit × CVEst k :=
  match s.cov.updateRowsFl fl B.1 B.2.1 B.2.2 with
  | .error e => (.error e, s)
  | .ok cov =>
    let s := { s with cov := cov, nSamples := cov.n }
    match cov.covarianceFl fl 1 with
    | .error e => (.error e, s)
    | .ok C =>
      if s.estimateCor then
        match cvAlphaFl fl solve C with
        | .error e => (.error e, s)
        | .ok a => (.ok (), { s with alpha := a })
      else (.ok (), s)

/-- The state after a history of updates in which the caller catches exceptions, cf. `CVEst.runCatching`. -/
def CVEst.runCatchingFl (fl : ℝ → ℝ) (solve : Matrix (Fin k) (Fin k) ℝ → (Fin k → ℝ) → Py (Fin k → ℝ)) (s : CVEst k) (H : List (CVBatch k)) : CVEst k :=
  H.foldl (fun s B => (s.updateFl fl solve B).2) s

/-- `ControlVariableEstimator.estimate` (`src/primate/estimators.py:189-196`), cf. `CVEst.estimate`; `dot` is `np.dot`. -/
def CVEst.estimateFl (fl : ℝ → ℝ) (dot : List (ℝ × ℝ) → ℝ) (s : CVEst k) : Py (NumArr ℝ) :=
  if s.nSamples = 0 then .ok .nan
  else
    match s.alpha with
    | .unset => .error .type
    | .nan => .ok .nan
    | .val a =>
      if s.cov.nan then .ok .nan
      else .ok (.val (fl (s.cov.mu 0 - dot (List.ofFn fun i => (a i, fl (s.cov.mu i.succ - s.ecv i))))))

end Primate
