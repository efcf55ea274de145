import Verif.Model.Py
import Mathlib.Analysis.SpecialFunctions.Sqrt

/-!
# Model of `confidence_interval` (`src/primate/stats.py:102-113`)
-/

noncomputable section

namespace Primate

/-- `np.mean(a)` for a non-empty sample. -/
def npMean (a : List ℝ) : ℝ := a.sum / a.length

/-- `np.std(a, ddof=1)` for a sample of two or more values. -/
def npStd (a : List ℝ) : ℝ :=
  Real.sqrt ((a.map fun x => (x - npMean a) ^ 2).sum / ((a.length : ℝ) - 1))

/-- The interval returned: finite end points, `(-inf, inf)` or a pair of NaNs. -/
inductive CI
  | fin (lo hi : ℝ)
  | all
  | nan

open Classical in
/-- `confidence_interval` (`src/primate/stats.py:102-113`).
`tppf p df` is `sp.stats.t.ppf`, `nppf p` the standard normal quantile.
`sp.stats.sem(a, ddof=1) = std / sqrt(n)`.  `sp.stats.norm.interval(c, loc, scale)` is
`loc + scale * ppf((1 - c) / 2)` and `loc + scale * ppf((1 + c) / 2)`, and NaN unless `scale > 0`.  Fewer than two values give NaN
(division 0/0 in the standard error).  With `confidence = 1` the quantiles are infinite; infinity times the standard error of a constant sample is NaN. -/
def confidenceInterval (tppf : ℝ → ℕ → ℝ) (nppf : ℝ → ℝ) (a : List ℝ) (confidence : ℝ)
    (sdist : String) : Py CI :=
  if ¬ (0 ≤ confidence ∧ confidence ≤ 1) then .error .assertion
  else if sdist = "t" then
    if a.length < 2 then .ok .nan
    else
      let mean := npMean a
      let std_err := npStd a / Real.sqrt a.length
      if confidence = 1 then .ok (if 0 < std_err then .all else .nan)
      else
      let m := tppf ((1 + confidence) / 2) (a.length - 1)
      .ok (.fin (mean - m * std_err) (mean + m * std_err))
  else if sdist = "normal" then
    if a.length < 2 then .ok .nan
    else
      let sq_n := Real.sqrt a.length
      let mean := npMean a
      let scale := npStd a / sq_n
      if 0 < scale then
        if confidence = 1 then .ok .all
        else .ok (.fin (mean + scale * nppf ((1 - confidence) / 2))
          (mean + scale * nppf ((1 + confidence) / 2)))
      else .ok .nan
  else .error .value

end Primate
