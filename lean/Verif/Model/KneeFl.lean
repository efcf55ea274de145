import Verif.Model.Estimators

/-!
# Model of `KneeCriterion.__call__` (`src/primate/estimators.py:306-327`) with rounding

Every operation is rounded by `fl`; `np.abs`, `max`, `min`, `argmax` and comparisons are exact.  Values are finite.
-/

noncomputable section

namespace Primate

/-- `np.cumsum(np.abs(np.diff(c)))[k]` (`src/primate/estimators.py:314`), cf. `kneeY`; `cumsum` adds from the left. -/
def kneeYFl (fl : ℝ → ℝ) (c : ℕ → ℝ) : ℕ → ℝ
  | 0 => |fl (c 1 - c 0)|
  | k + 1 => fl (kneeYFl fl c k + |fl (c (k + 2) - c (k + 1))|)

/-- `np.linspace(0, 1, L)[k]` (`src/primate/estimators.py:319`): multiples of the rounded step, and one for the last. -/
def linspaceFl (fl : ℝ → ℝ) (L k : ℕ) : ℝ := if k = L - 1 then 1 else fl (k * fl (1 / ((L : ℝ) - 1)))

open Classical in
/-- Lines 312-327 of `KneeCriterion.__call__` for the flattened values `mv`, cf. `kneeDecide`.  Two different numbers have a nonzero rounded difference; if `y` is
constant, the quotients are NaN and the comparisons false. -/
def kneeDecideFl (fl : ℝ → ℝ) (S : ℝ) (mv : List ℝ) : Py Bool :=
  let L := mv.length - 1
  if h : 0 < L then
    let y := kneeYFl fl fun i => fl (mv.getD i 0 / ((i : ℝ) + 1))
    let ymax := arrMax y L h
    let ymin := arrMin y L h
    let w := fl (ymax - ymin)
    if w = 0 then .ok false
    else
      let y_norm := fun k => fl (fl (y k - ymin) / w)
      let diff_curve := fun k : ℕ => fl (y_norm k - linspaceFl fl L k)
      let max_diff := arrMax diff_curve L h
      let threshold := fl (max_diff - fl (S / ((L : ℝ) - 1)))
      .ok (truth (max_diff > threshold ∧ diff_curve (L - 1) < threshold))
  else .error .value

/-- `KneeCriterion.__call__` (`src/primate/estimators.py:306-327`), cf. `kneeCall`. -/
def kneeCallFl (fl : ℝ → ℝ) {d : ℕ} (S : ℝ) (est : EstView d) : Py Bool :=
  match est.values with
  | none => .ok false
  | some v =>
    if v.length < 3 then .ok false
    else kneeDecideFl fl S (v.flatMap fun row => List.ofFn row)

end Primate
