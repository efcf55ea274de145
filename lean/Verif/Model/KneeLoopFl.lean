import Verif.Model.HutchFl
import Verif.Model.KneeFl

/-!
# Model of `hutch` with `KneeCriterion` and rounding

`src/primate/trace.py:107-115` for a dense array with `KneeCriterion(S)` or `CountCriterion(c) | KneeCriterion(S)`, cf. `Model/HutchFl.lean` for the kernels and the
simplifications.
-/

noncomputable section

namespace Primate

/-- The estimator as far as these criteria need it: the accumulator and the recorded values, `none` without `record=True` (`src/primate/estimators.py:108-115`). -/
structure RecFl where
  cov : Covariance ℝ 1
  values : Option (List (Fin 1 → ℝ))

/-- `MeanEstimator(covariance=True, record=record)` (`src/primate/estimators.py:108-115`). -/
def RecFl.init (record : Bool) : RecFl := ⟨Covariance.init ℝ 1, if record then some [] else none⟩

/-- `MeanEstimator.update` (`src/primate/estimators.py:125-141`) for scalar observations `x`, given the sum and the inner product NumPy computed. -/
def RecFl.update (fl : ℝ → ℝ) (e : RecFl) (x : List ℝ) (s g : ℝ) : Py RecFl :=
  match e.cov.updateRowsFl fl (x.map fun y _ => y) (fun _ => s) (fun _ _ => g) with
  | .error err => .error err
  | .ok c => .ok ⟨c, e.values.map fun v => v ++ x.map fun y _ => y⟩

/-- What a criterion sees of the estimator; `delta` is not read by the criteria used here. -/
def RecFl.view (e : RecFl) : EstView 1 := ⟨e.cov.n, e.cov.n, true, .ok e.cov.mean, .scalarInf, e.values, some e.cov⟩

/-- `KneeCriterion(S)` for `count = none`, else `CountCriterion(count) | KneeCriterion(S)`, whose two sides are both evaluated (`src/primate/estimators.py:63-64, 212-213,
306-327`). -/
def kneeCountFl (fl : ℝ → ℝ) (count : Option ℕ) (S : ℝ) (e : RecFl) : Py Bool :=
  match kneeCallFl fl S e.view with
  | .error err => .error err
  | .ok r => .ok (truth (∃ c, count = some c ∧ c ≤ e.cov.n) || r)

/-- `while not converge(estimator): ...` (`src/primate/trace.py:107-110, 114-115`); the number of passes is returned with the estimator. -/
def hutchLoopKneeFl {N : ℕ} (fl : ℝ → ℝ) (K : FlKernels N) (A : Matrix (Fin N) (Fin N) ℝ) (pdf : Pdf N) (b : ℕ) (count : Option ℕ) (S : ℝ) :
    ℕ → ℕ → RecFl → Option (Py (ℕ × RecFl))
  | 0, _, _ => none
  | fuel + 1, t, e =>
    match kneeCountFl fl count S e with
    | .error err => some (.error err)
    | .ok true => some (.ok (t, e))
    | .ok false =>
      let x := quadFormFl K A t (pdf (List.replicate t b) b)
      match e.update fl x (K.colsum t x) (K.gram t x) with
      | .error err => some (.error err)
      | .ok e' => hutchLoopKneeFl fl K A pdf b count S fuel (t + 1) e'

end Primate
