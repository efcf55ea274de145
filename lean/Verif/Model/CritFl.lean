import Verif.Model.HutchFl
import Verif.Model.Estimators
import Verif.Model.Interval

/-!
# Model of the stopping criteria and of `confidence_interval` with rounding

`src/primate/estimators.py:206-293` for scalar estimators with a covariance (as `hutch` builds them), and `src/primate/stats.py:102-113`, with the rounding `fl` of double
precision after every operation.  `root x` is what `x ** (1 / 2)` gives; it is a parameter because `pow` is not correctly rounded on every platform.  A quotient larger
than `top` is infinite.  Simplification: the numbers between `top` and the threshold at which rounding gives infinity are taken to be infinite as well.
-/

noncomputable section

namespace Primate

/-- `x / y` for NumPy scalars: rounded, infinite on overflow and for `y = 0`. -/
def flDiv (top : ℝ) (fl : ℝ → ℝ) (x y : ℝ) : Fl :=
  if y = 0 then Fl.divFin x y
  else if top < |x / y| then (if 0 < x / y then .pinf else .ninf)
  else .fin (fl (x / y))

/-- The estimator as far as the criteria need it: the accumulator `_cov` and the last change of the mean, `none` for the initial value infinity
(`src/primate/estimators.py:108-115, 128-130`). -/
structure EstFl where
  cov : Covariance ℝ 1
  delta : Option ℝ

/-- `MeanEstimator(covariance=True)` (`src/primate/estimators.py:108-115`). -/
def EstFl.init : EstFl := ⟨Covariance.init ℝ 1, none⟩

/-- `MeanEstimator.update` (`src/primate/estimators.py:125-136`) for the scalar observations `x`, given the sum and the inner product NumPy computed. -/
def EstFl.update (fl : ℝ → ℝ) (e : EstFl) (x : List ℝ) (s g : ℝ) : Py EstFl :=
  match e.cov.updateRowsFl fl (x.map fun y _ => y) (fun _ => s) (fun _ _ => g) with
  | .error err => .error err
  | .ok c => .ok ⟨c, some (fl (c.mu 0 - e.cov.mu 0))⟩

/-- A history of updates. -/
def EstFl.updates (fl : ℝ → ℝ) (e : EstFl) (H : List (List ℝ × ℝ × ℝ)) : Py EstFl :=
  H.foldlM (fun e B => e.update fl B.1 B.2.1 B.2.2) e

/-- `ConfidenceCriterion._error` (`src/primate/estimators.py:280-288`), cf. `ConfCrit.error`. -/
def ConfCrit.errorFl (top : ℝ) (fl root : ℝ → ℝ) (c : ConfCrit) (e : EstFl) : Py (Fl × Fl) :=
  if e.cov.n < 3 then .ok (.pinf, .pinf)
  else
    match e.cov.covarianceFl fl 1 with
    | .error err => .error err
    | .ok C =>
      let score := if e.cov.n < 30 then c.tScores e.cov.n else c.z
      match C, e.cov.mean with
      | .val C, .val mu =>
        let std_dev := root (C 0 0)
        let std_error := fl (std_dev / fl (Real.sqrt e.cov.n))
        let rel_error := (flDiv top fl std_error (mu 0)).abs
        let margin_of_error := fl (score * std_error)
        .ok (.fin margin_of_error, rel_error)
      | _, _ => .ok (.nan, .nan)

/-- `ConfidenceCriterion.__call__` (`src/primate/estimators.py:290-293`). -/
def ConfCrit.callFl (top : ℝ) (fl root : ℝ → ℝ) (c : ConfCrit) (e : EstFl) : Py Bool :=
  match c.errorFl top fl root e with
  | .error err => .error err
  | .ok (moe, rerr) => .ok (truth (moe.le (.fin c.atol) ∨ rerr.le (.fin c.rtol)))

/-- `np.linalg.norm([x], ord=2)`: the root of the inner product of the array with itself. -/
def norm1Fl (fl : ℝ → ℝ) (x : ℝ) : ℝ := fl (Real.sqrt (fl (x * x)))

/-- `ToleranceCriterion.__call__` (`src/primate/estimators.py:229-234`) with `ord=2`: the change is infinite and the estimate NaN before the first update. -/
def toleranceFl (fl : ℝ → ℝ) (rtol atol : ℝ) (e : EstFl) : Py Bool :=
  match e.delta, e.cov.mean with
  | some δ, .val mu =>
    let error := norm1Fl fl δ
    .ok (truth (error < atol ∨ error < fl (rtol * norm1Fl fl (mu 0))))
  | _, _ => .ok false

/-- The criteria modelled here: `CountCriterion` (`src/primate/estimators.py:206-213`), the two above, and the composites made by `|` and `&`
(`src/primate/estimators.py:63-67`). -/
inductive CritFl
  | count (c : ℕ)
  | conf (c : ConfCrit)
  | tol (rtol atol : ℝ)
  | or (a b : CritFl)
  | and (a b : CritFl)

/-- Calling a criterion. -/
def CritFl.eval (top : ℝ) (fl root : ℝ → ℝ) (e : EstFl) : CritFl → Py Bool
  | .count c => .ok (truth (c ≤ e.cov.n))
  | .conf c => c.callFl top fl root e
  | .tol rtol atol => toleranceFl fl rtol atol e
  | .or a b =>
    match a.eval top fl root e, b.eval top fl root e with
    | .ok x, .ok y => .ok (x || y)
    | .error err, _ => .error err
    | _, .error err => .error err
  | .and a b =>
    match a.eval top fl root e, b.eval top fl root e with
    | .ok x, .ok y => .ok (x && y)
    | .error err, _ => .error err
    | _, .error err => .error err

/-- `while not converge(estimator): ...` (`src/primate/trace.py:107-110, 114-115`), cf. `hutchLoopFl`; the number of passes is returned with the estimator. -/
def hutchLoopCritFl {N : ℕ} (top : ℝ) (fl root : ℝ → ℝ) (K : FlKernels N) (A : Matrix (Fin N) (Fin N) ℝ) (pdf : Pdf N) (b : ℕ) (crit : CritFl) :
    ℕ → ℕ → EstFl → Option (Py (ℕ × EstFl))
  | 0, _, _ => none
  | fuel + 1, t, e =>
    match crit.eval top fl root e with
    | .error err => some (.error err)
    | .ok true => some (.ok (t, e))
    | .ok false =>
      let x := quadFormFl K A t (pdf (List.replicate t b) b)
      match e.update fl x (K.colsum t x) (K.gram t x) with
      | .error err => some (.error err)
      | .ok e' => hutchLoopCritFl top fl root K A pdf b crit fuel (t + 1) e'

open Classical in
/-- `confidence_interval(a, confidence, sdist)` (`src/primate/stats.py:102-113`), cf. `confidenceInterval`, for two or more values and a confidence below one: `s` is the sum of
the values and `g` the sum of the squares of the deviations as NumPy computed them, `q1` and `q2` are the quantiles as SciPy computed them (`q1` for `(1 + confidence) / 2`,
`q2` for `(1 - confidence) / 2`).  `np.std` takes the root with `np.sqrt`, which is correctly rounded. -/
def confidenceIntervalFl (fl : ℝ → ℝ) (a : List ℝ) (s g : ℝ) (q1 q2 : ℝ) (sdist : String) : Py CI :=
  let mean := fl (s / a.length)
  let std := fl (Real.sqrt (fl (g / ((a.length : ℝ) - 1))))
  let std_err := fl (std / fl (Real.sqrt a.length))
  if sdist = "t" then .ok (.fin (fl (mean - fl (q1 * std_err))) (fl (mean + fl (q1 * std_err))))
  else if sdist = "normal" then
    if 0 < std_err then .ok (.fin (fl (fl (q2 * std_err) + mean)) (fl (fl (q1 * std_err) + mean)))
    else .ok .nan
  else .error .value

end Primate
