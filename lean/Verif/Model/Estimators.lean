import Verif.Model.Stats
import Mathlib.Analysis.SpecialFunctions.Sqrt
import Mathlib.Data.Finset.Max
import Mathlib.LinearAlgebra.Matrix.NonsingularInverse

/-!
# Model of `src/primate/estimators.py`

Estimators, stopping criteria and control variates over the reals.
-/

noncomputable section

namespace Primate

/-! ## MeanEstimator -/

/-- The accumulator held by a `MeanEstimator`: `_cov` or `_mean`
(`src/primate/estimators.py:113-116`). -/
inductive Acc (d : ℕ)
  | cov (c : Covariance ℝ d)
  | mean (m : Mean ℝ d)

/-- The attribute `mu` of the accumulator (NaN when poisoned). -/
def Acc.mu {d : ℕ} : Acc d → Fin d → ℝ
  | .cov c => c.mu
  | .mean m => m.mu

/-- Whether `mu` is all NaN. -/
def Acc.nan {d : ℕ} : Acc d → Bool
  | .cov c => c.nan
  | .mean m => m.nan

/-- `self._cov.update(x)` / `self._mean.update(x)`
(`src/primate/estimators.py:133, 137`). -/
def Acc.update {d : ℕ} (a : Acc d) (x : ArrayLike ℝ) : Py (Acc d) :=
  match a with
  | .cov c => (c.update x).map .cov
  | .mean m => (m.update x).map .mean

/-- The value of `delta`: an array, or (in `ControlVariableEstimator`) the
Python scalar `np.inf`, a 0-d array for NumPy. -/
inductive DeltaVal (d : ℕ)
  | arr (a : NumArr (Fin d → ℝ))
  | scalarInf

/-- Instance of `class MeanEstimator` (`src/primate/estimators.py:102-116`). -/
structure MeanEst (d : ℕ) where
  nSamples : ℕ
  delta : NumArr (Fin d → ℝ)
  values : Option (List (Fin d → ℝ))
  acc : Acc d

/-- `MeanEstimator.__init__` (`src/primate/estimators.py:109-116`). -/
def MeanEst.init (d : ℕ) (covariance record : Bool) : MeanEst d where
  nSamples := 0
  delta := .inf
  values := if record then some [] else none
  acc := if covariance then .cov (Covariance.init ℝ d) else .mean (Mean.init ℝ d)

/-- `MeanEstimator.mean` / `MeanEstimator.estimate`
(`src/primate/estimators.py:118-124, 143-145`). -/
def MeanEst.estimate {d : ℕ} (e : MeanEst d) : NumArr (Fin d → ℝ) :=
  match e.acc with
  | .cov c => c.mean
  | .mean m => m.mean

/-- `MeanEstimator.update` (`src/primate/estimators.py:128-141`).  The only
statement that can raise is the accumulator's `update`, before any assignment. -/
def MeanEst.update {d : ℕ} (e : MeanEst d) (x : ArrayLike ℝ) : Py (MeanEst d) :=
  let b := x.promote
  let old_mu := e.acc.mu
  match e.acc.update (.mat b) with
  | .error err => .error err
  | .ok acc =>
    .ok { nSamples := e.nSamples + b.rows.length
          delta := if acc.nan || e.acc.nan then .nan else .val fun i => acc.mu i - old_mu i
          values := e.values.map fun v =>
            v ++ (if h : b.width = d then h ▸ b.rows else [])
          acc := acc }

/-- A history of updates: stops at the first exception. -/
def MeanEst.updates {d : ℕ} (e : MeanEst d) (xs : List (ArrayLike ℝ)) : Py (MeanEst d) :=
  xs.foldlM MeanEst.update e

/-! ## What a stopping criterion can see of an estimator -/

/-- The attributes of an estimator that the criteria read
(`src/primate/estimators.py:35-53, 213, 230-234, 281-288, 308-312`). -/
structure EstView (d : ℕ) where
  /-- `len(est)` -/
  len : ℕ
  /-- `est.n_samples` -/
  nSamples : ℕ
  /-- `isinstance(est, MeanEstimator)` -/
  isMean : Bool
  /-- `est.estimate` (a property: evaluating it may raise) -/
  estimate : Py (NumArr (Fin d → ℝ))
  /-- `est.delta` -/
  delta : DeltaVal d
  /-- `est.values` -/
  values : Option (List (Fin d → ℝ))
  /-- `est._cov`, `none` when the attribute does not exist -/
  cov : Option (Covariance ℝ d)

/-- A `MeanEstimator` as seen by a criterion. -/
def MeanEst.view {d : ℕ} (e : MeanEst d) : EstView d where
  len := e.nSamples
  nSamples := e.nSamples
  isMean := true
  estimate := .ok e.estimate
  delta := .arr e.delta
  values := e.values
  cov := match e.acc with
    | .cov c => some c
    | .mean _ => none

/-! ## Criteria -/

/-- The `ord` argument of `np.linalg.norm` for vectors.  Only these orders are
modelled; a string (`"fro"`, `"nuc"`) is invalid for 1-d arrays. -/
inductive NormOrd
  | none
  | two
  | one
  | inf
  | str
  deriving DecidableEq

/-- `np.linalg.norm(x, ord)` for a finite vector. -/
def vecNorm {d : ℕ} (ord : NormOrd) (x : Fin d → ℝ) : Py ℝ :=
  match ord with
  | .none => .ok (Real.sqrt (∑ i, x i ^ 2))
  | .two => .ok (Real.sqrt (∑ i, x i ^ 2))
  | .one => .ok (∑ i, |x i|)
  | .inf => if h : (Finset.univ : Finset (Fin d)).Nonempty then
      .ok (Finset.univ.sup' h fun i => |x i|) else .error .value
  | .str => .error .value

/-- `np.linalg.norm(x, ord)` for a 1-d array that may be all infinite or NaN.  Simplification: an array without elements has no
such values (its norm is 0 in the code); no estimator in use has `dim = 0`. -/
def arrNorm {d : ℕ} (ord : NormOrd) (x : NumArr (Fin d → ℝ)) : Py Fl :=
  match x with
  | .val a => (vecNorm ord a).map .fin
  | .inf => (vecNorm ord (0 : Fin d → ℝ)).map fun _ => .pinf
  | .nan => (vecNorm ord (0 : Fin d → ℝ)).map fun _ => .nan

/-- `np.linalg.norm(est.delta, ord)`.  For a 0-d array every `ord` other than
`None` raises ValueError ("Improper number of dimensions to norm"). -/
def deltaNorm {d : ℕ} (ord : NormOrd) (x : DeltaVal d) : Py Fl :=
  match x with
  | .arr a => arrNorm ord a
  | .scalarInf => if ord = .none then .ok .pinf else .error .value

/-- `ToleranceCriterion.__call__` (`src/primate/estimators.py:229-234`).
`est.estimate` is never `None` for the modelled estimators (lines 230-231). -/
def toleranceCall {d : ℕ} (rtol atol : ℝ) (ord : NormOrd) (est : EstView d) :
    Py Bool := do
  let e ← est.estimate
  let error ← deltaNorm ord est.delta
  if truth (error.lt (.fin atol)) then return true
  let nrm ← arrNorm ord e
  return truth (error.lt (nrm.scale rtol))

/-- Attributes of a `ConfidenceCriterion` (`src/primate/estimators.py:249-255`). -/
structure ConfCrit where
  atol : ℝ
  rtol : ℝ
  z : ℝ
  tScores : ℕ → ℝ
  confidence : ℝ

open Classical in
/-- `ConfidenceCriterion.__init__` (`src/primate/estimators.py:249-255`).
`tppf p df` stands for `sp.stats.t.ppf(p, df)` and `zscore c` for
`2**(1/2) * sp.special.erfinv(c)`.  `t_scores` has 30 entries; entry `i` uses
`df = np.arange(30)[i] + 1 = i + 1`. -/
def ConfCrit.init (tppf : ℝ → ℕ → ℝ) (zscore : ℝ → ℝ) (confidence : ℝ)
    (atol rtol : Option ℝ) : Py ConfCrit :=
  if 0 < confidence ∧ confidence < 1 then
    .ok { atol := atol.getD 0
          rtol := rtol.getD 0
          z := zscore confidence
          tScores := fun i => tppf ((confidence + 1) / 2) (i + 1)
          confidence := confidence }
  else .error .assertion

/-- `ConfidenceCriterion._error` (`src/primate/estimators.py:280-288`) for
one-dimensional estimators: margin of error and relative error.  With
`dim != 1` the result is a pair of `dim x dim` arrays whose truth value in
`__call__` raises ValueError; the error is returned here. -/
def ConfCrit.error {d : ℕ} (c : ConfCrit) (est : EstView d) : Py (Fl × Fl) :=
  if est.nSamples < 3 then .ok (.pinf, .pinf)
  else
    match est.cov with
    | none => .error .attribute
    | some cov => do
      let C ← cov.covariance 1
      let mu ← est.estimate
      let score := if est.nSamples < 30 then c.tScores est.nSamples else c.z
      if h : d = 1 then
        match C, mu with
        | .val C, .val mu =>
          let std_dev := Real.sqrt (C ⟨0, by omega⟩ ⟨0, by omega⟩)
          let std_error := std_dev / Real.sqrt est.nSamples
          let rel_error := (Fl.divFin std_error (mu ⟨0, by omega⟩)).abs
          let margin_of_error := score * std_error
          return (.fin margin_of_error, rel_error)
        | .inf, _ => return (.scale score .pinf, .pinf)  -- not reached: n >= 3
        | _, _ => return (.nan, .nan)
      else .error .value

/-- `ConfidenceCriterion.__call__` (`src/primate/estimators.py:290-293`). -/
def ConfCrit.call {d : ℕ} (c : ConfCrit) (est : EstView d) : Py Bool :=
  if est.isMean then do
    let (moe, rerr) ← c.error est
    return truth (moe.le (.fin c.atol) ∨ rerr.le (.fin c.rtol))
  else .error .assertion

/-- `cum_sample_mean = mv / np.arange(1, len(mv) + 1)`
(`src/primate/estimators.py:313`), as a function of the index. -/
def kneeCurve (mv : List ℝ) (i : ℕ) : ℝ := mv.getD i 0 / ((i : ℝ) + 1)

/-- `np.cumsum(np.abs(np.diff(c)))[k]` (`src/primate/estimators.py:314`). -/
def kneeY (c : ℕ → ℝ) (k : ℕ) : ℝ := ((List.range (k + 1)).map fun i => |c (i + 1) - c i|).sum

/-- `np.array(l).max()` over `l = [f 0, ..., f (L-1)]`, `L >= 1`. -/
def arrMax (f : ℕ → ℝ) (L : ℕ) (h : 0 < L) : ℝ :=
  (Finset.range L).sup' (Finset.nonempty_range_iff.mpr h.ne') f

/-- `np.array(l).min()` over `l = [f 0, ..., f (L-1)]`, `L >= 1`. -/
def arrMin (f : ℕ → ℝ) (L : ℕ) (h : 0 < L) : ℝ :=
  (Finset.range L).inf' (Finset.nonempty_range_iff.mpr h.ne') f

open Classical in
/-- Lines 316-327 of `KneeCriterion.__call__` for the curve `c` of `N` points.
`y` has `L = N - 1` entries; an empty `y` makes `y.min()` raise ValueError; when
`y.max() == y.min()` every entry of `y_norm` is NaN and the comparisons are
false.  `np.linspace(0, 1, L)[k] = k / (L - 1)` (for `L = 1` the only entry is 0
and the division by `len(y) - 1 = 0` is not reached with a finite `y_norm`). -/
def kneeDecide (S : ℝ) (c : ℕ → ℝ) (N : ℕ) : Py Bool :=
  let L := N - 1
  if h : 0 < L then
    let y := kneeY c
    let ymax := arrMax y L h
    let ymin := arrMin y L h
    if ymax - ymin = 0 then .ok false
    else
      let y_norm := fun k => (y k - ymin) / (ymax - ymin)
      let diff_curve := fun k : ℕ => y_norm k - (k : ℝ) / ((L : ℝ) - 1)
      let max_diff := arrMax diff_curve L h
      let threshold := max_diff - S / ((L : ℝ) - 1)
      .ok (truth (max_diff > threshold ∧ diff_curve (L - 1) < threshold))
  else .error .value

/-- `KneeCriterion.__call__` (`src/primate/estimators.py:306-327`).  `ravel()`
of the recorded rows is row-major. -/
def kneeCall {d : ℕ} (S : ℝ) (est : EstView d) : Py Bool :=
  match est.values with
  | none => .ok false
  | some v =>
    if v.length < 3 then .ok false
    else
      let mv := v.flatMap fun row => List.ofFn row
      kneeDecide S (kneeCurve mv) mv.length

/-- Convergence criteria: the four classes, user-supplied operations, and the
composites built by `|`, `&` and `~` (`src/primate/estimators.py:56-76`). -/
inductive Crit
  | count (c : ℤ)
  | tol (rtol atol : ℝ) (ord : NormOrd)
  | conf (c : ConfCrit)
  | knee (S : ℝ)
  | custom (f : ∀ d, EstView d → Py Bool)
  | or (a b : Crit)
  | and (a b : Crit)
  | not (a : Crit)

/-- Calling a criterion on an estimator (`src/primate/estimators.py:63-73, 213,
229, 290, 306`).  `operator.or_(self(est), other(est))` evaluates both operands,
left to right. -/
def Crit.eval {d : ℕ} (est : EstView d) : Crit → Py Bool
  | .count c => .ok (truth (c ≤ (est.len : ℤ)))
  | .tol rtol atol ord => toleranceCall rtol atol ord est
  | .conf c => c.call est
  | .knee S => kneeCall S est
  | .custom f => f d est
  | .or a b => do
    let x ← a.eval est
    let y ← b.eval est
    return x || y
  | .and a b => do
    let x ← a.eval est
    let y ← b.eval est
    return x && y
  | .not a => do
    let x ← a.eval est
    return !x

/-! ## ControlVariableEstimator -/

/-- The attribute `alpha`. -/
inductive AlphaVal (k : ℕ)
  | unset
  | val (a : Fin k → ℝ)
  | nan

/-- Instance of `class ControlVariableEstimator`
(`src/primate/estimators.py:148-160`) with `k` control variates.  `delta` stays
the scalar `np.inf` and `values` is never extended. -/
structure CVEst (k : ℕ) where
  ecv : Fin k → ℝ
  alpha : AlphaVal k
  estimateCor : Bool
  cov : Covariance ℝ (k + 1)
  nSamples : ℕ
  record : Bool

/-- `ControlVariableEstimator.__init__` (`src/primate/estimators.py:149-160`). -/
def CVEst.init (ecv : List ℝ) (alpha : Option (List ℝ)) (record : Bool) :
    Py (CVEst ecv.length) :=
  match alpha with
  | none => .ok ⟨ecv.get, .unset, true, Covariance.init ℝ _, 0, record⟩
  | some a =>
    if h : ecv.length = a.length then
      .ok ⟨ecv.get, .val fun i => a.get (h ▸ i), false, Covariance.init ℝ _, 0, record⟩
    else .error .assertion

/-- Lines 171-173 of `ControlVariableEstimator.update`: the new `alpha` from the
covariance `C` of the observations.  When `C` is the scalar `np.inf` (or, for
`k = 0`, any Python float) the subscript raises TypeError.  `np.linalg.solve`
raises LinAlgError on a singular matrix. -/
def cvAlpha {k : ℕ} (C : NumArr (Matrix (Fin (k + 1)) (Fin (k + 1)) ℝ)) :
    Py (AlphaVal k) :=
  if k = 0 then .error .type
  else
    match C with
    | .inf => .error .type
    | .nan => .ok .nan
    | .val C =>
      let C_01 : Fin k → ℝ := fun i => C i.succ 0
      let C_11 : Matrix (Fin k) (Fin k) ℝ := fun i j => C i.succ j.succ
      if k + 1 = 2 then
        -- `C[0, 1] / C[1, 1]`, a NumPy division (`C[1,1] = 0` forces `C[0,1] = 0`)
        if C_11.det = 0 then .ok .nan
        else .ok (.val fun i => C 0 i.succ / C i.succ i.succ)
      else if C_11.det = 0 then .error .linAlg
      else .ok (.val (C_11⁻¹.mulVec C_01))

/-- `ControlVariableEstimator.update` (`src/primate/estimators.py:166-180`):
result and the state of the object afterwards.  An exception on lines 172-173
leaves `cov` and `n_samples` already updated. -/
def CVEst.update {k : ℕ} (s : CVEst k) (samples : ArrayLike ℝ) :
    Py Unit × CVEst k :=
  match s.cov.update samples with
  | .error e => (.error e, s)
  | .ok cov =>
    let s := { s with cov := cov, nSamples := cov.n }
    match cov.covariance 1 with
    | .error e => (.error e, s)
    | .ok C =>
      if s.estimateCor then
        match cvAlpha C with
        | .error e => (.error e, s)
        | .ok a => (.ok (), { s with alpha := a })
      else (.ok (), s)

/-- The state after a history of updates in which the caller catches exceptions. -/
def CVEst.runCatching {k : ℕ} (s : CVEst k) (xs : List (ArrayLike ℝ)) : CVEst k :=
  xs.foldl (fun s x => (s.update x).2) s

/-- `ControlVariableEstimator.estimate` (`src/primate/estimators.py:189-196`).
`np.dot(None, array)` raises TypeError. -/
def CVEst.estimate {k : ℕ} (s : CVEst k) : Py (NumArr ℝ) :=
  if s.nSamples = 0 then .ok .nan
  else
    match s.alpha with
    | .unset => .error .type
    | .nan => .ok .nan
    | .val a =>
      if s.cov.nan then .ok .nan
      else .ok (.val (s.cov.mu 0 - ∑ i, a i * (s.cov.mu i.succ - s.ecv i)))

/-- A `ControlVariableEstimator` as seen by a criterion.  It is a subclass of
`MeanEstimator` created with `covariance=False`, so it has no `_cov`. -/
def CVEst.view {k : ℕ} (s : CVEst k) : EstView 1 where
  len := s.nSamples
  nSamples := s.nSamples
  isMean := true
  estimate := s.estimate.map fun
    | .val x => .val fun _ => x
    | .inf => .inf
    | .nan => .nan
  delta := .scalarInf
  values := if s.record then some [] else none
  cov := none

end Primate
