import Verif.Model.Trace

/-!
# Model of `hutch` on operators that produce infinities and NaN

Everywhere else the observations are finite.  Here they are NumPy scalars `Fl`: a real, an infinity or NaN, with the rules of IEEE 754 for the special values; finite
results are exact (no rounding, no overflow).  The code is that of `Mean`, `Covariance` (`src/primate/stats.py:7-88`), `MeanEstimator` and the criteria
(`src/primate/estimators.py:102-145, 207-327`) for `dim = 1`, and `hutch` (`src/primate/trace.py:82-116`).
-/

noncomputable section

namespace Primate

namespace Fl

/-- `-x` -/
def neg : Fl → Fl
  | fin x => fin (-x)
  | pinf => ninf
  | ninf => pinf
  | nan => nan

/-- `x + y`: the sum of opposite infinities is NaN. -/
def add : Fl → Fl → Fl
  | nan, _ => nan
  | _, nan => nan
  | fin x, fin y => fin (x + y)
  | fin _, pinf => pinf
  | fin _, ninf => ninf
  | pinf, fin _ => pinf
  | ninf, fin _ => ninf
  | pinf, pinf => pinf
  | ninf, ninf => ninf
  | pinf, ninf => nan
  | ninf, pinf => nan

/-- `x - y` -/
def sub (x y : Fl) : Fl := x.add y.neg

/-- `x * y`: zero times infinity is NaN. -/
def mul : Fl → Fl → Fl
  | nan, _ => nan
  | _, nan => nan
  | fin x, y => scale x y
  | pinf, fin y => scale y pinf
  | ninf, fin y => scale y ninf
  | pinf, pinf => pinf
  | ninf, ninf => pinf
  | pinf, ninf => ninf
  | ninf, pinf => ninf

open Classical in
/-- `x / y` for NumPy scalars; a zero divisor is taken positive, as in `divFin`. -/
def div : Fl → Fl → Fl
  | nan, _ => nan
  | _, nan => nan
  | fin x, fin y => divFin x y
  | fin _, pinf => fin 0
  | fin _, ninf => fin 0
  | pinf, fin y => if 0 ≤ y then pinf else ninf
  | ninf, fin y => if 0 ≤ y then ninf else pinf
  | _, _ => nan

/-- `x ** (1/2)` for numbers that are not negative; NaN stays NaN. -/
def sqrt : Fl → Fl
  | fin x => fin (Real.sqrt x)
  | pinf => pinf
  | ninf => pinf
  | nan => nan

/-- The sum of an array. -/
def sum : List Fl → Fl
  | [] => fin 0
  | x :: l => x.add (sum l)

open Classical in
/-- The larger of two numbers; NaN propagates. -/
def max (x y : Fl) : Fl := if x = nan ∨ y = nan then nan else if x.lt y then y else x

open Classical in
/-- The smaller of two numbers; NaN propagates. -/
def min (x y : Fl) : Fl := if x = nan ∨ y = nan then nan else if y.lt x then y else x

/-- `f.max()` of `f[0], …, f[k]`. -/
def arrMax (f : ℕ → Fl) : ℕ → Fl
  | 0 => f 0
  | k + 1 => (arrMax f k).max (f (k + 1))

/-- `f.min()` of `f[0], …, f[k]`. -/
def arrMin (f : ℕ → Fl) : ℕ → Fl
  | 0 => f 0
  | k + 1 => (arrMin f k).min (f (k + 1))

end Fl

/-- A `MeanEstimator(covariance=True)` with `dim = 1` (`src/primate/estimators.py:109-116`): `n` is both `n_samples` and `_cov.n`, `mu` and `S` are the single entries of
`_cov.mu` and `_cov.S`. -/
structure SEst where
  n : ℕ
  mu : Fl
  S : Fl
  delta : Fl
  values : Option (List Fl)

/-- `MeanEstimator(covariance=True, record=record)` (`src/primate/estimators.py:109-116`, `src/primate/stats.py:8-11, 47-49`). -/
def SEst.init (record : Bool) : SEst := ⟨0, .fin 0, .fin 0, .pinf, if record then some [] else none⟩

/-- `est.estimate` (`src/primate/estimators.py:118-124, 143-145`, `src/primate/stats.py:18-21`). -/
def SEst.estimate (e : SEst) : Fl := if e.n = 0 then .nan else e.mu

/-- `est.update(X)` for a 1-d array (`src/primate/estimators.py:128-141`, `src/primate/stats.py:66-86`).  The mean of an empty array is NaN; the division on line 80 is one
of Python integers. -/
def SEst.update (e : SEst) (X : List Fl) : Py SEst :=
  let new_n := e.n + X.length
  if new_n = 0 then .error .zeroDivision
  else
    let batch_mean := if X.length = 0 then .nan else (Fl.sum X).div (.fin X.length)
    let delta_mean := batch_mean.sub e.mu
    let mu := e.mu.add (Fl.scale ((X.length : ℝ) / (new_n : ℝ)) delta_mean)
    let X_centered := X.map fun x => x.sub batch_mean
    let X_shift := delta_mean.mul delta_mean
    .ok { n := new_n
          mu := mu
          S := e.S.add ((Fl.sum (X_centered.map fun x => x.mul x)).add (Fl.scale ((e.n : ℝ) * (X.length : ℝ) / (new_n : ℝ)) X_shift))
          delta := mu.sub e.mu
          values := e.values.map fun v => v ++ X }

/-- A history of updates: stops at the first exception. -/
def SEst.updates (e : SEst) (Xs : List (List Fl)) : Py SEst := Xs.foldlM SEst.update e

/-- `np.linalg.norm([x], ord)`. -/
def sNorm (ord : NormOrd) (x : Fl) : Py Fl := if ord = .str then .error .value else .ok x.abs

/-- `ToleranceCriterion.__call__` (`src/primate/estimators.py:229-234`). -/
def sTolerance (rtol atol : ℝ) (ord : NormOrd) (e : SEst) : Py Bool := do
  let error ← sNorm ord e.delta
  if truth (error.lt (.fin atol)) then return true
  let nrm ← sNorm ord e.estimate
  return truth (error.lt (nrm.scale rtol))

/-- `Covariance.__call__` with `ddof = 1` (`src/primate/stats.py:51-64`). -/
def SEst.covariance (e : SEst) : Fl := if (e.n : ℤ) - 1 ≤ 0 then .pinf else e.S.div (.fin ((e.n : ℝ) - 1))

/-- `ConfidenceCriterion._error` (`src/primate/estimators.py:280-288`). -/
def ConfCrit.sError (c : ConfCrit) (e : SEst) : Fl × Fl :=
  if e.n < 3 then (.pinf, .pinf)
  else
    let std_dev := e.covariance.sqrt
    let std_error := std_dev.div (.fin (Real.sqrt e.n))
    let rel_error := (std_error.div e.estimate).abs
    let score := if e.n < 30 then c.tScores e.n else c.z
    (Fl.scale score std_error, rel_error)

/-- `ConfidenceCriterion.__call__` (`src/primate/estimators.py:290-293`). -/
def ConfCrit.sCall (c : ConfCrit) (e : SEst) : Bool :=
  let (moe, rerr) := c.sError e
  truth (moe.le (.fin c.atol) ∨ rerr.le (.fin c.rtol))

/-- `np.cumsum(np.abs(np.diff(c)))[k]` (`src/primate/estimators.py:314`). -/
def sKneeY (c : ℕ → Fl) (k : ℕ) : Fl := Fl.sum ((List.range (k + 1)).map fun i => ((c (i + 1)).sub (c i)).abs)

/-- `KneeCriterion.__call__` (`src/primate/estimators.py:306-327`).  `np.argmax` returns the position of the first NaN if there is one, so `max_diff` is what `max` returns. -/
def sKnee (S : ℝ) (e : SEst) : Bool :=
  match e.values with
  | none => false
  | some mv =>
    if mv.length < 3 then false
    else
      let c := fun i => (mv.getD i (.fin 0)).div (.fin ((i : ℝ) + 1))
      let y := sKneeY c
      let L := mv.length - 1
      let ymin := Fl.arrMin y (L - 1)
      let y_norm := fun k => ((y k).sub ymin).div ((Fl.arrMax y (L - 1)).sub ymin)
      let diff_curve := fun k : ℕ => (y_norm k).sub (.fin ((k : ℝ) / ((L : ℝ) - 1)))
      let max_diff := Fl.arrMax diff_curve (L - 1)
      let threshold := max_diff.sub (.fin (S / ((L : ℝ) - 1)))
      truth (threshold.lt max_diff ∧ (diff_curve (L - 1)).lt threshold)

/-- The four criteria and their composites (`src/primate/estimators.py:56-76`); custom operations are left out. -/
inductive SCrit
  | count (c : ℤ)
  | tol (rtol atol : ℝ) (ord : NormOrd)
  | conf (c : ConfCrit)
  | knee (S : ℝ)
  | or (a b : SCrit)
  | and (a b : SCrit)
  | not (a : SCrit)

/-- Calling a criterion, as `Crit.eval`. -/
def SCrit.eval (e : SEst) : SCrit → Py Bool
  | .count c => .ok (truth (c ≤ (e.n : ℤ)))
  | .tol rtol atol ord => sTolerance rtol atol ord e
  | .conf c => .ok (c.sCall e)
  | .knee S => .ok (sKnee S e)
  | .or a b => do
    let x ← a.eval e
    let y ← b.eval e
    return x || y
  | .and a b => do
    let x ← a.eval e
    let y ← b.eval e
    return x && y
  | .not a => do
    let x ← a.eval e
    return !x

/-- An operator whose values may be infinite or NaN, as `Operand`. -/
structure SOperand (N : ℕ) where
  apply : Vec N → Fin N → Fl
  quad : Option (Vec N → Fl)

/-- A dense matrix with special entries: the entries of `A @ v`. -/
def SOperand.ofMatrix {N : ℕ} (A : Fin N → Fin N → Fl) : SOperand N :=
  ⟨fun v i => Fl.sum (List.ofFn fun j => (A i j).mul (.fin (v j))), none⟩

/-- `quad_form` on one column (`src/primate/trace.py:97`). -/
def SOperand.quadForm {N : ℕ} (A : SOperand N) (v : Vec N) : Fl :=
  match A.quad with
  | some q => q v
  | none => Fl.sum (List.ofFn fun i => Fl.scale (v i) (A.apply v i))

/-- `while not converge(estimator): ...` (`src/primate/trace.py:107-110, 114-115`), as `hutchLoop`; the callback is left out. -/
def hutchLoopS {N : ℕ} (A : SOperand N) (pdf : Pdf N) (b : ℕ) (converge : SCrit) : ℕ → List ℕ → SEst → Option (Py SEst)
  | 0, _, _ => none
  | fuel + 1, history, e =>
    match converge.eval e with
    | .error err => some (.error err)
    | .ok true => some (.ok e)
    | .ok false =>
      match e.update (List.ofFn fun j => A.quadForm (pdf history b j)) with
      | .error err => some (.error err)
      | .ok e' => hutchLoopS A pdf b converge fuel (history ++ [b]) e'

/-- The estimate returned by `hutch` (`src/primate/trace.py:99-116`) for a sampler and a criterion already resolved (C15, C58); `batched` is `full or callback is not
None`. -/
def hutchS {N : ℕ} (A : SOperand N) (batch : ℕ) (pdf : Pdf N) (converge : SCrit) (batched record : Bool) (fuel : ℕ) : Option (Py Fl) :=
  if N = 0 then some (.ok (.fin 0))
  else
    match hutchLoopS A pdf (if batched then batch else 1) converge fuel [] (SEst.init record) with
    | none => none
    | some (.error err) => some (.error err)
    | some (.ok e) => some (.ok e.estimate)

end Primate
