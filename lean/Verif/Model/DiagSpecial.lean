import Verif.Model.HutchSpecial
import Verif.Model.Diagonal

/-!
# Model of `diag` with infinite and NaN values (`src/primate/diagonal.py:56-92`)

As `Model/HutchSpecial.lean`: IEEE 754 rules for the special values, exact finite arithmetic.  Here the division by a zero entry of `denom`, which `Model/Diagonal.lean` leaves
out, is that of NumPy.
-/

noncomputable section

namespace Primate

/-- A `MeanEstimator(dim=N, covariance=False)` (`src/primate/estimators.py:109-116`). -/
structure DEst (N : ℕ) where
  n : ℕ
  mu : Fin N → Fl
  delta : Fin N → Fl
  values : Option (List (Fin N → Fl))

/-- `MeanEstimator(dim=N, covariance=False, record=record)` (`src/primate/estimators.py:109-116`, `src/primate/stats.py:8-11`). -/
def DEst.init (N : ℕ) (record : Bool) : DEst N := ⟨0, fun _ => .fin 0, fun _ => .pinf, if record then some [] else none⟩

/-- `est.estimate` (`src/primate/estimators.py:118-124, 143-145`, `src/primate/stats.py:13-16`); before the first update it is the scalar NaN, here all entries are. -/
def DEst.estimate {N : ℕ} (e : DEst N) : Fin N → Fl := fun i => if e.n = 0 then .nan else e.mu i

/-- `est.update(x)` for an array with one row (`src/primate/estimators.py:128-141`, `src/primate/stats.py:23-38`); the mean of one row is the row. -/
def DEst.update {N : ℕ} (e : DEst N) (x : Fin N → Fl) : DEst N :=
  let delta_mean := fun i => (x i).sub (e.mu i)
  let mu := fun i => (e.mu i).add (Fl.scale (1 / ((e.n + 1 : ℕ) : ℝ)) (delta_mean i))
  ⟨e.n + 1, mu, fun i => (mu i).sub (e.mu i), e.values.map fun v => v ++ [x]⟩

/-- `np.linalg.norm(x, ord)` for an array that is not empty. -/
def dNorm {N : ℕ} (ord : NormOrd) (x : Fin N → Fl) : Py Fl :=
  match ord with
  | .none => .ok (Fl.sum (List.ofFn fun i => (x i).mul (x i))).sqrt
  | .two => .ok (Fl.sum (List.ofFn fun i => (x i).mul (x i))).sqrt
  | .one => .ok (Fl.sum (List.ofFn fun i => (x i).abs))
  | .inf => .ok (Fl.arrMax (fun k => ((List.ofFn x).getD k (.fin 0)).abs) (N - 1))
  | .str => .error .value

/-- `ToleranceCriterion.__call__` (`src/primate/estimators.py:229-234`).  The scalar estimate NaN before the first update has norm NaN for every `ord`, as the array has. -/
def dTolerance {N : ℕ} (rtol atol : ℝ) (ord : NormOrd) (e : DEst N) : Py Bool := do
  let error ← dNorm ord e.delta
  if truth (error.lt (.fin atol)) then return true
  let nrm ← dNorm ord e.estimate
  return truth (error.lt (nrm.scale rtol))

/-- `KneeCriterion.__call__` (`src/primate/estimators.py:306-327`): at least three rows; the rest is `sKnee` on the flattened rows. -/
def dKnee {N : ℕ} (S : ℝ) (e : DEst N) : Bool :=
  match e.values with
  | none => false
  | some v => if v.length < 3 then false else sKnee S ⟨0, .nan, .nan, .nan, some (v.flatMap fun x => List.ofFn x)⟩

/-- Calling a criterion; a `ConfidenceCriterion` wants the attribute `_cov` once there are three samples (`src/primate/estimators.py:281-283`). -/
def SCrit.dEval {N : ℕ} (e : DEst N) : SCrit → Py Bool
  | .count c => .ok (truth (c ≤ (e.n : ℤ)))
  | .tol rtol atol ord => dTolerance rtol atol ord e
  | .conf _ => if e.n < 3 then .ok false else .error .attribute
  | .knee S => .ok (dKnee S e)
  | .or a b => do
    let x ← a.dEval e
    let y ← b.dEval e
    return x || y
  | .and a b => do
    let x ← a.dEval e
    let y ← b.dEval e
    return x && y
  | .not a => do
    let x ← a.dEval e
    return !x

/-- Loop state of `diag` (`src/primate/diagonal.py:71-81, 85-91`). -/
structure SDiagState (N : ℕ) where
  history : List ℕ
  numer : Fin N → Fl
  denom : Fin N → Fl
  est : DEst N

/-- One pass (`src/primate/diagonal.py:75-79, 87-91`). -/
def sDiagBody {N : ℕ} (A : SOperand N) (pdf : Pdf N) (s : SDiagState N) : SDiagState N :=
  let v := pdf s.history 1 0
  let u := A.apply v
  let numer := fun i => (s.numer i).add ((u i).mul (.fin (v i)))
  let denom := fun i => (s.denom i).add (.fin (v i ^ 2))
  ⟨s.history ++ [1], numer, denom, s.est.update fun i => (numer i).div (denom i)⟩

/-- `while not converge(estimator)` (`src/primate/diagonal.py:74-81, 86-91`). -/
def sDiagLoop {N : ℕ} (A : SOperand N) (pdf : Pdf N) (converge : SCrit) : ℕ → SDiagState N → Option (Py (SDiagState N))
  | 0, _ => none
  | fuel + 1, s =>
    match converge.dEval s.est with
    | .error e => some (.error e)
    | .ok true => some (.ok s)
    | .ok false => sDiagLoop A pdf converge fuel (sDiagBody A pdf s)

/-- The estimate returned by `diag` (`src/primate/diagonal.py:66-92`) for `N >= 1`, a sampler and a criterion already resolved (C15, C58). -/
def diagS {N : ℕ} (A : SOperand N) (pdf : Pdf N) (converge : SCrit) (record : Bool) (fuel : ℕ) : Option (Py (Fin N → Fl)) :=
  match sDiagLoop A pdf converge fuel ⟨[], fun _ => .fin 0, fun _ => .fin 0, DEst.init N record⟩ with
  | none => none
  | some (.error e) => some (.error e)
  | some (.ok s) => some (.ok s.est.estimate)

end Primate
