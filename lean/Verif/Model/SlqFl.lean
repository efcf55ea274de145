import Verif.Model.QuadFl
import Verif.Model.HutchFl

/-!
# `hutch` applied to a `MatrixFunction` in rounded arithmetic (stochastic Lanczos quadrature)

`Model/TraceMF.lean` with the operations of `Model/QuadFl.lean` and the rounded streaming mean of `Model/StatsFl.lean`.  Only `CountCriterion` is modelled here;
overflow and NaN are not represented.
-/

noncomputable section

namespace Primate

/-- The arrays of a `MatrixFunction` that live from one call to the next (`src/primate/operators.py:69-77`). -/
structure MFFl (n : ℕ) where
  alpha : Buf ℝ
  beta : Buf ℝ
  Q : Buf (Vec n)

/-- The attributes that do not change (`src/primate/operators.py:64-80`); `tol` and `otol` are the tolerances computed by the native code from `_rtol`. -/
structure MFCfg where
  f : ℝ → ℝ
  deg : ℕ
  tol : ℝ
  otol : ℝ
  orth : ℤ

/-- The arrays of a new object (`src/primate/operators.py:69-77`). -/
def MFFl.init (n deg : ℕ) : MFFl n := ⟨Buf.zeros (deg + 1), Buf.zeros (deg + 1), Buf.zeros deg⟩

/-- The operations of pass `t` and column `j`, and the sums of the estimator. -/
structure SlqKernels (n : ℕ) where
  lan : ℕ → ℕ → LKernels n
  quad : ℕ → ℕ → QKernels n
  colsum : ℕ → List ℝ → ℝ
  gram : ℕ → List ℝ → ℝ

/-- `quad` on the columns of an array (`src/primate/operators.py:145-151`) in pass `t`, from column `j` on.  The resize on line 139 keeps the shape. -/
def quadFl {n : ℕ} (K : SlqKernels n) (c : MFCfg) (t : ℕ) : ℕ → MFFl n → List (Vec n) → Py (MFFl n × List ℝ)
  | _, M, [] => .ok (M, [])
  | j, M, x :: xs => do
    let (s, y) ← quadColFl (K.lan t j) (K.quad t j) c.f x c.deg c.tol c.otol c.orth M.alpha M.beta M.Q
    let (M', ys) ← quadFl K c t (j + 1) ⟨s.alpha, s.beta, s.Q⟩ xs
    .ok (M', y :: ys)

/-- `while not converge(estimator): ...` (`src/primate/trace.py:107-110, 114-115`) with `CountCriterion(count)` (`src/primate/estimators.py:212-213`): `t` passes have
been made, `e` is the accumulator of the estimator (`src/primate/estimators.py:128-134`). -/
def slqLoopFl {n : ℕ} (fl : ℝ → ℝ) (K : SlqKernels n) (c : MFCfg) (pdf : Pdf n) (b count : ℕ) :
    ℕ → ℕ → MFFl n → Covariance ℝ 1 → Option (Py (MFFl n × Covariance ℝ 1))
  | 0, _, _, _ => none
  | fuel + 1, t, M, e =>
    if count ≤ e.n then some (.ok (M, e))
    else
      match quadFl K c t 0 M (List.ofFn (pdf (List.replicate t b) b)) with
      | .error er => some (.error er)
      | .ok (M', x) =>
        match e.updateRowsFl fl (x.map fun y _ => y) (fun _ => K.colsum t x) (fun _ _ => K.gram t x) with
        | .error er => some (.error er)
        | .ok e' => slqLoopFl fl K c pdf b count fuel (t + 1) M' e'

/-- `hutch(M, batch, pdf, CountCriterion(count), full=full)` for a `MatrixFunction` (`src/primate/trace.py:82-116`): the arrays afterwards and the estimate. -/
def slqFl {n : ℕ} (fl : ℝ → ℝ) (K : SlqKernels n) (c : MFCfg) (rng : Rng) (M : MFFl n) (batch : ℕ) (p : PdfArg n) (count : ℕ) (full : Bool) (fuel : ℕ) :
    Option (Py (MFFl n × NumArr (Fin 1 → ℝ))) :=
  match p.resolve rng with
  | .error e => some (.error e)
  | .ok pdf =>
    if n = 0 then some (.ok (M, .val fun _ => 0))
    else
      match slqLoopFl fl K c pdf (if full then batch else 1) count fuel 0 M (Covariance.init ℝ 1) with
      | none => none
      | some (.error e) => some (.error e)
      | some (.ok (M', e)) => some (.ok (M', e.mean))

end Primate
