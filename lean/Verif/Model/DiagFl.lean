import Verif.Model.HutchFl
import Verif.Model.Diagonal

/-!
# Model of `diag` with rounding

`src/primate/diagonal.py:56-92` for a dense array and `CountCriterion`, with the rounding `fl` of the element type after every operation.  The order in which NumPy
evaluates `A @ v` is not specified, its result is a parameter (`FlKernels.matvec`).  Simplification: overflow and the division by a zero entry of `denom` are not
represented (the theorems assume bounds and vectors that exclude them), other criteria are not modelled here.
-/

noncomputable section

namespace Primate

/-- `numer`, `denom` and the accumulator of `estimator` (`src/primate/diagonal.py:62, 72, 85`). -/
structure DiagFlState (N : ℕ) where
  numer : Vec N
  denom : Vec N
  acc : Mean ℝ N

/-- One pass (`src/primate/diagonal.py:75-79, 87-91`), the `t`-th.  `np.atleast_2d(numer / denom)` is a batch of one row; the column sums of a single row are the
row itself. -/
def diagBodyFl {N : ℕ} (fl : ℝ → ℝ) (K : FlKernels N) (A : Matrix (Fin N) (Fin N) ℝ) (pdf : Pdf N) (t : ℕ) (s : DiagFlState N) : Py (DiagFlState N) :=
  let v := pdf (List.replicate t 1) 1 0
  let u := K.matvec t 0 A v
  let numer := fun i => fl (s.numer i + fl (u i * v i))
  let denom := fun i => fl (s.denom i + fl (v i ^ 2))
  let x := fun i => fl (numer i / denom i)
  match s.acc.updateRowsFl fl [x] x with
  | .error e => .error e
  | .ok acc => .ok ⟨numer, denom, acc⟩

/-- `while not converge(estimator): ...` (`src/primate/diagonal.py:74-81, 86-91`) with `CountCriterion(count)` (`src/primate/estimators.py:212-213`), `t` passes have been
made. -/
def diagLoopFl {N : ℕ} (fl : ℝ → ℝ) (K : FlKernels N) (A : Matrix (Fin N) (Fin N) ℝ) (pdf : Pdf N) (count : ℕ) :
    ℕ → ℕ → DiagFlState N → Option (Py (DiagFlState N))
  | 0, _, _ => none
  | fuel + 1, t, s =>
    if count ≤ s.acc.n then some (.ok s)
    else
      match diagBodyFl fl K A pdf t s with
      | .error e => some (.error e)
      | .ok s' => diagLoopFl fl K A pdf count fuel (t + 1) s'

/-- `diag(A, pdf, CountCriterion(count))` (`src/primate/diagonal.py:56-92`): the estimate returned; `full` and a callback do not change it. -/
def diagFl {N : ℕ} (fl : ℝ → ℝ) (K : FlKernels N) (rng : Rng) (A : Matrix (Fin N) (Fin N) ℝ) (p : PdfArg N) (count : ℕ) (fuel : ℕ) :
    Option (Py (NumArr (Fin N → ℝ))) :=
  match p with
  | .callable _ => some (.error .assertion)
  | .name name =>
    match isotropicPdf name rng N with
    | .error e => some (.error e)
    | .ok pdf =>
      if N = 0 then some (.ok (.val fun _ => 0))
      else
        match diagLoopFl fl K A pdf count fuel 0 ⟨fun _ => 0, fun _ => 0, Mean.init ℝ N⟩ with
        | none => none
        | some (.error e) => some (.error e)
        | some (.ok s) => some (.ok s.acc.mean)

end Primate
