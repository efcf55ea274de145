import Verif.Model.StatsFl
import Verif.Model.Trace

/-!
# Model of `hutch` with rounding

`src/primate/trace.py:82-116` for a dense array and `CountCriterion`, with the rounding `fl` of the element type after every operation.  The orders in which NumPy
evaluates `A @ v`, the contraction of `np.einsum` and the column sums are not specified, so the results of these kernels are parameters; they may depend on the pass
`t` and the column `j`.  Simplification: overflow is not represented (the theorems assume bounds that exclude it), other criteria are not modelled here.
-/

noncomputable section

namespace Primate

/-- What NumPy computes for `A @ v` (one column), `np.einsum("...i,...i->...", v.T, w.T)` (one column), the sum of a batch and the inner product of a centred batch
with itself. -/
structure FlKernels (N : ℕ) where
  matvec : ℕ → ℕ → Matrix (Fin N) (Fin N) ℝ → Vec N → Vec N
  dot : ℕ → ℕ → Vec N → Vec N → ℝ
  colsum : ℕ → List ℝ → ℝ
  gram : ℕ → List ℝ → ℝ

/-- `quad_form(v)` for the `b` columns of `V` (`src/primate/trace.py:97`). -/
def quadFormFl {N : ℕ} (K : FlKernels N) (A : Matrix (Fin N) (Fin N) ℝ) (t : ℕ) {b : ℕ} (V : Fin b → Vec N) : List ℝ :=
  List.ofFn fun j => K.dot t j (V j) (K.matvec t j A (V j))

/-- `while not converge(estimator): ...` (`src/primate/trace.py:107-110, 114-115`) with `CountCriterion(count)` (`src/primate/estimators.py:212-213`): `t` passes have
been made, `c` is the accumulator of the estimator (`src/primate/estimators.py:128-134`). -/
def hutchLoopFl {N : ℕ} (fl : ℝ → ℝ) (K : FlKernels N) (A : Matrix (Fin N) (Fin N) ℝ) (pdf : Pdf N) (b count : ℕ) :
    ℕ → ℕ → Covariance ℝ 1 → Option (Py (Covariance ℝ 1))
  | 0, _, _ => none
  | fuel + 1, t, c =>
    if count ≤ c.n then some (.ok c)
    else
      let x := quadFormFl K A t (pdf (List.replicate t b) b)
      match c.updateRowsFl fl (x.map fun y _ => y) (fun _ => K.colsum t x) (fun _ _ => K.gram t x) with
      | .error e => some (.error e)
      | .ok c' => hutchLoopFl fl K A pdf b count fuel (t + 1) c'

/-- `hutch(A, batch, pdf, CountCriterion(count), full=full)` (`src/primate/trace.py:82-116`): the estimate returned. -/
def hutchFl {N : ℕ} (fl : ℝ → ℝ) (K : FlKernels N) (rng : Rng) (A : Matrix (Fin N) (Fin N) ℝ) (batch : ℕ) (p : PdfArg N) (count : ℕ) (full : Bool) (fuel : ℕ) :
    Option (Py (NumArr (Fin 1 → ℝ))) :=
  match p.resolve rng with
  | .error e => some (.error e)
  | .ok pdf =>
    if N = 0 then some (.ok (.val fun _ => 0))
    else
      match hutchLoopFl fl K A pdf (if full then batch else 1) count fuel 0 (Covariance.init ℝ 1) with
      | none => none
      | some (.error e) => some (.error e)
      | some (.ok c) => some (.ok c.mean)

end Primate
