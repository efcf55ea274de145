import Verif.Model.CritRecFl
import Verif.Model.SlqFl

/-!
# Model of `hutch` on a `MatrixFunction` with any criterion, with rounding

The loop of `hutch` (`src/primate/trace.py:107-115`) as in `Model/SlqFl.lean`, with the criteria of `Model/CritRecFl.lean` in place of a count.
-/

noncomputable section

namespace Primate

/-- `while not converge(estimator): ...` (`src/primate/trace.py:107-110, 114-115`) on a `MatrixFunction`, cf. `slqLoopFl`; the number of passes is returned with the arrays of
the matrix function and the estimator. -/
def slqLoopRecFl {n : ℕ} (top : ℝ) (fl root : ℝ → ℝ) (K : SlqKernels n) (c : MFCfg) (pdf : Pdf n) (b : ℕ) (crit : CritRecFl) :
    ℕ → ℕ → MFFl n → EstRecFl → Option (Py (ℕ × MFFl n × EstRecFl))
  | 0, _, _, _ => none
  | fuel + 1, t, M, e =>
    match crit.eval top fl root e with
    | .error err => some (.error err)
    | .ok true => some (.ok (t, M, e))
    | .ok false =>
      match quadFl K c t 0 M (List.ofFn (pdf (List.replicate t b) b)) with
      | .error er => some (.error er)
      | .ok (M', x) =>
        match e.update fl x (K.colsum t x) (K.gram t x) with
        | .error err => some (.error err)
        | .ok e' => slqLoopRecFl top fl root K c pdf b crit fuel (t + 1) M' e'

end Primate
