import Verif.Model.TqliFl
import Verif.Spec.Lanczos

/-! Accuracy of the operations of `tqli`, runs that converge. -/

noncomputable section

namespace Primate.Spec

/-- Every operation has the relative error `ε` (floating point arithmetic without limits of the exponents), numbers that are representable are not changed by rounding. -/
structure TqliOk (K : TqliKernels) (ε : ℝ) : Prop where
  round : ∀ x, |K.fl x - x| ≤ ε * |x|
  idem : ∀ x, K.fl (K.fl x) = K.fl x
  hyp : ∀ x y, |K.hyp x y - Real.sqrt (x ^ 2 + y ^ 2)| ≤ ε * Real.sqrt (x ^ 2 + y ^ 2)

/-- The variable `r` at the end of a pass for row `it` towards `m`, which line 84 of `tqli.py` tests. -/
def lastR (K : TqliKernels) (n : ℕ) (withZ : Bool) (m it : ℕ) (t : TriState) : ℝ :=
  let r := K.hyp (K.fl (K.fl (t.d (it + 1) - t.d it) / K.fl (2 * t.e it))) 1
  let g := K.fl (t.d m - t.d it)
  (tqliSweepFl K n withZ m it (m - it) ⟨t, 1, 1, 0, K.fl (g + K.fl (t.e it / K.fl (g + tqliSign r g))), r, m⟩).r

/-- The loop for row `it` ends because the subdiagonal element is negligible, not because of `max_iter`, and no pass ends with `r = 0`. -/
def RowConverges (K : TqliKernels) (n : ℕ) (withZ : Bool) (maxIter it : ℕ) : ℕ → ℕ → TriState → Prop
  | 0, _, _ => False
  | fuel + 1, ii, t =>
    let m := tqliScanFl K t (n - 1 - it) it
    m = it ∨ (ii ≤ maxIter ∧ lastR K n withZ m it t ≠ 0 ∧ ∀ t', tqliPassFl K n withZ m it t = some t' → RowConverges K n withZ maxIter it fuel (ii + 1) t')

/-- All rows converge. -/
def RowsConverge (K : TqliKernels) (n : ℕ) (withZ : Bool) (maxIter fuel : ℕ) : ℕ → ℕ → TriState → Prop
  | 0, _, _ => True
  | rem + 1, it, t => RowConverges K n withZ maxIter it fuel 0 t ∧
      ∀ t', tqliRowFl K n withZ maxIter it fuel 0 t = some (some t') → RowsConverge K n withZ maxIter fuel rem (it + 1) t'

end Primate.Spec
