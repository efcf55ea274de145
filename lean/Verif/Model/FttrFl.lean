import Verif.Model.Integrate

/-!
# Model of `src/primate/fttr.py` with rounding

Every operation is rounded by `fl`; the compiled code is assumed not to fuse products and sums.
-/

noncomputable section

namespace Primate

/-- The values written by `ortho_poly` (`src/primate/fttr.py:5-11`), cf. `orthoPoly`. -/
def orthoPolyFl (fl : ℝ → ℝ) (x muSqrtRec : ℝ) (a b : ℕ → ℝ) : ℕ → ℝ
  | 0 => muSqrtRec
  | 1 => fl (fl (fl (x - a 0) * muSqrtRec) / b 1)
  | i + 2 => fl (fl (fl (fl (x - a (i + 1)) / b (i + 2)) * orthoPolyFl fl x muSqrtRec a b (i + 1)) +
      fl (fl (-b (i + 1) / b (i + 2)) * orthoPolyFl fl x muSqrtRec a b i))

/-- `np.sum(np.square(p))` after `ortho_poly` (`src/primate/fttr.py:27-28`); `sum` is `np.sum`, whose order of summation is not fixed. -/
def squareSumFl (fl : ℝ → ℝ) (sum : List ℝ → ℝ) (x muSqrtRec : ℝ) (a b : ℕ → ℝ) (n : ℕ) : ℝ :=
  sum ((List.range n).map fun j => fl (orthoPolyFl fl x muSqrtRec a b j * orthoPolyFl fl x muSqrtRec a b j))

open Classical in
/-- `fttr(theta, alpha, beta, k, weights)` (`src/primate/fttr.py:17-29`), cf. `fttr`; `none`: a division by zero. -/
def fttrFl (fl : ℝ → ℝ) (sum : List ℝ → ℝ) (theta alpha beta : Buf ℝ) (k : ℕ) (weights : Buf ℝ) : Py (Option (Buf ℝ)) :=
  let n := alpha.len
  if k = 0 then .ok (some weights)
  else if n ≤ 1 ∨ theta.len < k ∨ weights.len < k ∨ beta.len < n then .error .index
  else
    let mu0 := sum ((List.range k).map fun i => |theta.get i|)
    let muSqrtRec := fl (1 / fl (Real.sqrt mu0))
    let s := fun i => squareSumFl fl sum (theta.get i) muSqrtRec alpha.get beta.get n
    if fl (Real.sqrt mu0) = 0 ∨ (∃ i, 1 ≤ i ∧ i < n ∧ beta.get i = 0) ∨ ∃ i, i < k ∧ s i = 0 then .ok none
    else .ok (some ⟨weights.len, fun i => if i < k then fl (fl (1 / s i) / mu0) else weights.get i⟩)

end Primate
