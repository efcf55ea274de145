import Verif.Model.Xtrace

/-!
# `update_trinv` (`src/primate/linalg.py`) in rounded arithmetic
-/

noncomputable section

namespace Primate

/-- The operations: rounding, and one entry of the product of a matrix and a column. -/
structure TrinvKernels where
  fl : ℝ → ℝ
  dot : (n : ℕ) → Vec n → Vec n → ℝ

/-- `update_trinv` (`src/primate/linalg.py:15-24`) for arrays of the required shapes.  The negation in line 23 does not round. -/
def updateTrinvFl (K : TrinvKernels) {n : ℕ} (B_inv : Matrix (Fin n) (Fin n) ℝ) (b : Fin (n + 1) → ℝ) : Matrix (Fin (n + 1)) (Fin (n + 1)) ℝ :=
  let corner := K.fl (1 / b (Fin.last n))
  Matrix.of fun i j =>
    Fin.lastCases
      (Fin.lastCases corner (fun i => K.fl (corner * K.dot n (fun k => -B_inv i k) fun k => b k.castSucc)) i)
      (fun j => Fin.lastCases 0 (fun i => B_inv i j) i) j

/-- The array `R_inv` of `xtrace` after `k` columns (`src/primate/trace.py:284, 300`); `R` is the array of the factors `R`, whose columns do not change when further ones are
inserted. -/
def trinvFl (K : TrinvKernels) (R : ℕ → ℕ → ℝ) : (k : ℕ) → Matrix (Fin k) (Fin k) ℝ
  | 0 => 0
  | k + 1 => updateTrinvFl K (trinvFl K R k) fun i => R i k

end Primate
