import Verif.Model.Random
import Mathlib.LinearAlgebra.Matrix.Charpoly.Basic
import Mathlib.Data.Matrix.Diagonal

/-!
# Model of `symmetric` and `haar` (`src/primate/random.py:145-201`)
-/

noncomputable section

namespace Primate

/-- A square array of any size. -/
abbrev SquareArr := Σ m : ℕ, Matrix (Fin m) (Fin m) ℝ

/-- `scipy.spatial.distance.squareform(v)` with `v` of length `n (n - 1) / 2` and the diagonal then set to `d`
(`src/primate/random.py:167-168, 170-171`): the numbers of `v` fill the upper triangle row by row, mirrored below. -/
def squareform (n : ℕ) (v d : ℕ → ℝ) : Matrix (Fin n) (Fin n) ℝ := fun i j =>
  if i = j then d i
  else v (min i.1 j.1 * n - min i.1 j.1 * (min i.1 j.1 + 1) / 2 + (max i.1 j.1 - min i.1 j.1 - 1))

/-- The Q factor returned by `np.linalg.qr` for each square matrix (LAPACK, not modelled). -/
abbrev SquareQR := ∀ n : ℕ, Matrix (Fin n) (Fin n) ℝ → Matrix (Fin n) (Fin n) ℝ

/-- `Q @ np.diag(ew) @ Q.T` (`src/primate/random.py:178, 201`). -/
def conjDiag {n : ℕ} (Q : Matrix (Fin n) (Fin n) ℝ) (ew : Fin n → ℝ) : Matrix (Fin n) (Fin n) ℝ :=
  Q * Matrix.diagonal ew * Q.transpose

/-- The eigenvalues `rng.uniform(size=n, low=low, high=1.0)` (`src/primate/random.py:176, 196`). -/
def uniformEw (n : ℕ) (low : ℝ) (rng : Rng) (pos : ℕ) : List ℝ :=
  (List.range n).map fun i => low + (1 - low) * rng.unif (pos + i)

/-- `symmetric(n, dist, pd, ew, seed)` (`src/primate/random.py:145-180`).  For `n <= 0` the assignment of the diagonal
raises ValueError: `squareform` gives a matrix of size `1 - n` while `rng.random(n)` is empty or fails.  An `ew` of the wrong
length makes the product on line 178 raise ValueError.  Simplifications: `ew` is a scalar (a list of length one) or a one-dimensional
array; drawing a number of either kind moves the generator by one position. -/
def symmetric (qr : SquareQR) (n : ℤ) (dist : String) (pd : Bool) (ew : Option (List ℝ)) (rng : Rng) : Py SquareArr :=
  if dist ≠ "uniform" ∧ dist ≠ "normal" then .error .value
  else if n ≤ 0 then .error .value
  else
    let m := n.toNat
    let N := m * (m - 1) / 2
    let A := squareform m (if dist = "uniform" then rng.unif else rng.norm) (fun i => rng.unif (N + i))
    let Q := qr m A
    let ew := match ew with
      | none => uniformEw m (if pd then 0 else -1) rng (N + m)
      | some l => l
    if h : ew.length = m then
      let B := conjDiag Q fun i => ew[i.1]
      .ok ⟨m, (1 / 2 : ℝ) • (B + B.transpose)⟩
    else .error .value

/-- `haar(n, ew, seed)` (`src/primate/random.py:183-201`); `U` is the matrix drawn from the orthogonal group.  Sizes below two depend
on the version of SciPy and are left out. -/
def haar (n : ℕ) (U : Matrix (Fin n) (Fin n) ℝ) (ew : Option (List ℝ)) (rng : Rng) : Py (Matrix (Fin n) (Fin n) ℝ) :=
  let ew := match ew with
    | none => uniformEw n (-1) rng 0
    | some l => l
  if h : ew.length = n then .ok (conjDiag U fun i => ew[i.1])
  else .error .assertion

end Primate
