import Verif.Model.RandomMat

/-!
# Model of `symmetric` and `haar` (`src/primate/random.py:145-201`) with rounding

The matrix products of the BLAS are parameters; every other operation is rounded by `fl`.  The numbers drawn are taken as they come.
-/

noncomputable section

namespace Primate

/-- What the two matrix products of a call return, for matrices of each size. -/
structure MulKernels where
  first : ∀ m : ℕ, Matrix (Fin m) (Fin m) ℝ → Matrix (Fin m) (Fin m) ℝ → Matrix (Fin m) (Fin m) ℝ
  second : ∀ m : ℕ, Matrix (Fin m) (Fin m) ℝ → Matrix (Fin m) (Fin m) ℝ → Matrix (Fin m) (Fin m) ℝ

/-- `Q @ np.diag(ew) @ Q.T` (`src/primate/random.py:178, 201`), cf. `conjDiag`: products are evaluated from the left. -/
def conjDiagFl (K : MulKernels) {m : ℕ} (Q : Matrix (Fin m) (Fin m) ℝ) (ew : Fin m → ℝ) : Matrix (Fin m) (Fin m) ℝ :=
  K.second m (K.first m Q (Matrix.diagonal ew)) Q.transpose

/-- `rng.uniform(size=n, low=low, high=1.0)` (`src/primate/random.py:176, 196`), cf. `uniformEw`. -/
def uniformEwFl (fl : ℝ → ℝ) (n : ℕ) (low : ℝ) (rng : Rng) (pos : ℕ) : List ℝ :=
  (List.range n).map fun i => fl (low + fl (fl (1 - low) * rng.unif (pos + i)))

/-- `(A + A.T) / 2` (`src/primate/random.py:179`). -/
def symmetrizeFl (fl : ℝ → ℝ) {m : ℕ} (B : Matrix (Fin m) (Fin m) ℝ) : Matrix (Fin m) (Fin m) ℝ := fun i j => fl (fl (B i j + B.transpose i j) / 2)

/-- `symmetric(n, dist, pd, ew, seed)` (`src/primate/random.py:145-180`), cf. `symmetric`. -/
def symmetricFl (fl : ℝ → ℝ) (K : MulKernels) (qr : SquareQR) (n : ℤ) (dist : String) (pd : Bool) (ew : Option (List ℝ)) (rng : Rng) : Py SquareArr :=
  if dist ≠ "uniform" ∧ dist ≠ "normal" then .error .value
  else if n ≤ 0 then .error .value
  else
    let m := n.toNat
    let N := m * (m - 1) / 2
    let A := squareform m (if dist = "uniform" then rng.unif else rng.norm) (fun i => rng.unif (N + i))
    let Q := qr m A
    let ew := match ew with
      | none => uniformEwFl fl m (if pd then 0 else -1) rng (N + m)
      | some l => l
    if h : ew.length = m then .ok ⟨m, symmetrizeFl fl (conjDiagFl K Q fun i => ew[i.1])⟩
    else .error .value

/-- `haar(n, ew, seed)` (`src/primate/random.py:183-201`), cf. `haar`. -/
def haarFl (fl : ℝ → ℝ) (K : MulKernels) (n : ℕ) (U : Matrix (Fin n) (Fin n) ℝ) (ew : Option (List ℝ)) (rng : Rng) : Py (Matrix (Fin n) (Fin n) ℝ) :=
  let ew := match ew with
    | none => uniformEwFl fl n (-1) rng 0
    | some l => l
  if h : ew.length = n then .ok (conjDiagFl K U fun i => ew[i.1])
  else .error .assertion

end Primate
