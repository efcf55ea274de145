import Verif.Model.Py
import Mathlib.Algebra.BigOperators.Group.List.Basic
import Mathlib.Algebra.Field.Defs

/-!
# Model of `src/primate/stats.py` (accumulators)

Exact arithmetic over a field `K`.
-/

namespace Primate

variable {K : Type} [Field K]

/-- `X.mean(axis=0)` for an array with at least one row
(`src/primate/stats.py:34, 77`). -/
def colMean {d : ℕ} (rows : List (Fin d → K)) : Fin d → K :=
  fun i => (rows.map fun x => x i).sum / (rows.length : K)

/-- Instance of `class Mean` (`src/primate/stats.py:7-11`).  `nan = true` means
that every entry of `mu` is NaN; then the finite value of `mu` is irrelevant. -/
structure Mean (K : Type) (d : ℕ) where
  n : ℕ
  mu : Fin d → K
  nan : Bool

/-- `Mean.__init__` (`src/primate/stats.py:8-11`). -/
def Mean.init (K : Type) [Field K] (d : ℕ) : Mean K d := ⟨0, fun _ => 0, false⟩

/-- `Mean.__call__` / `Mean.mean` (`src/primate/stats.py:13-21`): NaN before the
first observation. `mu.item()` for `dim == 1` and the array `mu` otherwise are
not distinguished. -/
def Mean.mean {d : ℕ} (m : Mean K d) : NumArr (Fin d → K) :=
  if m.n = 0 then .nan else if m.nan then .nan else .val m.mu

/-- Body of `Mean.update` after promotion and the shape assertion
(`src/primate/stats.py:33-38`).  With an empty batch `batch_mean` is NaN; then
`0 / new_n` raises ZeroDivisionError if nothing was observed before, and
otherwise all of `mu` becomes NaN. -/
def Mean.updateRows {d : ℕ} (m : Mean K d) (X : List (Fin d → K)) : Py (Mean K d) :=
  let new_n := m.n + X.length
  if new_n = 0 then .error .zeroDivision
  else if X.length = 0 then .ok { m with n := new_n, nan := true }
  else
    let delta_mean := fun i => colMean X i - m.mu i
    .ok { n := new_n
          mu := fun i => m.mu i + ((X.length : K) / (new_n : K)) * delta_mean i
          nan := m.nan }

/-- `Mean.update` (`src/primate/stats.py:23-38`). -/
def Mean.update {d : ℕ} (m : Mean K d) (X : ArrayLike K) : Py (Mean K d) :=
  let b := X.promote
  if h : b.width = d then m.updateRows (h ▸ b.rows) else .error .assertion

/-- Instance of `class Covariance` (`src/primate/stats.py:41-49`). -/
structure Covariance (K : Type) (d : ℕ) where
  n : ℕ
  mu : Fin d → K
  S : Matrix (Fin d) (Fin d) K
  nan : Bool

/-- `Covariance.__init__` (`src/primate/stats.py:47-49`). -/
def Covariance.init (K : Type) [Field K] (d : ℕ) : Covariance K d :=
  ⟨0, fun _ => 0, fun _ _ => 0, false⟩

/-- `Covariance.mean`, inherited (`src/primate/stats.py:18-21`). -/
def Covariance.mean {d : ℕ} (c : Covariance K d) : NumArr (Fin d → K) :=
  if c.n = 0 then .nan else if c.nan then .nan else .val c.mu

/-- `Covariance.__call__ = covariance` (`src/primate/stats.py:51-64, 88`).
The scalar infinity returned when `n <= ddof` is `NumArr.inf`.  For `dim = 0`
the code evaluates `np.diag(np.inf, 0)`, which raises ValueError. -/
def Covariance.covariance {d : ℕ} (c : Covariance K d) (ddof : ℤ) :
    Py (NumArr (Matrix (Fin d) (Fin d) K)) :=
  if (c.n : ℤ) - ddof ≤ 0 then (if d = 0 then .error .value else .ok .inf)
  else if c.nan then .ok .nan
  else .ok (.val fun i j => c.S i j / (((c.n : ℤ) - ddof : ℤ) : K))

/-- Body of `Covariance.update` after promotion and the shape assertion
(`src/primate/stats.py:76-86`).  `X_shift` is the outer product of `delta_mean`
with itself in both branches of line 84. -/
def Covariance.updateRows {d : ℕ} (c : Covariance K d) (X : List (Fin d → K)) :
    Py (Covariance K d) :=
  let new_n := c.n + X.length
  if new_n = 0 then .error .zeroDivision
  else if X.length = 0 then .ok { c with n := new_n, nan := true }
  else
    let batch_mean := colMean X
    let delta_mean := fun i => batch_mean i - c.mu i
    let X_centered := X.map fun x i => x i - batch_mean i
    let X_shift : Matrix (Fin d) (Fin d) K := fun i j => delta_mean i * delta_mean j
    .ok { n := new_n
          mu := fun i => c.mu i + ((X.length : K) / (new_n : K)) * delta_mean i
          S := fun i j => c.S i j + ((X_centered.map fun x => x i * x j).sum
                + ((c.n : K) * (X.length : K) / (new_n : K)) * X_shift i j)
          nan := c.nan }

/-- `Covariance.update` (`src/primate/stats.py:66-86`). -/
def Covariance.update {d : ℕ} (c : Covariance K d) (X : ArrayLike K) : Py (Covariance K d) :=
  let b := X.promote
  if h : b.width = d then c.updateRows (h ▸ b.rows) else .error .assertion

/-- A history of calls `acc.update(X)`: stops at the first exception. -/
def Mean.updates {d : ℕ} (m : Mean K d) (Xs : List (ArrayLike K)) : Py (Mean K d) :=
  Xs.foldlM Mean.update m

/-- A history of calls `acc.update(X)`: stops at the first exception. -/
def Covariance.updates {d : ℕ} (c : Covariance K d) (Xs : List (ArrayLike K)) :
    Py (Covariance K d) :=
  Xs.foldlM Covariance.update c

/-- A caller that catches the exception of a failing `update` and goes on with
the same object.  In `src/primate/stats.py:23-38` every statement that can raise
(the assertion on line 31, the division on line 37) runs before the first
assignment to an attribute, so the object is unchanged after an exception. -/
def Mean.tryUpdate {d : ℕ} (m : Mean K d) (X : ArrayLike K) : Mean K d :=
  match m.update X with
  | .ok m' => m'
  | .error _ => m

/-- As `Mean.tryUpdate`, for `src/primate/stats.py:66-86`. -/
def Covariance.tryUpdate {d : ℕ} (c : Covariance K d) (X : ArrayLike K) : Covariance K d :=
  match c.update X with
  | .ok c' => c'
  | .error _ => c

end Primate
