import Verif.Model.Random
import Mathlib.LinearAlgebra.Matrix.Symmetric
import Mathlib.LinearAlgebra.Span.Basic
import Mathlib.Data.Matrix.Mul

/-!
# Tridiagonal matrices, Krylov spaces and functions of matrices
-/

noncomputable section

namespace Primate.Spec

open Matrix

/-- The symmetric tridiagonal matrix with diagonal `a` and off-diagonal `b`. -/
def tridiagonal (a b : List ℝ) : Matrix (Fin a.length) (Fin a.length) ℝ := Matrix.of fun i j =>
  if i = j then a.getD i 0 else if (i : ℕ) + 1 = j then b.getD i 0
  else if (j : ℕ) + 1 = i then b.getD j 0 else 0

/-- The Jacobi matrix of size `k` with diagonal `d 0, d 1, ...` and off-diagonal `off 0, off 1, ...` -/
def jacobi (k : ℕ) (d off : ℕ → ℝ) : Matrix (Fin k) (Fin k) ℝ := Matrix.of fun i j =>
  if i = j then d i else if (i : ℕ) + 1 = j then off i else if (j : ℕ) + 1 = i then off j else 0

/-- The Krylov space `span {v, A v, ..., A^j v}`. -/
def krylov {n : ℕ} (A : Matrix (Fin n) (Fin n) ℝ) (v : Vec n) (j : ℕ) : Submodule ℝ (Vec n) :=
  Submodule.span ℝ ((fun i => (A ^ i) *ᵥ v) '' {i | i ≤ j})

/-- Orthonormal eigenvectors (columns of `U`) and eigenvalues of a symmetric matrix. -/
structure Eigen {n : ℕ} (A : Matrix (Fin n) (Fin n) ℝ) (lam : Fin n → ℝ) (U : Matrix (Fin n) (Fin n) ℝ) :
    Prop where
  orthonormal : Uᵀ * U = 1
  eigen : ∀ j, A *ᵥ (fun i => U i j) = lam j • fun i => U i j

/-- `f(A) = U f(Λ) Uᵀ`. -/
def matFun {n : ℕ} (lam : Fin n → ℝ) (U : Matrix (Fin n) (Fin n) ℝ) (f : ℝ → ℝ) :
    Matrix (Fin n) (Fin n) ℝ := U * Matrix.diagonal (fun i => f (lam i)) * Uᵀ

/-- `xᵀ M x`. -/
def quadForm {n : ℕ} (M : Matrix (Fin n) (Fin n) ℝ) (x : Vec n) : ℝ := x ⬝ᵥ (M *ᵥ x)

/-- The iteration did not stop early at a residual that is small but not zero: every entry of `beta` below the
tolerance is preceded by (or is) an exact zero. -/
def CleanStop (tol : ℝ) (deg : ℕ) (beta : ℕ → ℝ) : Prop :=
  ∀ i, 1 ≤ i → i < deg → beta i < tol → ∃ l, 1 ≤ l ∧ l ≤ i ∧ beta l = 0

end Primate.Spec
