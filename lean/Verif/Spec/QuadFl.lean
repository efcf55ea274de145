import Verif.Model.QuadFl
import Verif.Spec.Lanczos

/-! Accuracy of the operations used after the recurrence. -/

noncomputable section

namespace Primate.Spec

open Matrix

/-- The operations for matrices of `m` rows, for numbers whose sizes are between `L` and `H`; there is no requirement for others, so that overflow and underflow
are excluded.  The eigenvalue solver is backward stable: the computed eigenvalues are those of a matrix at distance `δ S`, where `S` bounds the entries of the given
matrix, and the entries of the computed eigenvectors are within `ω` of those of its eigenvectors.  Norms have the relative error `ω`, sums and products the error `ω`
relative to a bound of the summands or factors. -/
structure QKernelsOk {n : ℕ} (E : QKernels n) (m : ℕ) (ω δ L H : ℝ) : Prop where
  eigh : ∀ (d e : ℕ → ℝ) (S : ℝ), L ≤ S → S ≤ H → (∀ i < m, |d i| ≤ S) → (∀ i, i + 1 < m → |e i| ≤ S) → ∃ F Y : Matrix (Fin m) (Fin m) ℝ,
    ∑ i, ∑ j, F i j ^ 2 ≤ (δ * S) ^ 2 ∧ Eigen (jacobi m d e + F) (E.eigh m d e).1 Y ∧ ∀ i j, |(E.eigh m d e).2 i j - Y i j| ≤ ω
  wsum : ∀ (φ y : Fin m → ℝ) (Φ : ℝ), L ≤ Φ → Φ ≤ H → (∀ j, |φ j| ≤ Φ) → ∑ j, y j ^ 2 ≤ 2 → |E.wsum m φ y - ∑ j, φ j * y j ^ 2| ≤ ω * Φ
  norm : ∀ x, L ≤ nrm x → nrm x ≤ H → |E.norm x - nrm x| ≤ ω * nrm x
  mul : ∀ a b X, L ≤ X → X ≤ H → |a * b| ≤ X → |E.mul a b - a * b| ≤ ω * X
  prod : ∀ (c : ℝ) (q : ℕ → Vec n) (Y : Matrix (Fin m) (Fin m) ℝ) (φ : Fin m → ℝ) (C Φ : ℝ), L ≤ C → L ≤ Φ → L ≤ C * Φ → C ≤ H → Φ ≤ H → C * Φ ≤ H →
    |c| ≤ C → (∀ l < m, nrm (q l) ≤ 2) → (∀ i j, |Y i j| ≤ 2) → (∀ a, |φ a| ≤ Φ) →
    nrm (E.prod m c q Y φ - c • ∑ l : Fin m, (∑ a, Y l a * (φ a * Y ⟨0, l.pos⟩ a)) • q l) ≤ ω * (m ^ 2 * (C * Φ))

/-- The coefficients of the recurrence (bounded by `S`), the values of the function (bounded by `Φ`), the norm `N` of the vector and the products of them are
in the range from `L` to `H`. -/
structure QRange (L H S Φ N : ℝ) : Prop where
  Slo : L ≤ S
  Shi : S ≤ H
  flo : L ≤ Φ
  fhi : Φ ≤ H
  nlo : L ≤ N
  nhi : 2 * N ≤ H
  n2lo : L ≤ N ^ 2
  n2hi : 2 * N ^ 2 ≤ H
  fnlo : L ≤ N * Φ
  fnhi : 2 * (N * Φ) ≤ H
  fn2lo : L ≤ N ^ 2 * Φ
  fn2hi : 2 * (N ^ 2 * Φ) ≤ H

/-- What is known about the arrays after the `k` iterations that were done: there were no further ones, or the form of the part of the matrix that comes from an earlier
use of the arrays `alpha` and `beta` is well inside of the interval `[a, b]`. -/
def RestOk (k deg : ℕ) (alpha beta : Buf ℝ) (a b D : ℝ) : Prop :=
  k = deg ∨ ∀ x : Fin deg → ℝ, (∀ j : Fin deg, (j : ℕ) < k → x j = 0) →
    (a + D) * (x ⬝ᵥ x) ≤ x ⬝ᵥ (jacobi deg alpha.get (fun i => beta.get (i + 1)) *ᵥ x) ∧
    x ⬝ᵥ (jacobi deg alpha.get (fun i => beta.get (i + 1)) *ᵥ x) ≤ (b - D) * (x ⬝ᵥ x)

/-- The distance of the matrix handed to the eigenvalue solver from the one whose eigenvalues it computes, and the coupling that a breakdown leaves. -/
def backward (k deg : ℕ) (δ S tol : ℝ) : ℝ := (if k = deg then 0 else 2 * tol) + δ * S

end Primate.Spec
