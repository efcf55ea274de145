import Verif.Model.SlqFl
import Verif.Spec.QuadFl
import Verif.Props.LanczosFl

/-! What is required of the arrays of a `MatrixFunction` between two calls, and the error of a sample. -/

noncomputable section

namespace Primate.Spec

open Matrix

/-- The arrays are large enough, their entries are bounded by `S`. -/
structure ArraysOk {n : ℕ} (deg : ℕ) (S : ℝ) (M : MFFl n) : Prop where
  aLen : deg ≤ M.alpha.len
  bLen : deg + 1 ≤ M.beta.len
  qLen : deg ≤ M.Q.len
  coef : ∀ j < deg, |M.alpha.get j| ≤ S ∧ |M.beta.get j| ≤ S

/-- Apart from changes of at most `tol` in `beta` the tridiagonal matrix in the arrays has its eigenvalues in `[c, d]`.  This is so for a new object, if zero is in the
interval. -/
def FormOk {n : ℕ} (deg : ℕ) (tol c d : ℝ) (M : MFFl n) : Prop :=
  ∃ e : ℕ → ℝ, (∀ j, 1 ≤ j → j < deg → |M.beta.get j - e j| ≤ tol) ∧ ∀ x : Fin deg → ℝ,
    c * (x ⬝ᵥ x) ≤ x ⬝ᵥ (jacobi deg M.alpha.get (fun i => e (i + 1)) *ᵥ x) ∧ x ⬝ᵥ (jacobi deg M.alpha.get (fun i => e (i + 1)) *ᵥ x) ≤ d * (x ⬝ᵥ x)

/-- The error of one sample, relative to the squared norm of the vector: `η` is the distance of the function from a polynomial, `Φ` a bound of the function,
`ε`, `ω`, `δ` bound the rounding errors, `tol` is the tolerance of the recurrence, `S` bounds the coefficients and `[a, b]` contains the nodes. -/
def flQuadErr (deg : ℕ) (ε S ω δ tol a b Φ η : ℝ) : ℝ :=
  2.15 * η + (11 * ε + 8 * deg * ω) * Φ + (Φ + η) * (4 * deg * (33 * ε + 496 * deg ^ 3 * (ε * S) / (b - a)) + 32 * deg ^ 3 * (2 * tol + δ * S) / (b - a))

/-- The requirements on the operations and the sizes: the operator is the matrix `A` with `|A x| <= M |x|` up to the rounding errors `ε`, the eigenvalues are in `[lo, hi]`,
the nodes in `[a, b]`, the numbers that are multiplied in the range from `L` to `H`, and there is no re-orthogonalisation. -/
structure SlqInput {n : ℕ} (K : SlqKernels n) (c : MFCfg) (A : Matrix (Fin n) (Fin n) ℝ) (M ε B ω δ L H S lo hi a b : ℝ) : Prop where
  lan : ∀ t j, LKernelsOk (K.lan t j) A M ε c.tol B
  quad : ∀ t j, QKernelsOk (K.quad t j) c.deg ω δ L H
  symm : A.IsSymm
  bound : ∀ x, nrm (A *ᵥ x) ≤ M * nrm x
  M0 : 0 ≤ M
  eps0 : 0 ≤ ε
  eps1 : ε ≤ 1 / 100
  tol0 : 0 < c.tol
  deg2 : 2 ≤ c.deg
  degE : 36 * c.deg * ε ≤ 1
  degB : 8 * (c.deg + 1) * M ≤ B
  noOrth : c.orth ≤ 0
  om0 : 0 ≤ ω
  om1 : c.deg * ω ≤ 1 / 100
  del0 : 0 ≤ δ
  SM : 4 * c.deg * M ≤ S
  Stol : c.tol ≤ S
  ab : a < b
  alo : a ≤ lo - 400 * c.deg ^ 3 * ε * S - (4 * c.tol + δ * S)
  bhi : hi + 400 * c.deg ^ 3 * ε * S + (4 * c.tol + δ * S) ≤ b

/-- The states of the arrays that are allowed when every run of the recurrence makes at least `κ` steps. -/
structure SlqState {n : ℕ} (c : MFCfg) (κ : ℕ) (ε S lo hi : ℝ) (M : MFFl n) : Prop where
  arrays : ArraysOk c.deg S M
  form : κ = c.deg ∨ FormOk c.deg c.tol (lo - 400 * c.deg ^ 3 * ε * S) (hi + 400 * c.deg ^ 3 * ε * S) M

end Primate.Spec
