import Verif.Model.LanczosFl

/-!
# `MatrixFunction.quad` and `MatrixFunction._matvec` in rounded arithmetic

The code of `Model/MatrixFunction.lean` on top of `Model/LanczosFl.lean`; every numerical operation is a parameter.  Finite results only.
-/

noncomputable section

namespace Primate

open Matrix

/-- The operations used after the recurrence. -/
structure QKernels (n : ℕ) where
  /-- `eigh_tridiagonal(d, e[1:])` (`src/primate/tridiag.py:10-11`, called in `src/primate/integrate.py:64` and `src/primate/operators.py:122`). -/
  eigh : (k : ℕ) → (ℕ → ℝ) → (ℕ → ℝ) → (Fin k → ℝ) × Matrix (Fin k) (Fin k) ℝ
  /-- `np.sum(fun(theta) * np.square(ev[0, :]))` from the function values and the first row of the eigenvectors (`src/primate/integrate.py:65`,
  `src/primate/operators.py:150`). -/
  wsum : (k : ℕ) → (Fin k → ℝ) → (Fin k → ℝ) → ℝ
  /-- `np.linalg.norm(x)` (`src/primate/operators.py:118, 147`). -/
  norm : Vec n → ℝ
  /-- The product of two numbers (`src/primate/operators.py:147, 150`). -/
  mul : ℝ → ℝ → ℝ
  /-- `c * Q @ Y @ (phi * Y[0, :]).T` (`src/primate/operators.py:124`). -/
  prod : (k : ℕ) → ℝ → (ℕ → Vec n) → Matrix (Fin k) (Fin k) ℝ → (Fin k → ℝ) → Vec n

/-- One column of `quad` (`src/primate/operators.py:145-150`): the state after the recurrence and the number stored in `y[j]`.  `tol` and `otol` are the
tolerances computed by the native code. -/
def quadColFl {n : ℕ} (K : LKernels n) (E : QKernels n) (f : ℝ → ℝ) (x : Vec n) (deg : ℕ) (tol otol : ℝ) (orth : ℤ) (alpha beta : Buf ℝ) (Q : Buf (Vec n)) :
    Py (LState n × ℝ) := do
  let x_norm_sq := E.mul (E.norm x) (E.norm x)
  let s ← lanczosFl K x deg tol otol orth alpha beta Q
  let (theta, ev) := E.eigh deg s.alpha.get (fun i => s.beta.get (i + 1))
  .ok (s, E.mul (E.wsum deg (fun j => f (theta j)) (fun j => ev ⟨0, j.pos⟩ j)) x_norm_sq)

/-- `_matvec` (`src/primate/operators.py:102-124`); `Q` has `deg` columns, which are set to zero first (line 116). -/
def matvecFl {n : ℕ} (K : LKernels n) (E : QKernels n) (f : ℝ → ℝ) (x : Vec n) (deg : ℕ) (tol otol : ℝ) (orth : ℤ) (alpha beta : Buf ℝ) :
    Py (LState n × Vec n) := do
  let x_norm := E.norm x
  let s ← lanczosFl K x deg tol otol orth alpha beta (Buf.zeros deg)
  let (rw, Y) := E.eigh deg s.alpha.get (fun i => s.beta.get (i + 1))
  .ok (s, E.prod deg x_norm s.Q.get Y fun a => f (rw a))

end Primate
