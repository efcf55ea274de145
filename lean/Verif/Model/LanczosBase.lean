import Verif.Model.Lanczos
import Verif.Model.Py

/-!
# Model of the baseline recurrence `_lanczos_py`

`_lanczos_py` in `src/primate/lanczos.py`.  The arrays `alpha` and `beta` have type float32 in the code; numbers are real numbers here.
A division by a zero norm fills a vector with `nan`, and every later number is `nan`: such a vector is `none`.  For square matrices
(otherwise `np.dot` raises ValueError in the first iteration).
-/

noncomputable section

namespace Primate

open Matrix

/-- `np.isclose(x, tol)` with the default tolerances, for a finite `tol`. -/
def npIsclose : Fl → ℝ → Prop
  | .fin x, tol => |x - tol| ≤ 1e-8 + 1e-5 * |tol|
  | _, _ => False

/-- Variables of `_lanczos_py`. -/
structure BaseState (n : ℕ) where
  alpha : Buf Fl
  beta : Buf Fl
  qp : Option (Vec n)
  qc : Option (Vec n)

/-- `x / y` for a vector and its norm: only the zero vector has norm zero, and `0 / 0` is `nan`. -/
def vecDiv {n : ℕ} (x : Vec n) (y : ℝ) : Option (Vec n) := open Classical in if y = 0 then none else some fun i => x i / y

open Classical in
/-- The loop of `_lanczos_py` (`src/primate/lanczos.py:182-191`): iterations `i, i + 1, ...`, `rem` left. -/
def baseLoop {n : ℕ} (A : Matrix (Fin n) (Fin n) ℝ) (tol : ℝ) : ℕ → ℕ → BaseState n → Py (BaseState n)
  | 0, _, s => .ok s
  | rem + 1, i, s => do
    let bi ← s.beta.read i
    match s.qc, s.qp, bi with
    | some qc, some qp, .fin b =>
      let qn := A *ᵥ qc - b • qp
      let a := qn ⬝ᵥ qc
      let alpha ← s.alpha.write i (.fin a)
      let qn := qn - a • qc
      let beta ← s.beta.write (i + 1) (.fin (nrm qn))
      if npIsclose (.fin (nrm qn)) tol then .ok { s with alpha := alpha, beta := beta }
      else baseLoop A tol rem (i + 1) ⟨alpha, beta, some qc, vecDiv qn (nrm qn)⟩
    | qc, _, _ =>
      let alpha ← s.alpha.write i .nan
      let beta ← s.beta.write (i + 1) .nan
      baseLoop A tol rem (i + 1) ⟨alpha, beta, qc, none⟩

/-- `_lanczos_py(A, v0, k, tol)` (`src/primate/lanczos.py:173-192`) with `len(v0) = m`; the value is `(alpha, beta)`.  A negative `k`
gives no iterations. -/
def lanczosBase {n m : ℕ} (A : Matrix (Fin n) (Fin n) ℝ) (v0 : Vec m) (k : ℤ) (tol : ℝ) : Py (Buf Fl × Buf Fl) :=
  if ¬ k ≤ n then .error .assertion
  else if h : m = n then do
    let v0 : Vec n := h ▸ v0
    let s ← baseLoop A tol k.toNat 0 ⟨⟨n + 1, fun _ => .fin 0⟩, ⟨n + 1, fun _ => .fin 0⟩, some 0, vecDiv v0 (nrm v0)⟩
    .ok (s.alpha, s.beta)
  else .error .assertion

end Primate
