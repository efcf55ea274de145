import Verif.Model.MatrixFunction

/-!
# Model of `matrix_function`, `MatrixFunction._adjoint` and the signature of `rayleigh_ritz`

`src/primate/operators.py` and `src/primate/lanczos.py`.
-/

noncomputable section

namespace Primate

open Matrix

/-- What `matrix_function` returns: an operator, or an array with `n` rows and one column (`none`: NaN). -/
inductive MatFunOut (n : ℕ)
  | op (M : MF n)
  | arr (y : Option (Matrix (Fin n) (Fin 1) ℝ))

/-- `matrix_function(A, fun, v, deg)` (`src/primate/operators.py:155-161`): an object with the default `orth = 3`, and `_matvec` (not
`matvec`, which would restore the shape of `v`: the result has one column, line 124).  `fun = None` is the identity (line 64). -/
def matrixFunction {n : ℕ} (K : TriKernels) (eps : ℝ) (fuel : ℕ) (A : Vec n → Vec n) (f : Option (ℝ → ℝ)) (v : Option (Vec n))
    (deg : ℤ := 20) : Option (Py (MatFunOut n)) :=
  match MF.init A (f.getD fun x => x) deg 3 with
  | .error er => some (.error er)
  | .ok M =>
    match v with
    | none => some (.ok (.op M))
    | some v =>
      match M.matvec K eps fuel v with
      | none => none
      | some (.error er) => some (.error er)
      | some (.ok (_, y)) => some (.ok (.arr (y.map fun y => Matrix.of fun i _ => y i)))

/-- `M._adjoint()` (`src/primate/operators.py:99-100`): the object itself. -/
def MF.adjoint {n : ℕ} (M : MF n) : MF n := M

/-- `rayleigh_ritz(A, deg, return_eigenvectors, method, **kwargs)` (`src/primate/lanczos.py:124-164`) with its argument `method`, which is
not passed on (lines 161, 164). -/
def rayleighRitzCall {n : ℕ} (K : TriKernels) (eps : ℝ) (fuel : ℕ) (a : LanczosArgs n) (deg : Option ℤ) (returnEigenvectors : Bool)
    (_method : String) : Option (Py (Option (RitzOut n))) :=
  rayleighRitz K eps fuel a deg returnEigenvectors

end Primate
