import Verif.Model.MatrixFunction
import Verif.Model.HutchSpecial

/-!
# Model of `MatrixFunction` for functions with infinite and NaN values

`MF` (`Model/MatrixFunction.lean`) evaluates a real function.  Here the function returns NumPy scalars `Fl`, as `param_callable` does (`Model/Special.lean`); everything before the
evaluation is as there, and the field `f` is not used.
-/

noncomputable section

namespace Primate

open Matrix

/-- `np.sum(self._fun(self._nodes) * self._weights, axis=-1) * x_norm_sq` (`src/primate/operators.py:150`) with `m` nodes. -/
def quadValueS (g : ℝ → Fl) (m : ℕ) (nodes weights : ℕ → ℝ) (x_norm_sq : ℝ) : Fl :=
  (Fl.sum ((List.range m).map fun i => (g (nodes i)).mul (.fin (weights i)))).mul (.fin x_norm_sq)

/-- One column of `quad` (`src/primate/operators.py:146-150`), as `MF.quadCol`. -/
def MF.quadColS {n : ℕ} (K : TriKernels) (eps : ℝ) (fuel : ℕ) (g : ℝ → Fl) (M : MF n) (x : Vec n) :
    Option (Py (MF n × Fl)) :=
  let x_norm_sq := nrm x ^ 2
  match lanczosNative M.A eps x M.deg M.rtol M.orth M.alpha M.beta M.Q with
  | .error er => some (.error er)
  | .ok s =>
    let M' : MF n := { M with alpha := s.alpha, beta := s.beta, Q := s.Q }
    match quadrature K s.alpha s.beta (some M.deg) "gw" (some M.deg) (some M.deg) "auto" 30 fuel with
    | none => none
    | some (.error er) => some (.error er)
    | some (.ok ⟨_, none⟩) => some (.ok (M', .nan))
    | some (.ok ⟨_, some (theta, tau)⟩) =>
      some (.ok ({ M' with nodes := theta, weights := tau }, quadValueS g M.deg theta tau x_norm_sq))

/-- `_matvec` (`src/primate/operators.py:102-124`), as `MF.matvec`; line 124 multiplies from the left, so the real matrix `x_norm * Q @ Y` meets the function values last. -/
def MF.matvecS {n : ℕ} (K : TriKernels) (eps : ℝ) (fuel : ℕ) (g : ℝ → Fl) (M : MF n) (x : Vec n) :
    Option (Py (MF n × (Fin n → Fl))) :=
  match lanczosNative M.A eps x M.deg M.rtol M.orth M.alpha M.beta M.zeroQ with
  | .error er => some (.error er)
  | .ok s =>
    let M' : MF n := { M with alpha := s.alpha, beta := s.beta, Q := s.Q }
    let d : Buf ℝ := ⟨M.deg, s.alpha.get⟩
    let e : Buf ℝ := ⟨M.deg - 1, fun i => s.beta.get (i + 1)⟩
    match eighTridiag K d e "auto" 30 fuel with
    | none => none
    | some (.error er) => some (.error er)
    | some (.ok none) => some (.ok (M', fun _ => .nan))
    | some (.ok (some (rw, Y))) =>
      some (.ok (M', fun i => Fl.sum (List.ofFn fun a : Fin d.len =>
        Fl.scale (∑ l : Fin d.len, nrm x * s.Q.get l i * Y l a) ((g (rw a)).mul (.fin (Y ⟨0, a.pos⟩ a))))))

end Primate
