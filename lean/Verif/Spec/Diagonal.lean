import Verif.Model.Random
import Mathlib.Data.Matrix.Mul

/-! # Diagonal estimates (independent of the loop) -/

noncomputable section

namespace Primate.Spec

variable {N : ℕ}

/-- The vectors drawn one at a time: the `t`-th request is made after `t` requests. -/
def draw1 (pdf : Pdf N) (t : ℕ) : Vec N := pdf (List.replicate t 1) 1 0

/-- The Bekas-Kokiopoulou-Saad estimator of the diagonal from the vectors `v 0 .. v (k-1)`. -/
def bks (A : Vec N → Vec N) (v : ℕ → Vec N) (k : ℕ) (i : Fin N) : ℝ :=
  (∑ t ∈ Finset.range k, A (v t) i * v t i) / ∑ t ∈ Finset.range k, v t i ^ 2

end Primate.Spec
