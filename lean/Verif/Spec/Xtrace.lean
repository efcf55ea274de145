import Verif.Model.Random
import Mathlib.LinearAlgebra.Matrix.Trace
import Mathlib.Data.Matrix.Mul

/-!
# Leave-one-out trace estimates (independent of the QR update formulas)
-/

noncomputable section

namespace Primate.Spec

open Matrix

variable {n m : ℕ}

/-- `P` is the orthogonal projector on the span of the columns `j` of `Y` with `keep j`. -/
structure IsProjOn (P : Matrix (Fin n) (Fin n) ℝ) (Y : Matrix (Fin n) (Fin m) ℝ)
    (keep : Fin m → Prop) : Prop where
  symm : Pᵀ = P
  idem : P * P = P
  fixes : ∀ j, keep j → ∀ i, (P * Y) i j = Y i j
  range : ∃ C : Matrix (Fin m) (Fin n) ℝ, P = Y * C ∧ ∀ j, ¬ keep j → ∀ i, C j i = 0

/-- The Hutch++ estimate with projector `P` and one residual vector `w`. -/
def looValue (A P : Matrix (Fin n) (Fin n) ℝ) (w : Vec n) (scale : ℝ) : ℝ :=
  (P * A * P).trace + scale * (((1 - P) *ᵥ w) ⬝ᵥ (A *ᵥ ((1 - P) *ᵥ w)))

/-- `B` with the column `b` appended on the right and zeros below. -/
def border (B : Matrix (Fin n) (Fin n) ℝ) (b : Fin (n + 1) → ℝ) :
    Matrix (Fin (n + 1)) (Fin (n + 1)) ℝ :=
  Matrix.of fun i j => Fin.lastCases (b i) (fun j => Fin.lastCases 0 (fun i => B i j) i) j

/-- No vector of the list is a linear combination of the earlier ones, i.e. the list is linearly
independent. -/
def NoDependent (l : List (Vec n)) : Prop :=
  ∀ pre u post, l = pre ++ u :: post → ¬ ∃ c : Fin pre.length → ℝ, u = ∑ j, c j • pre.get j

/-- Number of vectors drawn by the `t`-th pass. -/
def xsize (n batch t : ℕ) : ℕ := min (n - min n (t * batch)) batch

/-- Batch sizes requested by the first `t` passes. -/
def xhist (n batch t : ℕ) : List ℕ := (List.range t).map (xsize n batch)

/-- Vectors drawn by the first `t` passes. -/
def xdrawn (pdf : Pdf n) (batch t : ℕ) : List (Vec n) :=
  (List.range t).flatMap fun i => List.ofFn (pdf (xhist n batch i) (xsize n batch i))

end Primate.Spec
