import Verif.Model.Random

/-!
# The samplers of `src/primate/random.py` in rounded arithmetic

The numbers of the generator are given; the operations on them are rounded.
-/

noncomputable section

namespace Primate

/-- The operations: rounding, and `np.sum(out**2, axis=0)` for one column. -/
structure IsoKernels where
  fl : ℝ → ℝ
  sumsq : (N : ℕ) → Vec N → ℝ

/-- One entry of `_rademacher_inplace` (`src/primate/random.py:22-29`); `np.floor` does not round. -/
def rademacherEntryFl (fl : ℝ → ℝ) (u : ℝ) : ℝ := fl (fl ((⌊fl (u * 2)⌋ : ℝ) * 2) - 1)

/-- One column of `_sphere_inplace` (`src/primate/random.py:36-41`). -/
def sphereColFl (K : IsoKernels) {N : ℕ} (x : Vec N) : Vec N :=
  let c := K.fl (Real.sqrt (K.sumsq N x))
  fun i => K.fl (K.fl (x i / c) * K.fl (Real.sqrt N))

/-- `_ISO_FUNCS[pdf](rng, out=W)` for a Fortran-ordered `N x b` array (`src/primate/random.py:22-44`). -/
def IsoDist.fillFl (K : IsoKernels) (dist : IsoDist) (N b : ℕ) (rng : Rng) (pos : ℕ) : Fin b → Vec N :=
  match dist with
  | .rademacher => fun j i => rademacherEntryFl K.fl (rawCols N b rng.unif pos j i)
  | .normal => rawCols N b rng.norm pos
  | .sphere => fun j => sphereColFl K (rawCols N b rng.norm pos j)

/-- `isotropic(pdf=name, seed=rng)` (`src/primate/random.py:47-83`). -/
def isotropicPdfFl (K : IsoKernels) (name : String) (rng : Rng) (N : ℕ) : Py (Pdf N) :=
  match ISO_DISTRIBUTIONS.lookup name with
  | none => .error .assertion
  | some dist => .ok fun history b => dist.fillFl K N b rng (history.sum * N)

end Primate
