import Verif.Model.Py
import Mathlib.Analysis.SpecialFunctions.Sqrt
import Mathlib.Algebra.BigOperators.Fin
import Mathlib.Algebra.Order.Floor.Ring

/-!
# Model of `src/primate/random.py` (isotropic vectors)

A generator is the stream of numbers it is going to produce; nothing is assumed
about the stream.
-/

noncomputable section

namespace Primate

/-- Vectors with `N` real entries. -/
abbrev Vec (N : ℕ) := Fin N → ℝ

/-- The future output of an `np.random.Generator`: the numbers `rng.random` and
`rng.standard_normal` are going to return.  Each sampler uses one of the two. -/
structure Rng where
  unif : ℕ → ℝ
  norm : ℕ → ℝ

/-- The values of `_ISO_DISTRIBUTIONS` (`src/primate/random.py:12-18`). -/
inductive IsoDist
  | rademacher
  | normal
  | sphere
  deriving DecidableEq

/-- `_ISO_DISTRIBUTIONS` (`src/primate/random.py:12-18`). -/
def ISO_DISTRIBUTIONS : List (String × IsoDist) :=
  [("rademacher", .rademacher), ("normal", .normal), ("sphere", .sphere),
   ("signs", .rademacher), ("gaussian", .normal)]

/-- One entry of `_rademacher_inplace` (`src/primate/random.py:22-29`):
`2 * floor(2 * u) - 1`. -/
def rademacherEntry (u : ℝ) : ℝ := 2 * (⌊u * 2⌋ : ℝ) - 1

/-- One column of `_sphere_inplace` (`src/primate/random.py:36-41`).  Over the
reals a zero column stays zero; NumPy produces NaN (theorems exclude it). -/
def sphereCol {N : ℕ} (x : Vec N) : Vec N :=
  let c := Real.sqrt (∑ i, x i ^ 2)
  fun i => x i / c * Real.sqrt N

/-- The `b` columns of length `N` read from a stream at position `pos`:
`rng.random(out=W)` fills the Fortran-ordered `W` column by column
(`src/primate/random.py:23, 33, 37, 76`). -/
def rawCols (N b : ℕ) (raw : ℕ → ℝ) (pos : ℕ) : Fin b → Vec N :=
  fun j i => raw (pos + j * N + i)

/-- `_ISO_FUNCS[pdf](rng, out=W)` for a Fortran-ordered `N x b` array
(`src/primate/random.py:22-44`). -/
def IsoDist.fill (dist : IsoDist) (N b : ℕ) (rng : Rng) (pos : ℕ) : Fin b → Vec N :=
  match dist with
  | .rademacher => fun j i => rademacherEntry (rawCols N b rng.unif pos j i)
  | .normal => rawCols N b rng.norm pos
  | .sphere => fun j => sphereCol (rawCols N b rng.norm pos j)

/-- A sampler `pdf(size=(N, b))`: it may keep state, so its answer (the `b`
columns) may depend on the numbers of columns requested before.  Simplification:
the sampler returns an array of the requested shape with finite entries. -/
abbrev Pdf (N : ℕ) := (history : List ℕ) → (b : ℕ) → Fin b → Vec N

/-- `isotropic(pdf=name, seed=rng)` used as a sampler of `N x b` arrays
(`src/primate/random.py:64-80`): unknown names raise AssertionError; each
request continues in the stream where the previous one ended. -/
def isotropicPdf (name : String) (rng : Rng) (N : ℕ) : Py (Pdf N) :=
  match ISO_DISTRIBUTIONS.lookup name with
  | none => .error .assertion
  | some dist => .ok fun history b => dist.fill N b rng (history.sum * N)

end Primate
