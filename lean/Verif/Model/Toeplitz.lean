import Verif.Model.Py
import Mathlib.Analysis.SpecialFunctions.Complex.Log

/-!
# Model of `Toeplitz` (`src/primate/operators.py:165-183`)
-/

noncomputable section

namespace Primate

/-- `np.fft.fft` of an array of length `m`. -/
def npFft (m : ℕ) (d : ℕ → ℂ) (k : ℕ) : ℂ :=
  ∑ j ∈ Finset.range m, d j * Complex.exp (-(2 * Real.pi * Complex.I * j * k / m))

/-- `np.fft.ifft` of an array of length `m`. -/
def npIfft (m : ℕ) (D : ℕ → ℂ) (j : ℕ) : ℂ :=
  (∑ k ∈ Finset.range m, D k * Complex.exp (2 * Real.pi * Complex.I * j * k / m)) / m

/-- A `Toeplitz` object: first column, first row, the vector `_d`, the real part of its Fourier transform and the work array `_z`
of length `2 len(c)`. -/
structure Toep where
  c : List ℝ
  r : List ℝ
  d : List ℝ
  dfft : ℕ → ℝ
  z : ℕ → ℝ

/-- `Toeplitz(c, r)` (`src/primate/operators.py:168-175`), one-dimensional real arguments. -/
def Toep.init (c : List ℝ) (r : Option (List ℝ)) : Toep :=
  let r := r.getD c
  let d := c ++ [0] ++ r.tail.reverse
  ⟨c, r, d, fun k => (npFft d.length (fun j => (d.getD j 0 : ℂ)) k).re, fun _ => 0⟩

/-- `_matvec(x)` (`src/primate/operators.py:178-183`): the new state and the result.  The product on line 182 raises ValueError if the
two transforms have different lengths (that of `_d` is never one unless `c` is empty, and then the transform of `_z` fails with the
same exception). -/
def Toep.matvec (T : Toep) (x : List ℝ) : Toep × Py (List ℝ) :=
  if x.length ≠ T.c.length then (T, .error .assertion)
  else
    let n := T.c.length
    let z := fun i => if i < n then x.getD i 0 else T.z i
    let T' := { T with z := z }
    if T.d.length ≠ 2 * n then (T', .error .value)
    else
      let xfft := npFft (2 * n) fun j => (z j : ℂ)
      (T', .ok ((List.range n).map fun j => (npIfft (2 * n) (fun k => (T.dfft k : ℂ) * xfft k) j).re))

/-- The object after a sequence of calls, failing or not. -/
def Toep.after (T : Toep) (xs : List (List ℝ)) : Toep := xs.foldl (fun T x => (T.matvec x).1) T

end Primate
