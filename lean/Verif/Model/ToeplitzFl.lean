import Verif.Model.Toeplitz

/-!
# Model of `Toeplitz` with rounding (`src/primate/operators.py:165-183`)

The algorithm of `np.fft` is not specified, so the results of the transforms and of the product of a real with a complex number are parameters.  Simplification: overflow and
underflow are not represented; the element type is `float64`, so that `astype` does not round.
-/

noncomputable section

namespace Primate

/-- What NumPy computes for `np.fft.fft` and `np.fft.ifft` of an array of length `m`, and for the product of a real with a complex number. -/
structure FftKernels where
  fft : (m : ℕ) → (ℕ → ℂ) → ℕ → ℂ
  ifft : (m : ℕ) → (ℕ → ℂ) → ℕ → ℂ
  mul : ℝ → ℂ → ℂ

/-- `Toeplitz(c, r)` (`src/primate/operators.py:168-175`). -/
def Toep.initFl (K : FftKernels) (c : List ℝ) (r : Option (List ℝ)) : Toep :=
  let r := r.getD c
  let d := c ++ [0] ++ r.tail.reverse
  ⟨c, r, d, fun k => (K.fft d.length (fun j => (d.getD j 0 : ℂ)) k).re, fun _ => 0⟩

/-- `_matvec(x)` (`src/primate/operators.py:178-183`), as `Toep.matvec` in `Model/Toeplitz.lean`. -/
def Toep.matvecFl (K : FftKernels) (T : Toep) (x : List ℝ) : Toep × Py (List ℝ) :=
  if x.length ≠ T.c.length then (T, .error .assertion)
  else
    let n := T.c.length
    let z := fun i => if i < n then x.getD i 0 else T.z i
    let T' := { T with z := z }
    if T.d.length ≠ 2 * n then (T', .error .value)
    else
      let xfft := K.fft (2 * n) fun j => (z j : ℂ)
      (T', .ok ((List.range n).map fun j => (K.ifft (2 * n) (fun k => K.mul (T.dfft k) (xfft k)) j).re))

/-- The object after a sequence of calls, failing or not. -/
def Toep.afterFl (K : FftKernels) (T : Toep) (xs : List (List ℝ)) : Toep := xs.foldl (fun T x => (T.matvecFl K x).1) T

end Primate
