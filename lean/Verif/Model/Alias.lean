import Verif.Model.Estimators

/-!
# The arrays returned by the estimators, with memory

The models in `Model/Stats.lean` and `Model/Estimators.lean` return values.  Here the array `mu` of an accumulator lives at an address,
`self.mu += ...` writes to that address, and `mean()` returns a Python float or a reference to the array.
-/

noncomputable section

namespace Primate

/-- Memory: the contents of the array of length `d` at every address. -/
abbrev MeanHeap (d : ℕ) := ℕ → NumArr (Fin d → ℝ)

/-- Instance of `Mean` or `Covariance` (`src/primate/stats.py:7-11, 47-49`): the number of observations and the address of `mu`.  The
array `S` of `Covariance` is not modelled: `covariance()` returns the new array `S / (n - ddof)` (line 63). -/
structure MeanObj where
  n : ℕ
  addr : ℕ

/-- `np.zeros(dim)` at the unused address `a` (`src/primate/stats.py:11`). -/
def MeanObj.init (d : ℕ) (a : ℕ) (h : MeanHeap d) : MeanObj × MeanHeap d := (⟨0, a⟩, Function.update h a (.val 0))

/-- What `mean()` returns: a float (a value), or the array at an address. -/
inductive MeanRet (d : ℕ)
  | float (x : NumArr (Fin d → ℝ))
  | ref (a : ℕ)

/-- The value a caller sees in a returned object when the memory is `h`. -/
def MeanRet.value {d : ℕ} (h : MeanHeap d) : MeanRet d → NumArr (Fin d → ℝ)
  | .float x => x
  | .ref a => h a

/-- `Mean.__call__`, `Mean.mean` (`src/primate/stats.py:13-21`), and `MeanEstimator.estimate` (`src/primate/estimators.py:118-124,
143-145`): `np.nan` before the first observation, `mu.item()` for `dim == 1`, and the array `mu` itself otherwise (`np.atleast_1d` and
`np.ravel` of a contiguous 1-d array do not copy). -/
def MeanObj.mean {d : ℕ} (o : MeanObj) (h : MeanHeap d) : MeanRet d :=
  if o.n = 0 then .float .nan else if d = 1 then .float (h o.addr) else .ref o.addr

/-- `self.mu += (len(X) / new_n) * delta_mean` with the preceding lines (`src/primate/stats.py:33-38, 76-81`), in place. -/
def MeanObj.update {d : ℕ} (o : MeanObj) (h : MeanHeap d) (X : List (Fin d → ℝ)) : Py (MeanObj × MeanHeap d) :=
  let new_n := o.n + X.length
  if new_n = 0 then .error .zeroDivision
  else
    let mu' : NumArr (Fin d → ℝ) := if X.length = 0 then .nan else
      match h o.addr with
      | .val mu => .val fun i => mu i + ((X.length : ℝ) / (new_n : ℝ)) * (colMean X i - mu i)
      | .inf => .inf
      | .nan => .nan
    .ok (⟨new_n, o.addr⟩, Function.update h o.addr mu')

/-- A history of updates. -/
def MeanObj.updates {d : ℕ} (o : MeanObj) (h : MeanHeap d) (Xs : List (List (Fin d → ℝ))) : Py (MeanObj × MeanHeap d) :=
  Xs.foldlM (fun s X => s.1.update s.2 X) (o, h)

end Primate
