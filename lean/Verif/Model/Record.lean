import Verif.Model.Estimators

/-!
# The record of a `MeanEstimator`, with memory

`Model/Estimators.lean` copies the observations into `values`.  In the code `self.values.extend(x)` (`src/primate/estimators.py:140-141`)
iterates over an array that was obtained from the caller's array by `np.atleast_1d` and `x[:, None]` (lines 129-130), none of which
copies an `ndarray`: the elements of `values` are views of the rows of the caller's array.
-/

noncomputable section

namespace Primate

/-- Memory of the caller: row `i` of the array at address `a`.  The shapes are fixed, `len a` is the number of rows. -/
abbrev RowHeap (d : ℕ) := ℕ → ℕ → Fin d → ℝ

/-- The rows of the array at address `a`. -/
def heapRows {d : ℕ} (len : ℕ → ℕ) (h : RowHeap d) (a : ℕ) : List (Fin d → ℝ) := (List.range (len a)).map (h a)

/-- A `MeanEstimator` whose record holds views: pairs of address and row.  The field `values` of `est` is not used. -/
structure RecEst (d : ℕ) where
  est : MeanEst d
  views : Option (List (ℕ × ℕ))

/-- `MeanEstimator(dim, covariance, record)` (`src/primate/estimators.py:109-116`). -/
def RecEst.init (d : ℕ) (covariance record : Bool) : RecEst d :=
  ⟨MeanEst.init d covariance false, if record then some [] else none⟩

/-- `MeanEstimator.update` on the array at address `a` (`src/primate/estimators.py:128-141`). -/
def RecEst.update {d : ℕ} (s : RecEst d) (len : ℕ → ℕ) (h : RowHeap d) (a : ℕ) : Py (RecEst d) :=
  match s.est.update (.mat ⟨d, heapRows len h a⟩) with
  | .error e => .error e
  | .ok est => .ok ⟨est, s.views.map fun v => v ++ (List.range (len a)).map fun i => (a, i)⟩

/-- `est.values` as the caller reads it. -/
def RecEst.values {d : ℕ} (s : RecEst d) (h : RowHeap d) : Option (List (Fin d → ℝ)) :=
  s.views.map fun v => v.map fun p => h p.1 p.2

/-- What a caller does: overwrite an array of theirs, or pass one to `update`. -/
inductive RecEvent (d : ℕ)
  | write (a : ℕ) (X : ℕ → Fin d → ℝ)
  | update (a : ℕ)

/-- One step of the caller. -/
def RecEst.step {d : ℕ} (len : ℕ → ℕ) (s : RecEst d × RowHeap d) : RecEvent d → Py (RecEst d × RowHeap d)
  | .write a X => .ok (s.1, Function.update s.2 a X)
  | .update a => (s.1.update len s.2 a).map fun e => (e, s.2)

/-- A history of steps; stops at the first exception. -/
def RecEst.run {d : ℕ} (len : ℕ → ℕ) (s : RecEst d × RowHeap d) (evs : List (RecEvent d)) : Py (RecEst d × RowHeap d) :=
  evs.foldlM (RecEst.step len) s

end Primate
