import Mathlib.Data.Real.Basic
import Mathlib.Data.Matrix.Basic

/-!
# Python / NumPy values used by the model

Exceptions are values (`Py`), finite floats are exact numbers, and the special
floats on which the code's control flow depends are explicit (`Fl`, `NumArr`).
-/

namespace Primate

/-- The exception classes raised by the modelled code. -/
inductive PyErr
  | assertion      -- AssertionError
  | attribute      -- AttributeError
  | type           -- TypeError
  | value          -- ValueError
  | key            -- KeyError
  | index          -- IndexError
  | zeroDivision   -- ZeroDivisionError
  | linAlg         -- numpy.linalg.LinAlgError
  | name           -- NameError, UnboundLocalError
  deriving DecidableEq, Repr

open Classical in
/-- The truth value of a comparison. -/
noncomputable def truth (p : Prop) : Bool := decide p

@[simp] theorem truth_eq_true (p : Prop) : truth p = true ↔ p := by simp [truth]

@[simp] theorem truth_eq_false (p : Prop) : truth p = false ↔ ¬p := by simp [truth]

/-- A Python computation: a value or an exception. -/
abbrev Py (α : Type _) := Except PyErr α

/-- A 2-d NumPy array given by its width (`shape[1]`) and its rows.
Simplification: entries are exact finite numbers, dtypes are not modelled. -/
structure Batch (K : Type) where
  width : ℕ
  rows : List (Fin width → K)

/-- What the estimators accept as a batch of observations
(`src/primate/stats.py:29-30`, `src/primate/estimators.py:126-130`): a scalar,
a 1-d sequence or a 2-d array.  Arrays of higher rank are not modelled. -/
inductive ArrayLike (K : Type)
  | scalar (x : K)
  | vec (xs : List K)
  | mat (b : Batch K)

/-- `X = np.atleast_1d(X); X = X[:, None] if X.ndim == 1 else X`
(`src/primate/stats.py:29-30, 72-73`, `src/primate/estimators.py:129-130`). -/
def ArrayLike.promote {K : Type} : ArrayLike K → Batch K
  | .scalar x => ⟨1, [fun _ => x]⟩
  | .vec xs => ⟨1, xs.map fun x _ => x⟩
  | .mat b => b

/-- A NumPy scalar: an exact real, `+inf`, `-inf` or `nan`. -/
inductive Fl
  | fin (x : ℝ)
  | pinf
  | ninf
  | nan

namespace Fl

/-- IEEE `<`: false as soon as an operand is `nan`. -/
def lt : Fl → Fl → Prop
  | fin x, fin y => x < y
  | fin _, pinf => True
  | ninf, fin _ => True
  | ninf, pinf => True
  | _, _ => False

/-- IEEE `<=`: false as soon as an operand is `nan`. -/
def le : Fl → Fl → Prop
  | fin x, fin y => x ≤ y
  | fin _, pinf => True
  | pinf, pinf => True
  | ninf, fin _ => True
  | ninf, ninf => True
  | ninf, pinf => True
  | _, _ => False

/-- IEEE division of two finite numbers by NumPy: `0/0 = nan`, `x/0 = ±inf`
(the sign of a zero divisor is not modelled: it is taken positive). -/
noncomputable def divFin (x y : ℝ) : Fl :=
  if y = 0 then (if x = 0 then nan else if 0 < x then pinf else ninf) else fin (x / y)

/-- `abs` of a NumPy scalar. -/
noncomputable def abs : Fl → Fl
  | fin x => fin |x|
  | pinf => pinf
  | ninf => pinf
  | nan => nan

/-- Multiplication of a finite scalar with a NumPy scalar that is finite,
`+inf` or `nan` (the only cases that occur in the modelled code). -/
noncomputable def scale (c : ℝ) : Fl → Fl
  | fin x => fin (c * x)
  | pinf => if c = 0 then nan else if 0 < c then pinf else ninf
  | ninf => if c = 0 then nan else if 0 < c then ninf else pinf
  | nan => nan

end Fl

/-- An array whose entries are all finite, or all `+inf`, or all `nan`.  These
are the only three shapes of non-finite data that occur in the accumulators. -/
inductive NumArr (α : Type)
  | val (a : α)
  | inf
  | nan

end Primate
