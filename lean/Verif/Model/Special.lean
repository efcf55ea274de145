import Verif.Model.Py
import Mathlib.Analysis.SpecialFunctions.Log.Basic
import Mathlib.Analysis.SpecialFunctions.Sqrt
import Mathlib.Analysis.SpecialFunctions.Exp

/-!
# Model of `src/primate/special.py`

Functions act on finite numbers, entry by entry.
-/

noncomputable section

namespace Primate

/-- The coefficients `J` (`src/primate/special.py:20`): `[1]` followed by the cumulative products of `(2 j - 1) / (2 j)`. -/
def softJ : ℕ → ℝ
  | 0 => 1
  | k + 1 => softJ k * ((2 * ((k : ℝ) + 1) - 1) / (2 * ((k : ℝ) + 1)))

/-- `np.clip(x, lo, hi)` for finite numbers. -/
def npClipR (x lo hi : ℝ) : ℝ := min (max x lo) hi

/-- `softsign(x, q)` for an integer `q` (`src/primate/special.py:10-28`).  For `q < 0` the range `I` is empty and the sum is zero. -/
def softsign (q : ℤ) (x : ℝ) : ℝ :=
  let x := npClipR x (-1) 1
  ∑ k ∈ Finset.range (q + 1).toNat, x * (1 - x ^ 2) ^ k * softJ k

/-- `smoothstep(x, a, b, deg)` (`src/primate/special.py:31-54`); the degree is checked and then not used.  `deg % 2` is
Python's remainder. -/
def smoothstep (a b : ℝ) (deg : ℤ) : Py (ℝ → ℝ) :=
  if deg % 2 ≠ 1 then .error .assertion
  else
    let d := if a ≠ b then b - a else 1
    .ok fun x =>
      let y := npClipR ((x - a) / d) 0 1
      3 * y ^ 2 - 2 * y ^ 3

/-- `exp(x, t)` (`src/primate/special.py:63-67`). -/
def expFn (t x : ℝ) : ℝ := Real.exp (t * x)

/-- `step(x, c, nonnegative)` (`src/primate/special.py:70-75`). -/
def stepFn (c : ℝ) (nonnegative : Bool) (x : ℝ) : ℝ :=
  let x := if nonnegative then |x| else x
  if x < c then 0 else 1

/-- `_BUILTIN_MATRIX_FUNCTIONS` (`src/primate/special.py:7`). -/
def BUILTIN_MATRIX_FUNCTIONS : List String :=
  ["identity", "abs", "sqrt", "log", "inv", "exp", "smoothstep", "numrank"]

/-- The argument `fun`. -/
inductive FunArg
  | none
  | str (s : String)
  | callable (f : ℝ → Fl)
  | other

/-- `np.finfo(np.float64).eps`. -/
def eps64 : ℝ := 2 ^ (-52 : ℤ)

/-- `param_callable(fun, **kwargs)` (`src/primate/special.py:79-107`): the function it resolves to, on finite numbers.  Keyword
values are finite numbers.  The branch `softsign` (lines 100-102) is part of the model although the assertion excludes it; its
`q` is taken to be whole. -/
def paramCallable (fun_ : FunArg) (kw : String → Option ℝ) : Py (ℝ → Fl) :=
  match fun_ with
  | .none => .ok Fl.fin
  | .callable f => .ok f
  | .other => .error .value
  | .str s =>
    if s ∉ BUILTIN_MATRIX_FUNCTIONS then .error .assertion
    else if s = "identity" then .ok Fl.fin
    else if s = "abs" then .ok fun x => .fin |x|
    else if s = "sqrt" then .ok fun x => if x < 0 then .nan else .fin (Real.sqrt x)
    else if s = "log" then .ok fun x => .fin (Real.log (max x eps64))
    else if s = "inv" then .ok fun x => Fl.divFin 1 x
    else if s = "exp" then .ok fun x => .fin (expFn ((kw "t").getD 1) x)
    else if s = "smoothstep" then
      match smoothstep ((kw "a").getD 0) ((kw "b").getD 1) 3 with
      | .error er => .error er
      | .ok f => .ok fun x => .fin (f x)
    else if s = "softsign" then .ok fun x => .fin (softsign ⌊(kw "q").getD 10⌋ x)
    else if s = "numrank" then .ok fun x => .fin (stepFn ((kw "threshold").getD 0.000001) true x)
    else .error .value

end Primate
