import Verif.Model.Special
import Verif.Model.CritFl

/-!
# Model of `src/primate/special.py` with rounding

Every arithmetic operation is rounded by `fl`; comparisons, `np.clip`, `np.abs` and `np.maximum` are exact.  The results of the functions of the C library and
the order of the summation are parameters.
-/

noncomputable section

namespace Primate

/-- What NumPy takes from the C library, and its summation. -/
structure SpecialKernels where
  /-- `x ** k` for a whole exponent other than two -/
  pow : ℕ → ℝ → ℝ
  /-- `np.sum` of a row -/
  sum : List ℝ → ℝ
  exp : ℝ → ℝ
  log : ℝ → ℝ

/-- The coefficients `J` (`src/primate/special.py:20`), cf. `softJ`. -/
def softJFl (fl : ℝ → ℝ) : ℕ → ℝ
  | 0 => 1
  | k + 1 => fl (softJFl fl k * fl ((2 * ((k : ℝ) + 1) - 1) / (2 * ((k : ℝ) + 1))))

/-- The summand with number `k` in `softsign` (`src/primate/special.py:25`), for an `x` in `[-1, 1]`; `x**2` is a product. -/
def softTermFl (fl : ℝ → ℝ) (K : SpecialKernels) (x : ℝ) (k : ℕ) : ℝ :=
  fl (fl (x * K.pow k (fl (1 - fl (x * x)))) * softJFl fl k)

/-- `softsign(x, q)` (`src/primate/special.py:10-28`), cf. `softsign`; an empty sum is zero. -/
def softsignFl (fl : ℝ → ℝ) (K : SpecialKernels) (q : ℤ) (x : ℝ) : ℝ :=
  let x := npClipR x (-1) 1
  if (q + 1).toNat = 0 then 0 else K.sum ((List.range (q + 1).toNat).map (softTermFl fl K x))

/-- `smoothstep(x, a, b, deg)` (`src/primate/special.py:31-54`), cf. `smoothstep`. -/
def smoothstepFl (fl : ℝ → ℝ) (K : SpecialKernels) (a b : ℝ) (deg : ℤ) : Py (ℝ → ℝ) :=
  if deg % 2 ≠ 1 then .error .assertion
  else
    let d := if a ≠ b then fl (b - a) else 1
    .ok fun x =>
      let y := npClipR (fl (fl (x - a) / d)) 0 1
      fl (fl (3 * fl (y * y)) - fl (2 * K.pow 3 y))

/-- `exp(x, t)` (`src/primate/special.py:63-67`). -/
def expFl (fl : ℝ → ℝ) (K : SpecialKernels) (t x : ℝ) : ℝ := K.exp (fl (t * x))

/-- `param_callable(fun, **kwargs)` (`src/primate/special.py:79-107`), cf. `paramCallable`: `top` is the largest number. -/
def paramCallableFl (top : ℝ) (fl : ℝ → ℝ) (K : SpecialKernels) (fun_ : FunArg) (kw : String → Option ℝ) : Py (ℝ → Fl) :=
  match fun_ with
  | .none => .ok Fl.fin
  | .callable f => .ok f
  | .other => .error .value
  | .str s =>
    if s ∉ BUILTIN_MATRIX_FUNCTIONS then .error .assertion
    else if s = "identity" then .ok Fl.fin
    else if s = "abs" then .ok fun x => .fin |x|
    else if s = "sqrt" then .ok fun x => if x < 0 then .nan else .fin (fl (Real.sqrt x))
    else if s = "log" then .ok fun x => .fin (K.log (max x eps64))
    else if s = "inv" then .ok fun x => flDiv top fl 1 x
    else if s = "exp" then .ok fun x => .fin (expFl fl K ((kw "t").getD 1) x)
    else if s = "smoothstep" then
      match smoothstepFl fl K ((kw "a").getD 0) ((kw "b").getD 1) 3 with
      | .error er => .error er
      | .ok f => .ok fun x => .fin (f x)
    else if s = "softsign" then .ok fun x => .fin (softsignFl fl K ⌊(kw "q").getD 10⌋ x)
    else if s = "numrank" then .ok fun x => .fin (stepFn ((kw "threshold").getD 0.000001) true x)
    else .error .value

end Primate
