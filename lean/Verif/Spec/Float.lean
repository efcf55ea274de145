import Mathlib.Data.Real.Basic
import Mathlib.Algebra.Order.Field.Power
import Mathlib.Algebra.BigOperators.Group.List.Basic
import Mathlib.Algebra.Order.Archimedean.Real.Basic

/-!
# Binary floating point formats and rounding

A format with `p` significant bits, least exponent `emin` and greatest exponent `emax`; subnormal numbers are included.  binary64 is
`⟨53, -1074, 971⟩`, binary32 is `⟨24, -149, 104⟩`.  A rounding is specified only for reals that are not larger than the largest finite number, so that
nothing is assumed about the result of an overflow.
-/

namespace Primate.Spec

/-- Binary floating point format. -/
structure Fmt where
  p : ℕ
  emin : ℤ
  emax : ℤ

/-- IEEE 754 binary64, NumPy's `float64`. -/
def binary64 : Fmt := ⟨53, -1074, 971⟩

/-- IEEE 754 binary32, NumPy's `float32`. -/
def binary32 : Fmt := ⟨24, -149, 104⟩

/-- The finite numbers of the format. -/
def Fmt.Mem (φ : Fmt) (x : ℝ) : Prop :=
  ∃ m e : ℤ, |m| < 2 ^ φ.p ∧ φ.emin ≤ e ∧ e ≤ φ.emax ∧ x = m * (2 : ℝ) ^ e

/-- Largest finite number. -/
noncomputable def Fmt.top (φ : Fmt) : ℝ := (2 ^ φ.p - 1) * (2 : ℝ) ^ φ.emax

/-- Unit roundoff. -/
noncomputable def Fmt.u (φ : Fmt) : ℝ := (2 : ℝ) ^ (-(φ.p : ℤ))

/-- Half the least positive number. -/
noncomputable def Fmt.eta (φ : Fmt) : ℝ := (2 : ℝ) ^ (φ.emin - 1)

/-- Rounding to a nearest number of the format; ties may be broken in any way. -/
def Fmt.Nearest (φ : Fmt) (fl : ℝ → ℝ) : Prop :=
  ∀ x, |x| ≤ φ.top → φ.Mem (fl x) ∧ ∀ y, φ.Mem y → |x - fl x| ≤ |x - y|

/-- `s` is the result of adding the numbers of the list `xs` in some order, rounding every partial sum. -/
inductive SumOrder (fl : ℝ → ℝ) : List ℝ → ℝ → Prop
  | single (x : ℝ) : SumOrder fl [x] x
  | node {xs ys : List ℝ} {s t : ℝ} : SumOrder fl xs s → SumOrder fl ys t → SumOrder fl (xs ++ ys) (fl (s + t))
  | perm {xs ys : List ℝ} {s : ℝ} : xs.Perm ys → SumOrder fl xs s → SumOrder fl ys s

/-- `s` is the result of evaluating the inner product of the listed pairs in some order, rounding every partial sum; products are
rounded or fused into an addition. -/
inductive DotOrder (fl : ℝ → ℝ) : List (ℝ × ℝ) → ℝ → Prop
  | single (a b : ℝ) : DotOrder fl [(a, b)] (fl (a * b))
  | node {xs ys : List (ℝ × ℝ)} {s t : ℝ} : DotOrder fl xs s → DotOrder fl ys t → DotOrder fl (xs ++ ys) (fl (s + t))
  | fma {a b : ℝ} {ys : List (ℝ × ℝ)} {t : ℝ} : DotOrder fl ys t → DotOrder fl ((a, b) :: ys) (fl (a * b + t))
  | perm {xs ys : List (ℝ × ℝ)} {s : ℝ} : xs.Perm ys → DotOrder fl xs s → DotOrder fl ys s

end Primate.Spec
