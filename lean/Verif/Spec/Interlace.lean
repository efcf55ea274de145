import Mathlib.Data.Real.Basic
import Mathlib.Data.Fintype.Card
import Mathlib.Data.Fintype.Basic

/-! # Specification of interlacing (C108) -/

noncomputable section

open Classical in
/-- Number of values at most `t`. -/
def Primate.Spec.countLE {k : ℕ} (w : Fin k → ℝ) (t : ℝ) : ℕ := (Finset.univ.filter fun i => w i ≤ t).card

open Classical in
/-- Number of values below `t`. -/
def Primate.Spec.countLT {k : ℕ} (w : Fin k → ℝ) (t : ℝ) : ℕ := (Finset.univ.filter fun i => w i < t).card

/-- The `k` values interlace the `m` values (`k ≤ m`): for every threshold the longer list has at least as many values below it, and at most `m - k`
more.  For sorted lists this is `μ_i ≤ θ_i ≤ μ_{i + m - k}`. -/
def Primate.Spec.Interlace {k m : ℕ} (th : Fin k → ℝ) (mu : Fin m → ℝ) : Prop :=
  ∀ t, Spec.countLE th t ≤ Spec.countLE mu t ∧ Spec.countLE mu t ≤ Spec.countLE th t + (m - k) ∧
    Spec.countLT th t ≤ Spec.countLT mu t ∧ Spec.countLT mu t ≤ Spec.countLT th t + (m - k)
