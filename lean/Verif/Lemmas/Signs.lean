import Verif.Prelude
import Mathlib.Data.Fintype.BigOperators
import Mathlib.Data.Fintype.Pi

/-! Sums over all sign patterns. -/

namespace Primate

/-- The sign encoded by a bit. -/
def sgn (b : Bool) : ℝ := if b then 1 else -1

theorem sgn_not (b : Bool) : sgn (!b) = - sgn b := by cases b <;> simp [sgn]

theorem sgn_mul_self (b : Bool) : sgn b * sgn b = 1 := by cases b <;> simp [sgn]

variable {ι : Type} [Fintype ι] [DecidableEq ι]

def flipAt (a : ι) : (ι → Bool) ≃ (ι → Bool) where
  toFun ω := Function.update ω a (!ω a)
  invFun ω := Function.update ω a (!ω a)
  left_inv ω := by funext x; by_cases h : x = a <;> simp [h]
  right_inv ω := by funext x; by_cases h : x = a <;> simp [h]

/-- Second moments of independent signs. -/
theorem sum_signs (a b : ι) :
    ∑ ω : ι → Bool, sgn (ω a) * sgn (ω b) = if a = b then (2 : ℝ) ^ Fintype.card ι else 0 := by
  split_ifs with h
  · subst h
    simp [sgn_mul_self]
  · have h1 : ∑ ω : ι → Bool, sgn (ω a) * sgn (ω b) =
        ∑ ω : ι → Bool, sgn (flipAt a ω a) * sgn (flipAt a ω b) :=
      (Equiv.sum_comp (flipAt a) fun ω => sgn (ω a) * sgn (ω b)).symm
    have h2 : ∀ ω : ι → Bool, sgn (flipAt a ω a) * sgn (flipAt a ω b) =
        - (sgn (ω a) * sgn (ω b)) := by
      intro ω
      have : b ≠ a := fun e => h e.symm
      simp [flipAt, this, sgn_not]
    simp only [h2, Finset.sum_neg_distrib] at h1
    linarith

end Primate
