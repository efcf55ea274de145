import Verif.Spec.Prob
import Mathlib.Probability.ProductMeasure
import Mathlib.Probability.Independence.InfinitePi
import Mathlib.Probability.Independence.Integration
import Mathlib.Probability.Moments.Variance

/-!
# Moments of independent standard normal numbers
-/

noncomputable section

namespace Primate

open MeasureTheory ProbabilityTheory

/-- The law of a stream of independent standard normal numbers. -/
def gaussStream : Measure (ℕ → ℝ) := Measure.infinitePi fun _ => gaussianReal 0 1

instance : IsProbabilityMeasure gaussStream := by unfold gaussStream; infer_instance

theorem gauss_eval (q : ℕ) : gaussStream.map (fun x => x q) = gaussianReal 0 1 := Measure.infinitePi_map_eval _ q

/-- Changing the sign of one number does not change the law. -/
theorem gauss_flip (q : ℕ) : MeasurePreserving (fun (x : ℕ → ℝ) i => if i = q then -x i else x i) gaussStream gaussStream := by
  have hm : ∀ i, Measurable fun x : ℝ => if i = q then -x else x := fun i => by split_ifs <;> fun_prop
  refine ⟨measurable_pi_lambda _ fun i => (hm i).comp (measurable_pi_apply i), ?_⟩
  unfold gaussStream
  rw [Measure.infinitePi_map_pi (f := fun i (x : ℝ) => if i = q then -x else x) _ hm]
  congr 1
  funext i
  by_cases h : i = q
  · simp only [if_pos h]
    rw [gaussianReal_map_neg, neg_zero]
  · simp only [if_neg h]
    exact Measure.map_id

/-- A function that changes its sign with the `q`-th number has mean zero. -/
theorem gauss_odd (q : ℕ) (F : (ℕ → ℝ) → ℝ) (hF : Measurable F) (h : ∀ x : ℕ → ℝ, F (fun i => if i = q then -x i else x i) = -F x) :
    ∫ x, F x ∂gaussStream = 0 := by
  have h1 := (gauss_flip q).map_eq
  have h2 : ∫ x, F x ∂gaussStream = ∫ x, F (fun i => if i = q then -x i else x i) ∂gaussStream := by
    conv_lhs => rw [← h1]
    exact integral_map (gauss_flip q).measurable.aemeasurable hF.aestronglyMeasurable
  simp only [h, integral_neg] at h2
  linarith

/-- Exchanging two numbers does not change the law. -/
theorem gauss_swap (p q : ℕ) : MeasurePreserving (fun (x : ℕ → ℝ) i => x (Equiv.swap p q i)) gaussStream gaussStream := by
  refine ⟨measurable_pi_lambda _ fun i => measurable_pi_apply _, ?_⟩
  have h := Measure.infinitePi_map_piCongrLeft (fun _ : ℕ => gaussianReal 0 1) (Equiv.swap p q)
  have hf : (fun (x : ℕ → ℝ) i => x (Equiv.swap p q i)) = MeasurableEquiv.piCongrLeft (fun _ => ℝ) (Equiv.swap p q) := by
    funext x i
    have h1 := Equiv.piCongrLeft_apply_apply (fun _ : ℕ => ℝ) (Equiv.swap p q) x (Equiv.swap p q i)
    rw [Equiv.swap_apply_self] at h1
    exact h1.symm
  unfold gaussStream
  rw [hf]
  exact h

theorem gauss_memLp (q : ℕ) : MemLp (fun x : ℕ → ℝ => x q) 4 gaussStream := by
  have h := memLp_id_gaussianReal (μ := 0) (v := 1) 4
  rw [← gauss_eval q] at h
  exact h.comp_measurePreserving ⟨measurable_pi_apply q, rfl⟩

theorem gauss_memLp_mul (a b : ℕ) : MemLp (fun x : ℕ → ℝ => x a * x b) 2 gaussStream := by
  have : ENNReal.HolderTriple 4 4 2 := ⟨by
    rw [← two_mul, show (4 : ENNReal) = 2 * 2 by norm_num, ENNReal.mul_inv (by simp) (by simp), ← mul_assoc, ENNReal.mul_inv_cancel (by simp) (by simp), one_mul]⟩
  exact (gauss_memLp b).mul (gauss_memLp a)

theorem gauss_integrable4 (a b c d : ℕ) : Integrable (fun x : ℕ → ℝ => x a * x b * (x c * x d)) gaussStream :=
  (gauss_memLp_mul a b).integrable_mul (gauss_memLp_mul c d)

theorem gauss_integrable2 (a b : ℕ) : Integrable (fun x : ℕ → ℝ => x a * x b) gaussStream :=
  (gauss_memLp_mul a b).integrable (by norm_num)

theorem gauss_sq (a : ℕ) : ∫ x : ℕ → ℝ, x a * x a ∂gaussStream = 1 := by
  have h1 : ∫ x : ℕ → ℝ, x a * x a ∂gaussStream = ∫ y, y * y ∂gaussianReal 0 1 := by
    rw [← gauss_eval a, integral_map (measurable_pi_apply a).aemeasurable (by fun_prop)]
  have h2 := variance_fun_id_gaussianReal (μ := 0) (v := 1)
  rw [variance_eq_integral (by fun_prop)] at h2
  simp only [integral_id_gaussianReal, sub_zero] at h2
  rw [h1]
  simp only [← sq]
  rw [h2]
  simp

theorem gauss_two (a b : ℕ) : ∫ x : ℕ → ℝ, x a * x b ∂gaussStream = if a = b then 1 else 0 := by
  split_ifs with h
  · rw [h]; exact gauss_sq b
  · refine gauss_odd a _ (by fun_prop) fun x => ?_
    simp only [if_pos, if_neg (Ne.symm h)]
    ring

theorem gauss_indep (a b : ℕ) (h : a ≠ b) : IndepFun (fun x : ℕ → ℝ => x a) (fun x : ℕ → ℝ => x b) gaussStream :=
  (iIndepFun_infinitePi (P := fun _ : ℕ => gaussianReal 0 1) (X := fun _ x => x) fun _ => measurable_id).indepFun h

theorem gauss_sq_sq (a b : ℕ) (h : a ≠ b) : ∫ x : ℕ → ℝ, x a * x a * (x b * x b) ∂gaussStream = 1 := by
  have hi := (gauss_indep a b h).comp (φ := fun y => y * y) (ψ := fun y => y * y) (by fun_prop) (by fun_prop)
  have h1 := hi.integral_fun_mul_eq_mul_integral (by fun_prop) (by fun_prop)
  simp only [Function.comp_def] at h1
  rw [h1, gauss_sq, gauss_sq, one_mul]

theorem gauss_fourth (a : ℕ) : ∫ x : ℕ → ℝ, x a * x a * (x a * x a) ∂gaussStream = 3 := by
  obtain ⟨m, hm⟩ : ∃ m, m = ∫ y, y * y * (y * y) ∂gaussianReal 0 1 := ⟨_, rfl⟩
  have h1 : ∀ a, ∫ x : ℕ → ℝ, x a * x a * (x a * x a) ∂gaussStream = m := fun a => by
    rw [hm, ← gauss_eval a, integral_map (measurable_pi_apply a).aemeasurable (by fun_prop)]
  have hs := gaussianReal_add_gaussianReal_of_indepFun (gauss_indep 0 1 (by norm_num)) (gauss_eval 0) (gauss_eval 1)
  have hc := gaussianReal_map_const_mul (μ := 0) (v := 1) (Real.sqrt 2)
  have h2 : (gaussianReal 0 1).map (fun x => Real.sqrt 2 * x) = gaussianReal (0 + 0) (1 + 1) := by
    rw [hc]
    congr 1
    · ring
    · refine NNReal.coe_injective ?_
      show Real.sqrt 2 ^ 2 * 1 = 1 + 1
      rw [Real.sq_sqrt (by norm_num)]; norm_num
  have h3 : ∫ x : ℕ → ℝ, (x 0 + x 1) * (x 0 + x 1) * ((x 0 + x 1) * (x 0 + x 1)) ∂gaussStream = 4 * m := by
    have e1 : ∫ y, y * y * (y * y) ∂(gaussianReal (0 + 0) (1 + 1)) = 4 * m := by
      rw [← h2, integral_map (by fun_prop) (by fun_prop), hm, ← integral_const_mul]
      refine integral_congr_ae (Filter.Eventually.of_forall fun y => ?_)
      have : Real.sqrt 2 * Real.sqrt 2 = 2 := Real.mul_self_sqrt (by norm_num)
      show Real.sqrt 2 * y * (Real.sqrt 2 * y) * (Real.sqrt 2 * y * (Real.sqrt 2 * y)) = 4 * (y * y * (y * y))
      linear_combination (y ^ 4 * (Real.sqrt 2 * Real.sqrt 2) + 2 * y ^ 4) * this
    rw [← hs, integral_map (by fun_prop) (by fun_prop)] at e1
    exact e1
  have h4 : ∫ x : ℕ → ℝ, (x 0 + x 1) * (x 0 + x 1) * ((x 0 + x 1) * (x 0 + x 1)) ∂gaussStream = m + 4 * 0 + 6 * 1 + 4 * 0 + m := by
    have e : ∀ x : ℕ → ℝ, (x 0 + x 1) * (x 0 + x 1) * ((x 0 + x 1) * (x 0 + x 1)) =
        x 0 * x 0 * (x 0 * x 0) + 4 * (x 0 * x 0 * (x 0 * x 1)) + 6 * (x 0 * x 0 * (x 1 * x 1)) + 4 * (x 0 * x 1 * (x 1 * x 1)) + x 1 * x 1 * (x 1 * x 1) :=
      fun x => by ring
    simp only [e]
    have i1 := gauss_integrable4 0 0 0 0
    have i2 := (gauss_integrable4 0 0 0 1).const_mul 4
    have i3 := (gauss_integrable4 0 0 1 1).const_mul 6
    have i4 := (gauss_integrable4 0 1 1 1).const_mul 4
    have i5 := gauss_integrable4 1 1 1 1
    have j2 : Integrable (fun x : ℕ → ℝ => x 0 * x 0 * (x 0 * x 0) + 4 * (x 0 * x 0 * (x 0 * x 1))) gaussStream := i1.add i2
    have j3 : Integrable (fun x : ℕ → ℝ => x 0 * x 0 * (x 0 * x 0) + 4 * (x 0 * x 0 * (x 0 * x 1)) + 6 * (x 0 * x 0 * (x 1 * x 1))) gaussStream := j2.add i3
    have j4 : Integrable (fun x : ℕ → ℝ => x 0 * x 0 * (x 0 * x 0) + 4 * (x 0 * x 0 * (x 0 * x 1)) + 6 * (x 0 * x 0 * (x 1 * x 1)) +
      4 * (x 0 * x 1 * (x 1 * x 1))) gaussStream := j3.add i4
    rw [integral_add j4 i5, integral_add j3 i4, integral_add j2 i3, integral_add i1 i2,
      integral_const_mul, integral_const_mul, integral_const_mul, h1, h1, gauss_sq_sq 0 1 (by norm_num)]
    rw [gauss_odd 0 (fun x => x 0 * x 0 * (x 0 * x 1)) (by fun_prop) (fun x => by simp), gauss_odd 0 (fun x => x 0 * x 1 * (x 1 * x 1)) (by fun_prop)
      (fun x => by simp)]
  rw [h1]
  linarith

/-- Isserlis' formula for four numbers. -/
theorem gauss_four (a b c d : ℕ) : ∫ x : ℕ → ℝ, x a * x b * (x c * x d) ∂gaussStream =
    (if a = b ∧ c = d then 1 else 0) + (if a = c ∧ b = d then 1 else 0) + (if a = d ∧ b = c then 1 else 0) := by
  by_cases hab : a = b
  · subst hab
    by_cases hcd : c = d
    · subst hcd
      by_cases hac : a = c
      · subst hac
        rw [gauss_fourth]; norm_num
      · rw [gauss_sq_sq a c hac]
        simp [hac]
    · rw [gauss_odd c _ (by fun_prop) fun x => by
        simp only [if_pos, if_neg (Ne.symm hcd)]
        split_ifs <;> ring]
      have h1 : ¬ (a = c ∧ a = d) := fun h => hcd (h.1.symm.trans h.2)
      have h2 : ¬ (a = d ∧ a = c) := fun h => hcd (h.2.symm.trans h.1)
      simp [hcd, h1, h2]
  · by_cases hac : a = c
    · subst hac
      by_cases hbd : b = d
      · subst hbd
        have e : ∀ x : ℕ → ℝ, x a * x b * (x a * x b) = x a * x a * (x b * x b) := fun x => by ring
        simp only [e]
        rw [gauss_sq_sq a b hab]
        simp [hab]
      · rw [gauss_odd b _ (by fun_prop) fun x => by
          simp only [if_pos, if_neg hab, if_neg (Ne.symm hbd)]
          ring]
        simp [hab, hbd, Ne.symm hab]
    · by_cases hbc : b = c
      · subst hbc
        by_cases had : a = d
        · subst had
          have e : ∀ x : ℕ → ℝ, x a * x b * (x b * x a) = x a * x a * (x b * x b) := fun x => by ring
          simp only [e]
          rw [gauss_sq_sq a b hab]
          simp [hab]
        · rw [gauss_odd a _ (by fun_prop) fun x => by
            simp only [if_pos, if_neg (Ne.symm hab), if_neg (Ne.symm had)]
            ring]
          simp [hab, had]
      · by_cases hcd : c = d
        · subst hcd
          rw [gauss_odd a _ (by fun_prop) fun x => by
            simp only [if_pos, if_neg (Ne.symm hab), if_neg (Ne.symm hac)]
            ring]
          simp [hab, hac, hbc]
        · rw [gauss_odd c _ (by fun_prop) fun x => by
            simp only [if_pos, if_neg hac, if_neg hbc, if_neg (Ne.symm hcd)]
            ring]
          simp [hab, hac, hbc]

end Primate
