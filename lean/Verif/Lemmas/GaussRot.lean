import Verif.Lemmas.GaussIndep
import Mathlib.Probability.Distributions.Gaussian.Fernique

/-!
# Rotation of two numbers of a normal stream
-/

noncomputable section

namespace Primate

open MeasureTheory ProbabilityTheory

/-- The numbers at `p` and `q` replaced by `a` and `b`. -/
def setTwo (p q : ℕ) (z : ℕ → ℝ) (a b : ℝ) : ℕ → ℝ := fun i => if i = p then a else if i = q then b else z i

/-- Rotation of the numbers at `p` and `q` by 45 degrees. -/
def rotTwo (p q : ℕ) (z : ℕ → ℝ) : ℕ → ℝ := setTwo p q z (Real.sqrt 2 / 2 * (z p - z q)) (Real.sqrt 2 / 2 * (z p + z q))

theorem setTwo_measurable (p q : ℕ) : Measurable fun x : (ℕ → ℝ) × (ℝ × ℝ) => setTwo p q x.1 x.2.1 x.2.2 := by
  refine measurable_pi_lambda _ fun i => ?_
  unfold setTwo
  split_ifs <;> fun_prop

theorem rotTwo_measurable (p q : ℕ) : Measurable (rotTwo p q) := by
  refine measurable_pi_lambda _ fun i => ?_
  unfold rotTwo setTwo
  split_ifs <;> fun_prop

theorem gauss_setTwo (p q : ℕ) (hpq : p ≠ q) : MeasurePreserving (fun x : (ℕ → ℝ) × (ℝ × ℝ) => setTwo p q x.1 x.2.1 x.2.2)
    (gaussStream.prod ((gaussianReal 0 1).prod (gaussianReal 0 1))) gaussStream := by
  refine ⟨setTwo_measurable p q, ?_⟩
  have h1 : gaussStream.map (fun w => (w p, w q)) = (gaussianReal 0 1).prod (gaussianReal 0 1) := by
    have h := (indepFun_iff_map_prod_eq_prod_map_map (measurable_pi_apply p).aemeasurable (measurable_pi_apply q).aemeasurable).1 (gauss_indep p q hpq)
    rw [h, gauss_eval, gauss_eval]
  have h2 : (gaussStream.prod gaussStream).map (Prod.map id fun w => (w p, w q)) = gaussStream.prod ((gaussianReal 0 1).prod (gaussianReal 0 1)) := by
    rw [← h1, ← Measure.map_prod_map _ _ measurable_id (by fun_prop), Measure.map_id]
  rw [← h2, Measure.map_map (setTwo_measurable p q) (by fun_prop)]
  have h3 := (gauss_splice fun i => i = p ∨ i = q).map_eq
  conv_rhs => rw [← h3]
  congr 1
  funext x
  funext i
  simp only [Function.comp_apply, Prod.map, id, setTwo, splice]
  by_cases hp : i = p
  · subst hp; simp
  · by_cases hq : i = q
    · subst hq; simp [hp]
    · simp [hp, hq]

/-- Rotating two numbers does not change the law. -/
theorem gauss_rot (p q : ℕ) (hpq : p ≠ q) : MeasurePreserving (rotTwo p q) gaussStream gaussStream := by
  refine ⟨rotTwo_measurable p q, ?_⟩
  obtain ⟨R, hR⟩ : ∃ R : ℝ × ℝ → ℝ × ℝ, R = fun x => (Real.sqrt 2 / 2 * (x.1 - x.2), Real.sqrt 2 / 2 * (x.1 + x.2)) := ⟨_, rfl⟩
  have hRm : Measurable R := by rw [hR]; fun_prop
  have h1 : ((gaussianReal 0 1).prod (gaussianReal 0 1)).map R = (gaussianReal 0 1).prod (gaussianReal 0 1) := by
    have h := IsGaussian.map_rotation_eq_self (μ := gaussianReal 0 1) (by simp) (-(Real.pi / 4))
    have e : R = ContinuousLinearMap.rotation (E := ℝ) (-(Real.pi / 4)) := by
      rw [hR]
      funext x
      rw [ContinuousLinearMap.rotation_apply, Real.cos_neg, Real.sin_neg, Real.cos_pi_div_four, Real.sin_pi_div_four]
      ext <;> simp <;> ring
    rw [e]
    exact h
  have hs := gauss_setTwo p q hpq
  conv_lhs => rw [← hs.map_eq, Measure.map_map (rotTwo_measurable p q) hs.measurable]
  have h2 : (gaussStream.prod ((gaussianReal 0 1).prod (gaussianReal 0 1))).map (Prod.map id R) =
      gaussStream.prod ((gaussianReal 0 1).prod (gaussianReal 0 1)) := by
    rw [← Measure.map_prod_map _ _ measurable_id hRm, Measure.map_id, h1]
  have h3 : rotTwo p q ∘ (fun x : (ℕ → ℝ) × (ℝ × ℝ) => setTwo p q x.1 x.2.1 x.2.2) =
      (fun x : (ℕ → ℝ) × (ℝ × ℝ) => setTwo p q x.1 x.2.1 x.2.2) ∘ Prod.map id R := by
    funext x
    funext i
    simp only [Function.comp_apply, rotTwo, setTwo, Prod.map, id, hR, if_neg (Ne.symm hpq), if_true]
    by_cases hp : i = p
    · subst hp; simp
    · by_cases hq : i = q
      · subst hq; simp [hp]
      · simp [hp, hq]
  rw [h3, ← Measure.map_map hs.measurable (measurable_id.prodMap hRm), h2, hs.map_eq]

end Primate
