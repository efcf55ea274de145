import Verif.Lemmas.Student
import Mathlib.Analysis.Convex.Deriv
import Mathlib.Analysis.Convex.Jensen

/-!
# Student's distribution is more concentrated with more degrees of freedom
-/

noncomputable section

namespace Primate

open MeasureTheory ProbabilityTheory Filter
open scoped Topology

/-- The probability that a normal number is at most `q √x` in modulus. -/
def gaussWithin (q x : ℝ) : ℝ := (gaussianReal 0 1).real {t | |t| ≤ q * √x}

theorem gaussWithin_eq {q : ℝ} (hq : 0 < q) (x : ℝ) : gaussWithin q x = ∫ t in (-(q * √x))..(q * √x), gaussianPDFReal 0 1 t := by
  have h0 : 0 ≤ q * √x := by positivity
  unfold gaussWithin
  rw [measureReal_def, gaussianReal_apply_eq_integral 0 (by norm_num), ENNReal.toReal_ofReal (integral_nonneg fun t => gaussianPDFReal_nonneg _ _ _),
    intervalIntegral.integral_of_le (by linarith), ← integral_Icc_eq_integral_Ioc]
  congr 2
  ext t
  simp only [Set.mem_ofPred_eq, Set.mem_Icc, abs_le]

theorem pdf_continuous : Continuous (gaussianPDFReal 0 1) := by
  unfold gaussianPDFReal
  fun_prop

theorem pdf_anti {a b : ℝ} (ha : 0 ≤ a) (hab : a ≤ b) : gaussianPDFReal 0 1 b ≤ gaussianPDFReal 0 1 a := by
  unfold gaussianPDFReal
  refine mul_le_mul_of_nonneg_left (Real.exp_le_exp.2 ?_) (by positivity)
  simp only [sub_zero, NNReal.coe_one, mul_one]
  have : a ^ 2 ≤ b ^ 2 := pow_le_pow_left₀ ha hab 2
  linarith

theorem pdf_neg (a : ℝ) : gaussianPDFReal 0 1 (-a) = gaussianPDFReal 0 1 a := by
  unfold gaussianPDFReal
  simp

theorem pdf_integral_deriv (y : ℝ) : HasDerivAt (fun y => ∫ t in (0 : ℝ)..y, gaussianPDFReal 0 1 t) (gaussianPDFReal 0 1 y) y :=
  intervalIntegral.integral_hasDerivAt_right (pdf_continuous.intervalIntegrable _ _) (pdf_continuous.stronglyMeasurableAtFilter _ _) pdf_continuous.continuousAt

theorem gaussWithin_sub {q : ℝ} (hq : 0 < q) (x : ℝ) :
    gaussWithin q x = (∫ t in (0 : ℝ)..(q * √x), gaussianPDFReal 0 1 t) - ∫ t in (0 : ℝ)..(-(q * √x)), gaussianPDFReal 0 1 t := by
  rw [gaussWithin_eq hq, intervalIntegral.integral_interval_sub_left (pdf_continuous.intervalIntegrable _ _) (pdf_continuous.intervalIntegrable _ _)]

theorem gaussWithin_deriv {q x : ℝ} (hq : 0 < q) (hx : 0 < x) : HasDerivAt (gaussWithin q) (gaussianPDFReal 0 1 (q * √x) * (q / √x)) x := by
  have hs : 0 < √x := Real.sqrt_pos.2 hx
  have hi : HasDerivAt (fun x => q * √x) (q * (1 / (2 * √x))) x := (Real.hasDerivAt_sqrt hx.ne').const_mul q
  have h1 := HasDerivAt.comp x (pdf_integral_deriv (q * √x)) hi
  have h2 := HasDerivAt.comp x (pdf_integral_deriv (-(q * √x))) hi.neg
  refine ((h1.sub h2).congr_of_eventuallyEq (Eventually.of_forall fun y => gaussWithin_sub hq y)).congr_deriv ?_
  rw [pdf_neg]
  field_simp
  ring

theorem gaussWithin_continuous {q : ℝ} (hq : 0 < q) : Continuous (gaussWithin q) := by
  have hF : Continuous fun y => ∫ t in (0 : ℝ)..y, gaussianPDFReal 0 1 t := continuous_iff_continuousAt.2 fun y => (pdf_integral_deriv y).continuousAt
  rw [show gaussWithin q = _ from funext (gaussWithin_sub hq)]
  have h1 : Continuous fun x => q * √x := by fun_prop
  exact (hF.comp h1).sub (hF.comp h1.neg)

theorem gaussWithin_concave {q : ℝ} (hq : 0 < q) : StrictConcaveOn ℝ (Set.Ici 0) (gaussWithin q) := by
  refine StrictAntiOn.strictConcaveOn_of_deriv (convex_Ici 0) (gaussWithin_continuous hq).continuousOn ?_
  rw [interior_Ici]
  intro x hx y hy hxy
  have hx : 0 < x := hx
  have hy : 0 < y := hy
  rw [(gaussWithin_deriv hq hx).deriv, (gaussWithin_deriv hq hy).deriv]
  have hsx : 0 < √x := Real.sqrt_pos.2 hx
  have h1 : √x < √y := Real.sqrt_lt_sqrt hx.le hxy
  have h2 := pdf_anti (show 0 ≤ q * √x by positivity) (mul_le_mul_of_nonneg_left h1.le hq.le)
  have h3 : q / √y < q / √x := div_lt_div_of_pos_left hq hsx h1
  have h4 : 0 < gaussianPDFReal 0 1 (q * √y) := gaussianPDFReal_pos _ _ _ (by norm_num)
  have h5 : 0 < q / √x := by positivity
  calc gaussianPDFReal 0 1 (q * √y) * (q / √y) < gaussianPDFReal 0 1 (q * √y) * (q / √x) := mul_lt_mul_of_pos_left h3 h4
    _ ≤ gaussianPDFReal 0 1 (q * √x) * (q / √x) := mul_le_mul_of_nonneg_right h2 h5.le

/-- The distribution of Student's ratio, as a mixture. -/
theorem tRatio_mixture (df : ℕ) (hdf : 1 ≤ df) (q : ℝ) :
    gaussStream.real {z | |tRatio df z| ≤ q} = ∫ z, gaussWithin q ((∑ i ∈ Finset.range df, z (i + 1) ^ 2) / df) ∂gaussStream := by
  have h1 : gaussStream.real {z | |tRatio df z| ≤ q} = gaussStream.real {z : ℕ → ℝ | |z 0| ≤ q * √((∑ i ∈ Finset.range df, z (i + 1) ^ 2) / df)} := by
    rw [measureReal_def, measureReal_def]
    congr 1
    refine measure_congr ?_
    filter_upwards [tDen_pos df hdf] with z hz
    refine propext ?_
    show |tRatio df z| ≤ q ↔ |z 0| ≤ q * √((∑ i ∈ Finset.range df, z (i + 1) ^ 2) / df)
    unfold tRatio
    rw [abs_div, abs_of_pos hz, div_le_iff₀ hz]
  have hs : MeasurableSet {z : ℕ → ℝ | |z 0| ≤ q * √((∑ i ∈ Finset.range df, z (i + 1) ^ 2) / df)} := measurableSet_le (by fun_prop) (by fun_prop)
  have hmp := gauss_splice (· = 0)
  rw [h1, ← hmp.measureReal_preimage hs.nullMeasurableSet, measureReal_def, Measure.prod_apply (hmp.measurable hs)]
  rw [← integral_toReal (measurable_measure_prodMk_left (hmp.measurable hs)).aemeasurable (Eventually.of_forall fun z => measure_lt_top _ _)]
  refine integral_congr_ae (Eventually.of_forall fun z => ?_)
  simp only [gaussWithin]
  rw [← gauss_eval 0, map_measureReal_apply (measurable_pi_apply 0) (measurableSet_le (by fun_prop) (by fun_prop)), measureReal_def]
  congr 2

theorem gaussWithin_measurable {q : ℝ} (hq : 0 < q) : Measurable (gaussWithin q) := (gaussWithin_continuous hq).measurable

theorem gaussWithin_integrable {q : ℝ} (hq : 0 < q) (F : (ℕ → ℝ) → ℝ) (hF : Measurable F) : Integrable (fun z => gaussWithin q (F z)) gaussStream := by
  refine Integrable.of_bound ((gaussWithin_measurable hq).comp hF).aestronglyMeasurable 1 (Eventually.of_forall fun z => ?_)
  rw [Real.norm_of_nonneg (show 0 ≤ gaussWithin q (F z) from measureReal_nonneg)]
  exact measureReal_le_one

theorem sum_swap (m i : ℕ) (hi : i ≤ m) (z : ℕ → ℝ) :
    ∑ j ∈ Finset.range (m + 1), z (Equiv.swap (i + 1) (m + 1) (j + 1)) ^ 2 = ∑ j ∈ Finset.range (m + 1), z (j + 1) ^ 2 := by
  have h1 : ∀ j, Equiv.swap (i + 1) (m + 1) (j + 1) = Equiv.swap i m j + 1 := fun j => by
    unfold Equiv.swap
    simp only [Equiv.coe_fn_mk, Equiv.swapCore]
    split_ifs <;> omega
  simp only [h1]
  refine Finset.sum_equiv (Equiv.swap i m) (fun j => ?_) fun j _ => rfl
  simp only [Finset.mem_range, Equiv.swap_apply_def]
  split_ifs <;> omega

/-- More degrees of freedom, more probability near zero. -/
theorem tRatio_lt (m : ℕ) (hm : 1 ≤ m) {q : ℝ} (hq : 0 < q) :
    gaussStream.real {z | |tRatio m z| ≤ q} < gaussStream.real {z | |tRatio (m + 1) z| ≤ q} := by
  have hm' : (0 : ℝ) < m := by exact_mod_cast hm
  rw [tRatio_mixture m hm, tRatio_mixture (m + 1) (by omega)]
  obtain ⟨L, hL⟩ : ∃ L : ℕ → (ℕ → ℝ) → ℝ, L = fun i (z : ℕ → ℝ) => ((∑ j ∈ Finset.range (m + 1), z (j + 1) ^ 2) - z (i + 1) ^ 2) / (m : ℝ) := ⟨_, rfl⟩
  have hLm : ∀ i, Measurable (L i) := fun i => by rw [hL]; fun_prop
  have hLast : ∀ z : ℕ → ℝ, (∑ i ∈ Finset.range m, z (i + 1) ^ 2) / m = L m z := fun z => by
    rw [hL]
    simp only
    rw [Finset.sum_range_succ, add_sub_cancel_right]
  have hex : ∀ i ≤ m, ∫ z, gaussWithin q (L i z) ∂gaussStream = ∫ z, gaussWithin q (L m z) ∂gaussStream := fun i hi => by
    have hmp := gauss_swap (i + 1) (m + 1)
    conv_rhs => rw [← hmp.map_eq]
    have hms : Measurable fun z => gaussWithin q (L m z) := (gaussWithin_measurable hq).comp (hLm m)
    rw [integral_map hmp.measurable.aemeasurable hms.aestronglyMeasurable]
    refine integral_congr_ae (Eventually.of_forall fun z => ?_)
    simp only [hL]
    rw [sum_swap m i hi, Equiv.swap_apply_right]
  have hpt : ∀ᵐ z ∂gaussStream, ∑ i ∈ Finset.range (m + 1), (1 / ((m : ℝ) + 1)) * gaussWithin q (L i z) <
      gaussWithin q ((∑ i ∈ Finset.range (m + 1), z (i + 1) ^ 2) / ((m + 1 : ℕ) : ℝ)) := by
    have h12 : ∀ᵐ z : ℕ → ℝ ∂gaussStream, z 1 ^ 2 ≠ z 2 ^ 2 := by
      have h1 : ∀ᵐ z : ℕ → ℝ ∂gaussStream, z 1 - z 2 ≠ 0 :=
        gauss_affine_ne_zero 1 (fun z => z 1 - z 2) (fun _ => 1) (fun z => -z 2) (by fun_prop) (fun z w => by simp [splice]; ring) (Eventually.of_forall fun _ => one_ne_zero)
      have h2 : ∀ᵐ z : ℕ → ℝ ∂gaussStream, z 1 + z 2 ≠ 0 :=
        gauss_affine_ne_zero 1 (fun z => z 1 + z 2) (fun _ => 1) (fun z => z 2) (by fun_prop) (fun z w => by simp [splice]) (Eventually.of_forall fun _ => one_ne_zero)
      filter_upwards [h1, h2] with z h1 h2 h3
      have : (z 1 - z 2) * (z 1 + z 2) = 0 := by linarith
      rcases mul_eq_zero.1 this with h | h
      · exact h1 h
      · exact h2 h
    filter_upwards [h12] with z hz
    have h2 := (gaussWithin_concave hq).lt_map_sum_iff_of_pos (t := Finset.range (m + 1)) (w := fun _ => 1 / ((m : ℝ) + 1)) (p := fun i => L i z)
      (fun _ _ => by positivity) (by rw [Finset.sum_const, Finset.card_range, nsmul_eq_mul]; push_cast; field_simp) (fun i hi => by
        rw [hL]
        refine div_nonneg (sub_nonneg.2 ?_) hm'.le
        exact Finset.single_le_sum (f := fun j => z (j + 1) ^ 2) (fun j _ => sq_nonneg _) hi)
    have h3 := h2.2 ⟨0, Finset.mem_range.2 (by omega), 1, Finset.mem_range.2 (by omega), fun h => hz (by
      rw [hL] at h
      simp only at h
      rw [div_left_inj' hm'.ne'] at h
      linarith)⟩
    simp only [smul_eq_mul] at h3
    refine h3.trans_eq ?_
    congr 1
    rw [← Finset.mul_sum, hL]
    simp only
    rw [← Finset.sum_div, Finset.sum_sub_distrib, Finset.sum_const, Finset.card_range, nsmul_eq_mul]
    push_cast
    field_simp
    ring
  have hi1 : Integrable (fun z => ∑ i ∈ Finset.range (m + 1), (1 / ((m : ℝ) + 1)) * gaussWithin q (L i z)) gaussStream :=
    integrable_finsetSum _ fun i _ => (gaussWithin_integrable hq _ (hLm i)).const_mul _
  have hi2 : Integrable (fun z : ℕ → ℝ => gaussWithin q ((∑ i ∈ Finset.range (m + 1), z (i + 1) ^ 2) / ((m + 1 : ℕ) : ℝ))) gaussStream :=
    gaussWithin_integrable hq _ (by fun_prop)
  have h4 : ∫ z, ∑ i ∈ Finset.range (m + 1), (1 / ((m : ℝ) + 1)) * gaussWithin q (L i z) ∂gaussStream = ∫ z, gaussWithin q (L m z) ∂gaussStream := by
    rw [integral_finsetSum _ fun i _ => (gaussWithin_integrable hq _ (hLm i)).const_mul _]
    rw [Finset.sum_congr rfl fun i hi => by rw [integral_const_mul, hex i (Nat.lt_succ_iff.1 (Finset.mem_range.1 hi))]]
    rw [Finset.sum_const, Finset.card_range, nsmul_eq_mul]
    push_cast
    field_simp
  simp only [hLast]
  rw [← h4]
  refine lt_of_le_of_ne (integral_mono_ae hi1 hi2 (hpt.mono fun z hz => hz.le)) fun he => ?_
  have h5 := (integral_eq_iff_of_ae_le hi1 hi2 (hpt.mono fun z hz => hz.le)).1 he
  obtain ⟨z, h6, h7⟩ := (hpt.and h5).exists
  exact h6.ne h7

theorem tRatio_strictMono {q : ℝ} (hq : 0 < q) {m n : ℕ} (hm : 1 ≤ m) (hmn : m < n) :
    gaussStream.real {z | |tRatio m z| ≤ q} < gaussStream.real {z | |tRatio n z| ≤ q} := by
  induction n, hmn using Nat.le_induction with
  | base => exact tRatio_lt m hm hq
  | succ n hn ih => exact ih.trans (tRatio_lt n (by omega) hq)

/-- A normal number is closer to zero than Student's ratio. -/
theorem tRatio_lt_gauss {q : ℝ} (hq : 0 < q) {m : ℕ} (hm : 1 ≤ m) : gaussStream.real {z | |tRatio m z| ≤ q} < (gaussianReal 0 1).real {z | |z| ≤ q} := by
  have h1 : Tendsto (fun df => gaussStream.real {z | |tRatio df z| ≤ q}) atTop (𝓝 ((gaussianReal 0 1).real {z | |z| ≤ q})) := by
    rw [gauss_abs q hq.le]
    refine (((tRatio_cdf q).const_mul 2).sub_const 1).congr fun df => ?_
    rw [tRatio_abs df q hq.le]
  refine (tRatio_lt m hm hq).trans_le (ge_of_tendsto h1 ?_)
  filter_upwards [eventually_gt_atTop (m + 1)] with n hn
  exact (tRatio_strictMono hq (by omega) hn).le

end Primate
