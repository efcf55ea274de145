import Verif.Spec.Quantile
import Verif.Lemmas.Asymp
import Verif.Lemmas.GaussPi

/-!
# Quantiles of the normal and of Student's distribution
-/

noncomputable section

namespace Primate

open MeasureTheory ProbabilityTheory Filter
open scoped Topology

/-! ## The normal distribution -/

theorem gauss_cdf_strictMono : StrictMono fun x : ℝ => (gaussianReal 0 1).real (Set.Iic x) := by
  intro x y hxy
  have h1 : Set.Iic y = Set.Iic x ∪ Set.Ioc x y := (Set.Iic_union_Ioc_eq_Iic hxy.le).symm
  have h2 : (gaussianReal 0 1) (Set.Ioc x y) ≠ 0 := by
    intro h
    have := gaussianReal_absolutelyContinuous' 0 (v := 1) one_ne_zero h
    rw [Real.volume_Ioc] at this
    simp only [ENNReal.ofReal_eq_zero] at this
    linarith
  show (gaussianReal 0 1).real (Set.Iic x) < (gaussianReal 0 1).real (Set.Iic y)
  rw [h1, measureReal_union (Set.disjoint_left.2 fun z hz hz' => by simp only [Set.mem_Iic, Set.mem_Ioc] at hz hz'; linarith) measurableSet_Ioc]
  have : 0 < (gaussianReal 0 1).real (Set.Ioc x y) := ENNReal.toReal_pos h2 (measure_ne_top _ _)
  linarith

instance : NullSingletonClass (gaussianReal 0 1) := nullSingletonClass_gaussianReal one_ne_zero

theorem gauss_neg (s : Set ℝ) (hs : MeasurableSet s) : (gaussianReal 0 1).real ((fun x => -x) ⁻¹' s) = (gaussianReal 0 1).real s := by
  have h : (gaussianReal 0 1).map (fun x : ℝ => -x) = gaussianReal 0 1 := by rw [gaussianReal_map_neg, neg_zero]
  conv_rhs => rw [← h]
  rw [measureReal_def, measureReal_def, Measure.map_apply measurable_neg hs]

theorem gauss_cdf_neg (x : ℝ) : (gaussianReal 0 1).real (Set.Iic (-x)) = 1 - (gaussianReal 0 1).real (Set.Iic x) := by
  have h1 : (fun y : ℝ => -y) ⁻¹' Set.Ici x = Set.Iic (-x) := by
    ext y
    simp only [Set.mem_preimage, Set.mem_Ici, Set.mem_Iic]
    exact le_neg
  rw [← h1, gauss_neg _ measurableSet_Ici]
  have h2 : (gaussianReal 0 1).real (Set.Ici x) = (gaussianReal 0 1).real (Set.Ioi x) := by
    rw [measureReal_def, measureReal_def, measure_congr Ioi_ae_eq_Ici]
  rw [h2, ← Set.compl_Iic, probReal_compl_eq_one_sub measurableSet_Iic]

theorem gauss_abs (q : ℝ) (hq : 0 ≤ q) : (gaussianReal 0 1).real {z | |z| ≤ q} = 2 * (gaussianReal 0 1).real (Set.Iic q) - 1 := by
  have h1 : {z : ℝ | |z| ≤ q} = Set.Icc (-q) q := Set.ext fun z => by simp only [Set.mem_ofPred_eq, Set.mem_Icc, abs_le]
  have h2 : Set.Iic q = Set.Iio (-q) ∪ Set.Icc (-q) q := (Set.Iio_union_Icc_eq_Iic (by linarith)).symm
  have h3 : (gaussianReal 0 1).real (Set.Iio (-q)) = (gaussianReal 0 1).real (Set.Iic (-q)) := by
    rw [measureReal_def, measureReal_def, measure_congr Iio_ae_eq_Iic]
  have h4 : (gaussianReal 0 1).real (Set.Iic q) = (gaussianReal 0 1).real (Set.Iio (-q)) + (gaussianReal 0 1).real (Set.Icc (-q) q) := by
    conv_lhs => rw [h2]
    exact measureReal_union (Set.disjoint_left.2 fun z hz hz' => by simp only [Set.mem_Iio, Set.mem_Icc] at hz hz'; linarith) measurableSet_Icc
  rw [h1]
  rw [h3, gauss_cdf_neg] at h4
  linarith

theorem gauss_cdf_zero : (gaussianReal 0 1).real (Set.Iic 0) = 1 / 2 := by
  have := gauss_cdf_neg 0
  rw [neg_zero] at this
  linarith

theorem nppf_symm {nppf : ℝ → ℝ} (h : Spec.NormalQuantile nppf) {p : ℝ} (h0 : 0 < p) (h1 : p < 1) : nppf (1 - p) = -nppf p := by
  refine gauss_cdf_strictMono.injective ?_
  show (gaussianReal 0 1).real (Set.Iic (nppf (1 - p))) = (gaussianReal 0 1).real (Set.Iic (-nppf p))
  rw [h _ (by linarith) (by linarith), gauss_cdf_neg, h p h0 h1]

theorem nppf_pos {nppf : ℝ → ℝ} (h : Spec.NormalQuantile nppf) {p : ℝ} (h0 : 1 / 2 < p) (h1 : p < 1) : 0 < nppf p := by
  refine gauss_cdf_strictMono.lt_iff_lt.1 ?_
  show (gaussianReal 0 1).real (Set.Iic 0) < (gaussianReal 0 1).real (Set.Iic (nppf p))
  rw [gauss_cdf_zero, h p (by linarith) h1]
  exact h0

theorem nppf_cover {nppf : ℝ → ℝ} (h : Spec.NormalQuantile nppf) {c : ℝ} (h0 : 0 < c) (h1 : c < 1) :
    (gaussianReal 0 1).real {z | |z| ≤ nppf ((1 + c) / 2)} = c := by
  rw [gauss_abs _ (nppf_pos h (by linarith) (by linarith)).le, h _ (by linarith) (by linarith)]
  ring

theorem zscore_pos {zscore : ℝ → ℝ} (h : Spec.TwoSided zscore) {c : ℝ} (h0 : 0 < c) (h1 : c < 1) : 0 < zscore c := by
  by_contra hc
  have h2 : {z : ℝ | |z| ≤ zscore c} ⊆ {0} := fun z hz => by
    have hz' : |z| ≤ zscore c := hz
    exact abs_eq_zero.1 (le_antisymm (hz'.trans (not_lt.1 hc)) (abs_nonneg z))
  have h3 : (gaussianReal 0 1).real {z | |z| ≤ zscore c} = 0 := by
    rw [measureReal_def, measure_mono_null h2 (measure_singleton 0)]
    rfl
  rw [h c h0 h1] at h3
  linarith

/-! ## Student's distribution -/

/-- The ratio of Student. -/
def tRatio (df : ℕ) (z : ℕ → ℝ) : ℝ := z 0 / Real.sqrt ((∑ i ∈ Finset.range df, z (i + 1) ^ 2) / df)

theorem tRatio_measurable (df : ℕ) : Measurable (tRatio df) := by
  unfold tRatio
  fun_prop

theorem tRatio_tendsto : ∀ᵐ z ∂gaussStream, Tendsto (fun df => tRatio df z) atTop (𝓝 (z 0)) := by
  have hind : iIndepFun (fun (q : ℕ) (z : ℕ → ℝ) => z q) gaussStream :=
    iIndepFun_infinitePi (P := fun _ : ℕ => gaussianReal 0 1) (X := fun _ x => x) fun _ => measurable_id
  have hid : ∀ q : ℕ, IdentDistrib (fun z : ℕ → ℝ => z (q + 1) ^ 2) (fun z : ℕ → ℝ => z (0 + 1) ^ 2) gaussStream gaussStream := fun q =>
    (⟨(measurable_pi_apply _).aemeasurable, (measurable_pi_apply _).aemeasurable, by rw [gauss_eval, gauss_eval]⟩ :
      IdentDistrib (fun z : ℕ → ℝ => z (q + 1)) (fun z : ℕ → ℝ => z (0 + 1)) gaussStream gaussStream).comp (measurable_id.pow_const 2)
  have h1 := strong_law_ae_real (μ := gaussStream) (fun q z => z (q + 1) ^ 2) (by
    have := gauss_integrable2 1 1
    simpa [sq] using this) (fun i j hij => (hind.indepFun (i := i + 1) (j := j + 1) (by omega)).comp (measurable_id.pow_const 2) (measurable_id.pow_const 2)) hid
  have h2 : ∫ z : ℕ → ℝ, z (0 + 1) ^ 2 ∂gaussStream = 1 := by
    have := gauss_sq 1
    simpa [sq] using this
  rw [h2] at h1
  filter_upwards [h1] with z hz
  have h3 := (tendsto_const_nhds (x := z 0)).div ((Real.continuous_sqrt.tendsto 1).comp hz) (by simp)
  rw [Real.sqrt_one, div_one] at h3
  exact h3

/-- The law of Student's ratio converges to the normal law. -/
theorem tRatio_cdf (x : ℝ) : Tendsto (fun df => gaussStream.real {z | tRatio df z ≤ x}) atTop (𝓝 ((gaussianReal 0 1).real (Set.Iic x))) := by
  have h1 := tendstoInDistribution_of_ae_tendsto (μ' := gaussStream) (l := atTop) (X := tRatio) (Z := fun z : ℕ → ℝ => z 0)
    (fun df => (tRatio_measurable df).aemeasurable) (measurable_pi_apply 0).aemeasurable tRatio_tendsto
  have h2 := ProbabilityMeasure.tendsto_measure_of_null_frontier_of_tendsto' h1.tendsto (E := Set.Iic x) (by
    rw [frontier_Iic]
    show (Measure.map (fun z : ℕ → ℝ => z 0) gaussStream) {x} = 0
    rw [gauss_eval]
    exact measure_singleton x)
  have h3 : Tendsto (fun df => gaussStream {z | tRatio df z ≤ x}) atTop (𝓝 (gaussianReal 0 1 (Set.Iic x))) := by
    rw [← gauss_eval 0]
    refine h2.congr fun df => ?_
    show Measure.map (tRatio df) gaussStream (Set.Iic x) = _
    rw [Measure.map_apply (tRatio_measurable df) measurableSet_Iic]
    rfl
  exact (ENNReal.tendsto_toReal (measure_ne_top _ _)).comp h3

/-- The quantiles of Student's distribution converge to those of the normal distribution. -/
theorem tppf_tendsto {tppf : ℝ → ℕ → ℝ} {nppf : ℝ → ℝ} (ht : Spec.StudentQuantile tppf) (hn : Spec.NormalQuantile nppf) {p : ℝ} (h0 : 0 < p) (h1 : p < 1) :
    Tendsto (fun df => tppf p df) atTop (𝓝 (nppf p)) := by
  have hF : ∀ df, 1 ≤ df → gaussStream.real {z | tRatio df z ≤ tppf p df} = p := fun df hdf => ht p df h0 h1 hdf
  rw [Metric.tendsto_atTop']
  intro ε hε
  have hlo : (gaussianReal 0 1).real (Set.Iic (nppf p - ε / 2)) < p := by
    conv_rhs => rw [← hn p h0 h1]
    exact gauss_cdf_strictMono (by linarith)
  have hhi : p < (gaussianReal 0 1).real (Set.Iic (nppf p + ε / 2)) := by
    conv_lhs => rw [← hn p h0 h1]
    exact gauss_cdf_strictMono (by linarith)
  have e1 := (tRatio_cdf (nppf p - ε / 2)).eventually_lt_const hlo
  have e2 := (tRatio_cdf (nppf p + ε / 2)).eventually_const_lt hhi
  obtain ⟨M, hM⟩ := ((e1.and e2).and (eventually_ge_atTop 1)).exists_forall_of_atTop
  refine ⟨M, fun df hdf => ?_⟩
  obtain ⟨⟨h2, h3⟩, h4⟩ := hM df hdf.le
  rw [Real.dist_eq, abs_lt]
  constructor
  · by_contra hc
    have hle : tppf p df ≤ nppf p - ε / 2 := by linarith
    have := measureReal_mono (μ := gaussStream) (s₁ := {z | tRatio df z ≤ tppf p df}) (s₂ := {z | tRatio df z ≤ nppf p - ε / 2})
      (fun z hz => le_trans (show tRatio df z ≤ _ from hz) hle)
    rw [hF df h4] at this
    linarith
  · by_contra hc
    have hle : nppf p + ε / 2 ≤ tppf p df := by linarith
    have := measureReal_mono (μ := gaussStream) (s₁ := {z | tRatio df z ≤ nppf p + ε / 2}) (s₂ := {z | tRatio df z ≤ tppf p df})
      (fun z hz => le_trans (show tRatio df z ≤ _ from hz) hle)
    rw [hF df h4] at this
    linarith

end Primate
