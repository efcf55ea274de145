import Verif.Lemmas.Student
import Verif.Props.Prob
import Mathlib.Probability.CDF

/-!
# Quantile functions and generators with the properties assumed in the theorems exist
-/

noncomputable section

namespace Primate

open MeasureTheory ProbabilityTheory Filter
open scoped Topology

variable {Ω : Type*} [MeasurableSpace Ω] {P : Measure Ω}

/-- A law without atoms takes every probability as a quantile. -/
theorem quantile_exists (ν : Measure ℝ) [IsProbabilityMeasure ν] (h : ∀ x, ν {x} = 0) {p : ℝ} (h0 : 0 < p) (h1 : p < 1) : ∃ q, ν.real (Set.Iic q) = p := by
  have hc : Continuous (cdf ν) := by
    rw [continuous_iff_continuousAt]
    intro x
    rw [(cdf ν).mono.continuousAt_iff_leftLim_eq_rightLim, (cdf ν).rightLim_eq]
    have h2 := (cdf ν).measure_singleton x
    rw [measure_cdf, h x] at h2
    have h3 := ENNReal.ofReal_eq_zero.1 h2.symm
    exact le_antisymm ((cdf ν).mono.leftLim_le le_rfl) (by linarith)
  obtain ⟨a, ha⟩ := ((tendsto_cdf_atBot ν).eventually_le_const h0).exists
  obtain ⟨b, hb⟩ := ((tendsto_cdf_atTop ν).eventually_const_le h1).exists
  obtain ⟨q, hq⟩ := mem_range_of_exists_le_of_exists_ge hc ⟨a, ha⟩ ⟨b, hb⟩
  exact ⟨q, by rw [← cdf_eq_real]; exact hq⟩

theorem normalQuantile_exists : ∃ nppf, Spec.NormalQuantile nppf := by
  have hna := nullSingletonClass_gaussianReal (μ := 0) (v := 1) (by norm_num)
  have h : ∀ p : ℝ, ∃ q, 0 < p → p < 1 → (gaussianReal 0 1).real (Set.Iic q) = p := fun p => by
    by_cases hp : 0 < p ∧ p < 1
    · obtain ⟨q, hq⟩ := quantile_exists (gaussianReal 0 1) (fun x => measure_singleton x) hp.1 hp.2
      exact ⟨q, fun _ _ => hq⟩
    · exact ⟨0, fun h0 h1 => absurd ⟨h0, h1⟩ hp⟩
  choose f hf using h
  exact ⟨f, hf⟩

theorem studentQuantile_exists : ∃ tppf, Spec.StudentQuantile tppf := by
  have h : ∀ (p : ℝ) (df : ℕ), ∃ q, 0 < p → p < 1 → 1 ≤ df → gaussStream.real {z | tRatio df z ≤ q} = p := fun p df => by
    by_cases hp : (0 < p ∧ p < 1) ∧ 1 ≤ df
    · have := Measure.isProbabilityMeasure_map (μ := gaussStream) (tRatio_measurable df).aemeasurable
      obtain ⟨q, hq⟩ := quantile_exists (gaussStream.map (tRatio df)) (fun x => by
        rw [Measure.map_apply (tRatio_measurable df) (measurableSet_singleton x)]
        have h := (ae_iff (p := fun z => tRatio df z ≠ x)).1 (tRatio_ne df hp.2 x)
        simp only [ne_eq, not_not] at h
        exact h) hp.1.1 hp.1.2
      refine ⟨q, fun _ _ _ => ?_⟩
      rw [← hq, map_measureReal_apply (tRatio_measurable df) measurableSet_Iic]
      rfl
    · exact ⟨0, fun h0 h1 h2 => absurd ⟨⟨h0, h1⟩, h2⟩ hp⟩
  choose f hf using h
  exact ⟨f, hf⟩

theorem twoSided_exists : ∃ zscore, Spec.TwoSided zscore := by
  obtain ⟨nppf, h⟩ := normalQuantile_exists
  exact ⟨fun c => nppf ((1 + c) / 2), fun c h0 h1 => nppf_cover h h0 h1⟩

/-- Independent numbers as a random element of the space of sequences. -/
theorem stream_map [IsProbabilityMeasure P] {X : ℕ → Ω → ℝ} (hX : Spec.IidNormal P X) : MeasurePreserving (fun x : ℕ → ℝ => x) (P.map fun ω q => X q ω) gaussStream := by
  refine ⟨measurable_id, ?_⟩
  rw [Measure.map_id', hX.indep.map_fun_eq_infinitePi_map₀' fun q => (hX.law q).aemeasurable]
  simp only [(hX.law _).map_eq]
  rfl

/-- The probability of an event of a stream of normal numbers. -/
theorem stream_real [IsProbabilityMeasure P] {X : ℕ → Ω → ℝ} (hX : Spec.IidNormal P X) {s : Set (ℕ → ℝ)} (hs : MeasurableSet s) :
    P.real {ω | (fun q => X q ω) ∈ s} = gaussStream.real s := by
  rw [← (stream_map hX).map_eq, Measure.map_id', map_measureReal_apply_of_aemeasurable (aemeasurable_pi_iff.2 fun q => (hX.law q).aemeasurable) hs]
  rfl

theorem stream_ae [IsProbabilityMeasure P] {X : ℕ → Ω → ℝ} (hX : Spec.IidNormal P X) {p : (ℕ → ℝ) → Prop} (h : ∀ᵐ z ∂gaussStream, p z) :
    ∀ᵐ ω ∂P, p fun q => X q ω := by
  rw [← (stream_map hX).map_eq, Measure.map_id'] at h
  exact ae_of_ae_map (aemeasurable_pi_iff.2 fun q => (hX.law q).aemeasurable) h

theorem indep_of_map [IsProbabilityMeasure P] {f : Ω → ℕ → ℝ} (hf : Measurable f) (h : iIndepFun (fun q (z : ℕ → ℝ) => z q) (P.map f)) :
    iIndepFun (fun q ω => f ω q) P := by
  have := Measure.isProbabilityMeasure_map (μ := P) hf.aemeasurable
  rw [iIndepFun_iff_map_fun_eq_infinitePi_map (fun q => by fun_prop)]
  have h1 := h.map_fun_eq_infinitePi_map fun q => by fun_prop
  rw [Measure.map_id'] at h1
  rw [show (fun ω i => f ω i) = f from rfl, h1]
  congr 1
  funext q
  rw [Measure.map_map (by fun_prop) hf]
  rfl

/-- A generator of uniform and normal numbers. -/
theorem iid_both_exist : ∃ (P : Measure ((ℕ → ℝ) × (ℕ → ℝ))) (_ : IsProbabilityMeasure P),
    Spec.IidUniform P (fun q ω => ω.1 q) ∧ Spec.IidNormal P fun q ω => ω.2 q := by
  obtain ⟨Q, hQ, hu⟩ := iidUniform_exists
  have h1 : (Q.prod gaussStream).map Prod.fst = Q := Measure.fst_prod
  have h2 : (Q.prod gaussStream).map Prod.snd = gaussStream := Measure.snd_prod
  refine ⟨Q.prod gaussStream, inferInstance, ⟨fun q => ⟨by fun_prop, ?_⟩, ?_⟩, ⟨fun q => ⟨by fun_prop, ?_⟩, ?_⟩⟩
  · rw [show (fun ω : (ℕ → ℝ) × (ℕ → ℝ) => ω.1 q) = (fun z : ℕ → ℝ => z q) ∘ Prod.fst from rfl, ← Measure.map_map (by fun_prop) (by fun_prop), h1]
    exact (hu.law q).map_eq
  · have h := hu.indep
    rw [← h1] at h
    exact indep_of_map (by fun_prop) h
  · rw [show (fun ω : (ℕ → ℝ) × (ℕ → ℝ) => ω.2 q) = (fun z : ℕ → ℝ => z q) ∘ Prod.snd from rfl, ← Measure.map_map (by fun_prop) (by fun_prop), h2]
    exact (iidNormal_exists.law q).map_eq
  · have h := iidNormal_exists.indep
    rw [← h2] at h
    exact indep_of_map (by fun_prop) h

end Primate
