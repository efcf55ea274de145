import Verif.Lemmas.Anscombe
import Verif.Props.Asymptotics
import Verif.Lemmas.Exists
import Mathlib.LinearAlgebra.Matrix.Notation
import Mathlib.Analysis.SpecialFunctions.Integrals.Basic
import Mathlib.Analysis.Real.Pi.Bounds

/-!
# C131: the accuracy of `hutch` with `ConfidenceCriterion` as the tolerance tends to zero
-/

noncomputable section

namespace Primate

open MeasureTheory ProbabilityTheory Filter
open scoped Topology

variable {N : ℕ} {Ω : Type*} [MeasurableSpace Ω] {P : Measure Ω}

/-- The call returns, and the estimate differs from `μ` by at most `ε`. -/
def Spec.Accurate (tppf : ℝ → ℕ → ℝ) (zscore : ℝ → ℝ) (rng : Rng) (a : HutchArgs N) (μ ε : ℝ) : Prop :=
  ∃ T x, |x - μ| ≤ ε ∧ ∀ fuel, T < fuel → ∃ out calls, hutch tppf zscore rng a fuel = some (.ok (out, calls)) ∧ out.estimate = .val (fun _ => x)

theorem firstPass_stops {cc : ConfCrit} {record : Bool} {y D : ℕ → ℝ} {d ε : ℝ} (hd : Tendsto D atTop (𝓝 d)) (hε : 0 < ε)
    (h : ∀ t, 3 ≤ t → (((if t < 30 then cc.tScores t else cc.z) * (√(svar y t) / √t) ≤ cc.atol ∨
        (smean y t ≠ 0 ∧ √(svar y t) / √t / |smean y t| ≤ cc.rtol)) ↔ D t ≤ ε * √t)) : StopsAt (.conf cc) record y (firstPass D ε) := by
  obtain ⟨h3, hT⟩ := firstPass_spec hd hε
  refine ⟨?_, fun r hr => ?_⟩
  · obtain ⟨b, h1, h2⟩ := conf_eval cc record y _ h3
    rw [h1, h2.2 ((h _ h3).2 hT)]
  · rcases lt_or_ge r 3 with hr3 | hr3
    · exact conf_seq_few cc record y r hr3
    · obtain ⟨b, h1, h2⟩ := conf_eval cc record y r hr3
      have hb : ¬ b = true := fun hb => absurd ((h r hr3).1 (h2.1 hb)) (not_le.2 (firstPass_before hr3 hr))
      rw [h1, Bool.eq_false_of_not_eq_true hb]

theorem cols_one {a : HutchArgs N} (h : a.batch = 1 ∨ (a.full = false ∧ a.callback = false)) : a.cols = 1 := by
  unfold HutchArgs.cols
  rcases h with h | ⟨h, h'⟩
  · rw [h]; simp
  · rw [h, h']; rfl

omit [MeasurableSpace Ω] in
theorem accurate_iff (tppf : ℝ → ℕ → ℝ) (zscore : ℝ → ℝ) (a : HutchArgs N) (A : Matrix (Fin N) (Fin N) ℝ) (hA : a.A = .ofMatrix A) (hN : N ≠ 0) {s : String}
    (hs : IsIso s) (hpdf : a.pdf = .name s) (hcols : a.batch = 1 ∨ (a.full = false ∧ a.callback = false)) (cc : ConfCrit) (hc : a.converge = .obj (.conf cc))
    (u X : ℕ → Ω → ℝ) (ω : Ω) {T : ℕ} (h3 : 0 < T) (hT : StopsAt (.conf cc) a.record (isoSample A s u X · ω) T) (μ ε : ℝ) :
    Spec.Accurate tppf zscore ⟨fun q => u q ω, fun q => X q ω⟩ a μ ε ↔ |smean (isoSample A s u X · ω) T - μ| ≤ ε := by
  have hrun := hutch_stops (tppf := tppf) (zscore := zscore) a A hA hN hs hpdf (cols_one hcols) (.conf cc) (by rw [hc]; rfl) u X ω T h3 hT
  constructor
  · rintro ⟨T', x, h1, h2⟩
    obtain ⟨out, calls, e1, e2⟩ := h2 (max T T' + 1) (by omega)
    obtain ⟨out', calls', f1, f2, -⟩ := hrun (max T T' + 1) (by omega)
    rw [e1, Option.some.injEq, Except.ok.injEq, Prod.mk.injEq] at f1
    rw [← f1.1, e2, NumArr.val.injEq] at f2
    rw [← congrFun f2 0]
    exact h1
  · intro h
    exact ⟨T, _, h, fun fuel hf => by
      obtain ⟨out, calls, h1, h2, -⟩ := hrun fuel hf
      exact ⟨out, calls, h1, h2⟩⟩

/-- A standard normal number is at most 1 in modulus with a probability below 0.685. -/
theorem gauss_one_lt : (gaussianReal 0 1).real {z | |z| ≤ 1} < 0.685 := by
  have hset : {z : ℝ | |z| ≤ 1} = Set.Icc (-1) 1 := by
    ext z
    simp [abs_le]
  have hexp : ∀ x : ℝ, Real.exp (-(x ^ 2) / 2) ≤ 1 - x ^ 2 / 2 + x ^ 4 / 8 := fun x => by
    obtain ⟨t, ht⟩ : ∃ t, t = x ^ 2 / 2 := ⟨_, rfl⟩
    have ht0 : 0 ≤ t := by rw [ht]; positivity
    have h1 := Real.quadratic_le_exp_of_nonneg ht0
    have e1 : -(x ^ 2) / 2 = -t := by rw [ht]; ring
    have e2 : 1 - x ^ 2 / 2 + x ^ 4 / 8 = 1 - t + t ^ 2 / 2 := by rw [ht]; ring
    rw [e1, e2, Real.exp_neg, inv_le_comm₀ (Real.exp_pos t) (by nlinarith [sq_nonneg (t - 1)])]
    refine le_trans ?_ h1
    rw [inv_le_comm₀ (by nlinarith [sq_nonneg (t - 1)]) (by positivity), inv_le_iff_one_le_mul₀ (by positivity)]
    nlinarith [sq_nonneg (t ^ 2)]
  have hpi : (√(2 * Real.pi))⁻¹ ≤ 1 / 2.5065 := by
    rw [one_div]
    refine inv_anti₀ (by norm_num) (Real.le_sqrt_of_sq_le ?_)
    have := Real.pi_gt_d4
    norm_num at this ⊢
    linarith
  have hpdf : ∀ x : ℝ, gaussianPDFReal 0 1 x ≤ 1 / 2.5065 * (1 - x ^ 2 / 2 + x ^ 4 / 8) := fun x => by
    unfold gaussianPDFReal
    simp only [NNReal.coe_one, mul_one, sub_zero]
    exact mul_le_mul hpi (hexp x) (Real.exp_pos _).le (by norm_num)
  rw [measureReal_def, hset, gaussianReal_apply_eq_integral 0 (by norm_num), ENNReal.toReal_ofReal (integral_nonneg fun x => gaussianPDFReal_nonneg _ _ _)]
  have h1 : ∫ x in Set.Icc (-1 : ℝ) 1, gaussianPDFReal 0 1 x ≤ ∫ x in Set.Icc (-1 : ℝ) 1, 1 / 2.5065 * (1 - x ^ 2 / 2 + x ^ 4 / 8) :=
    setIntegral_mono (integrable_gaussianPDFReal 0 1).integrableOn (Continuous.integrableOn_Icc (by fun_prop)) hpdf
  have h2 : ∫ x in Set.Icc (-1 : ℝ) 1, 1 / 2.5065 * (1 - x ^ 2 / 2 + x ^ 4 / 8) = 1 / 2.5065 * (103 / 60) := by
    rw [integral_Icc_eq_integral_Ioc, ← intervalIntegral.integral_of_le (by norm_num), intervalIntegral.integral_const_mul]
    congr 1
    rw [intervalIntegral.integral_add (Continuous.intervalIntegrable (by fun_prop) _ _) (Continuous.intervalIntegrable (by fun_prop) _ _), intervalIntegral.integral_sub (Continuous.intervalIntegrable (by fun_prop) _ _) (Continuous.intervalIntegrable (by fun_prop) _ _), intervalIntegral.integral_div,
      intervalIntegral.integral_div, integral_pow, integral_pow]
    simp
    norm_num
  rw [h2] at h1
  refine lt_of_le_of_lt h1 ?_
  norm_num

/-- The margin times `√t`. -/
def atolPass (tppf : ℝ → ℕ → ℝ) (zscore : ℝ → ℝ) (c : ℝ) (y : ℕ → ℝ) (t : ℕ) : ℝ :=
  (if t < 30 then tppf ((1 + c) / 2) (t + 1) else zscore c) * √(svar y t)

/-- The relative standard error times `√t`. -/
def rtolPass (y : ℕ → ℝ) (t : ℕ) : ℝ := if smean y t = 0 then √t else √(svar y t) / |smean y t|

section

variable {tppf : ℝ → ℕ → ℝ} {zscore : ℝ → ℝ} {c : ℝ} {y : ℕ → ℝ} {μ V : ℝ}

theorem atolPass_pos (ht : Spec.StudentQuantile tppf) (hz : Spec.TwoSided zscore) (hc0 : 0 < c) (hc1 : c < 1) (hy : y 0 ≠ y 1) {t : ℕ} (h3 : 3 ≤ t) :
    0 < atolPass tppf zscore c y t := by
  refine mul_pos ?_ (Real.sqrt_pos.2 (svar_pos (by omega) hy))
  split_ifs
  · exact (tppf_cover ht hc0 hc1 _ (by omega)).1
  · exact zscore_pos hz hc0 hc1

theorem atolPass_tendsto (hv : Tendsto (svar y) atTop (𝓝 V)) : Tendsto (atolPass tppf zscore c y) atTop (𝓝 (zscore c * √V)) := by
  refine (((Real.continuous_sqrt.tendsto _).comp hv).const_mul (zscore c)).congr' ?_
  filter_upwards [eventually_ge_atTop 30] with t ht
  rw [atolPass, if_neg (by omega)]
  rfl

theorem atolPass_iff (hy : y 0 ≠ y 1) {ε : ℝ} {cc : ConfCrit}
    (hcc : ConfCrit.init tppf zscore c (some ε) (some 0) = .ok cc) (t : ℕ) (h3 : 3 ≤ t) :
    (((if t < 30 then cc.tScores t else cc.z) * (√(svar y t) / √t) ≤ cc.atol ∨ (smean y t ≠ 0 ∧ √(svar y t) / √t / |smean y t| ≤ cc.rtol)) ↔
      atolPass tppf zscore c y t ≤ ε * √t) := by
  obtain ⟨⟨hc0, hc1⟩, hat, hrt, hcz, hct⟩ := init_fields hcc
  simp only [Option.getD_some] at hat hrt
  have hst : 0 < √(t : ℝ) := Real.sqrt_pos.2 (by exact_mod_cast (by omega : 0 < t))
  rw [hat, hrt, hcz, hct, ← mul_div_assoc, div_le_iff₀ hst]
  refine or_iff_left fun h => ?_
  have := div_pos (div_pos (Real.sqrt_pos.2 (svar_pos (n := t) (by omega) hy)) hst) (abs_pos.2 h.1)
  linarith [h.2]

theorem rtolPass_pos (hy : y 0 ≠ y 1) {t : ℕ} (h3 : 3 ≤ t) : 0 < rtolPass y t := by
  unfold rtolPass
  split_ifs with h
  · exact Real.sqrt_pos.2 (by exact_mod_cast (by omega : 0 < t))
  · exact div_pos (Real.sqrt_pos.2 (svar_pos (by omega) hy)) (abs_pos.2 h)

theorem rtolPass_tendsto (hv : Tendsto (svar y) atTop (𝓝 V)) (hm : Tendsto (smean y) atTop (𝓝 μ)) (hμ : μ ≠ 0) : Tendsto (rtolPass y) atTop (𝓝 (√V / |μ|)) := by
  refine (((Real.continuous_sqrt.tendsto _).comp hv).div hm.abs (abs_ne_zero.2 hμ)).congr' ?_
  filter_upwards [hm.eventually_ne hμ] with t ht
  rw [rtolPass, if_neg ht]
  rfl

theorem rtolPass_iff (ht : Spec.StudentQuantile tppf) (hz : Spec.TwoSided zscore) (hy : y 0 ≠ y 1) {ε : ℝ} (hε : ε < 1) {cc : ConfCrit}
    (hcc : ConfCrit.init tppf zscore c (some 0) (some ε) = .ok cc) (t : ℕ) (h3 : 3 ≤ t) :
    (((if t < 30 then cc.tScores t else cc.z) * (√(svar y t) / √t) ≤ cc.atol ∨ (smean y t ≠ 0 ∧ √(svar y t) / √t / |smean y t| ≤ cc.rtol)) ↔
      rtolPass y t ≤ ε * √t) := by
  obtain ⟨⟨hc0, hc1⟩, hat, hrt, hcz, hct⟩ := init_fields hcc
  simp only [Option.getD_some] at hat hrt
  have hst : 0 < √(t : ℝ) := Real.sqrt_pos.2 (by exact_mod_cast (by omega : 0 < t))
  have hp := atolPass_pos ht hz hc0 hc1 hy h3
  unfold atolPass at hp
  rw [hat, hrt, hcz, hct, ← mul_div_assoc]
  have hfirst : ¬ (if t < 30 then tppf ((1 + c) / 2) (t + 1) else zscore c) * √(svar y t) / √t ≤ 0 := not_le.2 (div_pos hp hst)
  rw [or_iff_right hfirst]
  unfold rtolPass
  by_cases h0 : smean y t = 0
  · simp only [h0, ne_eq, not_true_eq_false, false_and, if_true, false_iff, not_le]
    nlinarith
  · simp only [h0, ne_eq, not_false_eq_true, true_and, if_false]
    rw [div_right_comm, div_le_iff₀ hst]

theorem atolPass_measurable (t : ℕ) : Measurable fun y : ℕ → ℝ => atolPass tppf zscore c y t := by
  unfold atolPass
  exact (svar_measurable t).sqrt.const_mul _

theorem rtolPass_measurable (t : ℕ) : Measurable fun y : ℕ → ℝ => rtolPass y t := by
  unfold rtolPass
  exact Measurable.ite ((smean_measurable t) (measurableSet_singleton 0)) measurable_const ((svar_measurable t).sqrt.div (smean_measurable t).abs)

end

section

variable [IsProbabilityMeasure P] (tppf : ℝ → ℕ → ℝ) (zscore : ℝ → ℝ) (ht : Spec.StudentQuantile tppf) (hz : Spec.TwoSided zscore)
  (a : HutchArgs N) (A : Matrix (Fin N) (Fin N) ℝ) (hA : a.A = .ofMatrix A) (hN : N ≠ 0)
  (s : String) (hs : s = "normal" ∨ s = "sphere") (hpdf : a.pdf = .name s)
  (c : ℝ) (hV : 0 < Spec.isoVar A s)
  (u X : ℕ → Ω → ℝ) (hu : Spec.IidUniform P u) (hX : Spec.IidNormal P X)

include ht hz hA hN hs hpdf hV hu hX

/-- **C131**: with normal or sphere vectors drawn one at a time and `ConfidenceCriterion(confidence=c, atol=ε, rtol=0)`, the probability that `hutch` returns an
estimate with an error of at most `ε` converges to `c` as `ε` tends to zero, when the samples are not constant. -/
theorem C131_atol (hcols : a.batch = 1 ∨ (a.full = false ∧ a.callback = false)) (cc : ℝ → ConfCrit)
    (hcc : ∀ ε, ConfCrit.init tppf zscore c (some ε) (some 0) = .ok (cc ε)) :
    Tendsto (fun ε => P.real {ω | Spec.Accurate tppf zscore ⟨fun q => u q ω, fun q => X q ω⟩ { a with converge := .obj (.conf (cc ε)) } A.trace ε})
      (𝓝[>] 0) (𝓝 c) := by
  obtain ⟨⟨hc0, hc1⟩, -⟩ := init_fields (hcc 1)
  have hs' : IsIso s := Or.inr hs
  have h := isoSample_iid A hN hs' hu hX
  have hdis := h.distinct (isoSample_atomless A hN hs hV u X hX) (show (0 : ℕ) ≠ 1 by norm_num)
  have hσ : 0 < √(Spec.isoVar A s) := Real.sqrt_pos.2 hV
  have hcov := h.first_coverage hV (atolPass tppf zscore c) atolPass_measurable (mul_pos (zscore_pos hz hc0 hc1) hσ) (by
    filter_upwards [hdis, h.svar_tendsto] with ω h1 h2
    exact ⟨fun t => atolPass_pos ht hz hc0 hc1 h1, atolPass_tendsto h2⟩) 1
  rw [one_mul, mul_div_cancel_right₀ _ hσ.ne', hz c hc0 hc1] at hcov
  refine hcov.congr' ?_
  filter_upwards [self_mem_nhdsWithin] with ε hε
  refine measureReal_congr ?_
  filter_upwards [hdis, h.svar_tendsto] with ω h1 h2
  refine propext ?_
  have hlim := atolPass_tendsto (tppf := tppf) (zscore := zscore) (c := c) h2
  refine Iff.trans ?_ (accurate_iff tppf zscore { a with converge := .obj (.conf (cc ε)) } A hA hN hs' hpdf hcols (cc ε) rfl u X ω
    (by have := (firstPass_spec hlim hε).1; omega) (firstPass_stops hlim hε (atolPass_iff h1 (hcc ε))) A.trace ε).symm
  rw [← one_mul ε]
  simp only [one_mul]
  rfl

/-- **C131**: the number of samples that `hutch` uses with `ConfidenceCriterion(confidence=c, atol=ε, rtol=0)`, which is the number of calls of `callback`, is
asymptotically `(z σ / ε)²`, almost surely, where `z` is the score of the confidence level and `σ²` the variance of one sample. -/
theorem C131_samples (hcols : a.batch = 1) (hcb : a.callback = true) (cc : ℝ → ConfCrit) (hcc : ∀ ε, ConfCrit.init tppf zscore c (some ε) (some 0) = .ok (cc ε)) :
    ∀ᵐ ω ∂P, ∃ T : ℝ → ℕ, (∀ ε, 0 < ε → ∀ fuel, T ε < fuel → ∃ out calls,
        hutch tppf zscore ⟨fun q => u q ω, fun q => X q ω⟩ { a with converge := .obj (.conf (cc ε)) } fuel = some (.ok (out, calls)) ∧ calls.length = T ε) ∧
      Tendsto (fun ε => ε ^ 2 * (T ε : ℝ)) (𝓝[>] 0) (𝓝 (zscore c ^ 2 * Spec.isoVar A s)) := by
  obtain ⟨⟨hc0, hc1⟩, -⟩ := init_fields (hcc 1)
  have hs' : IsIso s := Or.inr hs
  have h := isoSample_iid A hN hs' hu hX
  filter_upwards [h.distinct (isoSample_atomless A hN hs hV u X hX) (show (0 : ℕ) ≠ 1 by norm_num), h.svar_tendsto] with ω h1 h2
  have hlim := atolPass_tendsto (tppf := tppf) (zscore := zscore) (c := c) h2
  refine ⟨fun ε => firstPass (atolPass tppf zscore c (isoSample A s u X · ω)) ε, fun ε hε fuel hf => ?_, ?_⟩
  · obtain ⟨out, calls, e1, -, -, e4⟩ := hutch_stops (tppf := tppf) (zscore := zscore) { a with converge := .obj (.conf (cc ε)) } A hA hN hs' hpdf (cols_one (Or.inl hcols))
      (.conf (cc ε)) rfl u X ω _ (by have := (firstPass_spec hlim hε).1; omega) (firstPass_stops hlim hε (atolPass_iff h1 (hcc ε))) fuel hf
    exact ⟨out, calls, e1, e4 hcb⟩
  · have h3 := firstPass_sq hlim fun t => atolPass_pos ht hz hc0 hc1 h1
    rw [mul_pow, Real.sq_sqrt hV.le] at h3
    exact h3

/-- **C131**: with `ConfidenceCriterion(confidence=c, atol=0, rtol=ε)` the probability that `hutch` returns an estimate with a relative error of at most `ε`
converges to the probability that a standard normal number is at most 1 in modulus, whatever the confidence level is.  That probability is less than 0.685. -/
theorem C131_rtol (hcols : a.batch = 1 ∨ (a.full = false ∧ a.callback = false)) (htr : A.trace ≠ 0) (cc : ℝ → ConfCrit)
    (hcc : ∀ ε, ConfCrit.init tppf zscore c (some 0) (some ε) = .ok (cc ε)) :
    Tendsto (fun ε => P.real {ω | Spec.Accurate tppf zscore ⟨fun q => u q ω, fun q => X q ω⟩ { a with converge := .obj (.conf (cc ε)) } A.trace (ε * |A.trace|)})
      (𝓝[>] 0) (𝓝 ((gaussianReal 0 1).real {z | |z| ≤ 1})) ∧ (gaussianReal 0 1).real {z | |z| ≤ 1} < 0.685 := by
  refine ⟨?_, gauss_one_lt⟩
  have hs' : IsIso s := Or.inr hs
  have h := isoSample_iid A hN hs' hu hX
  have hdis := h.distinct (isoSample_atomless A hN hs hV u X hX) (show (0 : ℕ) ≠ 1 by norm_num)
  have hσ : 0 < √(Spec.isoVar A s) := Real.sqrt_pos.2 hV
  have htr' : 0 < |A.trace| := abs_pos.2 htr
  have hcov := h.first_coverage hV rtolPass rtolPass_measurable (div_pos hσ htr') (by
    filter_upwards [hdis, h.svar_tendsto, h.smean_tendsto] with ω h1 h2 h3
    exact ⟨fun t => rtolPass_pos h1, rtolPass_tendsto h2 h3 htr⟩) |A.trace|
  rw [mul_div_cancel₀ _ htr'.ne', div_self hσ.ne'] at hcov
  refine hcov.congr' ?_
  filter_upwards [Ioo_mem_nhdsGT (show (0 : ℝ) < 1 by norm_num)] with ε hε
  refine measureReal_congr ?_
  filter_upwards [hdis, h.svar_tendsto, h.smean_tendsto] with ω h1 h2 h3
  refine propext ?_
  have hlim := rtolPass_tendsto h2 h3 htr
  refine Iff.trans ?_ (accurate_iff tppf zscore { a with converge := .obj (.conf (cc ε)) } A hA hN hs' hpdf hcols (cc ε) rfl u X ω
    (by have := (firstPass_spec hlim hε.1).1; omega) (firstPass_stops hlim hε.1 (rtolPass_iff ht hz h1 hε.2 (hcc ε))) A.trace (ε * |A.trace|)).symm
  rw [mul_comm ε]
  rfl

end

/-- One sample of `J100` with a Rademacher vector is -200 with probability 3/4. -/
theorem J100_sample [IsProbabilityMeasure P] (u X : ℕ → Ω → ℝ) (hu : Spec.IidUniform P u) : P.real {ω | isoSample J100 "rademacher" u X 0 ω = -200} = 3 / 4 := by
  have hr : ∀ᵐ ω ∂P, ∀ q, u q ω ∈ Set.Ico (0 : ℝ) 1 := by
    rw [ae_all_iff]
    intro q
    have h1 : ∀ᵐ x ∂(volume.restrict (Set.Ico (0 : ℝ) 1)), x ∈ Set.Ico (0 : ℝ) 1 := ae_restrict_mem measurableSet_Ico
    rw [← (hu.law q).map_eq] at h1
    exact ae_of_ae_map (hu.law q).aemeasurable h1
  have h1 := bitsOf_share hu 1 3 fun b => ¬ (b (0, 0) = b (0, 1) ∧ b (0, 1) = b (0, 2))
  have hcard : (Finset.univ.filter fun b : Fin 1 × Fin 3 → Bool => ¬ (b (0, 0) = b (0, 1) ∧ b (0, 1) = b (0, 2))).card = 6 := by decide
  rw [hcard] at h1
  norm_num at h1
  rw [← h1]
  refine measureReal_congr ?_
  filter_upwards [hr] with ω hω
  refine propext ?_
  show isoSample J100 "rademacher" u X 0 ω = -200 ↔ (bitsOf 1 3 u ω (0, 0) = bitsOf 1 3 u ω (0, 1) → ¬ bitsOf 1 3 u ω (0, 1) = bitsOf 1 3 u ω (0, 2))
  have hsb : isoSample J100 "rademacher" u X 0 ω = Spec.quad J100 fun i => sgn (bitsOf 1 3 u ω (0, i)) := by
    unfold isoSample
    congr 1
    funext i
    simp only [isoVec, if_true]
    obtain ⟨h1, h2⟩ := hω (0 * 3 + i)
    by_cases h : 1/2 ≤ u (0 * 3 + i) ω
    · rw [(rademacherEntry_half _).2 h h2, show bitsOf 1 3 u ω (0, i) = true from decide_eq_true h]; rfl
    · rw [(rademacherEntry_half _).1 h1 (not_le.1 h), show bitsOf 1 3 u ω (0, i) = false from decide_eq_false h]; rfl
  rw [hsb, J100_quad]
  split_ifs with h
  · norm_num
    exact h
  · simp only [true_iff]
    exact fun h1 h2 => h ⟨h1, h2⟩

/-- **C131**: with Rademacher vectors the error is not controlled.  For the 3 by 3 matrix with zero diagonal and all other entries 100, the probability that `hutch`
returns an estimate with an error of at most `ε` is at most 37/64 for every confidence level, every tolerance and every `ε < 200`. -/
theorem C131_rademacher [IsProbabilityMeasure P] (tppf : ℝ → ℕ → ℝ) (zscore : ℝ → ℝ) (a : HutchArgs 3) (hA : a.A = .ofMatrix J100) (hpdf : a.pdf = .name "rademacher")
    (hcols : a.batch = 1 ∨ (a.full = false ∧ a.callback = false)) (cc : ConfCrit) (hat : 0 ≤ cc.atol) (hc : a.converge = .obj (.conf cc)) (ε : ℝ) (hε : ε < 200)
    (u X : ℕ → Ω → ℝ) (hu : Spec.IidUniform P u) (hX : Spec.IidNormal P X) :
    J100.trace = 0 ∧ P.real {ω | Spec.Accurate tppf zscore ⟨fun q => u q ω, fun q => X q ω⟩ a J100.trace ε} ≤ 37 / 64 := by
  have htr : J100.trace = 0 := by simp [Matrix.trace, J100]
  refine ⟨htr, ?_⟩
  have hs : IsIso "rademacher" := Or.inl rfl
  have h := isoSample_iid J100 (by norm_num) hs hu hX
  have h0 := J100_sample (P := P) u X hu
  have hB : P.real (⋂ t ∈ Finset.range 3, isoSample J100 "rademacher" u X t ⁻¹' {-200}) = 27 / 64 := by
    rw [measureReal_def, h.indep.measure_inter_preimage_eq_mul (S := Finset.range 3) (sets := fun _ => {-200}) fun _ _ => measurableSet_singleton _, ENNReal.toReal_prod]
    have h1 : ∀ t, (P (isoSample J100 "rademacher" u X t ⁻¹' {-200})).toReal = 3 / 4 := fun t => by
      rw [(h.ident t).measure_mem_eq (measurableSet_singleton _)]
      exact h0
    simp only [h1, Finset.prod_const, Finset.card_range]
    norm_num
  have hnull : NullMeasurableSet (⋂ t ∈ Finset.range 3, isoSample J100 "rademacher" u X t ⁻¹' {-200}) P :=
    Finset.nullMeasurableSet_biInter _ fun t _ => (h.aemeasurable t).nullMeasurable (measurableSet_singleton _)
  have hsub : {ω | Spec.Accurate tppf zscore ⟨fun q => u q ω, fun q => X q ω⟩ a J100.trace ε} ⊆ (⋂ t ∈ Finset.range 3, isoSample J100 "rademacher" u X t ⁻¹' {-200})ᶜ := by
    intro ω hω hmem
    simp only [Set.mem_iInter, Finset.mem_range, Set.mem_preimage, Set.mem_singleton_iff] at hmem
    have hsum : ∑ r ∈ Finset.range 3, isoSample J100 "rademacher" u X r ω = -600 := by
      rw [Finset.sum_congr rfl fun r hr => hmem r (Finset.mem_range.1 hr)]
      norm_num
    have hmean : smean (isoSample J100 "rademacher" u X · ω) 3 = -200 := by
      unfold smean
      rw [hsum]
      norm_num
    have hvar : svar (isoSample J100 "rademacher" u X · ω) 3 = 0 := by
      unfold svar
      rw [hsum, Finset.sum_eq_zero, zero_div]
      intro r hr
      simp only [hmem r (Finset.mem_range.1 hr)]
      norm_num
    have hstop : StopsAt (.conf cc) a.record (isoSample J100 "rademacher" u X · ω) 3 := by
      refine ⟨?_, fun r hr => conf_seq_few cc a.record _ r hr⟩
      obtain ⟨b, h1, h2⟩ := conf_eval cc a.record (isoSample J100 "rademacher" u X · ω) 3 le_rfl
      rw [h1, h2.2 (Or.inl (by rw [hvar, Real.sqrt_zero, zero_div, mul_zero]; exact hat))]
    have := (accurate_iff tppf zscore a J100 hA (by norm_num) hs hpdf hcols cc hc u X ω (by norm_num) hstop J100.trace ε).1 hω
    rw [hmean, htr] at this
    norm_num at this
    linarith
  refine (measureReal_mono hsub).trans ?_
  rw [probReal_compl_eq_one_sub₀ hnull, hB]
  norm_num

/-- `C131_atol`, `C131_samples` and `C131_rtol` for normal vectors and `[[1, 0], [0, 2]]`, a sample of variance 10, at the confidence level 0.95. -/
example : ∃ (P : Measure ((ℕ → ℝ) × (ℕ → ℝ))) (tppf : ℝ → ℕ → ℝ) (zscore : ℝ → ℝ) (c1 c2 : ℝ → ConfCrit),
    (∀ ε, ConfCrit.init tppf zscore 0.95 (some ε) (some 0) = .ok (c1 ε)) ∧ (∀ ε, ConfCrit.init tppf zscore 0.95 (some 0) (some ε) = .ok (c2 ε)) ∧
    Tendsto (fun ε => P.real {ω | Spec.Accurate tppf zscore ⟨ω.1, ω.2⟩ ⟨.ofMatrix !![(1 : ℝ), 0; 0, 2], 32, .name "normal", .obj (.conf (c1 ε)), false, false, false, []⟩ 3 ε})
      (𝓝[>] 0) (𝓝 0.95) ∧
    (∀ᵐ ω ∂P, ∃ T : ℝ → ℕ, (∀ ε, 0 < ε → ∀ fuel, T ε < fuel → ∃ out calls,
        hutch tppf zscore ⟨ω.1, ω.2⟩ ⟨.ofMatrix !![(1 : ℝ), 0; 0, 2], 1, .name "normal", .obj (.conf (c1 ε)), false, true, false, []⟩ fuel = some (.ok (out, calls)) ∧
          calls.length = T ε) ∧
      Tendsto (fun ε => ε ^ 2 * (T ε : ℝ)) (𝓝[>] 0) (𝓝 (zscore 0.95 ^ 2 * 10))) ∧
    ∀ᶠ ε in 𝓝[>] 0, P.real {ω | Spec.Accurate tppf zscore ⟨ω.1, ω.2⟩ ⟨.ofMatrix !![(1 : ℝ), 0; 0, 2], 32, .name "normal", .obj (.conf (c2 ε)), false, false, false, []⟩ 3
      (ε * 3)} < 0.685 := by
  obtain ⟨P, hP, hu, hX⟩ := iid_both_exist
  obtain ⟨tppf, ht⟩ := studentQuantile_exists
  obtain ⟨zscore, hz⟩ := twoSided_exists
  have h1 : ∀ ε, ∃ cc, ConfCrit.init tppf zscore 0.95 (some ε) (some 0) = .ok cc := fun ε => ⟨_, by rw [ConfCrit.init, if_pos (by norm_num)]⟩
  have h2 : ∀ ε, ∃ cc, ConfCrit.init tppf zscore 0.95 (some 0) (some ε) = .ok cc := fun ε => ⟨_, by rw [ConfCrit.init, if_pos (by norm_num)]⟩
  choose c1 hc1 using h1
  choose c2 hc2 using h2
  have htr : Matrix.trace !![(1 : ℝ), 0; 0, 2] = 3 := by simp [Matrix.trace, Fin.sum_univ_two]; norm_num
  have hv : Spec.isoVar !![(1 : ℝ), 0; 0, 2] "normal" = 10 := by simp [Spec.isoVar, Fin.sum_univ_two]; norm_num
  refine ⟨P, tppf, zscore, c1, c2, hc1, hc2, ?_, ?_, ?_⟩
  · have := C131_atol tppf zscore ht hz ⟨.ofMatrix !![(1 : ℝ), 0; 0, 2], 32, .name "normal", .str "default", false, false, false, []⟩ _ rfl (by norm_num) "normal"
      (Or.inl rfl) rfl 0.95 (by rw [hv]; norm_num) _ _ hu hX (Or.inr ⟨rfl, rfl⟩) c1 hc1
    rw [htr] at this
    exact this
  · have := C131_samples tppf zscore ht hz ⟨.ofMatrix !![(1 : ℝ), 0; 0, 2], 1, .name "normal", .str "default", false, true, false, []⟩ _ rfl (by norm_num) "normal"
      (Or.inl rfl) rfl 0.95 (by rw [hv]; norm_num) _ _ hu hX rfl rfl c1 hc1
    rw [hv] at this
    exact this
  · have := C131_rtol tppf zscore ht hz ⟨.ofMatrix !![(1 : ℝ), 0; 0, 2], 32, .name "normal", .str "default", false, false, false, []⟩ _ rfl (by norm_num) "normal"
      (Or.inl rfl) rfl 0.95 (by rw [hv]; norm_num) _ _ hu hX (Or.inr ⟨rfl, rfl⟩) (by rw [htr]; norm_num) c2 hc2
    rw [htr, abs_of_pos (show (0 : ℝ) < 3 by norm_num)] at this
    exact this.1.eventually_lt_const this.2

/-- `C131_rademacher` for the confidence level 0.95 and `atol=1`. -/
example (tppf : ℝ → ℕ → ℝ) (zscore : ℝ → ℝ) : ∃ (P : Measure ((ℕ → ℝ) × (ℕ → ℝ))) (cc : ConfCrit), ConfCrit.init tppf zscore 0.95 (some 1) (some 0) = .ok cc ∧
    P.real {ω | Spec.Accurate tppf zscore ⟨ω.1, ω.2⟩ ⟨.ofMatrix J100, 32, .name "rademacher", .obj (.conf cc), false, false, false, []⟩ 0 1} ≤ 37 / 64 := by
  obtain ⟨P, hP, hu, hX⟩ := iid_both_exist
  obtain ⟨cc, hcc⟩ : ∃ cc, ConfCrit.init tppf zscore 0.95 (some 1) (some 0) = .ok cc := ⟨_, by rw [ConfCrit.init, if_pos (by norm_num)]⟩
  obtain ⟨-, ha, -⟩ := init_fields hcc
  obtain ⟨h1, h2⟩ := C131_rademacher tppf zscore ⟨.ofMatrix J100, 32, .name "rademacher", .obj (.conf cc), false, false, false, []⟩ rfl rfl (Or.inr ⟨rfl, rfl⟩) cc
    (by rw [ha]; norm_num) rfl 1 (by norm_num) _ _ hu hX
  rw [h1] at h2
  exact ⟨P, cc, hcc, h2⟩

end Primate
