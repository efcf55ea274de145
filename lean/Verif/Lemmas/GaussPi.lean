import Verif.Lemmas.Gauss
import Mathlib.Probability.Distributions.Gaussian.Multivariate
import Mathlib.MeasureTheory.Integral.Pi
import Mathlib.MeasureTheory.Integral.IntegralEqImproper
import Mathlib.Analysis.SpecialFunctions.Gaussian.GaussianIntegral
import Mathlib.Analysis.SpecialFunctions.ImproperIntegrals

/-!
# Finite families of independent standard normal numbers: rotations, replacement of a part, the mean of the inverse of a sum of squares
-/

noncomputable section

namespace Primate

open MeasureTheory ProbabilityTheory Matrix

variable {ι : Type*} [Fintype ι]

/-- Independent standard normal numbers, one for each element of `ι`. -/
def gaussPi (ι : Type*) [Fintype ι] : Measure (ι → ℝ) := Measure.pi fun _ => gaussianReal 0 1

instance : IsProbabilityMeasure (gaussPi ι) := by unfold gaussPi; infer_instance

/-- Numbers of a stream at different positions are such a family. -/
theorem gaussPi_of_stream (f : ι → ℕ) (hf : Function.Injective f) :
    MeasurePreserving (fun (z : ℕ → ℝ) i => z (f i)) gaussStream (gaussPi ι) := by
  have hm : Measurable fun (z : ℕ → ℝ) i => z (f i) := by fun_prop
  refine ⟨hm, ?_⟩
  unfold gaussPi
  refine (Measure.pi_eq fun s hs => ?_).symm
  rw [Measure.map_apply hm (MeasurableSet.univ_pi hs)]
  classical
  obtain ⟨t, ht⟩ : ∃ t : ℕ → Set ℝ, t = fun q => if h : ∃ i, f i = q then s h.choose else Set.univ := ⟨_, rfl⟩
  have htf : ∀ i, t (f i) = s i := by
    intro i
    have h : ∃ i', f i' = f i := ⟨i, rfl⟩
    rw [ht]
    simp only [h, dite_true]
    rw [hf h.choose_spec]
  have htm : ∀ q, MeasurableSet (t q) := by
    intro q
    rw [ht]
    by_cases h : ∃ i, f i = q
    · simp only [h, dite_true]; exact hs _
    · simp only [h, dite_false]; exact MeasurableSet.univ
  have hpre : (fun (z : ℕ → ℝ) i => z (f i)) ⁻¹' Set.pi Set.univ s = Set.pi (↑(Finset.univ.image f) : Set ℕ) t := by
    ext z
    simp [htf]
  rw [hpre, gaussStream, Measure.infinitePi_pi _ fun i _ => htm i, Finset.prod_image fun a _ b _ h => hf h]
  simp only [htf]

/-- Part of the numbers can be replaced by independent ones. -/
theorem gaussPi_splice (B : ι → Prop) [DecidablePred B] :
    MeasurePreserving (fun p : (ι → ℝ) × (ι → ℝ) => fun i => if B i then p.2 i else p.1 i) ((gaussPi ι).prod (gaussPi ι)) (gaussPi ι) := by
  have hm : Measurable fun p : (ι → ℝ) × (ι → ℝ) => fun i => if B i then p.2 i else p.1 i := by
    refine measurable_pi_lambda _ fun q => ?_
    split_ifs <;> fun_prop
  refine ⟨hm, ?_⟩
  conv_rhs => unfold gaussPi
  refine (Measure.pi_eq fun s hs => ?_).symm
  rw [Measure.map_apply hm (MeasurableSet.univ_pi hs)]
  have hpre : (fun p : (ι → ℝ) × (ι → ℝ) => fun i => if B i then p.2 i else p.1 i) ⁻¹' Set.pi Set.univ s =
      (Set.pi Set.univ fun i => if B i then Set.univ else s i) ×ˢ (Set.pi Set.univ fun i => if B i then s i else Set.univ) := by
    ext ⟨z, w⟩
    simp only [Set.mem_preimage, Set.mem_pi, Set.mem_prod, Set.mem_univ, true_implies]
    constructor
    · intro h
      refine ⟨fun q => ?_, fun q => ?_⟩ <;> have := h q <;> split_ifs <;> simp_all
    · rintro ⟨h1, h2⟩ q
      have h1 := h1 q
      have h2 := h2 q
      split_ifs <;> simp_all
  rw [hpre, Measure.prod_prod]
  unfold gaussPi
  rw [Measure.pi_pi, Measure.pi_pi, ← Finset.prod_mul_distrib]
  refine Finset.prod_congr rfl fun i _ => ?_
  split_ifs <;> simp

/-- An orthogonal map does not change the law. -/
theorem gaussPi_rot [DecidableEq ι] (b : OrthonormalBasis ι ℝ (EuclideanSpace ℝ ι)) :
    MeasurePreserving (fun x i => ∑ j, b i j * x j) (gaussPi ι) (gaussPi ι) := by
  have hm : Measurable fun (x : ι → ℝ) i => ∑ j, b i j * x j := by fun_prop
  refine ⟨hm, ?_⟩
  have h1 := map_pi_eq_stdGaussian (ι := ι)
  have h2 := stdGaussian_map b.repr
  rw [← h1, Measure.map_map (by fun_prop) (by fun_prop)] at h2
  have h3 : (fun (x : ι → ℝ) i => ∑ j, b i j * x j) = WithLp.ofLp ∘ (b.repr ∘ WithLp.toLp 2) := by
    funext x i
    simp only [Function.comp_apply, OrthonormalBasis.repr_apply_apply, PiLp.inner_apply]
    refine Finset.sum_congr rfl fun j _ => ?_
    simp [mul_comm]
  rw [h3, ← Measure.map_map (by fun_prop) (by fun_prop)]
  unfold gaussPi
  rw [h2, Measure.map_map (by fun_prop) (by fun_prop)]
  exact Measure.map_id

theorem gaussPi_eval (i : ι) : (gaussPi ι).map (fun x => x i) = gaussianReal 0 1 := (measurePreserving_eval _ i).map_eq

theorem gaussReal_exp_sq {t : ℝ} (ht : 0 ≤ t) : ∫ x, Real.exp (-t * x ^ 2) ∂gaussianReal 0 1 = (1 + 2 * t) ^ (-(1 / 2) : ℝ) := by
  rw [integral_gaussianReal_eq_integral_smul (by norm_num)]
  have h : ∀ x : ℝ, gaussianPDFReal 0 1 x • Real.exp (-t * x ^ 2) = (Real.sqrt (2 * Real.pi))⁻¹ * Real.exp (-(t + 1 / 2) * x ^ 2) := by
    intro x
    simp only [gaussianPDFReal, NNReal.coe_one, mul_one, sub_zero, smul_eq_mul, mul_assoc, ← Real.exp_add]
    congr 2
    ring
  simp only [h]
  rw [integral_const_mul, integral_gaussian, ← Real.sqrt_inv, ← Real.sqrt_mul (by positivity), Real.rpow_neg (by positivity), ← Real.sqrt_eq_rpow, ← Real.sqrt_inv]
  congr 1
  have := Real.pi_pos
  field_simp
  ring

/-- The Laplace transform of a sum of `d` squares. -/
theorem gaussPi_laplace [DecidableEq ι] (S : Finset ι) {t : ℝ} (ht : 0 ≤ t) :
    ∫ x, Real.exp (-t * ∑ i ∈ S, x i ^ 2) ∂gaussPi ι = (1 + 2 * t) ^ (-(S.card / 2) : ℝ) := by
  have h : ∀ x : ι → ℝ, Real.exp (-t * ∑ i ∈ S, x i ^ 2) = ∏ i, (if i ∈ S then Real.exp (-t * x i ^ 2) else 1) := by
    intro x
    rw [Finset.mul_sum, Real.exp_sum, Finset.prod_ite_mem, Finset.univ_inter]
  simp only [h]
  unfold gaussPi
  rw [integral_fintype_prod_eq_prod (fun i (y : ℝ) => if i ∈ S then Real.exp (-t * y ^ 2) else 1)]
  have h2 : ∀ i, ∫ y, (if i ∈ S then Real.exp (-t * y ^ 2) else 1) ∂gaussianReal 0 1 = if i ∈ S then (1 + 2 * t) ^ (-(1 / 2) : ℝ) else 1 := by
    intro i
    split_ifs
    · exact gaussReal_exp_sq ht
    · simp
  simp only [h2]
  rw [Finset.prod_ite_mem, Finset.univ_inter, Finset.prod_const, ← Real.rpow_natCast, ← Real.rpow_mul (by positivity)]
  congr 1
  ring

theorem lintegral_laplace_inv {s : ℝ} (hs : 0 ≤ s) : (ENNReal.ofReal s)⁻¹ = ∫⁻ t in Set.Ioi (0 : ℝ), ENNReal.ofReal (Real.exp (-t * s)) := by
  rcases hs.eq_or_lt with rfl | hs
  · simp
  · have h1 : IntegrableOn (fun t => Real.exp (-t * s)) (Set.Ioi (0 : ℝ)) := by
      have := exp_neg_integrableOn_Ioi 0 hs
      simpa [mul_comm] using this
    rw [← ofReal_integral_eq_lintegral_ofReal h1 (Filter.Eventually.of_forall fun t => (Real.exp_pos _).le), ← ENNReal.ofReal_inv_of_pos hs]
    congr 1
    have h2 := integral_exp_mul_Ioi (a := -s) (by linarith) 0
    have h3 : ∀ t : ℝ, Real.exp (-t * s) = Real.exp (-s * t) := fun t => by congr 1; ring
    simp only [h3]
    rw [h2]
    simp

theorem lintegral_pow_half {d : ℝ} (hd : 2 < d) : ∫⁻ t in Set.Ioi (0 : ℝ), ENNReal.ofReal ((1 + 2 * t) ^ (-(d / 2) : ℝ)) = ENNReal.ofReal (1 / (d - 2)) := by
  have hderiv : ∀ t ∈ Set.Ici (0 : ℝ), HasDerivAt (fun t : ℝ => -(1 / (d - 2)) * (1 + 2 * t) ^ (1 - d / 2 : ℝ)) ((1 + 2 * t) ^ (-(d / 2) : ℝ)) t := by
    intro t ht
    have ht : (0 : ℝ) ≤ t := ht
    have h1 : HasDerivAt (fun t : ℝ => 1 + 2 * t) 2 t := by simpa using ((hasDerivAt_id t).const_mul 2).const_add 1
    have h2 := (h1.rpow_const (p := 1 - d / 2) (Or.inl (by positivity))).const_mul (-(1 / (d - 2)))
    refine h2.congr_deriv ?_
    have h3 : (1 - d / 2 - 1 : ℝ) = -(d / 2) := by ring
    rw [h3]
    have : d - 2 ≠ 0 := by linarith
    field_simp
    ring
  have hpos : ∀ t ∈ Set.Ioi (0 : ℝ), 0 ≤ (1 + 2 * t) ^ (-(d / 2) : ℝ) := fun t ht => by
    have ht : (0 : ℝ) < t := ht
    positivity
  have hlim : Filter.Tendsto (fun t : ℝ => -(1 / (d - 2)) * (1 + 2 * t) ^ (1 - d / 2 : ℝ)) Filter.atTop (nhds 0) := by
    have h1 : Filter.Tendsto (fun t : ℝ => 1 + 2 * t) Filter.atTop Filter.atTop :=
      Filter.tendsto_atTop_add_const_left _ _ (Filter.tendsto_id.const_mul_atTop (by norm_num))
    have h2 := ((tendsto_rpow_neg_atTop (y := d / 2 - 1) (by linarith)).comp h1).const_mul (-(1 / (d - 2)))
    rw [mul_zero] at h2
    refine h2.congr fun t => ?_
    simp only [Function.comp_apply, neg_sub]
  have hint := integrableOn_Ioi_deriv_of_nonneg' hderiv hpos hlim
  have hval := integral_Ioi_of_hasDerivAt_of_nonneg' hderiv hpos hlim
  rw [← ofReal_integral_eq_lintegral_ofReal hint, hval]
  · congr 1
    simp
  · rw [Filter.EventuallyLE, ae_restrict_iff' measurableSet_Ioi]
    exact Filter.Eventually.of_forall hpos

/-- The mean of the inverse of a sum of `d > 2` squares. -/
theorem gaussPi_inv_sum [DecidableEq ι] (S : Finset ι) (hS : 2 < S.card) :
    ∫⁻ x, (ENNReal.ofReal (∑ i ∈ S, x i ^ 2))⁻¹ ∂gaussPi ι = ENNReal.ofReal (1 / (S.card - 2)) := by
  have h1 : ∀ x : ι → ℝ, (ENNReal.ofReal (∑ i ∈ S, x i ^ 2))⁻¹ = ∫⁻ t in Set.Ioi (0 : ℝ), ENNReal.ofReal (Real.exp (-t * ∑ i ∈ S, x i ^ 2)) := fun x =>
    lintegral_laplace_inv (Finset.sum_nonneg fun i _ => sq_nonneg _)
  simp only [h1]
  rw [lintegral_lintegral_swap]
  · rw [← lintegral_pow_half (d := S.card) (by exact_mod_cast hS)]
    refine setLIntegral_congr_fun measurableSet_Ioi fun t ht => ?_
    have ht : (0 : ℝ) < t := ht
    rw [← gaussPi_laplace S ht.le, ofReal_integral_eq_lintegral_ofReal _ (Filter.Eventually.of_forall fun x => (Real.exp_pos _).le)]
    refine Integrable.of_bound (Measurable.aestronglyMeasurable (by fun_prop)) 1 (Filter.Eventually.of_forall fun x => ?_)
    rw [Real.norm_eq_abs, abs_of_pos (Real.exp_pos _), Real.exp_le_one_iff]
    have : 0 ≤ t * ∑ i ∈ S, x i ^ 2 := mul_nonneg ht.le (Finset.sum_nonneg fun i _ => sq_nonneg _)
    linarith
  · have : Measurable fun p : (ι → ℝ) × ℝ => ENNReal.ofReal (Real.exp (-p.2 * ∑ i ∈ S, p.1 i ^ 2)) := by fun_prop
    exact this.aemeasurable

/-- The same for the squares of the coefficients along `d` orthonormal vectors. -/
theorem gaussPi_inv_orth [DecidableEq ι] {d : ℕ} (hd : 2 < d) (e : Fin d → EuclideanSpace ℝ ι) (he : Orthonormal ℝ e) :
    ∫⁻ x, (ENNReal.ofReal (∑ l, (∑ i, e l i * x i) ^ 2))⁻¹ ∂gaussPi ι = ENNReal.ofReal (1 / (d - 2)) := by
  have hcard : d ≤ Fintype.card ι := by
    have := he.linearIndependent.fintype_card_le_finrank
    simpa using this
  obtain ⟨f⟩ : Nonempty (Fin d ↪ ι) := Function.Embedding.nonempty_of_card_le (by simpa using hcard)
  obtain ⟨v, hv⟩ : ∃ v : ι → EuclideanSpace ℝ ι, ∀ l, v (f l) = e l :=
    ⟨fun i => if h : ∃ l, f l = i then e h.choose else 0, fun l => by
      have h : ∃ l', f l' = f l := ⟨l, rfl⟩
      simp only [h, dite_true]
      rw [f.injective h.choose_spec]⟩
  have hvo : Orthonormal ℝ ((Set.range f).domRestrict v) := by
    have h1 : (Set.range f).domRestrict v = e ∘ (Equiv.ofInjective f f.injective).symm := by
      funext ⟨i, l, hl⟩
      subst hl
      simp only [Set.domRestrict_apply, hv, Function.comp_apply]
      congr 1
      exact ((Equiv.ofInjective f f.injective).symm_apply_apply l).symm
    rw [h1]
    exact he.comp _ (Equiv.injective _)
  obtain ⟨b, hb⟩ := hvo.exists_orthonormalBasis_extension_of_card_eq (by simp)
  have h1 := gaussPi_rot b
  have h2 := gaussPi_inv_sum (ι := ι) (Finset.univ.map f) (by simpa using hd)
  rw [← h1.map_eq, lintegral_map (by fun_prop) h1.measurable] at h2
  simp only [Finset.sum_map, Finset.card_map, Finset.card_univ, Fintype.card_fin] at h2
  have hbf : ∀ l, b (f l) = e l := fun l => (hb _ ⟨l, rfl⟩).trans (hv l)
  simp only [hbf] at h2
  exact h2

/-- The mean of the square of a linear form. -/
theorem gaussPi_linear_sq (c : ι → ℝ) : ∫⁻ x, ENNReal.ofReal ((∑ i, c i * x i) ^ 2) ∂gaussPi ι = ENNReal.ofReal (∑ i, c i ^ 2) := by
  obtain ⟨f, hf⟩ : ∃ f : ι → ℕ, Function.Injective f := ⟨_, (Fin.val_injective).comp (Fintype.equivFin ι).injective⟩
  have h := gaussPi_of_stream f hf
  rw [← h.map_eq, lintegral_map (by fun_prop) h.measurable]
  have h1 : ∀ z : ℕ → ℝ, (∑ i, c i * z (f i)) ^ 2 = ∑ i, ∑ j, c i * c j * (z (f i) * z (f j)) := by
    intro z
    rw [pow_two, Finset.sum_mul_sum]
    exact Finset.sum_congr rfl fun i _ => Finset.sum_congr rfl fun j _ => by ring
  have hi : Integrable (fun z : ℕ → ℝ => (∑ i, c i * z (f i)) ^ 2) gaussStream := by
    simp only [h1]
    exact integrable_finsetSum _ fun i _ => integrable_finsetSum _ fun j _ => (gauss_integrable2 _ _).const_mul _
  rw [← ofReal_integral_eq_lintegral_ofReal hi (Filter.Eventually.of_forall fun z => sq_nonneg _)]
  congr 1
  simp only [h1]
  rw [integral_finsetSum _ fun i _ => integrable_finsetSum _ fun j _ => (gauss_integrable2 _ _).const_mul _]
  refine Finset.sum_congr rfl fun i _ => ?_
  rw [integral_finsetSum _ fun j _ => (gauss_integrable2 _ _).const_mul _]
  rw [Finset.sum_eq_single i]
  · rw [integral_const_mul, gauss_two, if_pos rfl]; ring
  · intro j _ hj
    rw [integral_const_mul, gauss_two, if_neg fun h => hj (hf h).symm, mul_zero]
  · intro h; exact absurd (Finset.mem_univ i) h

end Primate
