import Verif.Lemmas.GaussRot
import Verif.Props.HutchppGauss

/-! # Property C119: mean squared error with sphere vectors -/

noncomputable section

namespace Primate

open MeasureTheory ProbabilityTheory Matrix

variable {N : ℕ} {Ω : Type*} [MeasurableSpace Ω] {P : Measure Ω}

/-! ## Fourth moments -/

/-- Product of four entries of the `t`-th sphere vector. -/
def sph4 (t : ℕ) (i j k l : Fin N) (z : ℕ → ℝ) : ℝ :=
  sphereCol (streamCol N z t) i * sphereCol (streamCol N z t) j * (sphereCol (streamCol N z t) k * sphereCol (streamCol N z t) l)

theorem sph4_measurable (t : ℕ) (i j k l : Fin N) : Measurable (sph4 t i j k l) :=
  ((sphereCol_measurable t i).mul (sphereCol_measurable t j)).mul ((sphereCol_measurable t k).mul (sphereCol_measurable t l))

theorem sph4_integrable (t : ℕ) (i j k l : Fin N) : Integrable (sph4 t i j k l) gaussStream := by
  refine Integrable.of_bound (sph4_measurable t i j k l).aestronglyMeasurable (Real.sqrt N * Real.sqrt N * (Real.sqrt N * Real.sqrt N))
    (Filter.Eventually.of_forall fun z => ?_)
  unfold sph4
  rw [Real.norm_eq_abs, abs_mul, abs_mul, abs_mul]
  have h := fun i => sphereCol_sq (streamCol N z t) i
  have h0 := Real.sqrt_nonneg (N : ℝ)
  exact mul_le_mul (mul_le_mul (h i) (h j) (abs_nonneg _) h0) (mul_le_mul (h k) (h l) (abs_nonneg _) h0)
    (mul_nonneg (abs_nonneg _) (abs_nonneg _)) (mul_nonneg h0 h0)

/-- Changing the sign of an entry of the normal vector changes the sign of the entry of the sphere vector. -/
theorem sphere_flip (t : ℕ) (i m : Fin N) (z : ℕ → ℝ) : sphereCol (streamCol N (fun q => if q = t * N + i then -z q else z q) t) m =
    if m = i then -sphereCol (streamCol N z t) m else sphereCol (streamCol N z t) m := by
  have h1 : streamCol N (fun q => if q = t * N + i then -z q else z q) t = fun m => if m = i then -streamCol N z t m else streamCol N z t m := by
    funext m
    unfold streamCol
    by_cases hmi : m = i
    · subst hmi; simp
    · show (if t * N + (m : ℕ) = t * N + i then _ else z (t * N + m)) = _
      rw [if_neg hmi, if_neg fun h => hmi (Fin.ext (by omega))]
  rw [h1]
  generalize streamCol N z t = x
  have h2 : ∑ m, (if m = i then -x m else x m) ^ 2 = ∑ m, x m ^ 2 :=
    Finset.sum_congr rfl fun m _ => by split_ifs <;> ring
  unfold sphereCol
  dsimp only
  rw [h2]
  split_ifs <;> ring

/-- Rotating two entries of the normal vector rotates those of the sphere vector. -/
theorem sphere_rot (t : ℕ) (i j m : Fin N) (hij : i ≠ j) (z : ℕ → ℝ) : sphereCol (streamCol N (rotTwo (t * N + i) (t * N + j) z) t) m =
    if m = i then Real.sqrt 2 / 2 * (sphereCol (streamCol N z t) i - sphereCol (streamCol N z t) j)
    else if m = j then Real.sqrt 2 / 2 * (sphereCol (streamCol N z t) i + sphereCol (streamCol N z t) j) else sphereCol (streamCol N z t) m := by
  have h1 : streamCol N (rotTwo (t * N + i) (t * N + j) z) t = fun m => if m = i then Real.sqrt 2 / 2 * (streamCol N z t i - streamCol N z t j)
      else if m = j then Real.sqrt 2 / 2 * (streamCol N z t i + streamCol N z t j) else streamCol N z t m := by
    funext m
    unfold streamCol rotTwo setTwo
    by_cases hmi : m = i
    · subst hmi; simp
    · rw [if_neg fun h => hmi (Fin.ext (by omega)), if_neg hmi]
      by_cases hmj : m = j
      · subst hmj; simp
      · rw [if_neg fun h => hmj (Fin.ext (by omega)), if_neg hmj]
  rw [h1]
  generalize streamCol N z t = x
  have hs : Real.sqrt 2 * Real.sqrt 2 = 2 := Real.mul_self_sqrt (by norm_num)
  have h2 : ∑ m, (if m = i then Real.sqrt 2 / 2 * (x i - x j) else if m = j then Real.sqrt 2 / 2 * (x i + x j) else x m) ^ 2 = ∑ m, x m ^ 2 := by
    rw [← Finset.add_sum_erase _ _ (Finset.mem_univ i), ← Finset.add_sum_erase _ _ (show j ∈ Finset.univ.erase i by simp [hij.symm])]
    rw [← Finset.add_sum_erase _ (fun m => x m ^ 2) (Finset.mem_univ i), ← Finset.add_sum_erase _ (fun m => x m ^ 2) (show j ∈ Finset.univ.erase i by simp [hij.symm])]
    have h3 : ∑ m ∈ (Finset.univ.erase i).erase j, (if m = i then Real.sqrt 2 / 2 * (x i - x j) else if m = j then Real.sqrt 2 / 2 * (x i + x j) else x m) ^ 2 =
        ∑ m ∈ (Finset.univ.erase i).erase j, x m ^ 2 := by
      refine Finset.sum_congr rfl fun m hm => ?_
      simp only [Finset.mem_erase] at hm
      rw [if_neg hm.2.1, if_neg hm.1]
    rw [h3, if_pos rfl, if_neg hij.symm, if_pos rfl]
    linear_combination (1/4 * (x i - x j) ^ 2 + 1/4 * (x i + x j) ^ 2) * hs
  unfold sphereCol
  dsimp only
  rw [h2]
  split_ifs <;> ring

theorem sph4_odd (t : ℕ) (i j k l m : Fin N) (h : Odd ((if i = m then 1 else 0) + (if j = m then 1 else 0) + (if k = m then 1 else 0) + (if l = m then 1 else 0) : ℕ)) :
    ∫ z, sph4 t i j k l z ∂gaussStream = 0 := by
  refine gauss_odd (t * N + m) _ (sph4_measurable t i j k l) fun z => ?_
  unfold sph4
  simp only [sphere_flip]
  split_ifs at h ⊢ <;> first | (exfalso; revert h; decide) | ring

theorem sph4_swap (t : ℕ) (i j : Fin N) (hij : i ≠ j) : ∫ z, sph4 t i i j j z ∂gaussStream =
    (∫ z, sph4 t i i i i z ∂gaussStream + ∫ z, sph4 t j j j j z ∂gaussStream - 2 * ∫ z, sph4 t i i j j z ∂gaussStream) / 4 := by
  have hne : t * N + (i : ℕ) ≠ t * N + j := fun h => hij (Fin.ext (by omega))
  have hr := gauss_rot _ _ hne
  have h1 : ∫ z, sph4 t i i j j z ∂gaussStream = ∫ z, sph4 t i i j j (rotTwo (t * N + i) (t * N + j) z) ∂gaussStream := by
    conv_lhs => rw [← hr.map_eq]
    exact integral_map hr.measurable.aemeasurable (sph4_measurable t i i j j).aestronglyMeasurable
  refine h1.trans ?_
  have h2 : ∀ z, sph4 t i i j j (rotTwo (t * N + i) (t * N + j) z) = (sph4 t i i i i z + sph4 t j j j j z - 2 * sph4 t i i j j z) / 4 := by
    intro z
    unfold sph4
    simp only [sphere_rot t i j _ hij, if_true, if_neg hij.symm]
    have hs : Real.sqrt 2 * Real.sqrt 2 = 2 := Real.mul_self_sqrt (by norm_num)
    generalize sphereCol (streamCol N z t) i = a
    generalize sphereCol (streamCol N z t) j = b
    linear_combination (1/16 * (a - b) ^ 2 * (a + b) ^ 2 * (Real.sqrt 2 * Real.sqrt 2 + 2)) * hs
  simp only [h2]
  have i1 : Integrable (fun z => sph4 t i i i i z + sph4 t j j j j z) gaussStream := (sph4_integrable t i i i i).add (sph4_integrable t j j j j)
  rw [integral_div, integral_sub i1 ((sph4_integrable t i i j j).const_mul 2), integral_add (sph4_integrable t i i i i) (sph4_integrable t j j j j),
    integral_const_mul]

theorem sph4_sum (t : ℕ) (i : Fin N) : ∑ j, ∫ z, sph4 t i i j j z ∂gaussStream = N := by
  rw [← integral_finsetSum _ fun j _ => sph4_integrable t i i j j]
  have hae : ∀ᵐ z ∂gaussStream, ∑ j, sph4 t i i j j z = N * (sphereCol (streamCol N z t) i * sphereCol (streamCol N z t) i) := by
    filter_upwards [gauss_ne_zero (t * N + i)] with z hz
    unfold sph4
    rw [← Finset.mul_sum, sphereCol_sum _ fun h => hz (congrFun h i), mul_comm]
  rw [integral_congr_ae hae, integral_const_mul, (sphere_pair t i i).2, if_pos rfl, mul_one]

theorem sph4_fourth (t : ℕ) (i : Fin N) : ∫ z, sph4 t i i i i z ∂gaussStream = 3 * (N / (N + 2)) := by
  have hb : ∀ i j : Fin N, i ≠ j → ∫ z, sph4 t i i j j z ∂gaussStream = (∫ z, sph4 t i i i i z ∂gaussStream + ∫ z, sph4 t j j j j z ∂gaussStream) / 6 := by
    intro i j hij
    have := sph4_swap t i j hij
    linarith
  obtain ⟨a, ha⟩ : ∃ a : Fin N → ℝ, a = fun i => ∫ z, sph4 t i i i i z ∂gaussStream := ⟨_, rfl⟩
  obtain ⟨S, hS⟩ : ∃ S, S = ∑ j, a j := ⟨_, rfl⟩
  have hi : ∀ i, a i * ((N + 4) / 6) = N - S / 6 := by
    intro i
    have h := sph4_sum t i
    have h1 : ∀ j, ∫ z, sph4 t i i j j z ∂gaussStream = (a i + a j) / 6 + if j = i then 2 / 3 * a i else 0 := by
      intro j
      by_cases hij : j = i
      · subst hij
        rw [if_pos rfl, ha]
        ring
      · rw [if_neg hij, hb i j (Ne.symm hij), ha, add_zero]
    simp only [h1] at h
    rw [Finset.sum_add_distrib, Finset.sum_ite_eq' Finset.univ i, if_pos (Finset.mem_univ i), ← Finset.sum_div, Finset.sum_add_distrib, ← hS] at h
    simp only [Finset.sum_const, Finset.card_univ, Fintype.card_fin, nsmul_eq_mul] at h
    linarith
  have hN : (0 : ℝ) < N := by exact_mod_cast i.pos
  have hc : ∀ j, a j = a i := by
    intro j
    have := (hi j).trans (hi i).symm
    exact mul_right_cancel₀ (by positivity) this
  have hSa : S = N * a i := by
    rw [hS]
    simp only [hc, Finset.sum_const, Finset.card_univ, Fintype.card_fin, nsmul_eq_mul]
  have h1 := hi i
  rw [hSa] at h1
  have h2 : a i = ∫ z, sph4 t i i i i z ∂gaussStream := by rw [ha]
  rw [← h2]
  field_simp
  linarith

theorem sph4_two (t : ℕ) (i j : Fin N) (hij : i ≠ j) : ∫ z, sph4 t i i j j z ∂gaussStream = N / (N + 2) := by
  have h := sph4_swap t i j hij
  rw [sph4_fourth, sph4_fourth] at h
  linarith

/-- Fourth moments of the uniform distribution on the sphere of radius `√N`. -/
theorem sph4_moment (t : ℕ) (i j k l : Fin N) : ∫ z, sph4 t i j k l z ∂gaussStream = N / (N + 2) *
    ((if i = j ∧ k = l then 1 else 0) + (if i = k ∧ j = l then 1 else 0) + (if i = l ∧ j = k then 1 else 0)) := by
  by_cases hij : i = j
  · subst hij
    by_cases hkl : k = l
    · subst hkl
      by_cases hik : i = k
      · subst hik
        rw [sph4_fourth]
        simp only [and_self, if_true]
        ring
      · rw [sph4_two t i k hik]
        simp [hik]
    · rw [sph4_odd t i i k l k]
      · have h1 : ¬ (i = k ∧ i = l) := fun h => hkl (h.1.symm.trans h.2)
        have h2 : ¬ (i = l ∧ i = k) := fun h => hkl (h.2.symm.trans h.1)
        simp [hkl, h1, h2]
      · rw [if_pos rfl, if_neg (Ne.symm hkl)]
        split_ifs <;> decide
  · by_cases h1 : i = k ∧ j = l
    · obtain ⟨rfl, rfl⟩ := h1
      have e : sph4 (N := N) t i j i j = sph4 t i i j j := by funext z; unfold sph4; ring
      rw [e, sph4_two t i j hij]
      simp [hij]
    · by_cases h2 : i = l ∧ j = k
      · obtain ⟨rfl, rfl⟩ := h2
        have e : sph4 (N := N) t i j j i = sph4 t i i j j := by funext z; unfold sph4; ring
        rw [e, sph4_two t i j hij]
        simp [hij]
      · have h0 : ∫ z, sph4 t i j k l z ∂gaussStream = 0 := by
          by_cases hik : i = k
          · have hjl : l ≠ j := fun h => h1 ⟨hik, h.symm⟩
            refine sph4_odd t i j k l j ?_
            rw [if_neg hij, if_pos rfl, if_neg (by rw [← hik]; exact hij), if_neg hjl]
            decide
          · by_cases hil : i = l
            · have hjk : k ≠ j := fun h => h2 ⟨hil, h.symm⟩
              refine sph4_odd t i j k l j ?_
              rw [if_neg hij, if_pos rfl, if_neg hjk, if_neg (by rw [← hil]; exact hij)]
              decide
            · refine sph4_odd t i j k l i ?_
              rw [if_pos rfl, if_neg (Ne.symm hij), if_neg (Ne.symm hik), if_neg (Ne.symm hil)]
              decide
        rw [h0]
        simp [hij, h1, h2]

/-! ## The error of the average -/

/-- Functions of different columns of a stream are independent. -/
theorem gauss_blocks (t s : ℕ) (hst : s ≠ t) (f g : Vec N → ℝ) (hf : Measurable f) (hg : Measurable g) :
    ∫ z, f (streamCol N z t) * g (streamCol N z s) ∂gaussStream = (∫ z, f (streamCol N z t) ∂gaussStream) * ∫ z, g (streamCol N z s) ∂gaussStream := by
  have hcol : ∀ t, Measurable fun z : ℕ → ℝ => streamCol N z t := fun t => measurable_pi_lambda _ fun i => measurable_pi_apply _
  have hmp := gauss_splice (inBlock N t)
  have hm : Measurable fun z => f (streamCol N z t) * g (streamCol N z s) := (hf.comp (hcol t)).mul (hg.comp (hcol s))
  have h1 : ∫ z, f (streamCol N z t) * g (streamCol N z s) ∂gaussStream =
      ∫ p : (ℕ → ℝ) × (ℕ → ℝ), g (streamCol N p.1 s) * f (streamCol N p.2 t) ∂(gaussStream.prod gaussStream) := by
    conv_lhs => rw [← hmp.map_eq]
    rw [integral_map hmp.measurable.aemeasurable hm.aestronglyMeasurable]
    refine integral_congr_ae (Filter.Eventually.of_forall fun p => ?_)
    have e1 : streamCol N (splice (inBlock N t) p.1 p.2) t = streamCol N p.2 t := splice_same t p.1 p.2
    have e2 : streamCol N (splice (inBlock N t) p.1 p.2) s = streamCol N p.1 s := splice_other t s hst p.1 p.2
    show f (streamCol N (splice (inBlock N t) p.1 p.2) t) * g (streamCol N (splice (inBlock N t) p.1 p.2) s) = _
    rw [e1, e2, mul_comm]
  rw [h1, integral_prod_mul (fun z => g (streamCol N z s)) fun z => f (streamCol N z t), mul_comm]

/-- Variance of the quadratic form of a sphere vector. -/
def Spec.sphereVar (A : Matrix (Fin N) (Fin N) ℝ) : ℝ := N / (N + 2) * (A.trace ^ 2 + ∑ i, ∑ j, A i j * (A i j + A j i)) - A.trace ^ 2

theorem sphere_quad_measurable (A : Matrix (Fin N) (Fin N) ℝ) : Measurable fun x : Vec N => Spec.quad A (sphereCol x) - A.trace := by
  unfold Spec.quad sphereCol
  fun_prop

theorem sphere_quad_le (A : Matrix (Fin N) (Fin N) ℝ) (x : Vec N) : |Spec.quad A (sphereCol x) - A.trace| ≤ absSum A * N + |A.trace| := by
  refine (abs_sub _ _).trans (add_le_add_left ?_ _)
  unfold Spec.quad absSum
  rw [Finset.sum_mul]
  refine (Finset.abs_sum_le_sum_abs _ _).trans (Finset.sum_le_sum fun i _ => ?_)
  rw [Finset.sum_mul]
  refine (Finset.abs_sum_le_sum_abs _ _).trans (Finset.sum_le_sum fun j _ => ?_)
  rw [abs_mul, abs_mul, mul_assoc]
  refine mul_le_mul_of_nonneg_left ?_ (abs_nonneg _)
  have h := mul_le_mul (sphereCol_sq x i) (sphereCol_sq x j) (abs_nonneg _) (Real.sqrt_nonneg _)
  rwa [Real.mul_self_sqrt (Nat.cast_nonneg _)] at h

theorem sphere_quad_integrable (A : Matrix (Fin N) (Fin N) ℝ) (t s : ℕ) :
    Integrable (fun z => (Spec.quad A (sphereCol (streamCol N z t)) - A.trace) * (Spec.quad A (sphereCol (streamCol N z s)) - A.trace)) gaussStream := by
  have hcol : ∀ t, Measurable fun z : ℕ → ℝ => streamCol N z t := fun t => measurable_pi_lambda _ fun i => measurable_pi_apply _
  refine Integrable.of_bound (((sphere_quad_measurable A).comp (hcol t)).mul ((sphere_quad_measurable A).comp (hcol s))).aestronglyMeasurable
    ((absSum A * N + |A.trace|) * (absSum A * N + |A.trace|)) (Filter.Eventually.of_forall fun z => ?_)
  show |_ * _| ≤ _
  rw [abs_mul]
  exact mul_le_mul (sphere_quad_le A _) (sphere_quad_le A _) (abs_nonneg _) ((abs_nonneg _).trans (sphere_quad_le A (streamCol N z t)))

theorem sphere_quad_mean (A : Matrix (Fin N) (Fin N) ℝ) (t : ℕ) : Integrable (fun z => Spec.quad A (sphereCol (streamCol N z t))) gaussStream ∧
    ∫ z, (Spec.quad A (sphereCol (streamCol N z t)) - A.trace) ∂gaussStream = 0 := by
  have hint : ∀ i j : Fin N, Integrable (fun z => A i j * (sphereCol (streamCol N z t) i * sphereCol (streamCol N z t) j)) gaussStream :=
    fun i j => (sphere_pair t i j).1.const_mul _
  have e : ∀ z, Spec.quad A (sphereCol (streamCol N z t)) = ∑ i, ∑ j, A i j * (sphereCol (streamCol N z t) i * sphereCol (streamCol N z t) j) := by
    intro z
    unfold Spec.quad
    exact Finset.sum_congr rfl fun i _ => Finset.sum_congr rfl fun j _ => by ring
  have h1 : Integrable (fun z => Spec.quad A (sphereCol (streamCol N z t))) gaussStream := by
    simp only [e]
    exact integrable_finsetSum _ fun i _ => integrable_finsetSum _ fun j _ => hint i j
  refine ⟨h1, ?_⟩
  rw [integral_sub h1 (integrable_const _)]
  simp only [e]
  rw [integral_finsetSum _ fun i _ => integrable_finsetSum _ fun j _ => hint i j]
  simp only [fun i => integral_finsetSum (μ := gaussStream) Finset.univ fun j _ => hint i j, integral_const_mul, (sphere_pair _ _ _).2]
  simp [Matrix.trace]

theorem sphere_quad_sq (A : Matrix (Fin N) (Fin N) ℝ) (t : ℕ) :
    ∫ z, (Spec.quad A (sphereCol (streamCol N z t)) - A.trace) * (Spec.quad A (sphereCol (streamCol N z t)) - A.trace) ∂gaussStream = Spec.sphereVar A := by
  have e : ∀ z, Spec.quad A (sphereCol (streamCol N z t)) * Spec.quad A (sphereCol (streamCol N z t)) = ∑ i, ∑ j, ∑ k, ∑ l, A i j * A k l * sph4 t i j k l z := by
    intro z
    unfold Spec.quad
    rw [Finset.sum_mul]
    refine Finset.sum_congr rfl fun i _ => ?_
    rw [Finset.sum_mul]
    refine Finset.sum_congr rfl fun j _ => ?_
    rw [Finset.mul_sum]
    refine Finset.sum_congr rfl fun k _ => ?_
    rw [Finset.mul_sum]
    refine Finset.sum_congr rfl fun l _ => ?_
    unfold sph4
    ring
  have hint : ∀ i j k l : Fin N, Integrable (fun z => A i j * A k l * sph4 t i j k l z) gaussStream := fun i j k l => (sph4_integrable t i j k l).const_mul _
  have i1 : ∀ i j k : Fin N, Integrable (fun z => ∑ l, A i j * A k l * sph4 t i j k l z) gaussStream := fun i j k => integrable_finsetSum _ fun l _ => hint i j k l
  have i2 : ∀ i j : Fin N, Integrable (fun z => ∑ k, ∑ l, A i j * A k l * sph4 t i j k l z) gaussStream := fun i j => integrable_finsetSum _ fun k _ => i1 i j k
  have i3 : ∀ i : Fin N, Integrable (fun z => ∑ j, ∑ k, ∑ l, A i j * A k l * sph4 t i j k l z) gaussStream := fun i => integrable_finsetSum _ fun j _ => i2 i j
  have hq : Integrable (fun z => Spec.quad A (sphereCol (streamCol N z t)) * Spec.quad A (sphereCol (streamCol N z t))) gaussStream := by
    simp only [e]
    exact integrable_finsetSum _ fun i _ => i3 i
  have h2 : ∫ z, Spec.quad A (sphereCol (streamCol N z t)) * Spec.quad A (sphereCol (streamCol N z t)) ∂gaussStream =
      N / (N + 2) * (A.trace ^ 2 + ∑ i, ∑ j, A i j * (A i j + A j i)) := by
    simp only [e]
    rw [integral_finsetSum _ fun i _ => i3 i]
    simp only [fun i => integral_finsetSum (μ := gaussStream) Finset.univ fun j _ => i2 i j, fun i j => integral_finsetSum (μ := gaussStream) Finset.univ fun k _ => i1 i j k,
      fun i j k => integral_finsetSum (μ := gaussStream) Finset.univ fun l _ => hint i j k l, integral_const_mul, sph4_moment]
    have e1 : ∀ i j k l : Fin N, A i j * A k l * ((N : ℝ) / (N + 2) *
        ((if i = j ∧ k = l then 1 else 0) + (if i = k ∧ j = l then 1 else 0) + (if i = l ∧ j = k then 1 else 0))) =
        N / (N + 2) * ((if i = j then (if k = l then A i j * A k l else 0) else 0) + (if i = k then (if j = l then A i j * A k l else 0) else 0) +
          (if j = k then (if i = l then A i j * A k l else 0) else 0)) := by
      intro i j k l
      have a1 : (if i = j ∧ k = l then (1 : ℝ) else 0) = if i = j then (if k = l then 1 else 0) else 0 := by split_ifs <;> simp_all
      have a2 : (if i = k ∧ j = l then (1 : ℝ) else 0) = if i = k then (if j = l then 1 else 0) else 0 := by split_ifs <;> simp_all
      have a3 : (if i = l ∧ j = k then (1 : ℝ) else 0) = if j = k then (if i = l then 1 else 0) else 0 := by split_ifs <;> simp_all
      rw [a1, a2, a3]
      split_ifs <;> ring
    simp only [e1, ← Finset.mul_sum, Finset.sum_add_distrib]
    congr 1
    rw [add_assoc]
    congr 1
    · have : ∀ i j : Fin N, (∑ k, ∑ l, if i = j then (if k = l then A i j * A k l else 0) else 0) = if i = j then A i j * A.trace else 0 := by
        intro i j
        split_ifs
        · simp only [Finset.sum_ite_eq, Finset.mem_univ, if_true, ← Finset.mul_sum]
          rfl
        · simp
      simp only [this, Finset.sum_ite_eq, Finset.mem_univ, if_true, ← Finset.sum_mul]
      rw [sq]
      rfl
    · rw [← Finset.sum_add_distrib]
      refine Finset.sum_congr rfl fun i _ => ?_
      rw [← Finset.sum_add_distrib]
      refine Finset.sum_congr rfl fun j _ => ?_
      have b1 : (∑ k, ∑ l, if i = k then (if j = l then A i j * A k l else 0) else 0) = A i j * A i j := by
        rw [Finset.sum_comm]
        simp
      have b2 : (∑ k, ∑ l, if j = k then (if i = l then A i j * A k l else 0) else 0) = A i j * A j i := by
        rw [Finset.sum_comm]
        simp
      rw [b1, b2]
      ring
  obtain ⟨h3, h4⟩ := sphere_quad_mean A t
  have e2 : ∀ z, (Spec.quad A (sphereCol (streamCol N z t)) - A.trace) * (Spec.quad A (sphereCol (streamCol N z t)) - A.trace) =
      Spec.quad A (sphereCol (streamCol N z t)) * Spec.quad A (sphereCol (streamCol N z t)) - 2 * A.trace * (Spec.quad A (sphereCol (streamCol N z t)) - A.trace) - A.trace ^ 2 :=
    fun z => by ring
  have i4 : Integrable (fun z => 2 * A.trace * (Spec.quad A (sphereCol (streamCol N z t)) - A.trace)) gaussStream := (h3.sub (integrable_const _)).const_mul _
  have i5 : Integrable (fun z => Spec.quad A (sphereCol (streamCol N z t)) * Spec.quad A (sphereCol (streamCol N z t)) -
    2 * A.trace * (Spec.quad A (sphereCol (streamCol N z t)) - A.trace)) gaussStream := hq.sub i4
  simp only [e2]
  rw [integral_sub i5 (integrable_const _), integral_sub hq i4, h2, integral_const_mul, h4]
  simp [Spec.sphereVar]

/-- The mean squared error of the average over `k` sphere vectors. -/
theorem sphereMean_mse (A : Matrix (Fin N) (Fin N) ℝ) (k : ℕ) (hk : 0 < k) :
    Integrable (fun z => ((∑ t : Fin k, Spec.quad A (sphereCol (streamCol N z t))) / k - A.trace) ^ 2) gaussStream ∧
    ∫ z, ((∑ t : Fin k, Spec.quad A (sphereCol (streamCol N z t))) / k - A.trace) ^ 2 ∂gaussStream = Spec.sphereVar A / k := by
  have hk' : (k : ℝ) ≠ 0 := by exact_mod_cast hk.ne'
  have e : ∀ z, ((∑ t : Fin k, Spec.quad A (sphereCol (streamCol N z t))) / k - A.trace) ^ 2 =
      (∑ t : Fin k, ∑ s : Fin k, (Spec.quad A (sphereCol (streamCol N z t)) - A.trace) * (Spec.quad A (sphereCol (streamCol N z s)) - A.trace)) / k ^ 2 := by
    intro z
    rw [← Finset.sum_mul_sum, ← sq, ← div_pow]
    congr 1
    rw [Finset.sum_sub_distrib]
    simp only [Finset.sum_const, Finset.card_univ, Fintype.card_fin, nsmul_eq_mul]
    field_simp
  have hint : ∀ t s : Fin k, Integrable (fun z => (Spec.quad A (sphereCol (streamCol N z t)) - A.trace) * (Spec.quad A (sphereCol (streamCol N z s)) - A.trace)) gaussStream :=
    fun t s => sphere_quad_integrable A t s
  have i1 : ∀ t : Fin k, Integrable (fun z => ∑ s : Fin k, (Spec.quad A (sphereCol (streamCol N z t)) - A.trace) * (Spec.quad A (sphereCol (streamCol N z s)) - A.trace)) gaussStream :=
    fun t => integrable_finsetSum _ fun s _ => hint t s
  simp only [e]
  refine ⟨(integrable_finsetSum _ fun t _ => i1 t).div_const _, ?_⟩
  rw [integral_div, integral_finsetSum _ fun t _ => i1 t]
  have h1 : ∀ t s : Fin k, ∫ z, (Spec.quad A (sphereCol (streamCol N z t)) - A.trace) * (Spec.quad A (sphereCol (streamCol N z s)) - A.trace) ∂gaussStream =
      if t = s then Spec.sphereVar A else 0 := by
    intro t s
    split_ifs with h
    · subst h
      exact sphere_quad_sq A t
    · have h2 := gauss_blocks (N := N) t s (fun h' => h (Fin.ext h'.symm)) (fun x => Spec.quad A (sphereCol x) - A.trace) (fun x => Spec.quad A (sphereCol x) - A.trace)
        (sphere_quad_measurable A) (sphere_quad_measurable A)
      rw [h2, (sphere_quad_mean A t).2, zero_mul]
  simp only [fun t => integral_finsetSum (μ := gaussStream) Finset.univ fun s _ => hint t s, h1, Finset.sum_ite_eq, Finset.mem_univ, if_true, Finset.sum_const,
    Finset.card_univ, Fintype.card_fin, nsmul_eq_mul]
  field_simp

/-- For symmetric matrices the variance is a multiple of the squared distance to the multiples of the identity. -/
theorem sphereVar_symm (A : Matrix (Fin N) (Fin N) ℝ) (hA : A.IsSymm) (hN : N ≠ 0) :
    Spec.sphereVar A = 2 * N / (N + 2) * ∑ i, ∑ j, (A i j - if i = j then A.trace / N else 0) ^ 2 := by
  have hN' : (N : ℝ) ≠ 0 := by exact_mod_cast hN
  have h1 : ∀ i j, (A i j - if i = j then A.trace / N else 0) ^ 2 = A i j ^ 2 - (if i = j then 2 * (A.trace / N) * A i j - (A.trace / N) ^ 2 else 0) := by
    intro i j
    split_ifs <;> ring
  have h2 : ∀ i j, A i j * (A i j + A j i) = 2 * A i j ^ 2 := by
    intro i j
    rw [hA.apply i j]
    ring
  unfold Spec.sphereVar
  simp only [h1, h2, Finset.sum_sub_distrib, Finset.sum_ite_eq, Finset.mem_univ, if_true, ← Finset.mul_sum, Finset.sum_const, Finset.card_univ, Fintype.card_fin,
    nsmul_eq_mul]
  have h3 : ∑ i, A i i = A.trace := rfl
  rw [h3]
  have h4 : ((N : ℝ) + 2) ≠ 0 := by positivity
  field_simp
  ring

theorem sphereVar_le (A : Matrix (Fin N) (Fin N) ℝ) (hA : A.IsSymm) : Spec.sphereVar A ≤ 2 * ∑ i, ∑ j, A i j ^ 2 := by
  have h2 : ∀ i j, A i j * (A i j + A j i) = 2 * A i j ^ 2 := by
    intro i j
    rw [hA.apply i j]
    ring
  unfold Spec.sphereVar
  simp only [h2, ← Finset.mul_sum]
  have h4 : (0 : ℝ) ≤ N / (N + 2) := by positivity
  have h5 : (N : ℝ) / (N + 2) ≤ 1 := by rw [div_le_one (by positivity)]; linarith
  have h6 : 0 ≤ ∑ i, ∑ j, A i j ^ 2 := Finset.sum_nonneg fun i _ => Finset.sum_nonneg fun j _ => sq_nonneg _
  nlinarith [sq_nonneg A.trace]

/-- C119: with independent normal numbers, `hutch` with sphere vectors and `CountCriterion(k)` has mean squared error `Spec.sphereVar A / k`; for symmetric
matrices this is `2N/((N+2)k)` times the squared Frobenius distance of the matrix to `(tr A/N) I`, never more than with normal vectors (`C112_normal`). -/
theorem C119_hutch [IsProbabilityMeasure P] (tppf : ℝ → ℕ → ℝ) (zscore : ℝ → ℝ) (A : Matrix (Fin N) (Fin N) ℝ) (hN : N ≠ 0) (k : ℕ) (hk : 0 < k)
    (u : ℕ → Ω → ℝ) (X : ℕ → Ω → ℝ) (hX : Spec.IidNormal P X) :
    ∃ est : Ω → ℝ,
      (∀ ω, hutch tppf zscore ⟨fun q => u q ω, fun q => X q ω⟩ (scalarArgs A (.name "sphere") k) (k + 1) = some (.ok (.scalar (.val fun _ => est ω), []))) ∧
      Integrable (fun ω => (est ω - A.trace) ^ 2) P ∧
      ∫ ω, (est ω - A.trace) ^ 2 ∂P = (N / (N + 2) * (A.trace ^ 2 + ∑ i, ∑ j, A i j * (A i j + A j i)) - A.trace ^ 2) / k ∧
      (A.IsSymm →
        ∫ ω, (est ω - A.trace) ^ 2 ∂P = 2 * N / (N + 2) * (∑ i, ∑ j, (A i j - if i = j then A.trace / N else 0) ^ 2) / k ∧
        ∫ ω, (est ω - A.trace) ^ 2 ∂P ≤ 2 * (∑ i, ∑ j, A i j ^ 2) / k) ∧
      ∀ ε : ℝ, 0 < ε → P.real {ω | ε ≤ |est ω - A.trace|} ≤
        (N / (N + 2) * (A.trace ^ 2 + ∑ i, ∑ j, A i j * (A i j + A j i)) - A.trace ^ 2) / (k * ε ^ 2) := by
  have hk' : (0 : ℝ) < k := by exact_mod_cast hk
  obtain ⟨F, hF⟩ : ∃ F : (ℕ → ℝ) → ℝ, F = fun z => (∑ t : Fin k, Spec.quad A (sphereCol (streamCol N z t))) / k := ⟨_, rfl⟩
  obtain ⟨h1, h2⟩ := sphereMean_mse A k hk
  have hFm : Measurable F := by
    have h0 : Measurable fun x : Vec N => Spec.quad A (sphereCol x) := by
      unfold Spec.quad sphereCol
      fun_prop
    have hc : ∀ t : Fin k, Measurable fun z : ℕ → ℝ => Spec.quad A (sphereCol (streamCol N z t)) := fun t =>
      h0.comp (measurable_pi_lambda _ fun i => measurable_pi_apply _)
    rw [hF]
    exact Measurable.div_const (Finset.measurable_sum _ fun t _ => hc t) _
  have h1' : Integrable (fun z => (F z - A.trace) ^ 2) gaussStream := by rw [hF]; exact h1
  have hint : Integrable (fun ω => (F (fun q => X q ω) - A.trace) ^ 2) P := iidNormal_integrable hX (fun z => (F z - A.trace) ^ 2) h1'
  have hmse : ∫ ω, (F (fun q => X q ω) - A.trace) ^ 2 ∂P = Spec.sphereVar A / k := by
    rw [iidNormal_integral hX (fun z => (F z - A.trace) ^ 2) ((hFm.sub_const _).pow_const 2), hF]
    exact h2
  refine ⟨fun ω => F fun q => X q ω, fun ω => ?_, hint, hmse, fun hA => ⟨?_, ?_⟩, fun ε hε => ?_⟩
  · rw [hutch_scalar tppf zscore _ A hN (.name "sphere") _ rfl k hk]
    rw [← Fin.sum_univ_eq_sum_range (fun t => Spec.quad A _), hF]
    congr 6
    funext _
    congr 1
    refine Finset.sum_congr rfl fun t _ => ?_
    congr 1
    simp only [IsoDist.fill, List.sum_replicate, smul_eq_mul, mul_one]
    congr 1
    funext i
    simp only [rawCols, streamCol, Fin.val_zero, zero_mul, add_zero]
  · rw [hmse, sphereVar_symm A hA hN]
  · rw [hmse]
    exact div_le_div_of_nonneg_right (sphereVar_le A hA) hk'.le
  · have h5 := mul_meas_ge_le_integral_of_nonneg (μ := P) (f := fun ω => (F (fun q => X q ω) - A.trace) ^ 2)
      (Filter.Eventually.of_forall fun ω => sq_nonneg _) hint (ε ^ 2)
    have h6 : {ω | ε ^ 2 ≤ (F (fun q => X q ω) - A.trace) ^ 2} = {ω | ε ≤ |F (fun q => X q ω) - A.trace|} := by
      ext ω
      simp only [Set.mem_ofPred_eq]
      rw [← sq_abs (_ - A.trace), pow_le_pow_iff_left₀ hε.le (abs_nonneg _) two_ne_zero]
    rw [h6, hmse, le_div_iff₀ hk'] at h5
    rw [le_div_iff₀ (by positivity)]
    unfold Spec.sphereVar at h5
    linarith

/-! ## hutchpp -/

theorem gaussError_mse_sphere (A : Matrix (Fin N) (Fin N) ℝ) (nb : ℕ) (hnb : 0 < nb) :
    Integrable (fun z => gaussError .sphere A nb z ^ 2) gaussStream ∧
    ∫ z, gaussError .sphere A nb z ^ 2 ∂gaussStream = ∫ z, Spec.sphereVar (gaussResidual .sphere A nb z) / nb ∂gaussStream := by
  have h1 := gaussResidual_measurable .sphere A nb
  obtain ⟨v, hv⟩ : ∃ v : (ℕ → ℝ) → ℝ, v = fun z => Spec.sphereVar (gaussResidual .sphere A nb z) / nb := ⟨_, rfl⟩
  have htr : Measurable fun z => (gaussResidual .sphere A nb z).trace := Finset.measurable_sum _ fun p _ => h1 p p
  have htrb : ∀ z, |(gaussResidual .sphere A nb z).trace| ≤ N * absSum A := by
    intro z
    refine (Finset.abs_sum_le_sum_abs _ _).trans ((Finset.sum_le_sum fun p _ => gaussResidual_le .sphere A nb z p p).trans (le_of_eq ?_))
    simp
  have htri : Integrable (fun z => (gaussResidual .sphere A nb z).trace ^ 2) gaussStream := by
    refine Integrable.of_bound (htr.pow_const 2).aestronglyMeasurable ((N * absSum A) ^ 2) (Filter.Eventually.of_forall fun z => ?_)
    rw [Real.norm_eq_abs, abs_pow]
    exact pow_le_pow_left₀ (abs_nonneg _) (htrb z) 2
  have hvi : Integrable v gaussStream := by
    rw [hv]
    unfold Spec.sphereVar
    refine Integrable.div_const (Integrable.sub ((htri.add (integrable_finsetSum _ fun p _ => integrable_finsetSum _ fun q _ => ?_)).const_mul _) htri) _
    refine Integrable.of_bound ((h1 p q).mul ((h1 p q).add (h1 q p))).aestronglyMeasurable (absSum A * (absSum A + absSum A)) (Filter.Eventually.of_forall fun z => ?_)
    have a1 := gaussResidual_le .sphere A nb z p q
    have a2 := gaussResidual_le .sphere A nb z q p
    show |gaussResidual .sphere A nb z p q * (gaussResidual .sphere A nb z p q + gaussResidual .sphere A nb z q p)| ≤ _
    rw [abs_mul]
    exact mul_le_mul a1 ((abs_add_le _ _).trans (add_le_add a1 a2)) (abs_nonneg _) (absSum_nonneg A)
  have hinner : ∀ z, Integrable (fun w => gaussError .sphere A nb (catStream (nb * N) z w) ^ 2) gaussStream ∧
      ∫ w, gaussError .sphere A nb (catStream (nb * N) z w) ^ 2 ∂gaussStream = v z := by
    intro z
    have h := sphereMean_mse (gaussResidual .sphere A nb z) nb hnb
    rw [hv]
    simp only [gaussError_cat]
    exact h
  have hmp := gauss_cat (nb * N)
  have hm2 : Measurable fun z => gaussError .sphere A nb z ^ 2 := (gaussError_measurable .sphere A nb).pow_const 2
  have hi : Integrable (fun p : (ℕ → ℝ) × (ℕ → ℝ) => gaussError .sphere A nb (catStream (nb * N) p.1 p.2) ^ 2) (gaussStream.prod gaussStream) := by
    have hme : AEStronglyMeasurable (fun p : (ℕ → ℝ) × (ℕ → ℝ) => gaussError .sphere A nb (catStream (nb * N) p.1 p.2) ^ 2) (gaussStream.prod gaussStream) :=
      (hm2.comp hmp.measurable).aestronglyMeasurable
    rw [integrable_prod_iff hme]
    refine ⟨Filter.Eventually.of_forall fun z => (hinner z).1, ?_⟩
    have e : ∀ z w, ‖gaussError .sphere A nb (catStream (nb * N) z w) ^ 2‖ = gaussError .sphere A nb (catStream (nb * N) z w) ^ 2 :=
      fun z w => by rw [Real.norm_eq_abs, abs_of_nonneg (sq_nonneg _)]
    simp only [e, (hinner _).2]
    exact hvi
  refine ⟨(hmp.integrable_comp hm2.aestronglyMeasurable).1 hi, ?_⟩
  have h2 : ∫ z, gaussError .sphere A nb z ^ 2 ∂gaussStream =
      ∫ p : (ℕ → ℝ) × (ℕ → ℝ), gaussError .sphere A nb (catStream (nb * N) p.1 p.2) ^ 2 ∂(gaussStream.prod gaussStream) := by
    conv_lhs => rw [← hmp.map_eq]
    exact integral_map hmp.measurable.aemeasurable hm2.aestronglyMeasurable
  rw [h2, integral_prod _ hi]
  simp only [(hinner _).2, hv]

/-- C119: with sphere vectors and a symmetric matrix the mean squared error of `hutchpp` is the expectation, over the sketch, of `2N/((N+2) nb)` times the squared
Frobenius distance of the residual to the multiples of the identity; this is at most `2 ‖A‖²/nb`, and Chebyshev's inequality follows. -/
theorem C119_hutchpp [IsProbabilityMeasure P] (hN : N ≠ 0) (qr : ∀ nb, (Fin nb → Vec N) → Fin (min N nb) → Vec N) (A : Matrix (Fin N) (Fin N) ℝ) (hA : A.IsSymm)
    (m : Option ℤ) (modeFull full : Bool) (nb : ℕ) (hnb : 0 < nb) (hm : hutchppNb N m = nb) (u X : ℕ → Ω → ℝ) (hX : Spec.IidNormal P X)
    (hqr : ∀ Y, QROk (qr nb) Y) :
    ∃ est : Ω → ℝ,
      (∀ᵐ ω ∂P, ∃ out, hutchpp qr ⟨fun q => u q ω, fun q => X q ω⟩ (.ofMatrix A) m modeFull (.name "sphere") full = .ok out ∧ out.estimate = est ω) ∧
      Integrable (fun ω => (est ω - A.trace) ^ 2) P ∧
      (∃ R : Ω → Matrix (Fin N) (Fin N) ℝ,
        (∀ ω, R ω = Spec.residual A (qr nb fun j => A *ᵥ sphereCol fun i => X (j * N + i) ω)) ∧
        ∫ ω, (est ω - A.trace) ^ 2 ∂P = ∫ ω, 2 * N / (N + 2) * (∑ i, ∑ j, (R ω i j - if i = j then (R ω).trace / N else 0) ^ 2) / nb ∂P) ∧
      ∫ ω, (est ω - A.trace) ^ 2 ∂P ≤ 2 * (∑ i, ∑ j, A i j ^ 2) / nb ∧
      ∀ ε : ℝ, 0 < ε → P.real {ω | ε ≤ |est ω - A.trace|} ≤ 2 * (∑ i, ∑ j, A i j ^ 2) / (nb * ε ^ 2) := by
  have hnb' : (0 : ℝ) < nb := by exact_mod_cast hnb
  obtain ⟨h1, h2⟩ := gaussError_mse_sphere A nb hnb
  have hae := hutchpp_gauss hN qr A m modeFull full nb hnb hm "sphere" .sphere rfl (by simp) u X hX hqr
  have h3 := iidNormal_integrable hX _ h1
  have hsub : ∀ ω, (A.trace + gaussError .sphere A nb (fun q => X q ω) - A.trace) ^ 2 = gaussError .sphere A nb (fun q => X q ω) ^ 2 := fun ω => by
    rw [add_sub_cancel_left]
  have hm1 := gaussResidual_measurable .sphere A nb
  have hmeas : Measurable fun z => Spec.sphereVar (gaussResidual .sphere A nb z) / nb := by
    have htr : Measurable fun z => (gaussResidual .sphere A nb z).trace := Finset.measurable_sum _ fun p _ => hm1 p p
    unfold Spec.sphereVar
    exact Measurable.div_const (((((htr.pow_const 2).add (Finset.measurable_sum _ fun p _ => Finset.measurable_sum _ fun q _ =>
      (hm1 p q).mul ((hm1 p q).add (hm1 q p))))).const_mul _).sub (htr.pow_const 2)) _
  obtain ⟨R, hR⟩ : ∃ R : Ω → Matrix (Fin N) (Fin N) ℝ, R = fun ω => Spec.residual A (qr nb fun j => A *ᵥ sphereCol fun i => X (j * N + i) ω) := ⟨_, rfl⟩
  have hRs : ∀ ω, (R ω).IsSymm := by
    intro ω
    rw [hR]
    show (Spec.residual A _)ᵀ = Spec.residual A _
    rw [residual_eq]
    simp only [transpose_mul, transpose_transpose, hA.eq, Matrix.mul_assoc]
  have hmse' : ∫ ω, (A.trace + gaussError .sphere A nb (fun q => X q ω) - A.trace) ^ 2 ∂P = ∫ ω, Spec.sphereVar (R ω) / nb ∂P := by
    simp only [hsub]
    rw [iidNormal_integral hX (fun z => gaussError .sphere A nb z ^ 2) ((gaussError_measurable .sphere A nb).pow_const 2), h2,
      ← iidNormal_integral hX _ hmeas]
    refine integral_congr_ae ?_
    filter_upwards [hae] with ω hω
    rw [← hω.2, hR]
    rfl
  have hle : ∫ ω, (A.trace + gaussError .sphere A nb (fun q => X q ω) - A.trace) ^ 2 ∂P ≤ 2 * (∑ i, ∑ j, A i j ^ 2) / nb := by
    rw [hmse']
    have hb : ∀ ω, Spec.sphereVar (R ω) / nb ≤ 2 * (∑ i, ∑ j, A i j ^ 2) / nb := by
      intro ω
      refine div_le_div_of_nonneg_right ?_ hnb'.le
      have h4 := C101_frobenius A _ (hqr fun j => A *ᵥ sphereCol fun i => X (j * N + i) ω).orth
      have h5 := sphereVar_le (R ω) (hRs ω)
      rw [hR] at h5 ⊢
      linarith
    refine (integral_mono_of_nonneg (Filter.Eventually.of_forall fun ω => ?_) (integrable_const _) (Filter.Eventually.of_forall hb)).trans (le_of_eq ?_)
    · show 0 ≤ Spec.sphereVar (R ω) / nb
      rw [sphereVar_symm (R ω) (hRs ω) hN]
      exact div_nonneg (mul_nonneg (by positivity) (Finset.sum_nonneg fun i _ => Finset.sum_nonneg fun j _ => sq_nonneg _)) hnb'.le
    · simp
  have hint : Integrable (fun ω => (A.trace + gaussError .sphere A nb (fun q => X q ω) - A.trace) ^ 2) P := by
    simp only [hsub]; exact h3
  refine ⟨fun ω => A.trace + gaussError .sphere A nb fun q => X q ω, ?_, hint, ⟨R, fun ω => by rw [hR], ?_⟩, hle, ?_⟩
  · filter_upwards [hae] with ω hω
    exact hω.1
  · rw [hmse']
    simp only [fun ω => sphereVar_symm (R ω) (hRs ω) hN]
  · intro ε hε
    have h5 := mul_meas_ge_le_integral_of_nonneg (μ := P) (f := fun ω => (A.trace + gaussError .sphere A nb (fun q => X q ω) - A.trace) ^ 2)
      (Filter.Eventually.of_forall fun ω => sq_nonneg _) hint (ε ^ 2)
    have h6 : {ω | ε ^ 2 ≤ (A.trace + gaussError .sphere A nb (fun q => X q ω) - A.trace) ^ 2} =
        {ω | ε ≤ |A.trace + gaussError .sphere A nb (fun q => X q ω) - A.trace|} := by
      ext ω
      simp only [Set.mem_ofPred_eq]
      rw [← sq_abs (_ - A.trace), pow_le_pow_iff_left₀ hε.le (abs_nonneg _) two_ne_zero]
    rw [h6] at h5
    have h7 := h5.trans hle
    rw [le_div_iff₀ (by positivity)]
    rw [le_div_iff₀ hnb'] at h7
    linarith

/-- The mean squared error for a diagonal matrix that is no multiple of the identity: `diag(1, -1)` and four vectors. -/
example (tppf : ℝ → ℕ → ℝ) (zscore : ℝ → ℝ) : ∃ est : (ℕ → ℝ) → ℝ,
    (∀ z, hutch tppf zscore ⟨fun _ => 0, z⟩ (scalarArgs (Matrix.diagonal ![1, -1]) (.name "sphere") 4) 5 = some (.ok (.scalar (.val fun _ => est z), []))) ∧
    ∫ z, est z ^ 2 ∂gaussStream = 1 / 2 := by
  obtain ⟨est, h1, _, h3, _⟩ := C119_hutch (P := gaussStream) tppf zscore (Matrix.diagonal ![1, -1]) (by norm_num) 4 (by norm_num) (fun _ _ => 0) (fun q z => z q)
    iidNormal_exists
  refine ⟨est, h1, ?_⟩
  have ht : (Matrix.diagonal ![(1 : ℝ), -1]).trace = 0 := by simp [Matrix.trace_diagonal, Fin.sum_univ_two]
  simp only [ht, sub_zero] at h3
  rw [h3]
  simp [Fin.sum_univ_two, Matrix.diagonal]
  norm_num

end Primate
