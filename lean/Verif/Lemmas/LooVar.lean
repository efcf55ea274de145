import Verif.Props.HutchppRate

/-! # Second moments of leave-one-out estimates with normal or sphere vectors -/

noncomputable section

namespace Primate

open MeasureTheory ProbabilityTheory Matrix

variable {N : ℕ}

theorem quad_expand (R : Matrix (Fin N) (Fin N) ℝ) (x : Vec N) : Spec.quad R x = ∑ p, ∑ q, R p q * (x p * x q) := by
  unfold Spec.quad
  exact Finset.sum_congr rfl fun p _ => Finset.sum_congr rfl fun q _ => by ring

/-- The variance of a quadratic form of one vector. -/
theorem quad_var_le (d : IsoDist) (hd : d ≠ .rademacher) (R : Matrix (Fin N) (Fin N) ℝ) (t : ℕ) :
    Integrable (fun z => (Spec.quad R (gaussVec d (streamCol N z t)) - R.trace) ^ 2) gaussStream ∧
    ∫ z, (Spec.quad R (gaussVec d (streamCol N z t)) - R.trace) ^ 2 ∂gaussStream ≤ 2 * ∑ i, ∑ j, R i j ^ 2 := by
  cases d with
  | rademacher => exact absurd rfl hd
  | sphere =>
    simp only [gaussVec, pow_two (Spec.quad _ _ - _)]
    exact ⟨sphere_quad_integrable R t t, (sphere_quad_sq R t).le.trans (sphereVar_le' R)⟩
  | normal =>
    have h0 : Integrable (fun z => (Spec.quad R (streamCol N z 0) - R.trace) ^ 2) gaussStream ∧
        ∫ z, (Spec.quad R (streamCol N z 0) - R.trace) ^ 2 ∂gaussStream = ∑ i, ∑ j, R i j * (R i j + R j i) := by
      have h := streamMean_mse R 1 one_pos
      have e : ∀ z, streamMean R 1 z = Spec.quad R (streamCol N z 0) := fun z => by
        have h1 : streamCol N z 0 = fun i : Fin N => z i := by
          funext i
          simp [streamCol]
        rw [h1]
        simp [streamMean]
      simp only [e, Nat.cast_one, div_one] at h
      exact h
    have hmp := gauss_cat (t * N)
    have hq : Measurable fun z => (Spec.quad R (streamCol N z t) - R.trace) ^ 2 := by
      unfold Spec.quad streamCol
      fun_prop
    have e : ∀ p : (ℕ → ℝ) × (ℕ → ℝ), (Spec.quad R (streamCol N (catStream (t * N) p.1 p.2) t) - R.trace) ^ 2 = (Spec.quad R (streamCol N p.2 0) - R.trace) ^ 2 := fun p => by
      have := streamCol_cat_right (N := N) t 0 p.1 p.2
      rw [add_zero] at this
      rw [this]
    have hi : Integrable (fun p : (ℕ → ℝ) × (ℕ → ℝ) => (Spec.quad R (streamCol N (catStream (t * N) p.1 p.2) t) - R.trace) ^ 2) (gaussStream.prod gaussStream) := by
      simp only [e]
      exact h0.1.comp_snd gaussStream
    simp only [gaussVec]
    refine ⟨(hmp.integrable_comp hq.aestronglyMeasurable).1 hi, ?_⟩
    have h2 : ∫ z, (Spec.quad R (streamCol N z t) - R.trace) ^ 2 ∂gaussStream =
        ∫ p : (ℕ → ℝ) × (ℕ → ℝ), (Spec.quad R (streamCol N (catStream (t * N) p.1 p.2) t) - R.trace) ^ 2 ∂(gaussStream.prod gaussStream) := by
      conv_lhs => rw [← hmp.map_eq]
      exact integral_map hmp.measurable.aemeasurable hq.aestronglyMeasurable
    rw [h2, integral_prod _ hi]
    have h3 : ∀ z, ∫ w, (Spec.quad R (streamCol N (catStream (t * N) z w) t) - R.trace) ^ 2 ∂gaussStream = ∑ i, ∑ j, R i j * (R i j + R j i) := fun z => by
      rw [← h0.2]
      exact integral_congr_ae (Filter.Eventually.of_forall fun w => e (z, w))
    simp only [h3, integral_const, probReal_univ, one_smul]
    exact cross_le R

/-- The variance of a quadratic function of one vector whose coefficients are functions of the projector on the images of the others. -/
theorem loo_quad_var (d : IsoDist) (hd : d ≠ .rademacher) (A : Matrix (Fin N) (Fin N) ℝ) (b : ℕ) (i : Fin b)
    (R : Matrix (Fin N) (Fin N) ℝ → Matrix (Fin N) (Fin N) ℝ) (K : ℝ)
    (hRm : ∀ p q, Measurable fun z => R (colProj (A * gaussMat d N b z) fun j => j ≠ i) p q)
    (hRb : ∀ (Q : Matrix (Fin N) (Fin N) ℝ) p q, Qᵀ = Q → Q * Q = Q → |R Q p q| ≤ K) :
    Integrable (fun z => (Spec.quad (R (colProj (A * gaussMat d N b z) fun j => j ≠ i)) (gaussVec d (streamCol N z i)) - (R (colProj (A * gaussMat d N b z) fun j => j ≠ i)).trace) ^ 2) gaussStream ∧
    Integrable (fun z => ∑ p, ∑ q, R (colProj (A * gaussMat d N b z) fun j => j ≠ i) p q ^ 2) gaussStream ∧
    ∫ z, (Spec.quad (R (colProj (A * gaussMat d N b z) fun j => j ≠ i)) (gaussVec d (streamCol N z i)) - (R (colProj (A * gaussMat d N b z) fun j => j ≠ i)).trace) ^ 2 ∂gaussStream ≤
      2 * ∫ z, ∑ p, ∑ q, R (colProj (A * gaussMat d N b z) fun j => j ≠ i) p q ^ 2 ∂gaussStream := by
  obtain ⟨S, hS⟩ : ∃ S : (ℕ → ℝ) → Matrix (Fin N) (Fin N) ℝ, S = fun z => R (colProj (A * gaussMat d N b z) fun j => j ≠ i) := ⟨_, rfl⟩
  have hSe : ∀ z, R (colProj (A * gaussMat d N b z) fun j => j ≠ i) = S z := fun z => by rw [hS]
  simp only [hSe] at hRm ⊢
  have hSb : ∀ z p q, |S z p q| ≤ K := fun z p q => by
    rw [hS]
    exact hRb _ p q (colProj_spec _ _).symm (colProj_spec _ _).idem
  have hsx : ∀ z w, gaussVec d (streamCol N (splice (inBlock N i) z w) i) = gaussVec d (streamCol N w i) := fun z w => by
    unfold streamCol
    rw [splice_same]
  have hsS : ∀ z w, S (splice (inBlock N i) z w) = S z := fun z w => by
    rw [hS]
    refine congrArg R (colProj_congr fun j hj k => ?_)
    rw [mul_apply, mul_apply]
    refine Finset.sum_congr rfl fun l _ => ?_
    congr 1
    have h1 : streamCol N (splice (inBlock N i) z w) j = streamCol N z j := splice_other i j (fun h => hj (Fin.ext h)) z w
    simp only [gaussMat, of_apply, h1]
  have hxm : ∀ p, Measurable fun z => gaussVec d (streamCol N z i) p := fun p => gaussVec_measurable d i p
  obtain ⟨F, hF⟩ : ∃ F : (ℕ → ℝ) → ℝ, F = fun z => (Spec.quad (S z) (gaussVec d (streamCol N z i)) - (S z).trace) ^ 2 := ⟨_, rfl⟩
  have hFm : Measurable F := by
    rw [hF]
    refine Measurable.pow_const (Measurable.sub ?_ ?_) 2
    · simp only [quad_expand]
      exact Finset.measurable_sum _ fun p _ => Finset.measurable_sum _ fun q _ => (hRm p q).mul ((hxm p).mul (hxm q))
    · unfold Matrix.trace Matrix.diag
      exact Finset.measurable_sum _ fun p _ => hRm p p
  have hvi : Integrable (fun z => ∑ p, ∑ q, S z p q ^ 2) gaussStream := by
    refine integrable_finsetSum _ fun p _ => integrable_finsetSum _ fun q _ => ?_
    refine Integrable.of_bound ((hRm p q).pow_const 2).aestronglyMeasurable (K ^ 2) (Filter.Eventually.of_forall fun z => ?_)
    rw [Real.norm_eq_abs, abs_pow]
    exact pow_le_pow_left₀ (abs_nonneg _) (hSb z p q) 2
  have hvm : Measurable fun z => ∑ p, ∑ q, S z p q ^ 2 := Finset.measurable_sum _ fun p _ => Finset.measurable_sum _ fun q _ => (hRm p q).pow_const 2
  have e2 : ∀ z w, F (splice (inBlock N i) z w) = (Spec.quad (S z) (gaussVec d (streamCol N w i)) - (S z).trace) ^ 2 := fun z w => by
    rw [hF]; simp only [hsx, hsS]
  have hinner : ∀ z, Integrable (fun w => F (splice (inBlock N i) z w)) gaussStream ∧ ∫ w, F (splice (inBlock N i) z w) ∂gaussStream ≤ 2 * ∑ p, ∑ q, S z p q ^ 2 := fun z => by
    simp only [e2]
    exact quad_var_le d hd (S z) i
  have hmp := gauss_splice (inBlock N i)
  have hF0 : ∀ z, 0 ≤ F z := fun z => by rw [hF]; exact sq_nonneg _
  have hi : Integrable (fun p : (ℕ → ℝ) × (ℕ → ℝ) => F (splice (inBlock N i) p.1 p.2)) (gaussStream.prod gaussStream) := by
    have hme : AEStronglyMeasurable (fun p : (ℕ → ℝ) × (ℕ → ℝ) => F (splice (inBlock N i) p.1 p.2)) (gaussStream.prod gaussStream) :=
      (hFm.comp hmp.measurable).aestronglyMeasurable
    rw [integrable_prod_iff hme]
    refine ⟨Filter.Eventually.of_forall fun z => (hinner z).1, ?_⟩
    refine Integrable.mono' (hvi.const_mul 2) hme.norm.integral_prod_right' (Filter.Eventually.of_forall fun z => ?_)
    have e : ∀ w, ‖F (splice (inBlock N i) z w)‖ = F (splice (inBlock N i) z w) := fun w => by rw [Real.norm_eq_abs, abs_of_nonneg (hF0 _)]
    simp only [e]
    rw [Real.norm_eq_abs, abs_of_nonneg (integral_nonneg fun w => hF0 _)]
    exact (hinner z).2
  have h1 : ∫ z, F z ∂gaussStream = ∫ p : (ℕ → ℝ) × (ℕ → ℝ), F (splice (inBlock N i) p.1 p.2) ∂(gaussStream.prod gaussStream) := by
    conv_lhs => rw [← hmp.map_eq]
    exact integral_map hmp.measurable.aemeasurable hFm.aestronglyMeasurable
  rw [hF] at hFm h1
  have hres : Integrable F gaussStream := (hmp.integrable_comp (by rw [hF]; exact hFm.aestronglyMeasurable)).1 hi
  refine ⟨by rw [hF] at hres; exact hres, hvi, ?_⟩
  rw [h1, ← hF, integral_prod _ hi, ← integral_const_mul]
  exact integral_mono hi.integral_prod_left (hvi.const_mul 2) fun z => (hinner z).2

/-- The projector on the images of all vectors but one is the projector on the images of normal vectors with other indices. -/
theorem colProj_loo (d : IsoDist) (hd : d ≠ .rademacher) (hN : 0 < N) (A : Matrix (Fin N) (Fin N) ℝ) (b : ℕ) (i : Fin (b + 1)) {z : ℕ → ℝ} (hz : ∀ q, z q ≠ 0) :
    (colProj (A * gaussMat d N (b + 1) z) fun j => j ≠ i) =
      colProj (A * sketchMat fun p : Fin N × Fin b => z ((i.succAbove p.2 : ℕ) * N + p.1)) fun _ => True := by
  obtain ⟨W, hW⟩ : ∃ W : Matrix (Fin N) (Fin b) ℝ, W = sketchMat fun p : Fin N × Fin b => z ((i.succAbove p.2 : ℕ) * N + p.1) := ⟨_, rfl⟩
  obtain ⟨t, ht0, ht⟩ : ∃ t : Fin b → ℝ, (∀ j, t j ≠ 0) ∧ ∀ a j, gaussMat d N (b + 1) z a (i.succAbove j) = t j * W a j := by
    cases d with
    | rademacher => exact absurd rfl hd
    | normal =>
      exact ⟨fun _ => 1, fun _ => one_ne_zero, fun a j => by rw [hW]; simp [gaussMat, gaussVec, streamCol, sketchMat]⟩
    | sphere =>
      refine ⟨fun j => Real.sqrt N / Real.sqrt (∑ a : Fin N, streamCol N z (i.succAbove j) a ^ 2), fun j => ?_, fun a j => ?_⟩
      · have h1 : 0 < ∑ a : Fin N, streamCol N z (i.succAbove j) a ^ 2 := by
          refine Finset.sum_pos (fun a _ => ?_) ⟨⟨0, hN⟩, Finset.mem_univ _⟩
          have h2 : streamCol N z (i.succAbove j) a ≠ 0 := hz _
          positivity
        have h2 : (0 : ℝ) < N := by exact_mod_cast hN
        positivity
      · rw [hW]
        simp only [gaussMat, of_apply, gaussVec, sphereCol, sketchMat, streamCol]
        ring
  rw [← hW]
  have hp := colProj_spec (A * W) fun _ => True
  have hcol : ∀ a j, (A * gaussMat d N (b + 1) z) a (i.succAbove j) = t j * (A * W) a j := fun a j => by
    rw [mul_apply, mul_apply, Finset.mul_sum]
    exact Finset.sum_congr rfl fun l _ => by rw [ht]; ring
  refine isProjOn_unique (colProj_spec _ _) ⟨hp.symm, hp.idem, ?_, ?_⟩
  · intro j hj a
    obtain ⟨j', rfl⟩ := Fin.exists_succAbove_eq hj
    rw [mul_apply, hcol, ← hp.fixes j' trivial a, mul_apply, Finset.mul_sum]
    exact Finset.sum_congr rfl fun l _ => by rw [hcol]; ring
  · obtain ⟨C, hC, -⟩ := hp.range
    refine ⟨Matrix.of fun j l => i.insertNth (α := fun _ => ℝ) 0 (fun j' => (t j')⁻¹ * C j' l) j, ?_, fun j hj l => ?_⟩
    · conv_lhs => rw [hC]
      ext a l
      rw [mul_apply, mul_apply, Fin.sum_univ_succAbove _ i]
      simp only [of_apply, Fin.insertNth_apply_same, Fin.insertNth_apply_succAbove, mul_zero, zero_add]
      refine Finset.sum_congr rfl fun j _ => ?_
      rw [hcol]
      have := mul_inv_cancel₀ (ht0 j)
      generalize (A * W) a j = y
      linear_combination (-(y * C j l)) * this
    · obtain rfl : j = i := not_not.1 hj
      simp

/-- The average distance of the columns of `A` from the images of all vectors but one. -/
theorem loo_rangeFinder (d : IsoDist) (hd : d ≠ .rademacher) (hN : 0 < N) (A B : Matrix (Fin N) (Fin N) ℝ) (k b : ℕ) (hB : B.rank ≤ k) (hk : k + 2 ≤ b) (i : Fin (b + 1)) :
    ∫ z, ∑ p, ∑ q, ((1 - colProj (A * gaussMat d N (b + 1) z) fun j => j ≠ i) * A) p q ^ 2 ∂gaussStream ≤ (1 + k / (b - k - 1)) * ∑ p, ∑ q, (A p q - B p q) ^ 2 := by
  have hpos : (0 : ℝ) < b - k - 1 := by
    have : ((k + 2 : ℕ) : ℝ) ≤ b := by exact_mod_cast hk
    push_cast at this
    linarith
  have hm := colProj_gauss_measurable d A (b + 1) fun j => j ≠ i
  have hm1 : ∀ p q, Measurable fun z => (1 - colProj (A * gaussMat d N (b + 1) z) fun j => j ≠ i) p q := fun p q => by
    simp only [Matrix.sub_apply]; exact measurable_const.sub (hm p q)
  have hmm : Measurable fun z => ∑ p, ∑ q, ((1 - colProj (A * gaussMat d N (b + 1) z) fun j => j ≠ i) * A) p q ^ 2 :=
    Finset.measurable_sum _ fun p _ => Finset.measurable_sum _ fun q _ => (mul_const_measurable hm1 A p q).pow_const 2
  rw [integral_eq_lintegral_of_nonneg_ae (Filter.Eventually.of_forall fun z => Finset.sum_nonneg fun i _ => Finset.sum_nonneg fun j _ => sq_nonneg _) hmm.aestronglyMeasurable]
  have hf : Function.Injective fun p : Fin N × Fin b => (i.succAbove p.2 : ℕ) * N + p.1 := by
    rintro ⟨p, j⟩ ⟨p', j'⟩ h
    simp only at h
    have hi := p.2
    have hi' := p'.2
    have h1 : (i.succAbove j : ℕ) = i.succAbove j' := by
      have e1 : ((i.succAbove j : ℕ) * N + p) / N = i.succAbove j := by
        rw [Nat.add_comm, Nat.add_mul_div_right _ _ (by omega), Nat.div_eq_of_lt hi, zero_add]
      have e2 : ((i.succAbove j' : ℕ) * N + p') / N = i.succAbove j' := by
        rw [Nat.add_comm, Nat.add_mul_div_right _ _ (by omega), Nat.div_eq_of_lt hi', zero_add]
      rw [← e1, ← e2, h]
    rw [h1] at h
    exact Prod.ext (Fin.ext (by simpa using h)) (Fin.succAbove_right_injective (Fin.ext h1))
  have hmp := gaussPi_of_stream _ hf
  have h := rangeFinder_rank (nb := b) k hk A B hB
  have hmeas : Measurable fun W : Fin N × Fin b → ℝ => ENNReal.ofReal (∑ a, ∑ i, ((1 - colProj (A * sketchMat W) fun _ => True) * A) a i ^ 2) := by
    have hW : ∀ i j, Measurable fun W : Fin N × Fin b → ℝ => (A * sketchMat W) i j := by
      intro i j
      simp only [mul_apply, sketchMat, of_apply]
      fun_prop
    have hc := colProj_measurable (fun W : Fin N × Fin b → ℝ => A * sketchMat W) (fun _ => True) hW
    refine (Finset.measurable_sum _ fun a _ => Finset.measurable_sum _ fun i _ => Measurable.pow_const ?_ 2).ennreal_ofReal
    simp only [mul_apply (N := A), Matrix.sub_apply]
    fun_prop
  rw [← hmp.map_eq, lintegral_map hmeas hmp.measurable] at h
  refine ENNReal.toReal_le_of_le_ofReal (mul_nonneg (by positivity) (Finset.sum_nonneg fun i _ => Finset.sum_nonneg fun j _ => sq_nonneg _)) (le_trans (le_of_eq ?_) h)
  have hne : ∀ᵐ z ∂gaussStream, ∀ q : ℕ, z q ≠ 0 := by
    rw [ae_all_iff]; exact gauss_ne_zero
  refine lintegral_congr_ae ?_
  filter_upwards [hne] with z hz
  rw [colProj_loo d hd hN A b i hz]

end Primate
