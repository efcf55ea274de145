import Verif.Lemmas.Quantile
import Verif.Lemmas.GaussIndep

/-!
# Student's theorem

For independent normal numbers the ratio of the error of the sample mean and the sample standard deviation has Student's distribution.
-/

noncomputable section

namespace Primate

open MeasureTheory ProbabilityTheory Filter
open scoped Topology

/-! ## Symmetry of Student's ratio -/

theorem tRatio_flip (df : ℕ) (z : ℕ → ℝ) : tRatio df (fun i => if i = 0 then -z i else z i) = -tRatio df z := by
  unfold tRatio
  simp [neg_div]

theorem tDen_pos (df : ℕ) (hdf : 1 ≤ df) : ∀ᵐ z ∂gaussStream, 0 < Real.sqrt ((∑ i ∈ Finset.range df, z (i + 1) ^ 2) / df) := by
  have h1 : ∀ᵐ z ∂gaussStream, z 1 ≠ 0 :=
    gauss_affine_ne_zero 1 (fun z => z 1) (fun _ => 1) (fun _ => 0) (measurable_pi_apply 1) (fun z w => by simp [splice]) (Eventually.of_forall fun _ => one_ne_zero)
  filter_upwards [h1] with z hz
  refine Real.sqrt_pos.2 (div_pos (lt_of_lt_of_le (pow_pos (abs_pos.2 hz) 2) ?_) (by exact_mod_cast hdf))
  rw [sq_abs]
  exact Finset.single_le_sum (f := fun i => z (i + 1) ^ 2) (fun _ _ => sq_nonneg _) (Finset.mem_range.2 hdf)

theorem tRatio_ne (df : ℕ) (hdf : 1 ≤ df) (q : ℝ) : ∀ᵐ z ∂gaussStream, tRatio df z ≠ q := by
  have h1 : ∀ᵐ z ∂gaussStream, z 0 - q * Real.sqrt ((∑ i ∈ Finset.range df, z (i + 1) ^ 2) / df) ≠ 0 :=
    gauss_affine_ne_zero 0 (fun z => z 0 - q * Real.sqrt ((∑ i ∈ Finset.range df, z (i + 1) ^ 2) / df)) (fun _ => 1)
      (fun z => - (q * Real.sqrt ((∑ i ∈ Finset.range df, z (i + 1) ^ 2) / df))) (by fun_prop) (fun z w => by simp [splice]; ring)
      (Eventually.of_forall fun _ => one_ne_zero)
  filter_upwards [h1, tDen_pos df hdf] with z hz hd h
  apply hz
  unfold tRatio at h
  rw [div_eq_iff hd.ne'] at h
  rw [h, sub_self]

theorem tRatio_cdf_neg (df : ℕ) (q : ℝ) :
    gaussStream.real {z | tRatio df z < -q} = 1 - gaussStream.real {z | tRatio df z ≤ q} := by
  have hm : ∀ x, MeasurableSet {z | tRatio df z ≤ x} := fun x => tRatio_measurable df measurableSet_Iic
  have h1 : gaussStream.real {z | tRatio df z < -q} = gaussStream.real {z | q < tRatio df z} := by
    have h2 := (gauss_flip 0).measureReal_preimage (s := {z | tRatio df z < -q}) (tRatio_measurable df measurableSet_Iio).nullMeasurableSet
    rw [← h2]
    congr 1
    ext z
    simp only [Set.mem_preimage, Set.mem_ofPred_eq, tRatio_flip, neg_lt_neg_iff]
  rw [h1, ← probReal_compl_eq_one_sub (hm q)]
  congr 1
  ext z
  simp

theorem tRatio_abs (df : ℕ) (q : ℝ) (hq : 0 ≤ q) :
    gaussStream.real {z | |tRatio df z| ≤ q} = 2 * gaussStream.real {z | tRatio df z ≤ q} - 1 := by
  have h1 : {z | tRatio df z ≤ q} = {z | tRatio df z < -q} ∪ {z | |tRatio df z| ≤ q} := by
    ext z
    simp only [Set.mem_union, Set.mem_ofPred_eq, abs_le]
    constructor
    · intro h
      rcases lt_or_ge (tRatio df z) (-q) with h' | h'
      · exact Or.inl h'
      · exact Or.inr ⟨h', h⟩
    · rintro (h | ⟨-, h⟩) <;> linarith
  have h2 : gaussStream.real {z | tRatio df z ≤ q} = gaussStream.real {z | tRatio df z < -q} + gaussStream.real {z | |tRatio df z| ≤ q} := by
    conv_lhs => rw [h1]
    refine measureReal_union (Set.disjoint_left.2 fun z hz hz' => ?_) ((tRatio_measurable df).abs measurableSet_Iic)
    simp only [Set.mem_ofPred_eq, abs_le] at hz hz'
    linarith
  rw [tRatio_cdf_neg df] at h2
  linarith

theorem tRatio_cdf_zero (df : ℕ) (hdf : 1 ≤ df) : gaussStream.real {z | tRatio df z ≤ 0} = 1 / 2 := by
  have h1 := tRatio_cdf_neg df 0
  rw [neg_zero] at h1
  have h2 : gaussStream.real {z | tRatio df z < 0} = gaussStream.real {z | tRatio df z ≤ 0} := by
    rw [measureReal_def, measureReal_def]
    congr 1
    refine measure_congr ?_
    filter_upwards [tRatio_ne df hdf 0] with z hz
    exact propext ⟨fun h => le_of_lt h, fun h => lt_of_le_of_ne h hz⟩
  linarith

theorem tppf_cover {tppf : ℝ → ℕ → ℝ} (ht : Spec.StudentQuantile tppf) {c : ℝ} (h0 : 0 < c) (h1 : c < 1) (df : ℕ) (hdf : 1 ≤ df) :
    0 < tppf ((1 + c) / 2) df ∧ gaussStream.real {z | |tRatio df z| ≤ tppf ((1 + c) / 2) df} = c := by
  have hF : gaussStream.real {z | tRatio df z ≤ tppf ((1 + c) / 2) df} = (1 + c) / 2 := ht _ df (by linarith) (by linarith) hdf
  have hpos : 0 < tppf ((1 + c) / 2) df := by
    by_contra hc
    have := measureReal_mono (μ := gaussStream) (s₁ := {z | tRatio df z ≤ tppf ((1 + c) / 2) df}) (s₂ := {z | tRatio df z ≤ 0})
      (fun z hz => le_trans (show tRatio df z ≤ _ from hz) (not_lt.1 hc))
    rw [hF, tRatio_cdf_zero df hdf] at this
    linarith
  refine ⟨hpos, ?_⟩
  rw [tRatio_abs df _ hpos.le, hF]
  ring

/-! ## The rotation -/

theorem svar_fin (m : ℕ) (x : Fin (m + 1) → ℝ) (y : ℕ → ℝ) (hy : ∀ i : Fin (m + 1), y i = x i) :
    svar y (m + 1) = (∑ i, x i ^ 2 - (∑ i, x i) ^ 2 / (m + 1 : ℕ)) / m ∧ smean y (m + 1) = (∑ i, x i) / (m + 1 : ℕ) := by
  have hs : ∀ f : ℝ → ℝ, ∑ r ∈ Finset.range (m + 1), f (y r) = ∑ i, f (x i) := fun f => by
    rw [← Fin.sum_univ_eq_sum_range (fun r => f (y r))]
    exact Finset.sum_congr rfl fun i _ => by rw [hy]
  have h1 : smean y (m + 1) = (∑ i, x i) / (m + 1 : ℕ) := by
    unfold smean
    rw [hs fun t => t]
  refine ⟨?_, h1⟩
  rw [svar_eq _ _ (Nat.succ_pos m), h1, hs fun t => t ^ 2]
  have hm : ((m + 1 : ℕ) : ℝ) ≠ 0 := by exact_mod_cast Nat.succ_ne_zero m
  have e : ((m + 1 : ℕ) : ℝ) - 1 = m := by push_cast; ring
  rw [e, div_mul_eq_mul_div]
  congr 1
  field_simp

/-- The statistic of the samples has the law of Student's ratio. -/
theorem student_law (m : ℕ) (hm : 1 ≤ m) (q : ℝ) :
    gaussStream.real {z | √((m + 1 : ℕ) : ℝ) * |smean z (m + 1)| ≤ q * √(svar z (m + 1))} = gaussStream.real {z | |tRatio m z| ≤ q} := by
  have hn : (0 : ℝ) < ((m + 1 : ℕ) : ℝ) := by exact_mod_cast Nat.succ_pos m
  obtain ⟨n, hnd⟩ : ∃ n : ℝ, n = ((m + 1 : ℕ) : ℝ) := ⟨_, rfl⟩
  have hm' : (0 : ℝ) < m := by exact_mod_cast hm
  -- both events are events of the first `m + 1` numbers
  have hmp := gaussPi_of_stream (fun i : Fin (m + 1) => (i : ℕ)) Fin.val_injective
  obtain ⟨e0, he0⟩ : ∃ e0 : EuclideanSpace ℝ (Fin (m + 1)), e0 = WithLp.toLp 2 fun _ => (√n)⁻¹ := ⟨_, rfl⟩
  have hsq : √n * √n = n := Real.mul_self_sqrt (by rw [hnd]; exact hn.le)
  have hsn : √n ≠ 0 := (Real.sqrt_pos.2 (by rw [hnd]; exact hn)).ne'
  have he1 : ‖e0‖ = 1 := by
    rw [EuclideanSpace.norm_eq, he0, Real.sqrt_eq_one]
    simp only [Real.norm_eq_abs, sq_abs, Finset.sum_const, Finset.card_univ, Fintype.card_fin, nsmul_eq_mul]
    rw [← hnd, inv_pow, sq, hsq]
    exact mul_inv_cancel₀ (by rw [hnd]; exact hn.ne')
  have hvo : Orthonormal ℝ (({0} : Set (Fin (m + 1))).domRestrict fun _ => e0) := by
    refine ⟨fun i => he1, ?_⟩
    rintro ⟨i, hi⟩ ⟨j, hj⟩ hij
    exact absurd (Subtype.ext ((Set.mem_singleton_iff.1 hi).trans (Set.mem_singleton_iff.1 hj).symm)) hij
  obtain ⟨b, hb⟩ := hvo.exists_orthonormalBasis_extension_of_card_eq (by simp)
  have hb0 : b 0 = e0 := hb 0 rfl
  have hrot := gaussPi_rot b
  obtain ⟨R, hR⟩ : ∃ R : (Fin (m + 1) → ℝ) → Fin (m + 1) → ℝ, R = fun x i => ∑ j, b i j * x j := ⟨_, rfl⟩
  rw [← hR] at hrot
  have hR0 : ∀ x, R x 0 = (∑ j, x j) / √n := fun x => by
    rw [hR]
    simp only [hb0, he0]
    rw [← Finset.mul_sum, div_eq_inv_mul]
  have hRn : ∀ x, ∑ i, R x i ^ 2 = ∑ i, x i ^ 2 := fun x => by
    have h1 := b.repr.norm_map (WithLp.toLp 2 x)
    rw [EuclideanSpace.norm_eq, EuclideanSpace.norm_eq, Real.sqrt_inj (Finset.sum_nonneg fun _ _ => sq_nonneg _) (Finset.sum_nonneg fun _ _ => sq_nonneg _)] at h1
    simp only [Real.norm_eq_abs, sq_abs] at h1
    rw [← h1]
    refine Finset.sum_congr rfl fun i _ => ?_
    congr 1
    rw [hR, OrthonormalBasis.repr_apply_apply, PiLp.inner_apply]
    refine Finset.sum_congr rfl fun j _ => ?_
    simp [mul_comm]
  obtain ⟨E, hE⟩ : ∃ E : Set (Fin (m + 1) → ℝ), E = {y | |y 0| ≤ q * √((∑ i : Fin m, y i.succ ^ 2) / m)} := ⟨_, rfl⟩
  have hEm : MeasurableSet E := by
    rw [hE]
    exact measurableSet_le (by fun_prop) (by fun_prop)
  have hA : {z : ℕ → ℝ | √((m + 1 : ℕ) : ℝ) * |smean z (m + 1)| ≤ q * √(svar z (m + 1))} = (fun (z : ℕ → ℝ) (i : Fin (m + 1)) => z i) ⁻¹' (R ⁻¹' E) := by
    ext z
    obtain ⟨x, hx⟩ : ∃ x : Fin (m + 1) → ℝ, x = fun i : Fin (m + 1) => z i := ⟨_, rfl⟩
    obtain ⟨h1, h2⟩ := svar_fin m x z fun i => by rw [hx]
    rw [hE]
    simp only [Set.mem_preimage, Set.mem_ofPred_eq]
    rw [← hx, h1, h2, hR0, ← hnd]
    have h3 : ∑ i : Fin m, R x i.succ ^ 2 = ∑ i, x i ^ 2 - (∑ i, x i) ^ 2 / n := by
      have h4 := hRn x
      rw [Fin.sum_univ_succ, hR0, div_pow, sq (√n), hsq] at h4
      linarith
    rw [h3]
    have h5 : √n * |(∑ i, x i) / n| = |(∑ i, x i) / √n| := by
      rw [← abs_of_nonneg (Real.sqrt_nonneg n), ← abs_mul, abs_of_nonneg (Real.sqrt_nonneg n)]
      congr 1
      generalize (∑ i, x i) = S
      have hn0 : n ≠ 0 := by rw [hnd]; exact hn.ne'
      rw [eq_div_iff hsn, mul_right_comm, hsq]
      field_simp
    rw [h5]
  have hB : gaussStream.real {z | |tRatio m z| ≤ q} = gaussStream.real ((fun (z : ℕ → ℝ) (i : Fin (m + 1)) => z i) ⁻¹' E) := by
    rw [measureReal_def, measureReal_def]
    congr 1
    refine measure_congr ?_
    filter_upwards [tDen_pos m hm] with z hz
    refine propext ?_
    show |tRatio m z| ≤ q ↔ (fun i : Fin (m + 1) => z i) ∈ E
    rw [hE]
    show |tRatio m z| ≤ q ↔ |z ((0 : Fin (m + 1)) : ℕ)| ≤ q * √((∑ i : Fin m, z (i.succ : Fin (m + 1)) ^ 2) / m)
    have h6 : ∑ i : Fin m, z (i.succ : Fin (m + 1)) ^ 2 = ∑ i ∈ Finset.range m, z (i + 1) ^ 2 := by
      rw [← Fin.sum_univ_eq_sum_range (fun i => z (i + 1) ^ 2)]
      rfl
    rw [h6]
    unfold tRatio
    rw [abs_div, abs_of_pos hz, div_le_iff₀ hz]
    rfl
  rw [hA, hB, hmp.measureReal_preimage (hrot.measurable hEm).nullMeasurableSet, hmp.measureReal_preimage hEm.nullMeasurableSet,
    hrot.measureReal_preimage hEm.nullMeasurableSet]

end Primate
