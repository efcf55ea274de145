import Verif.Lemmas.Gauss
import Mathlib.MeasureTheory.Measure.Prod
import Mathlib.MeasureTheory.Integral.Prod
import Mathlib.LinearAlgebra.Matrix.Rank
import Mathlib.LinearAlgebra.Matrix.ToLinearEquiv

/-!
# Replacing part of a stream of independent standard normal numbers, images of vectors of such numbers
-/

noncomputable section

namespace Primate

open MeasureTheory ProbabilityTheory Matrix

/-- The stream `z` with the numbers at the positions in `B` taken from `w`. -/
def splice (B : ℕ → Prop) [DecidablePred B] (z w : ℕ → ℝ) : ℕ → ℝ := fun q => if B q then w q else z q

theorem splice_measurable (B : ℕ → Prop) [DecidablePred B] : Measurable fun p : (ℕ → ℝ) × (ℕ → ℝ) => splice B p.1 p.2 := by
  refine measurable_pi_lambda _ fun q => ?_
  unfold splice
  split_ifs <;> fun_prop

/-- Part of a stream can be replaced by numbers from an independent stream. -/
theorem gauss_splice (B : ℕ → Prop) [DecidablePred B] :
    MeasurePreserving (fun p : (ℕ → ℝ) × (ℕ → ℝ) => splice B p.1 p.2) (gaussStream.prod gaussStream) gaussStream := by
  refine ⟨splice_measurable B, ?_⟩
  unfold gaussStream
  refine Measure.eq_infinitePi _ fun s t ht => ?_
  have hset : MeasurableSet (Set.pi (s : Set ℕ) t) := MeasurableSet.pi s.countable_toSet fun i _ => ht i
  rw [Measure.map_apply (splice_measurable B) hset]
  have hpre : (fun p : (ℕ → ℝ) × (ℕ → ℝ) => splice B p.1 p.2) ⁻¹' Set.pi (s : Set ℕ) t =
      Set.pi (↑(s.filter fun q => ¬ B q) : Set ℕ) t ×ˢ Set.pi (↑(s.filter B) : Set ℕ) t := by
    ext ⟨z, w⟩
    simp only [Set.mem_preimage, Set.mem_pi, Set.mem_prod, Finset.coe_filter, Set.mem_ofPred_eq, Finset.mem_coe, splice]
    constructor
    · intro h
      refine ⟨fun q hq => ?_, fun q hq => ?_⟩
      · have := h q hq.1; rwa [if_neg hq.2] at this
      · have := h q hq.1; rwa [if_pos hq.2] at this
    · rintro ⟨h1, h2⟩ q hq
      by_cases hB : B q
      · rw [if_pos hB]; exact h2 q ⟨hq, hB⟩
      · rw [if_neg hB]; exact h1 q ⟨hq, hB⟩
  rw [hpre, Measure.prod_prod, Measure.infinitePi_pi _ fun i _ => ht i, Measure.infinitePi_pi _ fun i _ => ht i, mul_comm,
    Finset.prod_filter_mul_prod_filter_not]

/-- A function that is affine in one of the numbers, with almost surely non-zero slope, is almost surely non-zero. -/
theorem gauss_affine_ne_zero (q : ℕ) (F a b : (ℕ → ℝ) → ℝ) (hF : Measurable F)
    (h : ∀ z w, F (splice (· = q) z w) = a z * w q + b z) (ha : ∀ᵐ z ∂gaussStream, a z ≠ 0) :
    ∀ᵐ z ∂gaussStream, F z ≠ 0 := by
  have hs : MeasurableSet {z | F z ≠ 0} := (hF (measurableSet_singleton 0)).compl
  have hmp := gauss_splice (· = q)
  rw [← hmp.map_eq]
  rw [ae_map_iff hmp.measurable.aemeasurable hs]
  refine (Measure.ae_prod_iff_ae_ae (hmp.measurable hs)).2 ?_
  filter_upwards [ha] with z hz
  have h1 : ∀ᵐ w ∂gaussStream, w q ≠ - b z / a z := by
    have := nullSingletonClass_gaussianReal (μ := 0) (v := 1) (by norm_num)
    have h1 : gaussianReal 0 1 {- b z / a z} = 0 := measure_singleton _
    rw [← gauss_eval q, Measure.map_apply (measurable_pi_apply q) (measurableSet_singleton _)] at h1
    rw [ae_iff]
    simp only [ne_eq, not_not]
    exact h1
  filter_upwards [h1] with w hw h0
  rw [h] at h0
  exact hw (by field_simp; linarith)

/-- The set of positions of the `t`-th vector of length `N`. -/
def inBlock (N t : ℕ) (q : ℕ) : Prop := t * N ≤ q ∧ q < t * N + N

instance (N t : ℕ) : DecidablePred (inBlock N t) := fun _ => by unfold inBlock; infer_instance

theorem splice_same {N : ℕ} (t : ℕ) (z w : ℕ → ℝ) : (fun i : Fin N => splice (inBlock N t) z w (t * N + i)) = fun i : Fin N => w (t * N + i) := by
  funext i
  have := i.2
  unfold splice
  rw [if_pos (show inBlock N t (t * N + i) by unfold inBlock; omega)]

theorem splice_other {N : ℕ} (t s : ℕ) (hst : s ≠ t) (z w : ℕ → ℝ) :
    (fun i : Fin N => splice (inBlock N t) z w (s * N + i)) = fun i : Fin N => z (s * N + i) := by
  funext i
  have := i.2
  unfold splice
  rw [if_neg]
  rintro ⟨h1, h2⟩
  rcases Nat.lt_or_gt_of_ne hst with h | h
  · have : (s + 1) * N ≤ t * N := Nat.mul_le_mul_right N h
    rw [Nat.succ_mul] at this
    omega
  · have : (t + 1) * N ≤ s * N := Nat.mul_le_mul_right N h
    rw [Nat.succ_mul] at this
    omega

/-- A non-trivial linear combination of the entries of a normal vector is almost surely not zero. -/
theorem gauss_dot_ne_zero {N : ℕ} (t : ℕ) (a : Fin N → ℝ) (ha : a ≠ 0) :
    ∀ᵐ z ∂gaussStream, ∑ i, a i * z (t * N + i) ≠ 0 := by
  obtain ⟨i0, hi⟩ := Function.ne_iff.1 ha
  refine gauss_affine_ne_zero (t * N + i0) _ (fun _ => a i0) (fun z => ∑ i ∈ Finset.univ.erase i0, a i * z (t * N + i)) (by fun_prop) (fun z w => ?_)
    (Filter.Eventually.of_forall fun _ => hi)
  rw [← Finset.add_sum_erase _ _ (Finset.mem_univ i0)]
  congr 1
  · simp [splice]
  · refine Finset.sum_congr rfl fun i hi => ?_
    have : (i : ℕ) ≠ i0 := fun h => Finset.ne_of_mem_erase hi (Fin.ext h)
    unfold splice
    rw [if_neg (by omega)]

/-- The columns of the product of `A` with the first `b` vectors of the stream. -/
def imgCols {N : ℕ} (A : Matrix (Fin N) (Fin N) ℝ) (b : ℕ) (z : ℕ → ℝ) : Matrix (Fin N) (Fin b) ℝ :=
  Matrix.of fun i j => ∑ k, A i k * z (j * N + k)

theorem exists_functional {N b : ℕ} (A : Matrix (Fin N) (Fin N) ℝ) (hb : b < A.rank) (X : Matrix (Fin N) (Fin b) ℝ) :
    ∃ l : Fin N → ℝ, Xᵀ *ᵥ (Aᵀ *ᵥ l) = 0 ∧ Aᵀ *ᵥ l ≠ 0 := by
  by_contra hcon
  push Not at hcon
  have hker : LinearMap.ker (Xᵀ * Aᵀ).mulVecLin ≤ LinearMap.ker Aᵀ.mulVecLin := by
    intro l hl
    rw [LinearMap.mem_ker, mulVecLin_apply, ← mulVec_mulVec] at hl
    rw [LinearMap.mem_ker, mulVecLin_apply]
    exact hcon l hl
  have h1 := Submodule.finrank_mono hker
  have h2 := LinearMap.finrank_range_add_finrank_ker (Xᵀ * Aᵀ).mulVecLin
  have h3 := LinearMap.finrank_range_add_finrank_ker Aᵀ.mulVecLin
  have h4 : (Xᵀ * Aᵀ).rank ≤ b := (rank_le_height _)
  have h5 := rank_transpose A
  unfold Matrix.rank at h4 h5 hb
  omega

theorem indep_iff_gram {N b : ℕ} (Y : Matrix (Fin N) (Fin b) ℝ) : (∀ c, Y *ᵥ c = 0 → c = 0) ↔ (Yᵀ * Y).det ≠ 0 := by
  rw [ne_eq, ← exists_mulVec_eq_zero_iff, not_exists]
  constructor
  · rintro h c ⟨hc, h0⟩
    refine hc (h c ?_)
    have h1 : (Y *ᵥ c) ⬝ᵥ (Y *ᵥ c) = 0 := by
      rw [dotProduct_mulVec, ← mulVec_transpose, mulVec_mulVec, h0, zero_dotProduct]
    exact dotProduct_self_eq_zero.1 h1
  · intro h c hc
    by_contra h0
    exact h c ⟨h0, by rw [← mulVec_mulVec, hc, mulVec_zero]⟩

theorem gram_measurable {N b : ℕ} (A : Matrix (Fin N) (Fin N) ℝ) : Measurable fun z => ((imgCols A b z)ᵀ * imgCols A b z).det := by
  simp only [det_apply', mul_apply, transpose_apply, imgCols, of_apply]
  fun_prop

/-- The images of at most `rank A` normal vectors are almost surely linearly independent. -/
theorem gauss_indep_cols {N : ℕ} (A : Matrix (Fin N) (Fin N) ℝ) (b : ℕ) (hb : b ≤ A.rank) :
    ∀ᵐ z ∂gaussStream, ∀ c, imgCols A b z *ᵥ c = 0 → c = 0 := by
  induction b with
  | zero => exact Filter.Eventually.of_forall fun z c _ => funext fun i => i.elim0
  | succ b ih =>
    have ih' := ih (by omega)
    have hs : MeasurableSet {z | ∀ c, imgCols A (b + 1) z *ᵥ c = 0 → c = 0} := by
      simp only [indep_iff_gram]
      exact ((gram_measurable A) (measurableSet_singleton 0)).compl
    have hmp := gauss_splice (inBlock N b)
    rw [← hmp.map_eq, ae_map_iff hmp.measurable.aemeasurable hs]
    refine (Measure.ae_prod_iff_ae_ae (hmp.measurable hs)).2 ?_
    filter_upwards [ih'] with z hz
    obtain ⟨l, hl1, hl2⟩ := exists_functional A (by omega) (Matrix.of fun k (j : Fin b) => z (j * N + k))
    filter_upwards [gauss_dot_ne_zero b _ hl2] with w hw c hc
    have hcol : ∀ j : Fin b, (fun k : Fin N => splice (inBlock N b) z w (j * N + k)) = fun k : Fin N => z (j * N + k) :=
      fun j => splice_other b j (by omega) z w
    have hlast := splice_same (N := N) b z w
    have h1 : ∀ i, ∑ j : Fin b, imgCols A b z i j * c j.castSucc + (∑ k, A i k * w (b * N + k)) * c (Fin.last b) = 0 := by
      intro i
      have := congrFun hc i
      simp only [mulVec, dotProduct, Fin.sum_univ_castSucc, imgCols, of_apply, Fin.val_castSucc, Fin.val_last, Pi.zero_apply] at this
      rw [← this]
      congr 1
      · refine Finset.sum_congr rfl fun j _ => ?_
        simp only [imgCols, of_apply]
        congr 1
        exact Finset.sum_congr rfl fun k _ => by rw [← congrFun (hcol j) k]
      · congr 1
        exact Finset.sum_congr rfl fun k _ => by rw [← congrFun hlast k]
    have h2 : ∀ j : Fin b, ∑ i, l i * imgCols A b z i j = 0 := by
      intro j
      have := congrFun hl1 j
      simp only [mulVec, dotProduct, transpose_apply, of_apply, Pi.zero_apply] at this
      rw [← this]
      simp only [imgCols, of_apply, Finset.mul_sum]
      rw [Finset.sum_comm]
      exact Finset.sum_congr rfl fun k _ => Finset.sum_congr rfl fun i _ => by ring
    have h3 : (∑ k, (Aᵀ *ᵥ l) k * w (b * N + k)) * c (Fin.last b) = 0 := by
      have h4 : ∑ i, l i * (∑ j : Fin b, imgCols A b z i j * c j.castSucc + (∑ k, A i k * w (b * N + k)) * c (Fin.last b)) = 0 := by
        simp only [h1, mul_zero, Finset.sum_const_zero]
      simp only [mul_add, Finset.sum_add_distrib] at h4
      have h5 : ∑ i, l i * ∑ j : Fin b, imgCols A b z i j * c j.castSucc = 0 := by
        simp only [Finset.mul_sum]
        rw [Finset.sum_comm]
        refine Finset.sum_eq_zero fun j _ => ?_
        have : ∀ i, l i * (imgCols A b z i j * c j.castSucc) = (l i * imgCols A b z i j) * c j.castSucc := fun i => by ring
        simp only [this, ← Finset.sum_mul, h2, zero_mul]
      rw [h5, zero_add] at h4
      rw [← h4, Finset.sum_mul]
      simp only [mulVec, dotProduct, transpose_apply, Finset.sum_mul, Finset.mul_sum]
      rw [Finset.sum_comm]
      exact Finset.sum_congr rfl fun i _ => Finset.sum_congr rfl fun k _ => by ring
    have h6 : c (Fin.last b) = 0 := (mul_eq_zero.1 h3).resolve_left hw
    have h7 : (fun j : Fin b => c j.castSucc) = 0 := by
      refine hz _ (funext fun i => ?_)
      have := h1 i
      rw [h6, mul_zero, add_zero] at this
      exact this
    funext j
    refine Fin.lastCases h6 (fun j => congrFun h7 j) j

end Primate
