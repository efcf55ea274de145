import Verif.Props.XtraceProb
import Verif.Props.HutchppProb

/-! # Property C118: `hutchpp` with normal and sphere vectors from ideal random number generators -/

noncomputable section

namespace Primate

open MeasureTheory ProbabilityTheory Matrix

variable {N : ℕ} {Ω : Type*} [MeasurableSpace Ω] {P : Measure Ω}

/-- The first `c` numbers of `z` followed by the numbers of `w`. -/
def catStream (c : ℕ) (z w : ℕ → ℝ) : ℕ → ℝ := fun q => if q < c then z q else w (q - c)

theorem catStream_measurable (c : ℕ) : Measurable fun p : (ℕ → ℝ) × (ℕ → ℝ) => catStream c p.1 p.2 := by
  refine measurable_pi_lambda _ fun q => ?_
  unfold catStream
  split_ifs <;> fun_prop

theorem gauss_cat (c : ℕ) : MeasurePreserving (fun p : (ℕ → ℝ) × (ℕ → ℝ) => catStream c p.1 p.2) (gaussStream.prod gaussStream) gaussStream := by
  refine ⟨catStream_measurable c, ?_⟩
  unfold gaussStream
  refine Measure.eq_infinitePi _ fun s t ht => ?_
  have hset : MeasurableSet (Set.pi (s : Set ℕ) t) := MeasurableSet.pi s.countable_toSet fun i _ => ht i
  rw [Measure.map_apply (catStream_measurable c) hset]
  have hpre : (fun p : (ℕ → ℝ) × (ℕ → ℝ) => catStream c p.1 p.2) ⁻¹' Set.pi (s : Set ℕ) t =
      Set.pi (↑(s.filter fun q => q < c) : Set ℕ) t ×ˢ Set.pi (↑((s.filter fun q => ¬ q < c).image (· - c)) : Set ℕ) fun q => t (q + c) := by
    ext ⟨z, w⟩
    simp only [Set.mem_preimage, Set.mem_pi, Set.mem_prod, Finset.coe_filter, Set.mem_ofPred_eq, Finset.mem_coe, catStream, Finset.mem_image, Finset.mem_filter,
      forall_exists_index, and_imp]
    constructor
    · intro h
      refine ⟨fun q hq hc => ?_, fun q r hr hc hq => ?_⟩
      · have := h q hq; rwa [if_pos hc] at this
      · have := h r hr
        rw [if_neg hc] at this
        subst hq
        rwa [Nat.sub_add_cancel (not_lt.1 hc)]
    · rintro ⟨h1, h2⟩ q hq
      by_cases hc : q < c
      · rw [if_pos hc]; exact h1 q hq hc
      · rw [if_neg hc]
        have := h2 (q - c) q hq hc rfl
        rwa [Nat.sub_add_cancel (not_lt.1 hc)] at this
  rw [hpre, Measure.prod_prod, Measure.infinitePi_pi _ fun i _ => ht i, Measure.infinitePi_pi _ fun i _ => ht _, Finset.prod_image]
  · rw [← Finset.prod_filter_mul_prod_filter_not s fun q => q < c]
    congr 1
    refine Finset.prod_congr rfl fun q hq => ?_
    rw [Nat.sub_add_cancel (not_lt.1 (Finset.mem_filter.1 hq).2)]
  · intro a ha b hb hab
    have ha := (Finset.mem_filter.1 (Finset.mem_coe.1 ha)).2
    have hb := (Finset.mem_filter.1 (Finset.mem_coe.1 hb)).2
    simp only at hab
    omega

theorem streamCol_cat_left (nb j : ℕ) (hj : j < nb) (z w : ℕ → ℝ) : streamCol N (catStream (nb * N) z w) j = streamCol N z j := by
  funext i
  unfold streamCol catStream
  have h1 : (j + 1) * N ≤ nb * N := Nat.mul_le_mul_right N hj
  have := i.2
  rw [Nat.succ_mul] at h1
  rw [if_pos (by omega)]

theorem streamCol_cat_right (nb j : ℕ) (z w : ℕ → ℝ) : streamCol N (catStream (nb * N) z w) (nb + j) = streamCol N w j := by
  funext i
  unfold streamCol catStream
  rw [Nat.add_mul, if_neg (by omega)]
  congr 1
  omega

/-- The residual matrix for the projector on the span of the sketch. -/
def gaussResidual (d : IsoDist) (A : Matrix (Fin N) (Fin N) ℝ) (nb : ℕ) (z : ℕ → ℝ) : Matrix (Fin N) (Fin N) ℝ :=
  (1 - colProj (A * gaussMat d N nb z) fun _ => True) * A * (1 - colProj (A * gaussMat d N nb z) fun _ => True)

theorem gaussResidual_measurable (d : IsoDist) (A : Matrix (Fin N) (Fin N) ℝ) (nb : ℕ) (p q : Fin N) : Measurable fun z => gaussResidual d A nb z p q := by
  have hm := colProj_gauss_measurable d A nb fun _ => True
  have hm1 : ∀ p q, Measurable fun z => (1 - colProj (A * gaussMat d N nb z) fun _ => True) p q := fun p q => by
    simp only [Matrix.sub_apply]; exact measurable_const.sub (hm p q)
  exact mul_entry_measurable (mul_const_measurable hm1 A) hm1 p q

theorem gaussResidual_le (d : IsoDist) (A : Matrix (Fin N) (Fin N) ℝ) (nb : ℕ) (z : ℕ → ℝ) (p q : Fin N) : |gaussResidual d A nb z p q| ≤ absSum A := by
  have h := colProj_spec (A * gaussMat d N nb z) fun _ => True
  obtain ⟨h1, h2⟩ := compl_proj h.symm h.idem
  exact sandwich_le A _ _ (proj_entry_le h1 h2) (proj_entry_le h1 h2) p q

theorem gaussResidual_cat (d : IsoDist) (A : Matrix (Fin N) (Fin N) ℝ) (nb : ℕ) (z w : ℕ → ℝ) :
    gaussResidual d A nb (catStream (nb * N) z w) = gaussResidual d A nb z := by
  have : gaussMat d N nb (catStream (nb * N) z w) = gaussMat d N nb z := by
    ext i j
    simp only [gaussMat, of_apply, streamCol_cat_left nb j j.2]
  unfold gaussResidual
  rw [this]

/-- The sketch captures the range of a matrix of rank at most `nb`. -/
theorem range_captured (A : Matrix (Fin N) (Fin N) ℝ) {b nb : ℕ} (hb : b = A.rank) (hnb : b ≤ nb) (W : Matrix (Fin N) (Fin nb) ℝ)
    (hind : ∀ c : Fin b → ℝ, (A * Matrix.of fun i (j : Fin b) => W i (Fin.castLE hnb j)) *ᵥ c = 0 → c = 0) :
    ∃ C : Matrix (Fin nb) (Fin N) ℝ, A = A * W * C := by
  obtain ⟨V, hV⟩ : ∃ V : Matrix (Fin N) (Fin b) ℝ, V = Matrix.of fun i (j : Fin b) => W i (Fin.castLE hnb j) := ⟨_, rfl⟩
  rw [← hV] at hind
  have hinj : Function.Injective (A * V).mulVecLin := by
    rw [← LinearMap.ker_eq_bot, LinearMap.ker_eq_bot']
    exact fun c hc => hind c hc
  have hle : LinearMap.range (A * V).mulVecLin ≤ LinearMap.range A.mulVecLin := by
    rintro _ ⟨c, rfl⟩
    exact ⟨V *ᵥ c, by rw [mulVecLin_apply, mulVecLin_apply, mulVec_mulVec]⟩
  have heq : LinearMap.range (A * V).mulVecLin = LinearMap.range A.mulVecLin := by
    refine Submodule.eq_of_le_of_finrank_eq hle ?_
    rw [LinearMap.finrank_range_of_inj hinj]
    simp only [Module.finrank_fintype_fun_eq_card, Fintype.card_fin]
    exact hb
  have hcol : ∀ k, ∃ c : Fin b → ℝ, (A * V) *ᵥ c = A *ᵥ Pi.single k 1 := by
    intro k
    have h1 : A *ᵥ Pi.single k 1 ∈ LinearMap.range (A * V).mulVecLin := by rw [heq]; exact ⟨_, rfl⟩
    exact h1
  choose c hc using hcol
  refine ⟨Matrix.of fun j k => if h : (j : ℕ) < b then c k ⟨j, h⟩ else 0, ?_⟩
  ext i k
  have h1 := congrFun (hc k) i
  rw [mulVec_single_one] at h1
  show A.col k i = _
  have h0 : ∀ C : Matrix (Fin nb) (Fin N) ℝ, (A * W * C) i k = ∑ j, (A * W) i j * C j k := fun C => mul_apply
  rw [← h1, h0]
  have h2 : ∀ j : Fin nb, (A * W) i j * (Matrix.of fun (j : Fin nb) k => if h : (j : ℕ) < b then c k ⟨j, h⟩ else 0) j k =
      if h : (j : ℕ) < b then (A * V) i ⟨j, h⟩ * c k ⟨j, h⟩ else 0 := by
    intro j
    simp only [of_apply]
    split_ifs with h
    · congr 1
      rw [hV, mul_apply, mul_apply]
      rfl
    · rw [mul_zero]
  rw [Finset.sum_congr rfl fun j _ => h2 j]
  show ∑ j : Fin b, (A * V) i j * c k j = _
  obtain ⟨e, rfl⟩ := Nat.exists_eq_add_of_le hnb
  rw [Fin.sum_univ_add]
  simp

/-- Whatever orthonormal basis the QR routine returns, the residual matrix is almost surely the one of the projector on the span of the sketch, and it is zero
when the rank of the matrix is at most the number of sketch vectors. -/
theorem residual_ae (d : IsoDist) (A : Matrix (Fin N) (Fin N) ℝ) (nb : ℕ) (qr : (Fin nb → Vec N) → Fin (min N nb) → Vec N) (hqr : ∀ Y, QROk qr Y) :
    ∀ᵐ z ∂gaussStream, (∀ j < nb + nb, streamCol N z j ≠ 0 ∨ N = 0) ∧
      Spec.residual A (qr fun j => A *ᵥ gaussVec d (streamCol N z j)) = gaussResidual d A nb z ∧ (A.rank ≤ nb → gaussResidual d A nb z = 0) := by
  have hne : ∀ᵐ z ∂gaussStream, ∀ j, streamCol N z j ≠ 0 ∨ N = 0 := by
    rw [ae_all_iff]
    intro j
    rcases Nat.eq_zero_or_pos N with h | h
    · exact Filter.Eventually.of_forall fun z => Or.inr h
    · filter_upwards [gauss_ne_zero (j * N + 0)] with z hz
      exact Or.inl fun h0 => hz (congrFun h0 ⟨0, h⟩)
  have hproj : ∀ z, Spec.residual A (qr fun j => A *ᵥ gaussVec d (streamCol N z j)) =
      (1 - colMat (qr fun j => A *ᵥ gaussVec d (streamCol N z j)) * (colMat (qr fun j => A *ᵥ gaussVec d (streamCol N z j)))ᵀ) * A *
      (1 - colMat (qr fun j => A *ᵥ gaussVec d (streamCol N z j)) * (colMat (qr fun j => A *ᵥ gaussVec d (streamCol N z j)))ᵀ) := by
    intro z
    rw [residual_eq, transpose_sub, transpose_one, transpose_mul, transpose_transpose]
  have hspan : ∀ z, ∃ R, A * gaussMat d N nb z = colMat (qr fun j => A *ᵥ gaussVec d (streamCol N z j)) * R := by
    intro z
    obtain ⟨R, hR⟩ := (hqr fun j => A *ᵥ gaussVec d (streamCol N z j)).span
    refine ⟨Matrix.of R, ?_⟩
    ext i j
    have h1 : (A * gaussMat d N nb z) i j = (A *ᵥ gaussVec d (streamCol N z j)) i := rfl
    rw [h1, hR, mul_apply]
    exact Finset.sum_congr rfl fun l _ => by simp only [colMat, of_apply]
  by_cases hr : A.rank ≤ nb
  · filter_upwards [gaussMat_indep d A A.rank le_rfl, hne] with z hz hz0
    refine ⟨fun j _ => hz0 j, ?_⟩
    obtain ⟨C, hC⟩ := range_captured A rfl hr (gaussMat d N nb z) hz.2
    have h1 : gaussResidual d A nb z = 0 := by
      have hp := colProj_spec (A * gaussMat d N nb z) fun _ => True
      have h2 : (colProj (A * gaussMat d N nb z) fun _ => True) * A = A := by
        have h3 : (colProj (A * gaussMat d N nb z) fun _ => True) * (A * gaussMat d N nb z) = A * gaussMat d N nb z := by
          ext i j; exact hp.fixes j trivial i
        have h4 : ∀ X : Matrix (Fin N) (Fin N) ℝ, X * (A * gaussMat d N nb z) = A * gaussMat d N nb z → X * A = A := by
          intro X hX
          have h5 : X * A = X * (A * gaussMat d N nb z * C) := congrArg (X * ·) hC
          rw [← Matrix.mul_assoc X (A * gaussMat d N nb z), hX, ← hC] at h5
          exact h5
        exact h4 _ h3
      unfold gaussResidual
      rw [Matrix.sub_mul 1, Matrix.one_mul, h2, sub_self, Matrix.zero_mul]
    refine ⟨?_, fun _ => h1⟩
    rw [h1, hproj]
    obtain ⟨R, hR⟩ := hspan z
    have ho := colMat_orth _ (hqr fun j => A *ᵥ gaussVec d (streamCol N z j)).orth
    obtain ⟨Q, hQ⟩ : ∃ Q, Q = colMat (qr fun j => A *ᵥ gaussVec d (streamCol N z j)) := ⟨_, rfl⟩
    rw [← hQ] at hR ho ⊢
    have h2 : Q * Qᵀ * A = A := by
      conv_lhs => rw [hC, hR]
      rw [Matrix.mul_assoc Q, ← Matrix.mul_assoc Qᵀ, ← Matrix.mul_assoc Qᵀ, ho, Matrix.one_mul, ← Matrix.mul_assoc, ← hR, ← hC]
    rw [Matrix.sub_mul 1, Matrix.one_mul, h2, sub_self, Matrix.zero_mul]
  · have hnbN : nb ≤ N := by
      have := A.rank_le_width
      omega
    filter_upwards [gaussMat_indep d A nb (by omega), hne] with z hz hz0
    refine ⟨fun j _ => hz0 j, ?_, fun h => absurd h hr⟩
    rw [hproj]
    obtain ⟨R, hR⟩ := hspan z
    have ho := colMat_orth _ (hqr fun j => A *ᵥ gaussVec d (streamCol N z j)).orth
    obtain ⟨r, hrr⟩ : ∃ r, r = min N nb := ⟨_, rfl⟩
    have key : ∀ (r : ℕ) (hr : r = nb) (Q : Matrix (Fin N) (Fin r) ℝ) (R : Matrix (Fin r) (Fin nb) ℝ), Qᵀ * Q = 1 → A * gaussMat d N nb z = Q * R →
        Q * Qᵀ = colProj (A * gaussMat d N nb z) fun _ => True := by
      intro r hr Q R ho' hR
      subst hr
      have hdet : R.det ≠ 0 := by
        intro h0
        obtain ⟨c, hc0, hc⟩ := exists_mulVec_eq_zero_iff.2 h0
        exact hc0 (hz.2 c (by rw [hR, ← mulVec_mulVec, hc, mulVec_zero]))
      refine isProjOn_unique ⟨?_, ?_, ?_, R⁻¹ * Qᵀ, ?_, ?_⟩ (colProj_spec _ _)
      · rw [transpose_mul, transpose_transpose]
      · rw [Matrix.mul_assoc, ← Matrix.mul_assoc Qᵀ, ho', Matrix.one_mul]
      · intro j _ i
        have : Q * Qᵀ * (A * gaussMat d N r z) = A * gaussMat d N r z := by
          rw [hR, Matrix.mul_assoc, ← Matrix.mul_assoc Qᵀ, ho', Matrix.one_mul]
        rw [this]
      · rw [hR, Matrix.mul_assoc, ← Matrix.mul_assoc R, mul_nonsing_inv _ hdet.isUnit, Matrix.one_mul]
      · intro j hj
        exact absurd trivial hj
    rw [key _ (by omega) _ R ho hR]
    rfl

/-- The error of the estimate as a function of the stream. -/
def gaussError (d : IsoDist) (A : Matrix (Fin N) (Fin N) ℝ) (nb : ℕ) (z : ℕ → ℝ) : ℝ :=
  (∑ j : Fin nb, Spec.quad (gaussResidual d A nb z) (gaussVec d (streamCol N z (nb + j)))) / nb - (gaussResidual d A nb z).trace

theorem gaussError_cat (d : IsoDist) (A : Matrix (Fin N) (Fin N) ℝ) (nb : ℕ) (z w : ℕ → ℝ) : gaussError d A nb (catStream (nb * N) z w) =
    (∑ j : Fin nb, Spec.quad (gaussResidual d A nb z) (gaussVec d (streamCol N w j))) / nb - (gaussResidual d A nb z).trace := by
  unfold gaussError
  simp only [gaussResidual_cat, streamCol_cat_right]

theorem gaussError_measurable (d : IsoDist) (A : Matrix (Fin N) (Fin N) ℝ) (nb : ℕ) : Measurable (gaussError d A nb) := by
  have h1 := gaussResidual_measurable d A nb
  have h2 := fun t i => gaussVec_measurable (n := N) d t i
  unfold gaussError Spec.quad Matrix.trace Matrix.diag
  refine Measurable.sub (Measurable.div_const (Finset.measurable_sum _ fun j _ => Finset.measurable_sum _ fun p _ => Finset.measurable_sum _ fun q _ => ?_) _)
    (Finset.measurable_sum _ fun p _ => h1 p p)
  exact ((h1 p q).mul (h2 _ p)).mul (h2 _ q)

theorem gaussError_mean (d : IsoDist) (A : Matrix (Fin N) (Fin N) ℝ) (nb : ℕ) (hnb : 0 < nb) :
    Integrable (gaussError d A nb) gaussStream ∧ ∫ z, gaussError d A nb z ∂gaussStream = 0 := by
  have hnb' : (nb : ℝ) ≠ 0 := by exact_mod_cast hnb.ne'
  have h1 := gaussResidual_measurable d A nb
  have hquad : ∀ (R : Matrix (Fin N) (Fin N) ℝ) (x : Vec N), Spec.quad R x = ∑ p, ∑ q, R p q * (x p * x q) := by
    intro R x
    unfold Spec.quad
    exact Finset.sum_congr rfl fun p _ => Finset.sum_congr rfl fun q _ => by ring
  have hint : Integrable (gaussError d A nb) gaussStream := by
    unfold gaussError
    simp only [hquad]
    refine Integrable.sub (Integrable.div_const (integrable_finsetSum _ fun j _ => integrable_finsetSum _ fun p _ => integrable_finsetSum _ fun q _ => ?_) _) ?_
    · exact (gaussVec_pair d (nb + j) p q).1.bdd_mul (c := absSum A) (h1 p q).aestronglyMeasurable
        (Filter.Eventually.of_forall fun z => gaussResidual_le d A nb z p q)
    · unfold Matrix.trace Matrix.diag
      exact integrable_finsetSum _ fun p _ => Integrable.of_bound (h1 p p).aestronglyMeasurable (absSum A)
        (Filter.Eventually.of_forall fun z => gaussResidual_le d A nb z p p)
  refine ⟨hint, ?_⟩
  have hmp := gauss_cat (nb * N)
  have h2 : ∫ z, gaussError d A nb z ∂gaussStream =
      ∫ p : (ℕ → ℝ) × (ℕ → ℝ), gaussError d A nb (catStream (nb * N) p.1 p.2) ∂(gaussStream.prod gaussStream) := by
    conv_lhs => rw [← hmp.map_eq]
    exact integral_map hmp.measurable.aemeasurable (gaussError_measurable d A nb).aestronglyMeasurable
  have hi : Integrable (fun p : (ℕ → ℝ) × (ℕ → ℝ) => gaussError d A nb (catStream (nb * N) p.1 p.2)) (gaussStream.prod gaussStream) :=
    hmp.integrable_comp_of_integrable hint
  rw [h2, integral_prod _ hi]
  have h3 : ∀ z, ∫ w, gaussError d A nb (catStream (nb * N) z w) ∂gaussStream = 0 := by
    intro z
    simp only [gaussError_cat, hquad]
    generalize gaussResidual d A nb z = R
    have i2 : ∀ (j : Fin nb) p q, Integrable (fun w => R p q * (gaussVec d (streamCol N w j) p * gaussVec d (streamCol N w j) q)) gaussStream :=
      fun j p q => (gaussVec_pair d j p q).1.const_mul _
    have i3 : ∀ j : Fin nb, Integrable (fun w => ∑ p, ∑ q, R p q * (gaussVec d (streamCol N w j) p * gaussVec d (streamCol N w j) q)) gaussStream :=
      fun j => integrable_finsetSum _ fun p _ => integrable_finsetSum _ fun q _ => i2 j p q
    rw [integral_sub ((integrable_finsetSum _ fun j _ => i3 j).div_const _) (integrable_const _), integral_div, integral_finsetSum _ fun j _ => i3 j]
    have h4 : ∀ j : Fin nb, ∫ w, ∑ p, ∑ q, R p q * (gaussVec d (streamCol N w j) p * gaussVec d (streamCol N w j) q) ∂gaussStream = R.trace := by
      intro j
      rw [integral_finsetSum _ fun p _ => integrable_finsetSum _ fun q _ => i2 j p q]
      simp only [fun p => integral_finsetSum (μ := gaussStream) Finset.univ fun q _ => i2 j p q, integral_const_mul, (gaussVec_pair d j _ _).2]
      simp [Matrix.trace]
    simp only [h4, Finset.sum_const, Finset.card_univ, Fintype.card_fin, nsmul_eq_mul, integral_const, probReal_univ, one_smul]
    field_simp
    ring
  simp only [h3]
  simp

/-- The squared error with normal vectors. -/
theorem gaussError_mse (A : Matrix (Fin N) (Fin N) ℝ) (nb : ℕ) (hnb : 0 < nb) :
    Integrable (fun z => gaussError .normal A nb z ^ 2) gaussStream ∧
    ∫ z, gaussError .normal A nb z ^ 2 ∂gaussStream =
      ∫ z, (∑ i, ∑ j, gaussResidual .normal A nb z i j * (gaussResidual .normal A nb z i j + gaussResidual .normal A nb z j i)) / nb ∂gaussStream := by
  have h1 := gaussResidual_measurable .normal A nb
  obtain ⟨v, hv⟩ : ∃ v : (ℕ → ℝ) → ℝ, v = fun z => (∑ i, ∑ j, gaussResidual .normal A nb z i j *
    (gaussResidual .normal A nb z i j + gaussResidual .normal A nb z j i)) / nb := ⟨_, rfl⟩
  have hvm : Measurable v := by
    rw [hv]
    exact Measurable.div_const (Finset.measurable_sum _ fun p _ => Finset.measurable_sum _ fun q _ => (h1 p q).mul ((h1 p q).add (h1 q p))) _
  have hvi : Integrable v gaussStream := by
    rw [hv]
    refine Integrable.div_const (integrable_finsetSum _ fun p _ => integrable_finsetSum _ fun q _ => ?_) _
    refine Integrable.of_bound ((h1 p q).mul ((h1 p q).add (h1 q p))).aestronglyMeasurable (absSum A * (absSum A + absSum A)) (Filter.Eventually.of_forall fun z => ?_)
    have a1 := gaussResidual_le .normal A nb z p q
    have a2 := gaussResidual_le .normal A nb z q p
    show |gaussResidual .normal A nb z p q * (gaussResidual .normal A nb z p q + gaussResidual .normal A nb z q p)| ≤ _
    rw [abs_mul]
    exact mul_le_mul a1 ((abs_add_le _ _).trans (add_le_add a1 a2)) (abs_nonneg _) (absSum_nonneg A)
  have hinner : ∀ z, Integrable (fun w => gaussError .normal A nb (catStream (nb * N) z w) ^ 2) gaussStream ∧
      ∫ w, gaussError .normal A nb (catStream (nb * N) z w) ^ 2 ∂gaussStream = v z := by
    intro z
    have h := streamMean_mse (gaussResidual .normal A nb z) nb hnb
    rw [hv]
    simp only [gaussError_cat]
    exact h
  have hmp := gauss_cat (nb * N)
  have hm2 : Measurable fun z => gaussError .normal A nb z ^ 2 := (gaussError_measurable .normal A nb).pow_const 2
  have hi : Integrable (fun p : (ℕ → ℝ) × (ℕ → ℝ) => gaussError .normal A nb (catStream (nb * N) p.1 p.2) ^ 2) (gaussStream.prod gaussStream) := by
    have hme : AEStronglyMeasurable (fun p : (ℕ → ℝ) × (ℕ → ℝ) => gaussError .normal A nb (catStream (nb * N) p.1 p.2) ^ 2) (gaussStream.prod gaussStream) :=
      (hm2.comp hmp.measurable).aestronglyMeasurable
    rw [integrable_prod_iff hme]
    refine ⟨Filter.Eventually.of_forall fun z => (hinner z).1, ?_⟩
    have e : ∀ z w, ‖gaussError .normal A nb (catStream (nb * N) z w) ^ 2‖ = gaussError .normal A nb (catStream (nb * N) z w) ^ 2 :=
      fun z w => by rw [Real.norm_eq_abs, abs_of_nonneg (sq_nonneg _)]
    simp only [e, (hinner _).2]
    exact hvi
  refine ⟨(hmp.integrable_comp hm2.aestronglyMeasurable).1 hi, ?_⟩
  have h2 : ∫ z, gaussError .normal A nb z ^ 2 ∂gaussStream =
      ∫ p : (ℕ → ℝ) × (ℕ → ℝ), gaussError .normal A nb (catStream (nb * N) p.1 p.2) ^ 2 ∂(gaussStream.prod gaussStream) := by
    conv_lhs => rw [← hmp.map_eq]
    exact integral_map hmp.measurable.aemeasurable hm2.aestronglyMeasurable
  rw [h2, integral_prod _ hi]
  simp only [(hinner _).2, hv]

/-- C118: with independent normal numbers, `hutchpp` with normal or sphere vectors is almost surely exact for every matrix whose rank is at most the number of
sketch vectors, for every QR routine that meets its contract. -/
theorem C118_exact [IsProbabilityMeasure P] (hN : N ≠ 0) (qr : ∀ nb, (Fin nb → Vec N) → Fin (min N nb) → Vec N) (A : Matrix (Fin N) (Fin N) ℝ) (m : Option ℤ)
    (modeFull full : Bool) (nb : ℕ) (hnb : 0 < nb) (hm : hutchppNb N m = nb) (hr : A.rank ≤ nb) (name : String)
    (hname : name = "normal" ∨ name = "gaussian" ∨ name = "sphere") (u X : ℕ → Ω → ℝ) (hX : Spec.IidNormal P X) (hqr : ∀ Y, QROk (qr nb) Y) :
    ∀ᵐ ω ∂P, ∃ out, hutchpp qr ⟨fun q => u q ω, fun q => X q ω⟩ (.ofMatrix A) m modeFull (.name name) full = .ok out ∧ out.estimate = A.trace := by
  obtain ⟨d, hd, hr'⟩ := gauss_name hname
  have h3 := residual_ae d A nb (qr nb) hqr
  rw [← iidNormal_law hX] at h3
  filter_upwards [ae_of_ae_map (iidNormal_aemeasurable hX) h3] with ω hω
  obtain ⟨pd, hpd, hcol⟩ := gauss_pdf (n := N) name d hd hr' (fun q => u q ω) fun q => X q ω
  obtain ⟨out, h1, h2⟩ := hutchpp_ok ⟨fun q => u q ω, fun q => X q ω⟩ hN qr A m modeFull full name pd hpd nb hnb hm
  refine ⟨out, h1, ?_⟩
  have h4 := hutchppValue_error A (qr nb fun j => A *ᵥ pd [] nb j) (hqr _).orth (pd [nb] nb)
  simp only [hcol [] nb, List.sum_nil, zero_add] at h4 h2
  rw [hω.2.1, hω.2.2 hr] at h4
  rw [h2]
  refine sub_eq_zero.1 (h4.trans ?_)
  simp [Spec.quad]

/-- What `hutchpp` returns is the trace plus `gaussError`. -/
theorem hutchpp_gauss [IsProbabilityMeasure P] (hN : N ≠ 0) (qr : ∀ nb, (Fin nb → Vec N) → Fin (min N nb) → Vec N) (A : Matrix (Fin N) (Fin N) ℝ) (m : Option ℤ)
    (modeFull full : Bool) (nb : ℕ) (hnb : 0 < nb) (hm : hutchppNb N m = nb) (name : String) (d : IsoDist) (hd : ISO_DISTRIBUTIONS.lookup name = some d)
    (hr : d ≠ .rademacher) (u X : ℕ → Ω → ℝ) (hX : Spec.IidNormal P X) (hqr : ∀ Y, QROk (qr nb) Y) :
    ∀ᵐ ω ∂P, (∃ out, hutchpp qr ⟨fun q => u q ω, fun q => X q ω⟩ (.ofMatrix A) m modeFull (.name name) full = .ok out ∧
      out.estimate = A.trace + gaussError d A nb fun q => X q ω) ∧
      Spec.residual A (qr nb fun j => A *ᵥ gaussVec d fun i => X (j * N + i) ω) = gaussResidual d A nb fun q => X q ω := by
  have h3 := residual_ae d A nb (qr nb) hqr
  rw [← iidNormal_law hX] at h3
  filter_upwards [ae_of_ae_map (iidNormal_aemeasurable hX) h3] with ω hω
  refine ⟨?_, hω.2.1⟩
  obtain ⟨pd, hpd, hcol⟩ := gauss_pdf (n := N) name d hd hr (fun q => u q ω) fun q => X q ω
  obtain ⟨out, h1, h2⟩ := hutchpp_ok ⟨fun q => u q ω, fun q => X q ω⟩ hN qr A m modeFull full name pd hpd nb hnb hm
  refine ⟨out, h1, ?_⟩
  have h4 := hutchppValue_error A (qr nb fun j => A *ᵥ pd [] nb j) (hqr _).orth (pd [nb] nb)
  simp only [hcol [] nb, hcol [nb] nb, List.sum_nil, zero_add, List.sum_singleton] at h4 h2
  rw [hω.2.1] at h4
  rw [h2, gaussError, ← h4]
  ring

/-- C118: with independent normal numbers, `hutchpp` with normal or sphere vectors returns a number almost surely, whose expectation over sketch and residual
vectors together is the trace, for every square matrix and every QR routine that meets its contract. -/
theorem C118_mean [IsProbabilityMeasure P] (hN : N ≠ 0) (qr : ∀ nb, (Fin nb → Vec N) → Fin (min N nb) → Vec N) (A : Matrix (Fin N) (Fin N) ℝ) (m : Option ℤ)
    (modeFull full : Bool) (nb : ℕ) (hnb : 0 < nb) (hm : hutchppNb N m = nb) (name : String)
    (hname : name = "normal" ∨ name = "gaussian" ∨ name = "sphere") (u X : ℕ → Ω → ℝ) (hX : Spec.IidNormal P X) (hqr : ∀ Y, QROk (qr nb) Y) :
    ∃ est : Ω → ℝ,
      (∀ᵐ ω ∂P, ∃ out, hutchpp qr ⟨fun q => u q ω, fun q => X q ω⟩ (.ofMatrix A) m modeFull (.name name) full = .ok out ∧ out.estimate = est ω) ∧
      Integrable est P ∧ ∫ ω, est ω ∂P = A.trace := by
  obtain ⟨d, hd, hr⟩ := gauss_name hname
  obtain ⟨h1, h2⟩ := gaussError_mean d A nb hnb
  have h3 := iidNormal_integrable hX _ h1
  refine ⟨fun ω => A.trace + gaussError d A nb fun q => X q ω, ?_, (integrable_const _).add h3, ?_⟩
  · filter_upwards [hutchpp_gauss hN qr A m modeFull full nb hnb hm name d hd hr u X hX hqr] with ω hω
    exact hω.1
  · rw [integral_add (integrable_const _) h3, iidNormal_integral hX _ (gaussError_measurable d A nb), h2]
    simp

/-- C118: with normal vectors and a symmetric matrix the mean squared error of `hutchpp` is the expectation, over the sketch, of `2/nb` times the squared
Frobenius norm of the residual; this is at most `2 ‖A‖²/nb`, and Chebyshev's inequality follows. -/
theorem C118_mse [IsProbabilityMeasure P] (hN : N ≠ 0) (qr : ∀ nb, (Fin nb → Vec N) → Fin (min N nb) → Vec N) (A : Matrix (Fin N) (Fin N) ℝ) (hA : A.IsSymm)
    (m : Option ℤ) (modeFull full : Bool) (nb : ℕ) (hnb : 0 < nb) (hm : hutchppNb N m = nb) (name : String)
    (hname : name = "normal" ∨ name = "gaussian") (u X : ℕ → Ω → ℝ) (hX : Spec.IidNormal P X) (hqr : ∀ Y, QROk (qr nb) Y) :
    ∃ est : Ω → ℝ,
      (∀ᵐ ω ∂P, ∃ out, hutchpp qr ⟨fun q => u q ω, fun q => X q ω⟩ (.ofMatrix A) m modeFull (.name name) full = .ok out ∧ out.estimate = est ω) ∧
      Integrable (fun ω => (est ω - A.trace) ^ 2) P ∧
      ∫ ω, (est ω - A.trace) ^ 2 ∂P =
        ∫ ω, 2 * (∑ i, ∑ j, Spec.residual A (qr nb fun j => A *ᵥ fun i => X (j * N + i) ω) i j ^ 2) / nb ∂P ∧
      ∫ ω, (est ω - A.trace) ^ 2 ∂P ≤ 2 * (∑ i, ∑ j, A i j ^ 2) / nb ∧
      ∀ ε : ℝ, 0 < ε → P.real {ω | ε ≤ |est ω - A.trace|} ≤ 2 * (∑ i, ∑ j, A i j ^ 2) / (nb * ε ^ 2) := by
  have hd : ISO_DISTRIBUTIONS.lookup name = some .normal := by rcases hname with rfl | rfl <;> rfl
  have hnb' : (0 : ℝ) < nb := by exact_mod_cast hnb
  obtain ⟨h1, h2⟩ := gaussError_mse A nb hnb
  have hae := hutchpp_gauss hN qr A m modeFull full nb hnb hm name .normal hd (by simp) u X hX hqr
  have h3 := iidNormal_integrable hX _ h1
  have hsub : ∀ ω, (A.trace + gaussError .normal A nb (fun q => X q ω) - A.trace) ^ 2 = gaussError .normal A nb (fun q => X q ω) ^ 2 := fun ω => by
    rw [add_sub_cancel_left]
  have hsymm : ∀ z i j, gaussResidual .normal A nb z j i = gaussResidual .normal A nb z i j := by
    intro z i j
    have hp := (colProj_spec (A * gaussMat .normal N nb z) fun _ => True).symm
    have : (gaussResidual .normal A nb z)ᵀ = gaussResidual .normal A nb z := by
      unfold gaussResidual
      rw [transpose_mul, transpose_mul, transpose_sub, transpose_one, hp, hA.eq, Matrix.mul_assoc]
    exact congrFun (congrFun this i) j
  have hval : ∀ z, (∑ i, ∑ j, gaussResidual .normal A nb z i j * (gaussResidual .normal A nb z i j + gaussResidual .normal A nb z j i)) / nb =
      2 * (∑ i, ∑ j, gaussResidual .normal A nb z i j ^ 2) / nb := by
    intro z
    congr 1
    rw [Finset.mul_sum]
    refine Finset.sum_congr rfl fun i _ => ?_
    rw [Finset.mul_sum]
    refine Finset.sum_congr rfl fun j _ => ?_
    rw [hsymm z i j]
    ring
  have hmeas : Measurable fun z => 2 * (∑ i, ∑ j, gaussResidual .normal A nb z i j ^ 2) / nb :=
    Measurable.div_const (measurable_const.mul (Finset.measurable_sum _ fun p _ => Finset.measurable_sum _ fun q _ =>
      (gaussResidual_measurable .normal A nb p q).pow_const 2)) _
  have hmse : ∫ ω, (A.trace + gaussError .normal A nb (fun q => X q ω) - A.trace) ^ 2 ∂P =
      ∫ ω, 2 * (∑ i, ∑ j, Spec.residual A (qr nb fun j => A *ᵥ fun i => X (j * N + i) ω) i j ^ 2) / nb ∂P := by
    simp only [hsub]
    rw [iidNormal_integral hX (fun z => gaussError .normal A nb z ^ 2) ((gaussError_measurable .normal A nb).pow_const 2), h2]
    simp only [hval]
    rw [← iidNormal_integral hX _ hmeas]
    refine integral_congr_ae ?_
    filter_upwards [hae] with ω hω
    rw [← hω.2]
    rfl
  have hle : ∫ ω, (A.trace + gaussError .normal A nb (fun q => X q ω) - A.trace) ^ 2 ∂P ≤ 2 * (∑ i, ∑ j, A i j ^ 2) / nb := by
    rw [hmse]
    have hb : ∀ ω, 2 * (∑ i, ∑ j, Spec.residual A (qr nb fun j => A *ᵥ fun i => X (j * N + i) ω) i j ^ 2) / nb ≤ 2 * (∑ i, ∑ j, A i j ^ 2) / nb := by
      intro ω
      refine div_le_div_of_nonneg_right ?_ hnb'.le
      have h4 := C101_frobenius A _ (hqr fun j => A *ᵥ fun i => X (j * N + i) ω).orth
      linarith
    refine (integral_mono_of_nonneg (Filter.Eventually.of_forall fun ω => ?_) (integrable_const _) (Filter.Eventually.of_forall hb)).trans (le_of_eq ?_)
    · exact div_nonneg (mul_nonneg zero_le_two (Finset.sum_nonneg fun i _ => Finset.sum_nonneg fun j _ => sq_nonneg _)) hnb'.le
    · simp
  have hint : Integrable (fun ω => (A.trace + gaussError .normal A nb (fun q => X q ω) - A.trace) ^ 2) P := by
    simp only [hsub]; exact h3
  refine ⟨fun ω => A.trace + gaussError .normal A nb fun q => X q ω, ?_, hint, hmse, hle, ?_⟩
  · filter_upwards [hae] with ω hω
    exact hω.1
  · intro ε hε
    have h5 := mul_meas_ge_le_integral_of_nonneg (μ := P) (f := fun ω => (A.trace + gaussError .normal A nb (fun q => X q ω) - A.trace) ^ 2)
      (Filter.Eventually.of_forall fun ω => sq_nonneg _) hint (ε ^ 2)
    have h6 : {ω | ε ^ 2 ≤ (A.trace + gaussError .normal A nb (fun q => X q ω) - A.trace) ^ 2} =
        {ω | ε ≤ |A.trace + gaussError .normal A nb (fun q => X q ω) - A.trace|} := by
      ext ω
      simp only [Set.mem_ofPred_eq]
      rw [← sq_abs (_ - A.trace), pow_le_pow_iff_left₀ hε.le (abs_nonneg _) two_ne_zero]
    rw [h6] at h5
    have h7 := h5.trans hle
    rw [le_div_iff₀ (by positivity)]
    rw [le_div_iff₀ hnb'] at h7
    linarith

/-- The hypotheses can be met: a matrix of rank one, the numbers of the ideal stream and the QR routine of `exists_isQR`. -/
example : ∃ (qr : ∀ nb, (Fin nb → Vec 6) → Fin (min 6 nb) → Vec 6), (∀ nb Y, QROk (qr nb) Y) ∧ ∃ nb : ℕ, 0 < nb ∧ hutchppNb 6 none = nb ∧
    (vecMulVec (fun _ => 1) fun _ => 1 : Matrix (Fin 6) (Fin 6) ℝ).rank ≤ nb ∧
    ∀ᵐ z ∂gaussStream, ∃ out, hutchpp qr ⟨fun _ => 0, z⟩ (.ofMatrix (vecMulVec (fun _ => 1) fun _ => 1 : Matrix (Fin 6) (Fin 6) ℝ)) none true (.name "sphere") true = .ok out ∧
      out.estimate = 6 := by
  choose qr hqr using fun (nb : ℕ) (Y : Fin nb → Vec 6) => exists_isQR Y
  have hr : (vecMulVec (fun _ => 1) fun _ => 1 : Matrix (Fin 6) (Fin 6) ℝ).rank ≤ 4 := (rank_vecMulVec_le _ _).trans (by norm_num)
  refine ⟨qr, hqr, 4, by norm_num, by rfl, hr, ?_⟩
  have h := C118_exact (P := gaussStream) (by norm_num) qr (vecMulVec (fun _ => 1) fun _ => 1 : Matrix (Fin 6) (Fin 6) ℝ) none true true 4 (by norm_num) (by rfl) hr "sphere"
    (by simp) (fun _ _ => 0) (fun q z => z q) iidNormal_exists (hqr 4)
  filter_upwards [h] with z hz
  obtain ⟨out, h1, h2⟩ := hz
  refine ⟨out, h1, h2.trans ?_⟩
  simp [Matrix.trace, vecMulVec_apply]

end Primate
