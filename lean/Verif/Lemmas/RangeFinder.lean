import Verif.Lemmas.GaussPi
import Verif.Lemmas.ColProj

/-!
# How well the span of a random sketch captures the range of a matrix

The average of `‖(1 - P) A‖²` over a normal sketch `W`, with `P` the projector on the span of the columns of `A W`.
-/

noncomputable section

namespace Primate

open MeasureTheory ProbabilityTheory Matrix

variable {N nb : ℕ}

/-- The rows of the sketch with index below `k` other than `ρ`, as columns; zero elsewhere. -/
def otherRows (k : ℕ) (ρ : Fin N) (W : Fin N × Fin nb → ℝ) : Matrix (Fin nb) (Fin N) ℝ :=
  Matrix.of fun j i => if (i : ℕ) < k ∧ i ≠ ρ then W (i, j) else 0

/-- The part of row `ρ` that is orthogonal to the other rows below `k`. -/
def rowRest (k : ℕ) (ρ : Fin N) (W : Fin N × Fin nb → ℝ) : Fin nb → ℝ :=
  (1 - colProj (otherRows k ρ W) fun _ => True) *ᵥ fun j => W (ρ, j)

/-- Its squared length. -/
def rowGap (k : ℕ) (ρ : Fin N) (W : Fin N × Fin nb → ℝ) : ℝ := rowRest k ρ W ⬝ᵥ rowRest k ρ W

/-- The vector with product 1 with row `ρ` and 0 with the other rows below `k`. -/
def dualRow (k : ℕ) (ρ : Fin N) (W : Fin N × Fin nb → ℝ) : Fin nb → ℝ := fun j => (rowGap k ρ W)⁻¹ * rowRest k ρ W j

theorem rowGap_nonneg (k : ℕ) (ρ : Fin N) (W : Fin N × Fin nb → ℝ) : 0 ≤ rowGap k ρ W := dotSelf_nonneg _

theorem otherRows_measurable (k : ℕ) (ρ : Fin N) (j : Fin nb) (i : Fin N) : Measurable fun W => otherRows k ρ W j i := by
  simp only [otherRows, of_apply]
  split_ifs <;> fun_prop

theorem rowRest_measurable (k : ℕ) (ρ : Fin N) (j : Fin nb) : Measurable fun W => rowRest k ρ W j := by
  have h := colProj_measurable (fun W : Fin N × Fin nb → ℝ => otherRows k ρ W) (fun _ => True) (otherRows_measurable k ρ)
  simp only [rowRest, mulVec, dotProduct, Matrix.sub_apply]
  fun_prop

theorem rowGap_measurable (k : ℕ) (ρ : Fin N) : Measurable fun W : Fin N × Fin nb → ℝ => rowGap k ρ W := by
  have h := rowRest_measurable (nb := nb) k ρ
  simp only [rowGap, dotProduct]
  fun_prop

theorem dualRow_measurable (k : ℕ) (ρ : Fin N) (j : Fin nb) : Measurable fun W => dualRow k ρ W j := by
  have h := rowRest_measurable (nb := nb) k ρ
  have h2 := rowGap_measurable (nb := nb) k ρ
  unfold dualRow
  fun_prop

theorem dualRow_sq (k : ℕ) (ρ : Fin N) (W : Fin N × Fin nb → ℝ) : ∑ j, dualRow k ρ W j ^ 2 = (rowGap k ρ W)⁻¹ := by
  have h : ∑ j, dualRow k ρ W j ^ 2 = (rowGap k ρ W)⁻¹ * (rowGap k ρ W)⁻¹ * rowGap k ρ W := by
    obtain ⟨s, hs⟩ : ∃ s, s = (rowGap k ρ W)⁻¹ := ⟨_, rfl⟩
    unfold dualRow
    rw [← hs, rowGap, dotProduct, Finset.mul_sum]
    exact Finset.sum_congr rfl fun j _ => by ring
  rw [h]
  by_cases h0 : rowGap k ρ W = 0
  · simp [h0]
  · field_simp

theorem rowRest_other (k : ℕ) (ρ : Fin N) (W : Fin N × Fin nb → ℝ) (i : Fin N) (hi : (i : ℕ) < k) (hρ : i ≠ ρ) :
    ∑ j, W (i, j) * rowRest k ρ W j = 0 := by
  have hp := colProj_spec (otherRows k ρ W) fun _ => True
  obtain ⟨Q, hQ⟩ : ∃ Q, Q = colProj (otherRows k ρ W) fun _ => True := ⟨_, rfl⟩
  rw [← hQ] at hp
  have h1 : Q *ᵥ (fun j => W (i, j)) = fun j => W (i, j) := by
    funext j
    have := hp.fixes i trivial j
    rw [mul_apply] at this
    simpa [otherRows, hi, hρ, mulVec, dotProduct] using this
  show (fun j => W (i, j)) ⬝ᵥ rowRest k ρ W = 0
  unfold rowRest
  rw [← hQ, dotProduct_mulVec, ← mulVec_transpose, transpose_sub, transpose_one, hp.symm, sub_mulVec, one_mulVec, h1, sub_self, zero_dotProduct]

theorem rowRest_self (k : ℕ) (ρ : Fin N) (W : Fin N × Fin nb → ℝ) : ∑ j, W (ρ, j) * rowRest k ρ W j = rowGap k ρ W := by
  have hp := colProj_spec (otherRows k ρ W) fun _ => True
  show (fun j => W (ρ, j)) ⬝ᵥ rowRest k ρ W = _
  unfold rowGap rowRest
  obtain ⟨Q, hQ⟩ : ∃ Q, Q = colProj (otherRows k ρ W) fun _ => True := ⟨_, rfl⟩
  rw [← hQ] at hp ⊢
  rw [dotProduct_mulVec ((1 - Q) *ᵥ _), ← mulVec_transpose, transpose_sub, transpose_one, hp.symm, mulVec_mulVec, dotProduct_comm]
  congr 2
  rw [Matrix.mul_sub, Matrix.mul_one, Matrix.sub_mul, Matrix.one_mul, hp.idem, sub_self, sub_zero]

/-- There are `nb - k + 1` orthonormal vectors orthogonal to the other rows. -/
theorem exists_orth_others (k : ℕ) (ρ : Fin N) (hρ : (ρ : ℕ) < k) (W : Fin N × Fin nb → ℝ) :
    ∃ e : Fin (nb + 1 - k) → EuclideanSpace ℝ (Fin nb), Orthonormal ℝ e ∧
      ∀ l (g : Fin nb → ℝ), ∑ j, e l j * g j = ∑ j, e l j * ((1 - colProj (otherRows k ρ W) fun _ => True) *ᵥ g) j := by
  classical
  obtain ⟨T, hT⟩ : ∃ T : Finset (Fin N), T = (Finset.univ.filter fun i : Fin N => (i : ℕ) < k).erase ρ := ⟨_, rfl⟩
  have hcard : T.card ≤ k - 1 := by
    rw [hT, Finset.card_erase_of_mem (by simp [hρ])]
    have : (Finset.univ.filter fun i : Fin N => (i : ℕ) < k).card ≤ (Finset.range k).card :=
      Finset.card_le_card_of_injOn (fun i => (i : ℕ)) (fun i hi => by simpa using hi) fun a _ b _ h => Fin.ext h
    rw [Finset.card_range] at this
    omega
  obtain ⟨v, hv⟩ : ∃ v : Fin N → EuclideanSpace ℝ (Fin nb), v = fun i => WithLp.toLp 2 fun j => W (i, j) := ⟨_, rfl⟩
  obtain ⟨K, hK⟩ : ∃ K : Submodule ℝ (EuclideanSpace ℝ (Fin nb)), K = Submodule.span ℝ (↑(T.image v) : Set _) := ⟨_, rfl⟩
  have h1 : Module.finrank ℝ K ≤ k - 1 := by
    rw [hK]
    exact (finrank_span_finset_le_card _).trans (Finset.card_image_le.trans hcard)
  have h2 := Submodule.finrank_add_finrank_orthogonal K
  rw [finrank_euclideanSpace_fin] at h2
  have h3 : nb + 1 - k ≤ Module.finrank ℝ Kᗮ := by omega
  refine ⟨fun l => ((stdOrthonormalBasis ℝ Kᗮ) (Fin.castLE h3 l) : EuclideanSpace ℝ (Fin nb)), ?_, ?_⟩
  · have h4 := (stdOrthonormalBasis ℝ Kᗮ).orthonormal.comp _ (Fin.castLE_injective h3)
    exact h4.comp_linearIsometry Kᗮ.subtypeₗᵢ
  · intro l g
    obtain ⟨x, hx⟩ : ∃ x : Kᗮ, x = (stdOrthonormalBasis ℝ Kᗮ) (Fin.castLE h3 l) := ⟨_, rfl⟩
    simp only [← hx]
    have hp := colProj_spec (otherRows k ρ W) fun _ => True
    obtain ⟨Q, hQ⟩ : ∃ Q, Q = colProj (otherRows k ρ W) fun _ => True := ⟨_, rfl⟩
    rw [← hQ] at hp ⊢
    have hort : ∀ i, ∑ j, otherRows k ρ W j i * (x : EuclideanSpace ℝ (Fin nb)) j = 0 := by
      intro i
      by_cases hi : (i : ℕ) < k ∧ i ≠ ρ
      · have h5 : v i ∈ K := by
          rw [hK]
          refine Submodule.subset_span ?_
          simp only [Finset.coe_image, Set.mem_image, Finset.mem_coe]
          exact ⟨i, by rw [hT]; simp [hi.1, hi.2], rfl⟩
        have h6 := (Submodule.mem_orthogonal K x).1 x.2 _ h5
        rw [PiLp.inner_apply] at h6
        rw [← h6]
        refine Finset.sum_congr rfl fun j _ => ?_
        simp [otherRows, hi.1, hi.2, hv, mul_comm]
      · simp [otherRows, hi]
    have hQx : Q *ᵥ (fun j => (x : EuclideanSpace ℝ (Fin nb)) j) = 0 := by
      obtain ⟨C, hC, -⟩ := hp.range
      rw [← hp.symm, hC, transpose_mul, ← mulVec_mulVec]
      have : (otherRows k ρ W)ᵀ *ᵥ (fun j => (x : EuclideanSpace ℝ (Fin nb)) j) = 0 := by
        funext i
        exact hort i
      rw [this, mulVec_zero]
    show (fun j => (x : EuclideanSpace ℝ (Fin nb)) j) ⬝ᵥ g = (fun j => (x : EuclideanSpace ℝ (Fin nb)) j) ⬝ᵥ ((1 - Q) *ᵥ g)
    rw [dotProduct_mulVec, ← mulVec_transpose, transpose_sub, transpose_one, hp.symm, sub_mulVec, one_mulVec, hQx, sub_zero]

/-- Bessel's inequality in coordinates. -/
theorem bessel {n d : ℕ} (e : Fin d → EuclideanSpace ℝ (Fin n)) (he : Orthonormal ℝ e) (q : Fin n → ℝ) : ∑ l, (∑ j, e l j * q j) ^ 2 ≤ q ⬝ᵥ q := by
  have h := he.sum_inner_products_le (s := Finset.univ) (WithLp.toLp 2 q)
  rw [EuclideanSpace.real_norm_sq_eq] at h
  have h1 : ∀ l, ‖(inner ℝ (e l) (WithLp.toLp 2 q) : ℝ)‖ ^ 2 = (∑ j, e l j * q j) ^ 2 := by
    intro l
    rw [Real.norm_eq_abs, sq_abs, PiLp.inner_apply]
    congr 1
    refine Finset.sum_congr rfl fun j _ => ?_
    simp [mul_comm]
  simp only [h1] at h
  refine h.trans (le_of_eq ?_)
  simp [dotProduct, pow_two]

/-- The mean of the inverse squared gap. -/
theorem rowGap_inv (k : ℕ) (ρ : Fin N) (hρ : (ρ : ℕ) < k) (hk : k + 2 ≤ nb) :
    ∫⁻ W : Fin N × Fin nb → ℝ, (ENNReal.ofReal (rowGap k ρ W))⁻¹ ∂gaussPi (Fin N × Fin nb) ≤ ENNReal.ofReal (1 / (nb - k - 1)) := by
  classical
  have hs := gaussPi_splice (ι := Fin N × Fin nb) fun p => p.1 = ρ
  have hm : Measurable fun W : Fin N × Fin nb → ℝ => (ENNReal.ofReal (rowGap k ρ W))⁻¹ := (rowGap_measurable k ρ).ennreal_ofReal.inv
  rw [← hs.map_eq, lintegral_map hm hs.measurable]
  refine (lintegral_prod _ (hm.comp hs.measurable).aemeasurable).le.trans ?_
  have hin : ∀ z : Fin N × Fin nb → ℝ, ∫⁻ w, (ENNReal.ofReal (rowGap k ρ fun p : Fin N × Fin nb => if p.1 = ρ then w p else z p))⁻¹ ∂gaussPi (Fin N × Fin nb) ≤
      ENNReal.ofReal (1 / (nb - k - 1)) := by
    intro z
    obtain ⟨e, he, heq⟩ := exists_orth_others k ρ hρ z
    obtain ⟨e', he'⟩ : ∃ e' : Fin (nb + 1 - k) → EuclideanSpace ℝ (Fin N × Fin nb), e' = fun l => WithLp.toLp 2 fun p => if p.1 = ρ then e l p.2 else 0 := ⟨_, rfl⟩
    have hsum : ∀ l (w : Fin N × Fin nb → ℝ), ∑ p, e' l p * w p = ∑ j, e l j * w (ρ, j) := by
      intro l w
      rw [Fintype.sum_prod_type, Finset.sum_eq_single ρ]
      · simp [he']
      · intro i _ hi
        exact Finset.sum_eq_zero fun j _ => by simp [he', hi]
      · intro h; exact absurd (Finset.mem_univ ρ) h
    have hort : Orthonormal ℝ e' := by
      rw [orthonormal_iff_ite] at he ⊢
      intro l l'
      rw [← he l l', PiLp.inner_apply, PiLp.inner_apply]
      have h1 := hsum l fun p => e' l' p
      simp only [RCLike.inner_apply, conj_trivial]
      calc ∑ p, e' l' p * e' l p = ∑ p, e' l p * e' l' p := Finset.sum_congr rfl fun p _ => mul_comm _ _
        _ = ∑ j, e l j * e' l' (ρ, j) := h1
        _ = _ := Finset.sum_congr rfl fun j _ => by simp [he', mul_comm]
    have h2 := gaussPi_inv_orth (d := nb + 1 - k) (by omega) e' hort
    have h3 : (((nb + 1 - k : ℕ) : ℝ) - 2) = nb - k - 1 := by
      rw [Nat.cast_sub (by omega)]; push_cast; ring
    rw [h3] at h2
    rw [← h2]
    refine lintegral_mono fun w => ?_
    rw [ENNReal.inv_le_inv]
    refine ENNReal.ofReal_le_ofReal ?_
    have hoth : (otherRows k ρ fun p : Fin N × Fin nb => if p.1 = ρ then w p else z p) = otherRows k ρ z := by
      ext j i
      simp only [otherRows, of_apply]
      by_cases hi : (i : ℕ) < k ∧ i ≠ ρ
      · rw [if_pos hi, if_pos hi, if_neg hi.2]
      · rw [if_neg hi, if_neg hi]
    unfold rowGap
    refine le_trans (le_of_eq ?_) (bessel e he _)
    refine Finset.sum_congr rfl fun l _ => ?_
    rw [hsum, heq]
    unfold rowRest
    rw [hoth]
    simp only [if_true]
  calc _ ≤ ∫⁻ z : Fin N × Fin nb → ℝ, ENNReal.ofReal (1 / (nb - k - 1)) ∂gaussPi (Fin N × Fin nb) := lintegral_mono fun z => hin z
    _ = _ := by simp

/-- The squared lengths of the columns from `k` on. -/
def tailSq (k : ℕ) (A : Matrix (Fin N) (Fin N) ℝ) : ℝ := ∑ a, ∑ i : Fin N, if k ≤ (i : ℕ) then A a i ^ 2 else 0

/-- What the columns from `k` on contribute to the image of the dual row. -/
def tailImage (k : ℕ) (A : Matrix (Fin N) (Fin N) ℝ) (ρ : Fin N) (W : Fin N × Fin nb → ℝ) (a : Fin N) : ℝ :=
  ∑ i : Fin N, if k ≤ (i : ℕ) then A a i * ∑ j, W (i, j) * dualRow k ρ W j else 0

theorem tailSq_nonneg (k : ℕ) (A : Matrix (Fin N) (Fin N) ℝ) : 0 ≤ tailSq k A :=
  Finset.sum_nonneg fun a _ => Finset.sum_nonneg fun i _ => by split_ifs <;> positivity

theorem tailImage_measurable (k : ℕ) (A : Matrix (Fin N) (Fin N) ℝ) (ρ a : Fin N) : Measurable fun W : Fin N × Fin nb → ℝ => tailImage k A ρ W a := by
  unfold tailImage
  refine Finset.measurable_sum _ fun i _ => ?_
  split_ifs
  · have := dualRow_measurable (nb := nb) k ρ
    fun_prop
  · exact measurable_const

theorem tailImage_mean (k : ℕ) (A : Matrix (Fin N) (Fin N) ℝ) (ρ : Fin N) (hρ : (ρ : ℕ) < k) (hk : k + 2 ≤ nb) :
    ∫⁻ W : Fin N × Fin nb → ℝ, ENNReal.ofReal (∑ a, tailImage k A ρ W a ^ 2) ∂gaussPi (Fin N × Fin nb) ≤ ENNReal.ofReal (tailSq k A / (nb - k - 1)) := by
  classical
  have hs := gaussPi_splice (ι := Fin N × Fin nb) fun p => k ≤ (p.1 : ℕ)
  have hm : Measurable fun W : Fin N × Fin nb → ℝ => ENNReal.ofReal (∑ a, tailImage k A ρ W a ^ 2) :=
    (Finset.measurable_sum _ fun a _ => (tailImage_measurable k A ρ a).pow_const 2).ennreal_ofReal
  rw [← hs.map_eq, lintegral_map hm hs.measurable]
  refine (lintegral_prod _ (hm.comp hs.measurable).aemeasurable).le.trans ?_
  have hin : ∀ z : Fin N × Fin nb → ℝ, ∫⁻ w, ENNReal.ofReal (∑ a, tailImage k A ρ (fun p : Fin N × Fin nb => if k ≤ (p.1 : ℕ) then w p else z p) a ^ 2)
      ∂gaussPi (Fin N × Fin nb) ≤ ENNReal.ofReal (tailSq k A) * (ENNReal.ofReal (rowGap k ρ z))⁻¹ := by
    intro z
    have hoth : ∀ w : Fin N × Fin nb → ℝ, (otherRows k ρ fun p : Fin N × Fin nb => if k ≤ (p.1 : ℕ) then w p else z p) = otherRows k ρ z := by
      intro w
      ext j i
      simp only [otherRows, of_apply]
      by_cases hi : (i : ℕ) < k ∧ i ≠ ρ
      · rw [if_pos hi, if_pos hi, if_neg (by omega)]
      · rw [if_neg hi, if_neg hi]
    have hrest : ∀ w : Fin N × Fin nb → ℝ, (rowRest k ρ fun p : Fin N × Fin nb => if k ≤ (p.1 : ℕ) then w p else z p) = rowRest k ρ z := by
      intro w
      unfold rowRest
      rw [hoth]
      simp only [if_neg (show ¬ k ≤ (ρ : ℕ) by omega)]
    have hdual : ∀ w : Fin N × Fin nb → ℝ, (dualRow k ρ fun p : Fin N × Fin nb => if k ≤ (p.1 : ℕ) then w p else z p) = dualRow k ρ z := by
      intro w
      unfold dualRow rowGap
      rw [hrest]
    obtain ⟨c, hc⟩ : ∃ c : Fin N → Fin N × Fin nb → ℝ, c = fun a p => if k ≤ (p.1 : ℕ) then A a p.1 * dualRow k ρ z p.2 else 0 := ⟨_, rfl⟩
    have himg : ∀ (w : Fin N × Fin nb → ℝ) a, tailImage k A ρ (fun p : Fin N × Fin nb => if k ≤ (p.1 : ℕ) then w p else z p) a = ∑ p, c a p * w p := by
      intro w a
      unfold tailImage
      rw [hdual, Fintype.sum_prod_type]
      refine Finset.sum_congr rfl fun i _ => ?_
      by_cases hi : k ≤ (i : ℕ)
      · simp only [hi, if_true, hc, Finset.mul_sum]
        exact Finset.sum_congr rfl fun j _ => by ring
      · simp [hi, hc]
    simp only [himg]
    have h1 : ∀ w : Fin N × Fin nb → ℝ, ENNReal.ofReal (∑ a, (∑ p, c a p * w p) ^ 2) = ∑ a, ENNReal.ofReal ((∑ p, c a p * w p) ^ 2) := fun w =>
      ENNReal.ofReal_sum_of_nonneg fun a _ => sq_nonneg _
    simp only [h1]
    rw [lintegral_finsetSum _ fun a _ => by fun_prop]
    simp only [gaussPi_linear_sq]
    rw [← ENNReal.ofReal_sum_of_nonneg fun a _ => Finset.sum_nonneg fun p _ => sq_nonneg _]
    have h2 : ∑ a, ∑ p, c a p ^ 2 = tailSq k A * (rowGap k ρ z)⁻¹ := by
      unfold tailSq
      rw [← dualRow_sq, Finset.sum_mul]
      refine Finset.sum_congr rfl fun a _ => ?_
      rw [Fintype.sum_prod_type, Finset.sum_mul]
      refine Finset.sum_congr rfl fun i _ => ?_
      by_cases hi : k ≤ (i : ℕ)
      · simp only [hi, if_true, hc, Finset.mul_sum]
        exact Finset.sum_congr rfl fun j _ => by ring
      · simp [hi, hc]
    rw [h2, ENNReal.ofReal_mul (tailSq_nonneg k A)]
    refine mul_le_mul_right ?_ _
    rcases (rowGap_nonneg k ρ z).eq_or_lt with h | h
    · rw [← h]; simp
    · rw [ENNReal.ofReal_inv_of_pos h]
  calc _ ≤ ∫⁻ z : Fin N × Fin nb → ℝ, ENNReal.ofReal (tailSq k A) * (ENNReal.ofReal (rowGap k ρ z))⁻¹ ∂gaussPi (Fin N × Fin nb) := lintegral_mono fun z => hin z
    _ = ENNReal.ofReal (tailSq k A) * ∫⁻ z : Fin N × Fin nb → ℝ, (ENNReal.ofReal (rowGap k ρ z))⁻¹ ∂gaussPi (Fin N × Fin nb) :=
        lintegral_const_mul _ (rowGap_measurable k ρ).ennreal_ofReal.inv
    _ ≤ ENNReal.ofReal (tailSq k A) * ENNReal.ofReal (1 / (nb - k - 1)) := mul_le_mul_right (rowGap_inv k ρ hρ hk) _
    _ = _ := by rw [← ENNReal.ofReal_mul (tailSq_nonneg k A)]; congr 1; ring

/-- The sketch as a matrix. -/
def sketchMat (W : Fin N × Fin nb → ℝ) : Matrix (Fin N) (Fin nb) ℝ := Matrix.of fun i j => W (i, j)

/-- A projector does not lengthen a vector. -/
theorem proj_compl_le {n : ℕ} {P : Matrix (Fin n) (Fin n) ℝ} (hs : Pᵀ = P) (hi : P * P = P) (x : Fin n → ℝ) :
    ((1 - P) *ᵥ x) ⬝ᵥ ((1 - P) *ᵥ x) ≤ x ⬝ᵥ x := by
  have h1 : x = (1 - P) *ᵥ x + P *ᵥ x := by rw [sub_mulVec, one_mulVec, sub_add_cancel]
  have h2 : ((1 - P) *ᵥ x) ⬝ᵥ (P *ᵥ x) = 0 := by
    rw [dotProduct_mulVec, ← mulVec_transpose, hs, mulVec_mulVec, Matrix.mul_sub, Matrix.mul_one, hi, sub_self, zero_mulVec, zero_dotProduct]
  have h3 : x ⬝ᵥ x = ((1 - P) *ᵥ x) ⬝ᵥ ((1 - P) *ᵥ x) + (P *ᵥ x) ⬝ᵥ (P *ᵥ x) := by
    conv_lhs => rw [h1]
    rw [add_dotProduct, dotProduct_add, dotProduct_add, h2, dotProduct_comm (P *ᵥ x) ((1 - P) *ᵥ x), h2]
    ring
  have := dotSelf_nonneg (P *ᵥ x)
  linarith

/-- The bound for a fixed sketch. -/
theorem rangeFinder_det (k : ℕ) (A : Matrix (Fin N) (Fin N) ℝ) (W : Fin N × Fin nb → ℝ) (hW : ∀ ρ : Fin N, (ρ : ℕ) < k → rowGap k ρ W ≠ 0) :
    ∑ a, ∑ i, ((1 - colProj (A * sketchMat W) fun _ => True) * A) a i ^ 2 ≤
      tailSq k A + ∑ ρ : Fin N, if (ρ : ℕ) < k then ∑ a, tailImage k A ρ W a ^ 2 else 0 := by
  have hp := colProj_spec (A * sketchMat W) fun _ => True
  obtain ⟨P, hP⟩ : ∃ P, P = colProj (A * sketchMat W) fun _ => True := ⟨_, rfl⟩
  rw [← hP] at hp ⊢
  have hPY : P * (A * sketchMat W) = A * sketchMat W := by ext i j; exact hp.fixes j trivial i
  have hcol : ∀ i, ∑ a, ((1 - P) * A) a i ^ 2 = ((1 - P) *ᵥ fun a => A a i) ⬝ᵥ ((1 - P) *ᵥ fun a => A a i) := by
    intro i
    rw [dotProduct]
    refine Finset.sum_congr rfl fun a _ => ?_
    rw [pow_two]
    rfl
  have hany : ∀ i (c : Fin nb → ℝ), ∑ a, ((1 - P) * A) a i ^ 2 ≤ ∑ a, (A a i - ((A * sketchMat W) *ᵥ c) a) ^ 2 := by
    intro i c
    rw [hcol]
    have h1 : (1 - P) *ᵥ (fun a => A a i) = (1 - P) *ᵥ ((fun a => A a i) - (A * sketchMat W) *ᵥ c) := by
      rw [mulVec_sub, sub_mulVec 1 P ((A * sketchMat W) *ᵥ c), one_mulVec, mulVec_mulVec, hPY, sub_self, sub_zero]
    rw [h1]
    refine (proj_compl_le hp.symm hp.idem _).trans (le_of_eq ?_)
    rw [dotProduct]
    exact Finset.sum_congr rfl fun a _ => by rw [pow_two]; rfl
  rw [Finset.sum_comm]
  have hterm : ∀ i : Fin N, ∑ a, ((1 - P) * A) a i ^ 2 ≤ (∑ a, if k ≤ (i : ℕ) then A a i ^ 2 else 0) + if (i : ℕ) < k then ∑ a, tailImage k A i W a ^ 2 else 0 := by
    intro i
    by_cases hi : k ≤ (i : ℕ)
    · simp only [hi, if_true, if_neg (show ¬ (i : ℕ) < k by omega), add_zero]
      refine (hany i 0).trans (le_of_eq ?_)
      simp
    · have hik : (i : ℕ) < k := by omega
      simp only [hi, if_false, hik, if_true, Finset.sum_const_zero, zero_add]
      refine (hany i (dualRow k i W)).trans (le_of_eq ?_)
      refine Finset.sum_congr rfl fun a _ => ?_
      have h1 : ((A * sketchMat W) *ᵥ dualRow k i W) a = A a i + tailImage k A i W a := by
        rw [← mulVec_mulVec]
        unfold tailImage
        have h2 : ∀ i' : Fin N, (sketchMat W *ᵥ dualRow k i W) i' = ∑ j, W (i', j) * dualRow k i W j := fun i' => rfl
        have h3 : ∀ i' : Fin N, (i' : ℕ) < k → ∑ j, W (i', j) * dualRow k i W j = if i' = i then 1 else 0 := by
          intro i' hi'
          have h4 : ∑ j, W (i', j) * dualRow k i W j = (rowGap k i W)⁻¹ * ∑ j, W (i', j) * rowRest k i W j := by
            rw [Finset.mul_sum]
            exact Finset.sum_congr rfl fun j _ => by unfold dualRow; ring
          rw [h4]
          by_cases h : i' = i
          · subst h
            rw [rowRest_self, if_pos rfl, inv_mul_cancel₀ (hW i' hi')]
          · rw [rowRest_other k i W i' hi' h, mul_zero, if_neg h]
        have h5 : A a i = ∑ i' : Fin N, if k ≤ (i' : ℕ) then 0 else A a i' * ∑ j, W (i', j) * dualRow k i W j := by
          rw [Finset.sum_eq_single i]
          · rw [if_neg hi, h3 i hik, if_pos rfl, mul_one]
          · intro i' _ hne
            by_cases h : k ≤ (i' : ℕ)
            · rw [if_pos h]
            · rw [if_neg h, h3 i' (by omega), if_neg hne, mul_zero]
          · intro h; exact absurd (Finset.mem_univ i) h
        rw [h5, ← Finset.sum_add_distrib]
        show ∑ i' : Fin N, A a i' * (sketchMat W *ᵥ dualRow k i W) i' = _
        refine Finset.sum_congr rfl fun i' _ => ?_
        rw [h2]
        split_ifs <;> simp
      rw [h1]
      ring
  refine (Finset.sum_le_sum fun i _ => hterm i).trans (le_of_eq ?_)
  rw [Finset.sum_add_distrib, Finset.sum_comm]
  rfl

/-- The average over the sketch, in terms of the columns from `k` on. -/
theorem rangeFinder_tail (k : ℕ) (hk : k + 2 ≤ nb) (A : Matrix (Fin N) (Fin N) ℝ) :
    ∫⁻ W : Fin N × Fin nb → ℝ, ENNReal.ofReal (∑ a, ∑ i, ((1 - colProj (A * sketchMat W) fun _ => True) * A) a i ^ 2) ∂gaussPi (Fin N × Fin nb) ≤
      ENNReal.ofReal ((1 + k / (nb - k - 1)) * tailSq k A) := by
  have hpos : (0 : ℝ) < nb - k - 1 := by
    have : ((k + 2 : ℕ) : ℝ) ≤ nb := by exact_mod_cast hk
    push_cast at this
    linarith
  have hne : ∀ᵐ W ∂gaussPi (Fin N × Fin nb), ∀ ρ : Fin N, (ρ : ℕ) < k → rowGap k ρ W ≠ 0 := by
    rw [ae_all_iff]
    intro ρ
    by_cases hρ : (ρ : ℕ) < k
    · have hm : Measurable fun W : Fin N × Fin nb → ℝ => (ENNReal.ofReal (rowGap k ρ W))⁻¹ := (rowGap_measurable k ρ).ennreal_ofReal.inv
      have h1 := ae_lt_top hm ((rowGap_inv k ρ hρ hk).trans_lt ENNReal.ofReal_lt_top).ne
      filter_upwards [h1] with W hW _ h0
      rw [h0] at hW
      simp at hW
    · exact Filter.Eventually.of_forall fun W h => absurd h hρ
  have hle : ∫⁻ W : Fin N × Fin nb → ℝ, ENNReal.ofReal (∑ a, ∑ i, ((1 - colProj (A * sketchMat W) fun _ => True) * A) a i ^ 2) ∂gaussPi (Fin N × Fin nb) ≤
      ∫⁻ W : Fin N × Fin nb → ℝ, (ENNReal.ofReal (tailSq k A) + ∑ ρ ∈ Finset.univ.filter fun ρ : Fin N => (ρ : ℕ) < k, ENNReal.ofReal (∑ a, tailImage k A ρ W a ^ 2))
        ∂gaussPi (Fin N × Fin nb) := by
    refine lintegral_mono_ae ?_
    filter_upwards [hne] with W hW
    refine (ENNReal.ofReal_le_ofReal (rangeFinder_det k A W hW)).trans ?_
    rw [← Finset.sum_filter, ENNReal.ofReal_add (tailSq_nonneg k A) (Finset.sum_nonneg fun ρ _ => Finset.sum_nonneg fun a _ => sq_nonneg _),
      ENNReal.ofReal_sum_of_nonneg fun ρ _ => Finset.sum_nonneg fun a _ => sq_nonneg _]
  refine hle.trans ?_
  have hm : ∀ ρ, Measurable fun W : Fin N × Fin nb → ℝ => ENNReal.ofReal (∑ a, tailImage k A ρ W a ^ 2) := fun ρ =>
    (Finset.measurable_sum _ fun a _ => (tailImage_measurable k A ρ a).pow_const 2).ennreal_ofReal
  rw [lintegral_add_left measurable_const, lintegral_finsetSum _ fun ρ _ => hm ρ, lintegral_const, measure_univ, mul_one]
  have hsum : ∑ ρ ∈ Finset.univ.filter (fun ρ : Fin N => (ρ : ℕ) < k), ∫⁻ W : Fin N × Fin nb → ℝ, ENNReal.ofReal (∑ a, tailImage k A ρ W a ^ 2) ∂gaussPi (Fin N × Fin nb) ≤
      ENNReal.ofReal (k * (tailSq k A / (nb - k - 1))) := by
    have h1 : ∀ ρ ∈ Finset.univ.filter (fun ρ : Fin N => (ρ : ℕ) < k), ∫⁻ W : Fin N × Fin nb → ℝ, ENNReal.ofReal (∑ a, tailImage k A ρ W a ^ 2) ∂gaussPi (Fin N × Fin nb) ≤
        ENNReal.ofReal (tailSq k A / (nb - k - 1)) := fun ρ hρ => tailImage_mean k A ρ (Finset.mem_filter.1 hρ).2 hk
    refine (Finset.sum_le_card_nsmul _ _ _ h1).trans ?_
    have hcard : (Finset.univ.filter fun i : Fin N => (i : ℕ) < k).card ≤ k := by
      have : (Finset.univ.filter fun i : Fin N => (i : ℕ) < k).card ≤ (Finset.range k).card :=
        Finset.card_le_card_of_injOn (fun i => (i : ℕ)) (fun i hi => by simpa using hi) fun a _ b _ h => Fin.ext h
      rwa [Finset.card_range] at this
    rw [nsmul_eq_mul, ENNReal.ofReal_mul (by positivity), ENNReal.ofReal_natCast]
    exact mul_le_mul_left (by exact_mod_cast hcard) _
  refine (add_le_add_right hsum _).trans (le_of_eq ?_)
  rw [← ENNReal.ofReal_add (tailSq_nonneg k A) (mul_nonneg (by positivity) (div_nonneg (tailSq_nonneg k A) hpos.le))]
  congr 1
  ring

/-- There is an orthonormal basis whose vectors from `k` on are mapped to zero by a matrix of rank at most `k`. -/
theorem exists_basis_ker (B : Matrix (Fin N) (Fin N) ℝ) (k : ℕ) (hB : B.rank ≤ k) :
    ∃ b : OrthonormalBasis (Fin N) ℝ (EuclideanSpace ℝ (Fin N)), ∀ i : Fin N, k ≤ (i : ℕ) → B *ᵥ (fun j => b i j) = 0 := by
  obtain ⟨L, hL⟩ : ∃ L : EuclideanSpace ℝ (Fin N) →ₗ[ℝ] Fin N → ℝ, L = B.mulVecLin ∘ₗ (WithLp.linearEquiv 2 ℝ (Fin N → ℝ)).toLinearMap := ⟨_, rfl⟩
  obtain ⟨K, hK⟩ : ∃ K : Submodule ℝ (EuclideanSpace ℝ (Fin N)), K = LinearMap.ker L := ⟨_, rfl⟩
  have h1 : N - k ≤ Module.finrank ℝ K := by
    have h2 := LinearMap.finrank_range_add_finrank_ker L
    have h3 : LinearMap.range L = LinearMap.range B.mulVecLin := by rw [hL, LinearMap.range_comp_of_range_eq_top _ (LinearEquiv.range _)]
    rw [h3, finrank_euclideanSpace_fin, ← hK] at h2
    unfold Matrix.rank at hB
    omega
  obtain ⟨v, hv⟩ : ∃ v : Fin N → EuclideanSpace ℝ (Fin N), v = fun (i : Fin N) => if h : (i : ℕ) - k < Module.finrank ℝ K then
    ((stdOrthonormalBasis ℝ K) ⟨(i : ℕ) - k, h⟩ : EuclideanSpace ℝ (Fin N)) else 0 := ⟨_, rfl⟩
  have hvi : ∀ i : {i : Fin N // k ≤ (i : ℕ)}, v i.1 = ((stdOrthonormalBasis ℝ K) ⟨(i.1 : ℕ) - k, by have := i.1.2; have := i.2; omega⟩ : EuclideanSpace ℝ (Fin N)) := by
    intro i
    have h : (i.1 : ℕ) - k < Module.finrank ℝ K := by have := i.1.2; have := i.2; omega
    rw [hv]
    simp only [h, dite_true]
  have hort : Orthonormal ℝ (({i : Fin N | k ≤ (i : ℕ)}).domRestrict v) := by
    have h2 : ({i : Fin N | k ≤ (i : ℕ)}).domRestrict v = (fun l => K.subtypeₗᵢ ((stdOrthonormalBasis ℝ K) l)) ∘
        fun i : {i : Fin N // k ≤ (i : ℕ)} => ⟨(i.1 : ℕ) - k, by have := i.1.2; have := i.2; omega⟩ := by
      funext i
      exact hvi i
    rw [h2]
    refine Orthonormal.comp ((stdOrthonormalBasis ℝ K).orthonormal.comp_linearIsometry K.subtypeₗᵢ) _ fun a b h => ?_
    simp only [Fin.mk.injEq] at h
    have h3 : k ≤ (a.1 : ℕ) := a.2
    have h4 : k ≤ (b.1 : ℕ) := b.2
    exact Subtype.ext (Fin.ext (by omega))
  obtain ⟨b, hb⟩ := hort.exists_orthonormalBasis_extension_of_card_eq (by simp)
  refine ⟨b, fun i hi => ?_⟩
  have h3 : b i ∈ K := by
    rw [hb i hi, hvi ⟨i, hi⟩]
    exact Submodule.coe_mem _
  rw [hK, LinearMap.mem_ker, hL] at h3
  exact h3

/-- Applying an orthogonal map to every column of a normal sketch does not change the law. -/
theorem gaussPi_rot_cols (b : OrthonormalBasis (Fin N) ℝ (EuclideanSpace ℝ (Fin N))) :
    MeasurePreserving (fun (W : Fin N × Fin nb → ℝ) p => ∑ i, b p.1 i * W (i, p.2)) (gaussPi (Fin N × Fin nb)) (gaussPi (Fin N × Fin nb)) := by
  classical
  obtain ⟨v, hv⟩ : ∃ v : Fin N × Fin nb → EuclideanSpace ℝ (Fin N × Fin nb), v = fun p => WithLp.toLp 2 fun q => if q.2 = p.2 then b p.1 q.1 else 0 := ⟨_, rfl⟩
  have hsum : ∀ p (w : Fin N × Fin nb → ℝ), ∑ q, v p q * w q = ∑ i, b p.1 i * w (i, p.2) := by
    intro p w
    rw [Fintype.sum_prod_type]
    refine Finset.sum_congr rfl fun i _ => ?_
    rw [Finset.sum_eq_single p.2]
    · simp [hv]
    · intro j _ hj
      simp [hv, hj]
    · intro h; exact absurd (Finset.mem_univ _) h
  have hort : Orthonormal ℝ v := by
    have hb := b.orthonormal
    rw [orthonormal_iff_ite] at hb ⊢
    intro p p'
    have h1 : inner ℝ (v p) (v p') = ∑ q, v p q * v p' q := by
      rw [PiLp.inner_apply]
      exact Finset.sum_congr rfl fun q _ => by simp [mul_comm]
    rw [h1, hsum]
    by_cases h : p.2 = p'.2
    · have h2 := hb p.1 p'.1
      rw [PiLp.inner_apply] at h2
      have h3 : ∑ i, b p.1 i * v p' (i, p.2) = if p.1 = p'.1 then 1 else 0 := by
        rw [← h2]
        exact Finset.sum_congr rfl fun i _ => by simp [hv, h, mul_comm]
      rw [h3]
      simp [Prod.ext_iff, h]
    · have h3 : ∑ i, b p.1 i * v p' (i, p.2) = 0 := Finset.sum_eq_zero fun i _ => by simp [hv, h]
      rw [h3, if_neg fun h' => h (by rw [h'])]
  have hort' : Orthonormal ℝ (Set.univ.domRestrict v) := hort.comp _ Subtype.val_injective
  obtain ⟨b', hb'⟩ := hort'.exists_orthonormalBasis_extension_of_card_eq (by simp)
  have h := gaussPi_rot b'
  have h1 : (fun (x : Fin N × Fin nb → ℝ) i => ∑ j, b' i j * x j) = fun (W : Fin N × Fin nb → ℝ) p => ∑ i, b p.1 i * W (i, p.2) := by
    funext W p
    rw [hb' p trivial]
    exact hsum p W
  rwa [h1] at h

theorem frob_rot (M V : Matrix (Fin N) (Fin N) ℝ) (hV : V * Vᵀ = 1) : ∑ a, ∑ i, (M * V) a i ^ 2 = ∑ a, ∑ i, M a i ^ 2 := by
  have h : ∀ X : Matrix (Fin N) (Fin N) ℝ, ∑ a, ∑ i, X a i ^ 2 = (X * Xᵀ).trace := by
    intro X
    simp only [Matrix.trace, diag_apply, mul_apply, transpose_apply, pow_two]
  rw [h, h, transpose_mul, Matrix.mul_assoc, ← Matrix.mul_assoc V, hV, Matrix.one_mul]

/-- The average over a normal sketch, compared with any matrix of rank at most `k`. -/
theorem rangeFinder_rank (k : ℕ) (hk : k + 2 ≤ nb) (A B : Matrix (Fin N) (Fin N) ℝ) (hB : B.rank ≤ k) :
    ∫⁻ W : Fin N × Fin nb → ℝ, ENNReal.ofReal (∑ a, ∑ i, ((1 - colProj (A * sketchMat W) fun _ => True) * A) a i ^ 2) ∂gaussPi (Fin N × Fin nb) ≤
      ENNReal.ofReal ((1 + k / (nb - k - 1)) * ∑ a, ∑ i, (A - B) a i ^ 2) := by
  have hpos : (0 : ℝ) < nb - k - 1 := by
    have : ((k + 2 : ℕ) : ℝ) ≤ nb := by exact_mod_cast hk
    push_cast at this
    linarith
  obtain ⟨b, hb⟩ := exists_basis_ker B k hB
  obtain ⟨V, hV⟩ : ∃ V : Matrix (Fin N) (Fin N) ℝ, V = Matrix.of fun i' i => b i i' := ⟨_, rfl⟩
  have hV1 : Vᵀ * V = 1 := by
    ext i i'
    have h1 := (orthonormal_iff_ite.1 b.orthonormal) i i'
    rw [PiLp.inner_apply] at h1
    rw [mul_apply, one_apply, ← h1]
    exact Finset.sum_congr rfl fun j _ => by simp [hV, mul_comm]
  have hV2 : V * Vᵀ = 1 := mul_eq_one_comm.1 hV1
  have hrot := gaussPi_rot_cols (nb := nb) b
  have hmeas : Measurable fun W : Fin N × Fin nb → ℝ => ENNReal.ofReal (∑ a, ∑ i, ((1 - colProj (A * V * sketchMat W) fun _ => True) * (A * V)) a i ^ 2) := by
    have hW : ∀ i j, Measurable fun W : Fin N × Fin nb → ℝ => (A * V * sketchMat W) i j := by
      intro i j
      simp only [mul_apply (M := A * V), sketchMat, of_apply]
      fun_prop
    have hc := colProj_measurable (fun W : Fin N × Fin nb → ℝ => A * V * sketchMat W) (fun _ => True) hW
    refine (Finset.measurable_sum _ fun a _ => Finset.measurable_sum _ fun i _ => Measurable.pow_const ?_ 2).ennreal_ofReal
    simp only [mul_apply (N := A * V), Matrix.sub_apply]
    fun_prop
  have h := rangeFinder_tail (nb := nb) k hk (A * V)
  rw [← hrot.map_eq, lintegral_map hmeas hrot.measurable] at h
  have hS : ∀ W : Fin N × Fin nb → ℝ, A * V * sketchMat (fun p : Fin N × Fin nb => ∑ i, b p.1 i * W (i, p.2)) = A * sketchMat W := by
    intro W
    have h1 : sketchMat (fun p : Fin N × Fin nb => ∑ i, b p.1 i * W (i, p.2)) = Vᵀ * sketchMat W := by
      ext i j
      simp [sketchMat, mul_apply, hV]
    rw [h1, Matrix.mul_assoc A, ← Matrix.mul_assoc V, hV2, Matrix.one_mul]
  simp only [hS, ← Matrix.mul_assoc] at h
  simp only [frob_rot _ V hV2] at h
  refine h.trans (ENNReal.ofReal_le_ofReal (mul_le_mul_of_nonneg_left ?_ (by positivity)))
  rw [← frob_rot (A - B) V hV2]
  unfold tailSq
  refine Finset.sum_le_sum fun a _ => Finset.sum_le_sum fun i _ => ?_
  split_ifs with hi
  · have h2 : (B * V) a i = 0 := by
      have := congrFun (hb i hi) a
      simpa [mul_apply, hV, mulVec, dotProduct] using this
    rw [Matrix.sub_mul, Matrix.sub_apply, h2, sub_zero]
  · exact sq_nonneg _

end Primate
