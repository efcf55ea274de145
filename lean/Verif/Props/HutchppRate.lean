import Verif.Props.SphereVar
import Verif.Lemmas.RangeFinder
import Mathlib.Analysis.Matrix.Spectrum
import Mathlib.Analysis.Matrix.PosDef

/-!
# C126: how fast the error of Hutch++ with normal or sphere vectors decreases

`hutchpp` (`src/primate/trace.py:118-178`).
-/

noncomputable section

namespace Primate

open MeasureTheory ProbabilityTheory Matrix

variable {N : ℕ} {Ω : Type*} [MeasurableSpace Ω] {P : Measure Ω}

/-- The sphere sampler only changes the lengths of the columns, so the projector is almost surely the same. -/
theorem gaussResidual_sphere (A : Matrix (Fin N) (Fin N) ℝ) (nb : ℕ) : ∀ᵐ z ∂gaussStream, gaussResidual .sphere A nb z = gaussResidual .normal A nb z := by
  have hne : ∀ᵐ z ∂gaussStream, ∀ q : ℕ, z q ≠ 0 := by
    rw [ae_all_iff]; exact gauss_ne_zero
  filter_upwards [hne] with z hz
  rcases Nat.eq_zero_or_pos N with h0 | hN
  · subst h0
    ext i
    exact i.elim0
  obtain ⟨t, ht⟩ : ∃ t : Fin nb → ℝ, t = fun (j : Fin nb) => Real.sqrt N / Real.sqrt (∑ i : Fin N, streamCol N z j i ^ 2) := ⟨_, rfl⟩
  have ht0 : ∀ j, t j ≠ 0 := by
    intro j
    have h1 : 0 < ∑ i : Fin N, streamCol N z j i ^ 2 := by
      refine Finset.sum_pos (fun i _ => ?_) ⟨⟨0, hN⟩, Finset.mem_univ _⟩
      have := hz (j * N + i)
      have h2 : streamCol N z j i ≠ 0 := this
      positivity
    have h2 : (0 : ℝ) < N := by exact_mod_cast hN
    rw [ht]
    positivity
  have hmat : gaussMat .sphere N nb z = gaussMat .normal N nb z * diagonal t := by
    ext i j
    rw [mul_diagonal]
    simp only [gaussMat, of_apply, gaussVec, sphereCol, ht]
    ring
  have hproj : (colProj (A * gaussMat .sphere N nb z) fun _ => True) = colProj (A * gaussMat .normal N nb z) fun _ => True := by
    have hp := colProj_spec (A * gaussMat .normal N nb z) fun _ => True
    refine isProjOn_unique (colProj_spec _ _) ⟨hp.symm, hp.idem, ?_, ?_⟩
    · intro j _ i
      rw [hmat, ← Matrix.mul_assoc A, ← Matrix.mul_assoc, mul_diagonal, mul_diagonal, hp.fixes j trivial i]
    · obtain ⟨C, hC, -⟩ := hp.range
      refine ⟨diagonal (fun j => (t j)⁻¹) * C, ?_, fun j hj => absurd trivial hj⟩
      have h1 : diagonal t * diagonal (fun j => (t j)⁻¹) = (1 : Matrix (Fin nb) (Fin nb) ℝ) := by
        rw [diagonal_mul_diagonal, ← diagonal_one]
        congr 1
        funext j
        exact mul_inv_cancel₀ (ht0 j)
      rw [hmat, ← Matrix.mul_assoc A, Matrix.mul_assoc (A * gaussMat .normal N nb z), ← Matrix.mul_assoc (diagonal t), h1, Matrix.one_mul]
      exact hC
  unfold gaussResidual
  rw [hproj]

theorem residual_frob_le {n : ℕ} {Q : Matrix (Fin n) (Fin n) ℝ} (hs : Qᵀ = Q) (hi : Q * Q = Q) (M : Matrix (Fin n) (Fin n) ℝ) :
    ∑ a, ∑ i, (M * (1 - Q)) a i ^ 2 ≤ ∑ a, ∑ i, M a i ^ 2 := by
  refine Finset.sum_le_sum fun a _ => ?_
  have h := proj_compl_le hs hi (M a)
  have h1 : ∀ i, (M * (1 - Q)) a i = ((1 - Q) *ᵥ M a) i := by
    intro i
    have : ((1 - Q) *ᵥ M a) i = ((1 - Q)ᵀ *ᵥ M a) i := by rw [transpose_sub, transpose_one, hs]
    rw [this, mulVec_transpose]
    rfl
  simp only [h1]
  simpa [dotProduct, pow_two] using h

/-- The average squared residual, compared with any matrix of rank at most `k`. -/
theorem gaussResidual_rate (d : IsoDist) (hd : d ≠ .rademacher) (A B : Matrix (Fin N) (Fin N) ℝ) (k nb : ℕ) (hB : B.rank ≤ k) (hk : k + 2 ≤ nb) :
    ∫ z, ∑ i, ∑ j, gaussResidual d A nb z i j ^ 2 ∂gaussStream ≤ (1 + k / (nb - k - 1)) * ∑ i, ∑ j, (A - B) i j ^ 2 := by
  have hpos : (0 : ℝ) < nb - k - 1 := by
    have : ((k + 2 : ℕ) : ℝ) ≤ nb := by exact_mod_cast hk
    push_cast at this
    linarith
  have hn : ∫ z, ∑ i, ∑ j, gaussResidual .normal A nb z i j ^ 2 ∂gaussStream ≤ (1 + k / (nb - k - 1)) * ∑ i, ∑ j, (A - B) i j ^ 2 := by
    have hm : Measurable fun z => ∑ i, ∑ j, gaussResidual .normal A nb z i j ^ 2 := Finset.measurable_sum _ fun p _ => Finset.measurable_sum _ fun q _ =>
      (gaussResidual_measurable .normal A nb p q).pow_const 2
    rw [integral_eq_lintegral_of_nonneg_ae (Filter.Eventually.of_forall fun z => Finset.sum_nonneg fun i _ => Finset.sum_nonneg fun j _ => sq_nonneg _) hm.aestronglyMeasurable]
    have hf : Function.Injective fun p : Fin N × Fin nb => (p.2 : ℕ) * N + p.1 := by
      rintro ⟨i, j⟩ ⟨i', j'⟩ h
      simp only at h
      have hi := i.2
      have hi' := i'.2
      have h1 : (j : ℕ) = j' := by
        have e1 : ((j : ℕ) * N + i) / N = j := by
          rw [Nat.add_comm, Nat.add_mul_div_right _ _ (by omega), Nat.div_eq_of_lt hi, zero_add]
        have e2 : ((j' : ℕ) * N + i') / N = j' := by
          rw [Nat.add_comm, Nat.add_mul_div_right _ _ (by omega), Nat.div_eq_of_lt hi', zero_add]
        rw [← e1, ← e2, h]
      rw [h1] at h
      exact Prod.ext (Fin.ext (by simpa using h)) (Fin.ext h1)
    have hmp := gaussPi_of_stream _ hf
    have h := rangeFinder_rank (nb := nb) k hk A B hB
    have hmeas : Measurable fun W : Fin N × Fin nb → ℝ => ENNReal.ofReal (∑ a, ∑ i, ((1 - colProj (A * sketchMat W) fun _ => True) * A) a i ^ 2) := by
      have hW : ∀ i j, Measurable fun W : Fin N × Fin nb → ℝ => (A * sketchMat W) i j := by
        intro i j
        simp only [mul_apply, sketchMat, of_apply]
        fun_prop
      have hc := colProj_measurable (fun W : Fin N × Fin nb → ℝ => A * sketchMat W) (fun _ => True) hW
      refine (Finset.measurable_sum _ fun a _ => Finset.measurable_sum _ fun i _ => Measurable.pow_const ?_ 2).ennreal_ofReal
      simp only [mul_apply (N := A), Matrix.sub_apply]
      fun_prop
    rw [← hmp.map_eq, lintegral_map hmeas hmp.measurable] at h
    refine ENNReal.toReal_le_of_le_ofReal (mul_nonneg (by positivity) (Finset.sum_nonneg fun i _ => Finset.sum_nonneg fun j _ => sq_nonneg _)) (le_trans ?_ h)
    refine lintegral_mono fun z => ENNReal.ofReal_le_ofReal ?_
    have hp := colProj_spec (A * gaussMat .normal N nb z) fun _ => True
    exact residual_frob_le hp.symm hp.idem _
  cases d
  · exact absurd rfl hd
  · exact hn
  · refine le_trans (le_of_eq (integral_congr_ae ?_)) hn
    filter_upwards [gaussResidual_sphere A nb] with z hz
    rw [hz]

theorem cross_le {n : ℕ} (R : Matrix (Fin n) (Fin n) ℝ) : ∑ i, ∑ j, R i j * (R i j + R j i) ≤ 2 * ∑ i, ∑ j, R i j ^ 2 := by
  have h1 : ∑ i, ∑ j, R j i ^ 2 = ∑ i, ∑ j, R i j ^ 2 := Finset.sum_comm
  have h2 : ∑ i, ∑ j, R i j * (R i j + R j i) ≤ ∑ i, ∑ j, (3 / 2 * R i j ^ 2 + 1 / 2 * R j i ^ 2) :=
    Finset.sum_le_sum fun i _ => Finset.sum_le_sum fun j _ => by nlinarith [sq_nonneg (R i j - R j i)]
  refine h2.trans (le_of_eq ?_)
  simp only [Finset.sum_add_distrib, ← Finset.mul_sum, h1]
  ring

theorem sphereVar_le' {n : ℕ} (R : Matrix (Fin n) (Fin n) ℝ) : Spec.sphereVar R ≤ 2 * ∑ i, ∑ j, R i j ^ 2 := by
  have h := cross_le R
  have h0 : 0 ≤ ∑ i, ∑ j, R i j ^ 2 := Finset.sum_nonneg fun i _ => Finset.sum_nonneg fun j _ => sq_nonneg _
  unfold Spec.sphereVar
  have hn : (0 : ℝ) ≤ n := Nat.cast_nonneg n
  have h1 : (n : ℝ) / (n + 2) ≤ 1 := by rw [div_le_one (by positivity)]; linarith
  have h2 : 0 ≤ (n : ℝ) / (n + 2) := by positivity
  nlinarith [mul_le_mul_of_nonneg_left h h2, mul_le_mul_of_nonneg_right h1 h0, mul_le_mul_of_nonneg_right h1 (sq_nonneg R.trace)]

/-- The mean squared error as a function of the stream. -/
theorem gaussError_rate (d : IsoDist) (hd : d ≠ .rademacher) (A B : Matrix (Fin N) (Fin N) ℝ) (k nb : ℕ) (hB : B.rank ≤ k) (hk : k + 2 ≤ nb) :
    Integrable (fun z => gaussError d A nb z ^ 2) gaussStream ∧
    ∫ z, gaussError d A nb z ^ 2 ∂gaussStream ≤ 2 * (1 + k / (nb - k - 1)) * (∑ i, ∑ j, (A - B) i j ^ 2) / nb := by
  have hnb : 0 < nb := by omega
  have hnb' : (0 : ℝ) < nb := by exact_mod_cast hnb
  have hrate := gaussResidual_rate d hd A B k nb hB hk
  have hint : ∀ d, Integrable (fun z => 2 * (∑ i, ∑ j, gaussResidual d A nb z i j ^ 2) / nb) gaussStream := by
    intro d
    refine Integrable.div_const (Integrable.const_mul (integrable_finsetSum _ fun p _ => integrable_finsetSum _ fun q _ => ?_) _) _
    refine Integrable.of_bound ((gaussResidual_measurable d A nb p q).pow_const 2).aestronglyMeasurable (absSum A ^ 2) (Filter.Eventually.of_forall fun z => ?_)
    rw [Real.norm_eq_abs, abs_pow]
    exact pow_le_pow_left₀ (abs_nonneg _) (gaussResidual_le d A nb z p q) 2
  have hfin : ∫ z, 2 * (∑ i, ∑ j, gaussResidual d A nb z i j ^ 2) / nb ∂gaussStream ≤ 2 * (1 + k / (nb - k - 1)) * (∑ i, ∑ j, (A - B) i j ^ 2) / nb := by
    rw [integral_div, integral_const_mul, mul_assoc]
    exact div_le_div_of_nonneg_right (mul_le_mul_of_nonneg_left hrate zero_le_two) hnb'.le
  have hcmp : ∀ v : (ℕ → ℝ) → ℝ, (∀ z, v z ≤ 2 * (∑ i, ∑ j, gaussResidual d A nb z i j ^ 2) / nb) → 0 ≤ ∫ z, v z ∂gaussStream →
      ∫ z, v z ∂gaussStream ≤ ∫ z, 2 * (∑ i, ∑ j, gaussResidual d A nb z i j ^ 2) / nb ∂gaussStream := by
    intro v hv h0
    by_cases hi : Integrable v gaussStream
    · exact integral_mono hi (hint d) hv
    · rw [integral_undef hi]
      exact integral_nonneg fun z => div_nonneg (mul_nonneg zero_le_two (Finset.sum_nonneg fun i _ => Finset.sum_nonneg fun j _ => sq_nonneg _)) hnb'.le
  cases d
  · exact absurd rfl hd
  · obtain ⟨h1, h2⟩ := gaussError_mse A nb hnb
    refine ⟨h1, ?_⟩
    have h0 : 0 ≤ ∫ z, gaussError .normal A nb z ^ 2 ∂gaussStream := integral_nonneg fun z => sq_nonneg _
    rw [h2] at h0 ⊢
    exact (hcmp _ (fun z => div_le_div_of_nonneg_right (cross_le _) hnb'.le) h0).trans hfin
  · obtain ⟨h1, h2⟩ := gaussError_mse_sphere A nb hnb
    refine ⟨h1, ?_⟩
    have h0 : 0 ≤ ∫ z, gaussError .sphere A nb z ^ 2 ∂gaussStream := integral_nonneg fun z => sq_nonneg _
    rw [h2] at h0 ⊢
    exact (hcmp _ (fun z => div_le_div_of_nonneg_right (sphereVar_le' _) hnb'.le) h0).trans hfin

/-- The `k` largest of `N` numbers. -/
theorem exists_top {N : ℕ} (f : Fin N → ℝ) (k : ℕ) (hk : k ≤ N) : ∃ S : Finset (Fin N), S.card = k ∧ ∀ i ∈ S, ∀ j ∉ S, f j ≤ f i := by
  induction k with
  | zero => exact ⟨∅, rfl, fun i hi => absurd hi (Finset.notMem_empty i)⟩
  | succ k ih =>
    obtain ⟨S, hS, htop⟩ := ih (by omega)
    have hne : (Finset.univ \ S).Nonempty := by
      rw [← Finset.card_pos, Finset.card_sdiff_of_subset (Finset.subset_univ S), Finset.card_univ, Fintype.card_fin]
      omega
    obtain ⟨m, hm, hmax⟩ := Finset.exists_max_image (Finset.univ \ S) f hne
    have hmS : m ∉ S := (Finset.mem_sdiff.1 hm).2
    refine ⟨insert m S, by rw [Finset.card_insert_of_notMem hmS, hS], fun i hi j hj => ?_⟩
    have hjS : j ∉ S := fun h => hj (Finset.mem_insert_of_mem h)
    rcases Finset.mem_insert.1 hi with rfl | hi
    · exact hmax j (Finset.mem_sdiff.2 ⟨Finset.mem_univ j, hjS⟩)
    · exact htop i hi j hjS

/-- Without the `k` largest of some non-negative numbers the sum of the squares is at most the square of the sum over `4k`. -/
theorem exists_top_sq {N : ℕ} (f : Fin N → ℝ) (hf : ∀ i, 0 ≤ f i) (k : ℕ) (hk : 0 < k) :
    ∃ S : Finset (Fin N), S.card ≤ k ∧ ∑ i, (if i ∈ S then 0 else f i) ^ 2 ≤ (∑ i, f i) ^ 2 / (4 * k) := by
  have hk' : (0 : ℝ) < k := by exact_mod_cast hk
  rcases le_or_gt N k with h | h
  · refine ⟨Finset.univ, by simpa using h, ?_⟩
    simp only [Finset.mem_univ, if_true]
    have : 0 ≤ (∑ i, f i) ^ 2 / (4 * k) := by positivity
    simpa using this
  · obtain ⟨S, hS, htop⟩ := exists_top f k h.le
    refine ⟨S, hS.le, ?_⟩
    obtain ⟨s, hs⟩ : ∃ s, s = ∑ i ∈ S, f i := ⟨_, rfl⟩
    obtain ⟨t, ht⟩ : ∃ t, t = ∑ i, (if i ∈ S then 0 else f i) := ⟨_, rfl⟩
    have hst : ∑ i, f i = s + t := by
      rw [hs, ht, ← Finset.sum_filter_add_sum_filter_not Finset.univ (fun i => i ∈ S) f, Finset.sum_ite, Finset.sum_const_zero, zero_add]
      congr 1
      exact Finset.sum_congr (by ext; simp) fun _ _ => rfl
    have h1 : ∀ j, j ∉ S → f j ≤ s / k := by
      intro j hj
      rw [le_div_iff₀ hk', hs]
      have : ∑ i ∈ S, f j ≤ ∑ i ∈ S, f i := Finset.sum_le_sum fun i hi => htop i hi j hj
      rw [Finset.sum_const, hS, nsmul_eq_mul] at this
      linarith
    have h2 : ∑ i, (if i ∈ S then 0 else f i) ^ 2 ≤ s / k * t := by
      rw [ht, Finset.mul_sum]
      refine Finset.sum_le_sum fun i _ => ?_
      split_ifs with hi
      · simp
      · rw [pow_two]
        exact mul_le_mul_of_nonneg_right (h1 i hi) (hf i)
    refine h2.trans ?_
    rw [hst, div_mul_eq_mul_div, div_le_div_iff₀ hk' (by positivity)]
    nlinarith [sq_nonneg (s - t)]

/-- A positive semidefinite matrix is close to one of rank at most `k`. -/
theorem exists_lowRank (A : Matrix (Fin N) (Fin N) ℝ) (hA : A.PosSemidef) (k : ℕ) (hk : 0 < k) :
    ∃ B : Matrix (Fin N) (Fin N) ℝ, B.rank ≤ k ∧ ∑ i, ∑ j, (A - B) i j ^ 2 ≤ A.trace ^ 2 / (4 * k) := by
  obtain ⟨S, hS, hle⟩ := exists_top_sq hA.isHermitian.eigenvalues hA.eigenvalues_nonneg k hk
  have htrace : A.trace = ∑ i, hA.isHermitian.eigenvalues i := by
    have := hA.isHermitian.trace_eq_sum_eigenvalues
    simpa using this
  obtain ⟨U, hU⟩ : ∃ U : Matrix (Fin N) (Fin N) ℝ, U = hA.isHermitian.eigenvectorUnitary := ⟨_, rfl⟩
  have hUU : Uᵀ * U = 1 := by
    have := (Unitary.mem_iff.1 hA.isHermitian.eigenvectorUnitary.2).1
    rw [← hU] at this
    simpa [star_eq_conjTranspose] using this
  have hspec : A = U * diagonal hA.isHermitian.eigenvalues * Uᵀ := by
    have := hA.isHermitian.spectral_theorem
    simpa [Unitary.conjStarAlgAut_apply, star_eq_conjTranspose, ← hU, Function.comp_def] using this
  obtain ⟨lam, hlam⟩ : ∃ lam : Fin N → ℝ, lam = hA.isHermitian.eigenvalues := ⟨_, rfl⟩
  rw [← hlam] at hspec hle htrace
  clear hU hlam
  have hfrob : ∀ g : Fin N → ℝ, ∑ i, ∑ j, (U * diagonal g * Uᵀ) i j ^ 2 = ∑ i, g i ^ 2 := by
    intro g
    rw [frob_rot (U * diagonal g) Uᵀ (by rw [transpose_transpose]; exact hUU)]
    have h1 : ∑ i, ∑ j, (U * diagonal g) i j ^ 2 = ∑ i, ∑ j, (diagonal g * Uᵀ) i j ^ 2 := by
      rw [Finset.sum_comm]
      refine Finset.sum_congr rfl fun i _ => Finset.sum_congr rfl fun j _ => ?_
      rw [mul_diagonal, diagonal_mul, transpose_apply, mul_comm]
    rw [h1, frob_rot _ Uᵀ (by rw [transpose_transpose]; exact hUU)]
    refine Finset.sum_congr rfl fun i _ => ?_
    rw [Finset.sum_eq_single i]
    · rw [diagonal_apply_eq]
    · intro j _ hj
      rw [diagonal_apply_ne _ (Ne.symm hj)]; simp
    · intro h; exact absurd (Finset.mem_univ i) h
  refine ⟨U * diagonal (fun i => if i ∈ S then lam i else 0) * Uᵀ, ?_, ?_⟩
  · refine (rank_mul_le_left _ _).trans ((rank_mul_le_right _ _).trans ?_)
    rw [rank_diagonal]
    refine le_trans ?_ hS
    rw [Fintype.card_subtype]
    refine Finset.card_le_card fun i hi => ?_
    by_contra h
    simp [h] at hi
  · have h1 : A - U * diagonal (fun i => if i ∈ S then lam i else 0) * Uᵀ =
        U * diagonal (fun i => if i ∈ S then 0 else lam i) * Uᵀ := by
      conv_lhs => rw [hspec]
      rw [← Matrix.sub_mul, ← Matrix.mul_sub, diagonal_sub]
      congr 3
      funext i
      split_ifs <;> simp
    rw [h1, hfrob]
    rwa [htrace]

/-- C126: with normal or sphere vectors the mean squared error of `hutchpp` is at most `(2/nb)(1 + k/(nb-k-1))` times the squared Frobenius distance of the
matrix to any matrix of rank `k ≤ nb - 2`.  For a positive semidefinite matrix and at least three vectors it is at most `2 (tr A)²/(nb (nb-2))`: it decreases
with the square of the number of vectors. -/
theorem C126_rate [IsProbabilityMeasure P] (hN : N ≠ 0) (qr : ∀ nb, (Fin nb → Vec N) → Fin (min N nb) → Vec N) (A : Matrix (Fin N) (Fin N) ℝ)
    (m : Option ℤ) (modeFull full : Bool) (nb : ℕ) (hnb : 3 ≤ nb) (hm : hutchppNb N m = nb) (name : String)
    (hname : name = "normal" ∨ name = "gaussian" ∨ name = "sphere") (u X : ℕ → Ω → ℝ) (hX : Spec.IidNormal P X) (hqr : ∀ Y, QROk (qr nb) Y) :
    ∃ est : Ω → ℝ,
      (∀ᵐ ω ∂P, ∃ out, hutchpp qr ⟨fun q => u q ω, fun q => X q ω⟩ (.ofMatrix A) m modeFull (.name name) full = .ok out ∧ out.estimate = est ω) ∧
      Integrable (fun ω => (est ω - A.trace) ^ 2) P ∧
      (∀ (k : ℕ) (B : Matrix (Fin N) (Fin N) ℝ), k + 2 ≤ nb → B.rank ≤ k →
        ∫ ω, (est ω - A.trace) ^ 2 ∂P ≤ 2 * (1 + k / (nb - k - 1)) * (∑ i, ∑ j, (A i j - B i j) ^ 2) / nb) ∧
      (A.PosSemidef → ∫ ω, (est ω - A.trace) ^ 2 ∂P ≤ 2 * A.trace ^ 2 / (nb * (nb - 2)) ∧
        ∀ ε : ℝ, 0 < ε → P.real {ω | ε * A.trace < |est ω - A.trace|} ≤ 2 / (nb * (nb - 2) * ε ^ 2)) := by
  obtain ⟨d, hd, hr⟩ : ∃ d, ISO_DISTRIBUTIONS.lookup name = some d ∧ d ≠ .rademacher := by
    rcases hname with rfl | rfl | rfl
    · exact ⟨.normal, rfl, by simp⟩
    · exact ⟨.normal, rfl, by simp⟩
    · exact ⟨.sphere, rfl, by simp⟩
  have hnb3 : (3 : ℝ) ≤ nb := by exact_mod_cast hnb
  have hae := hutchpp_gauss hN qr A m modeFull full nb (by omega) hm name d hd hr u X hX hqr
  have hsub : ∀ ω, (A.trace + gaussError d A nb (fun q => X q ω) - A.trace) ^ 2 = gaussError d A nb (fun q => X q ω) ^ 2 := fun ω => by
    rw [add_sub_cancel_left]
  have hint : Integrable (fun ω => (A.trace + gaussError d A nb (fun q => X q ω) - A.trace) ^ 2) P := by
    simp only [hsub]
    exact iidNormal_integrable hX _ (gaussError_rate d hr A 0 0 nb (by simp) (by omega)).1
  have hrate : ∀ (k : ℕ) (B : Matrix (Fin N) (Fin N) ℝ), k + 2 ≤ nb → B.rank ≤ k →
      ∫ ω, (A.trace + gaussError d A nb (fun q => X q ω) - A.trace) ^ 2 ∂P ≤ 2 * (1 + k / (nb - k - 1)) * (∑ i, ∑ j, (A i j - B i j) ^ 2) / nb := by
    intro k B hk hB
    simp only [hsub]
    rw [iidNormal_integral hX (fun z => gaussError d A nb z ^ 2) ((gaussError_measurable d A nb).pow_const 2)]
    exact (gaussError_rate d hr A B k nb hB hk).2
  have hpsd : A.PosSemidef → ∫ ω, (A.trace + gaussError d A nb (fun q => X q ω) - A.trace) ^ 2 ∂P ≤ 2 * A.trace ^ 2 / (nb * (nb - 2)) := by
    intro hA
    obtain ⟨k, hk⟩ : ∃ k, k = (nb - 1) / 2 := ⟨_, rfl⟩
    have hk0 : 0 < k := by omega
    obtain ⟨B, hB, hAB⟩ := exists_lowRank A hA k hk0
    refine (hrate k B (by omega) hB).trans ?_
    have hk1 : (0 : ℝ) < k := by exact_mod_cast hk0
    have hk2 : ((k : ℝ)) ≤ nb - k - 1 := by
      have : 2 * k + 1 ≤ nb := by omega
      have : ((2 * k + 1 : ℕ) : ℝ) ≤ nb := by exact_mod_cast this
      push_cast at this
      linarith
    have hk3 : ((nb : ℝ) - 2) ≤ 2 * k := by
      have : nb ≤ 2 * k + 2 := by omega
      have : (nb : ℝ) ≤ ((2 * k + 2 : ℕ) : ℝ) := by exact_mod_cast this
      push_cast at this
      linarith
    have h1 : 1 + (k : ℝ) / (nb - k - 1) ≤ 2 := by
      have : (k : ℝ) / (nb - k - 1) ≤ 1 := by rw [div_le_one (by linarith)]; exact hk2
      linarith
    have h0 : 0 ≤ ∑ i, ∑ j, (A - B) i j ^ 2 := Finset.sum_nonneg fun i _ => Finset.sum_nonneg fun j _ => sq_nonneg _
    have h2 : 2 * (1 + (k : ℝ) / (nb - k - 1)) * (∑ i, ∑ j, (A i j - B i j) ^ 2) ≤ 4 * (A.trace ^ 2 / (4 * k)) := by
      calc 2 * (1 + (k : ℝ) / (nb - k - 1)) * (∑ i, ∑ j, (A i j - B i j) ^ 2) ≤ 4 * ∑ i, ∑ j, (A - B) i j ^ 2 :=
            mul_le_mul_of_nonneg_right (by linarith) h0
        _ ≤ _ := mul_le_mul_of_nonneg_left hAB (by norm_num)
    rw [div_le_div_iff₀ (by linarith) (mul_pos (by linarith) (by linarith))]
    have h3 : 4 * (A.trace ^ 2 / (4 * k)) * (nb - 2) ≤ 2 * A.trace ^ 2 := by
      have : 4 * (A.trace ^ 2 / (4 * k)) = A.trace ^ 2 / k := by field_simp
      rw [this, div_mul_eq_mul_div, div_le_iff₀ hk1]
      nlinarith [sq_nonneg A.trace]
    have h4 := mul_le_mul_of_nonneg_right h2 (show (0 : ℝ) ≤ nb - 2 by linarith)
    nlinarith [mul_le_mul_of_nonneg_right (h4.trans h3) (show (0 : ℝ) ≤ nb by linarith)]
  refine ⟨fun ω => A.trace + gaussError d A nb fun q => X q ω, ?_, hint, hrate, fun hA => ⟨hpsd hA, ?_⟩⟩
  · filter_upwards [hae] with ω hω
    exact hω.1
  · intro ε hε
    have htr : 0 ≤ A.trace := hA.trace_nonneg
    have hden : (0 : ℝ) < nb * (nb - 2) * ε ^ 2 := mul_pos (mul_pos (by linarith) (by linarith)) (by positivity)
    rcases htr.eq_or_lt with h0 | h0
    · have h5 := hpsd hA
      rw [← h0] at h5
      have h6 : ∫ ω, (A.trace + gaussError d A nb (fun q => X q ω) - A.trace) ^ 2 ∂P = 0 := by
        refine le_antisymm ?_ (integral_nonneg fun ω => sq_nonneg _)
        rw [← h0]
        simpa using h5
      have h7 := (integral_eq_zero_iff_of_nonneg (fun ω => sq_nonneg _) hint).1 h6
      have h8 : P.real {ω | ε * A.trace < |A.trace + gaussError d A nb (fun q => X q ω) - A.trace|} = 0 := by
        rw [measureReal_eq_zero_iff]
        rw [Filter.EventuallyEq, ae_iff] at h7
        refine measure_mono_null (fun ω hω => ?_) h7
        simp only [Set.mem_ofPred_eq, ← h0, mul_zero] at hω ⊢
        intro h9
        have : (0 : ℝ) + gaussError d A nb (fun q => X q ω) - 0 = 0 := by simpa using h9
        rw [this] at hω
        simp at hω
      rw [h8]
      positivity
    · have h5 := mul_meas_ge_le_integral_of_nonneg (μ := P) (f := fun ω => (A.trace + gaussError d A nb (fun q => X q ω) - A.trace) ^ 2)
        (Filter.Eventually.of_forall fun ω => sq_nonneg _) hint ((ε * A.trace) ^ 2)
      have h6 : P.real {ω | ε * A.trace < |A.trace + gaussError d A nb (fun q => X q ω) - A.trace|} ≤
          P.real {ω | (ε * A.trace) ^ 2 ≤ (A.trace + gaussError d A nb (fun q => X q ω) - A.trace) ^ 2} := by
        refine measureReal_mono (fun ω hω => ?_) (measure_ne_top _ _)
        simp only [Set.mem_ofPred_eq] at hω ⊢
        rw [← sq_abs (_ - A.trace)]
        exact pow_le_pow_left₀ (by positivity) hω.le 2
      have h7 := (mul_le_mul_of_nonneg_left h6 (sq_nonneg (ε * A.trace))).trans (h5.trans (hpsd hA))
      have hd0 : (0 : ℝ) < nb * (nb - 2) := mul_pos (by linarith) (by linarith)
      rw [le_div_iff₀ hden]
      rw [le_div_iff₀ hd0] at h7
      have h8 : 0 < A.trace ^ 2 := by positivity
      refine le_of_mul_le_mul_right ?_ h8
      linarith

/-- The hypotheses can be met: with the default number of vectors a trace of a 99 by 99 matrix is off by more than 20 % with probability at most 1/20. -/
example : ∃ (qr : ∀ nb, (Fin nb → Vec 99) → Fin (min 99 nb) → Vec 99), (∀ nb Y, QROk (qr nb) Y) ∧
    ∃ est : (ℕ → ℝ) → ℝ,
      (∀ᵐ z ∂gaussStream, ∃ out, hutchpp qr ⟨fun _ => 0, z⟩ (.ofMatrix (1 : Matrix (Fin 99) (Fin 99) ℝ)) none true (.name "sphere") true = .ok out ∧ out.estimate = est z) ∧
      gaussStream.real {z | 99 / 5 < |est z - 99|} ≤ 1 / 20 := by
  choose qr hqr using fun (nb : ℕ) (Y : Fin nb → Vec 99) => exists_isQR Y
  obtain ⟨est, h1, -, -, h4⟩ := C126_rate (P := gaussStream) (by norm_num) qr (1 : Matrix (Fin 99) (Fin 99) ℝ) none true true 33 (by norm_num) (by rfl) "sphere"
    (by simp) (fun _ _ => 0) (fun q z => z q) iidNormal_exists (hqr 33)
  refine ⟨qr, hqr, est, h1, ?_⟩
  have h5 := (h4 Matrix.PosSemidef.one).2 (1 / 5) (by norm_num)
  have ht : (1 : Matrix (Fin 99) (Fin 99) ℝ).trace = 99 := by simp
  rw [ht] at h5
  have h6 : (1 / 5 * 99 : ℝ) = 99 / 5 := by norm_num
  rw [h6] at h5
  refine h5.trans ?_
  norm_num

end Primate
