import Verif.Lemmas.Ritz
import Mathlib.LinearAlgebra.Dimension.Finrank
import Mathlib.LinearAlgebra.FiniteDimensional.Lemmas
import Mathlib.LinearAlgebra.Matrix.ToLin

/-! # Eigenvalues of compressions: Cauchy's interlacing theorem by counting -/

noncomputable section

namespace Primate

open Matrix

variable {n k : ℕ}

theorem exists_kernel {ι κ : Type} [Fintype ι] [Fintype κ] (M : Matrix κ ι ℝ) (h : Fintype.card κ < Fintype.card ι) :
    ∃ c : ι → ℝ, c ≠ 0 ∧ M *ᵥ c = 0 := by
  have h1 : LinearMap.ker M.mulVecLin ≠ ⊥ := LinearMap.ker_ne_bot_of_finrank_lt (by simpa using h)
  obtain ⟨c, hc, hc0⟩ := Submodule.exists_mem_ne_zero_of_ne_bot h1
  exact ⟨c, hc0, by simpa using hc⟩

/-- If every eigenvalue of the compression with `P` is below every eigenvalue of the matrix without `R`, then `R` has at least as many indices as
`P`. -/
theorem compress_card {A : Matrix (Fin n) (Fin n) ℝ} {T : Matrix (Fin k) (Fin k) ℝ} {Q : Matrix (Fin n) (Fin k) ℝ} (hQ : Qᵀ * Q = 1)
    (hT : ∀ y, (Q *ᵥ y) ⬝ᵥ (A *ᵥ (Q *ᵥ y)) = y ⬝ᵥ (T *ᵥ y)) {lam : Fin n → ℝ} {U : Matrix (Fin n) (Fin n) ℝ} (hA : IsEigh A lam U)
    {th : Fin k → ℝ} {Y : Matrix (Fin k) (Fin k) ℝ} (hY : IsEigh T th Y) (P : Fin k → Prop) (R : Fin n → Prop) [DecidablePred P]
    [DecidablePred R] (h : ∀ i j, P i → ¬ R j → th i < lam j) :
    (Finset.univ.filter P).card ≤ (Finset.univ.filter R).card := by
  by_contra hlt
  push Not at hlt
  rw [← Fintype.card_subtype, ← Fintype.card_subtype] at hlt
  obtain ⟨c, hc0, hc⟩ := exists_kernel (fun (j : {j // R j}) (i : {i // P i}) => (Uᵀ * Q * Y) j i) hlt
  obtain ⟨c', hc'⟩ : ∃ c' : Fin k → ℝ, ∀ i, c' i = if hi : P i then c ⟨i, hi⟩ else 0 := ⟨_, fun _ => rfl⟩
  have hcP : ∀ i, c' i ≠ 0 → P i := by
    intro i hi
    by_contra hP
    exact hi (by rw [hc', dif_neg hP])
  obtain ⟨i0, hi0⟩ : ∃ i, c' i ≠ 0 := by
    obtain ⟨i, hi⟩ := Function.ne_iff.1 hc0
    refine ⟨i, ?_⟩
    rw [hc', dif_pos i.2]
    exact hi
  obtain ⟨y, hy⟩ : ∃ y, y = Y *ᵥ c' := ⟨_, rfl⟩
  obtain ⟨w, hw⟩ : ∃ w, w = Uᵀ *ᵥ (Q *ᵥ y) := ⟨_, rfl⟩
  have hYy : Yᵀ *ᵥ y = c' := by rw [hy, mulVec_mulVec, hY.1, one_mulVec]
  have hwR : ∀ j, w j ≠ 0 → ¬ R j := by
    intro j hj hR
    apply hj
    have e1 : w = (Uᵀ * Q * Y) *ᵥ c' := by rw [hw, hy, mulVec_mulVec, mulVec_mulVec]
    have e2 := congrFun hc ⟨j, hR⟩
    rw [e1]
    refine Eq.trans ?_ e2
    show ∑ i, (Uᵀ * Q * Y) j i * c' i = ∑ i : {i // P i}, (Uᵀ * Q * Y) j i * c i
    rw [← Finset.sum_filter_add_sum_filter_not Finset.univ P]
    rw [Finset.sum_eq_zero (s := Finset.univ.filter fun i => ¬ P i), add_zero]
    · rw [Finset.sum_subtype (Finset.univ.filter P) (p := P) (by simp)]
      refine Finset.sum_congr rfl fun i _ => ?_
      rw [hc', dif_pos i.2]
    · intro i hi
      rw [hc', dif_neg (by simpa using hi), mul_zero]
  have q1 : (Q *ᵥ y) ⬝ᵥ (A *ᵥ (Q *ᵥ y)) = ∑ j, lam j * w j ^ 2 := by
    conv_lhs => rw [← hA.matFun_id]
    rw [hw]
    exact hA.quad_sum _ _
  have q2 : y ⬝ᵥ (T *ᵥ y) = ∑ i, th i * c' i ^ 2 := by
    conv_lhs => rw [← hY.matFun_id]
    rw [← hYy]
    exact hY.quad_sum _ _
  have n1 : (Q *ᵥ y) ⬝ᵥ (Q *ᵥ y) = ∑ j, w j ^ 2 := by rw [hw]; exact (hA.norm_sum _).symm
  have n2 : y ⬝ᵥ y = ∑ i, c' i ^ 2 := by rw [← hYy]; exact (hY.norm_sum _).symm
  have n3 : (Q *ᵥ y) ⬝ᵥ (Q *ᵥ y) = y ⬝ᵥ y := by rw [dotProduct_mulVec, ← mulVec_transpose, mulVec_mulVec, hQ, one_mulVec]
  have hS : 0 < ∑ i, c' i ^ 2 := by
    refine lt_of_lt_of_le (by positivity : 0 < c' i0 ^ 2) ?_
    exact Finset.single_le_sum (f := fun i => c' i ^ 2) (fun i _ => sq_nonneg _) (Finset.mem_univ _)
  have hSw : ∑ j, w j ^ 2 = ∑ i, c' i ^ 2 := by rw [← n1, n3, n2]
  obtain ⟨j0, hj0⟩ : ∃ j, w j ≠ 0 := by
    by_contra hall
    push Not at hall
    rw [← hSw] at hS
    simp [hall] at hS
  have hqq : ∑ j, lam j * w j ^ 2 = ∑ i, th i * c' i ^ 2 := by rw [← q1, hT, q2]
  have hpos : 0 < ∑ i, ∑ j, (lam j - th i) * (c' i ^ 2 * w j ^ 2) := by
    have hnn : ∀ i j, 0 ≤ (lam j - th i) * (c' i ^ 2 * w j ^ 2) := by
      intro i j
      by_cases h1 : c' i = 0
      · simp [h1]
      by_cases h2 : w j = 0
      · simp [h2]
      have := h i j (hcP i h1) (hwR j h2)
      have : 0 < lam j - th i := by linarith
      positivity
    refine Finset.sum_pos' (fun i _ => Finset.sum_nonneg fun j _ => hnn i j) ⟨i0, Finset.mem_univ _, ?_⟩
    refine Finset.sum_pos' (fun j _ => hnn i0 j) ⟨j0, Finset.mem_univ _, ?_⟩
    have := h i0 j0 (hcP i0 hi0) (hwR j0 hj0)
    have : 0 < lam j0 - th i0 := by linarith
    positivity
  have hzero : ∑ i, ∑ j, (lam j - th i) * (c' i ^ 2 * w j ^ 2) =
      (∑ i, c' i ^ 2) * (∑ j, lam j * w j ^ 2) - (∑ i, th i * c' i ^ 2) * (∑ j, w j ^ 2) := by
    rw [Finset.sum_mul_sum, Finset.sum_mul_sum, ← Finset.sum_sub_distrib]
    refine Finset.sum_congr rfl fun i _ => ?_
    rw [← Finset.sum_sub_distrib]
    exact Finset.sum_congr rfl fun j _ => by ring
  rw [hzero, hqq, hSw] at hpos
  linarith

theorem IsEigh.neg {B : Matrix (Fin n) (Fin n) ℝ} {w : Fin n → ℝ} {V : Matrix (Fin n) (Fin n) ℝ} (h : IsEigh B w V) :
    IsEigh (-B) (fun i => -w i) V := by
  refine ⟨h.1, ?_⟩
  rw [Matrix.neg_mul, h.2, ← Matrix.mul_neg]
  congr 1
  ext i j
  by_cases hij : i = j <;> simp [hij]

/-- The same for eigenvalues from above. -/
theorem compress_card_ge {A : Matrix (Fin n) (Fin n) ℝ} {T : Matrix (Fin k) (Fin k) ℝ} {Q : Matrix (Fin n) (Fin k) ℝ} (hQ : Qᵀ * Q = 1)
    (hT : ∀ y, (Q *ᵥ y) ⬝ᵥ (A *ᵥ (Q *ᵥ y)) = y ⬝ᵥ (T *ᵥ y)) {lam : Fin n → ℝ} {U : Matrix (Fin n) (Fin n) ℝ} (hA : IsEigh A lam U)
    {th : Fin k → ℝ} {Y : Matrix (Fin k) (Fin k) ℝ} (hY : IsEigh T th Y) (P : Fin k → Prop) (R : Fin n → Prop) [DecidablePred P]
    [DecidablePred R] (h : ∀ i j, P i → ¬ R j → lam j < th i) :
    (Finset.univ.filter P).card ≤ (Finset.univ.filter R).card := by
  refine compress_card hQ (A := -A) (T := -T) ?_ hA.neg hY.neg P R fun i j h1 h2 => by
    have := h i j h1 h2
    linarith
  intro y
  rw [Matrix.neg_mulVec, Matrix.neg_mulVec, dotProduct_neg, dotProduct_neg, hT]

/-- The leading block of a tridiagonal matrix is a compression. -/
theorem triMat_lead {k m : ℕ} (hkm : k ≤ m) (d e : ℕ → ℝ) :
    ∃ Q : Matrix (Fin m) (Fin k) ℝ, Qᵀ * Q = 1 ∧
      ∀ y, (Q *ᵥ y) ⬝ᵥ (triMat m d e *ᵥ (Q *ᵥ y)) = y ⬝ᵥ (triMat k d e *ᵥ y) := by
  refine ⟨Matrix.of fun i j => if (i : ℕ) = j then 1 else 0, ?_, ?_⟩
  · ext i j
    rw [Matrix.mul_apply, Matrix.one_apply]
    simp only [transpose_apply, of_apply]
    rw [Finset.sum_eq_single (Fin.castLE hkm i)]
    · by_cases hij : i = j
      · subst hij; simp
      · have : ¬ (i : ℕ) = j := fun h => hij (Fin.ext h)
        simp [hij, this]
    · intro b _ hb
      rw [if_neg (show ¬ (b : ℕ) = i from fun h => hb (Fin.ext h)), zero_mul]
    · simp
  · intro y
    have hsub : triMat k d e = (Matrix.of fun (i : Fin m) (j : Fin k) => if (i : ℕ) = j then (1 : ℝ) else 0)ᵀ * triMat m d e *
        (Matrix.of fun (i : Fin m) (j : Fin k) => if (i : ℕ) = j then (1 : ℝ) else 0) := by
      ext i j
      rw [Matrix.mul_apply, Finset.sum_eq_single (Fin.castLE hkm j)]
      · rw [Matrix.mul_apply, Finset.sum_eq_single (Fin.castLE hkm i)]
        · simp [triMat, Fin.ext_iff]
        · intro b _ hb
          simp only [transpose_apply, of_apply]
          rw [if_neg (show ¬ (b : ℕ) = i from fun h => hb (Fin.ext h)), zero_mul]
        · simp
      · intro b _ hb
        simp only [of_apply]
        rw [if_neg (show ¬ (b : ℕ) = j from fun h => hb (Fin.ext h)), mul_zero]
      · simp
    rw [hsub]
    generalize (Matrix.of fun (i : Fin m) (j : Fin k) => if (i : ℕ) = j then (1 : ℝ) else 0) = Q
    rw [← mulVec_mulVec, ← mulVec_mulVec, dotProduct_mulVec y, vecMul_transpose]

/-- The tridiagonal matrix of a run without early stop is a compression of the operator. -/
theorem lz_compress (B : Matrix (Fin n) (Fin n) ℝ) (hB : B.IsSymm) (v : Vec n) (hv : v ≠ 0) (k : ℕ) (hk : 0 < k)
    (hb : ∀ i, i + 1 < k → lzb B.mulVec v (i + 1) ≠ 0) :
    ∃ Q : Matrix (Fin n) (Fin k) ℝ, Qᵀ * Q = 1 ∧
      ∀ y, (Q *ᵥ y) ⬝ᵥ (B *ᵥ (Q *ᵥ y)) = y ⬝ᵥ (triMat k (lza B.mulVec v) (lzb B.mulVec v) *ᵥ y) := by
  obtain ⟨J, rfl⟩ : ∃ J, k = J + 1 := ⟨k - 1, by omega⟩
  replace hb : ∀ i < J, lzb B.mulVec v (i + 1) ≠ 0 := fun i hi => hb i (by omega)
  have hd := kdata_of_final B hB v hv (J + 1) J (lza B.mulVec v) (lzb B.mulVec v) (by omega) hb (fun _ _ => rfl)
    (fun _ _ => rfl) (Or.inl rfl)
  rw [if_pos rfl] at hd
  obtain ⟨hQ, hr⟩ := qcols_orth B hB v hv J hb
  refine ⟨_, hQ, fun y => ?_⟩
  have hQr : (qcols B.mulVec v J (J + 1))ᵀ *ᵥ (lzb B.mulVec v (J + 1) • lzq B.mulVec v (J + 1)) = 0 := funext fun j => hr j
  rw [hd.rel, dotProduct_add, dotProduct_smul, dotProduct_mulVec, ← mulVec_transpose, mulVec_mulVec, hQ, one_mulVec]
  have hz : (qcols B.mulVec v J (J + 1) *ᵥ y) ⬝ᵥ (lzb B.mulVec v (J + 1) • lzq B.mulVec v (J + 1)) = 0 := by
    rw [dotProduct_comm, dotProduct_mulVec, ← mulVec_transpose, hQr, zero_dotProduct]
  rw [hz, smul_zero, add_zero]

end Primate
