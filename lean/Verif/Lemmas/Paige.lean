import Verif.Spec.Lanczos
import Verif.Lemmas.Perturb
import Verif.Lemmas.LanczosSign
import Mathlib.Algebra.Order.Chebyshev

/-! Consequences of a three-term recurrence that holds approximately (C. C. Paige's analysis of the Lanczos method). -/

noncomputable section

namespace Primate

open Matrix

variable {n k : ℕ}

/-- `A Q = Q T + r e_kᵀ + F`, columns `q`, `F`. -/
structure NearRel (A : Matrix (Fin n) (Fin n) ℝ) (q : Fin k → Vec n) (T : Matrix (Fin k) (Fin k) ℝ) (r : Vec n) (F : Fin k → Vec n) : Prop where
  symm : T.IsSymm
  tri : ∀ i j : Fin k, (i : ℕ) + 1 < j → T i j = 0
  rel : ∀ j : Fin k, A *ᵥ q j = (∑ i, T i j • q i) + (if (j : ℕ) + 1 = k then r else 0) + F j

/-- `Q s`. -/
def comb (q : Fin k → Vec n) (s : Vec k) : Vec n := ∑ j, s j • q j

theorem abs_sum_sq_le (s : Vec k) : (∑ j, |s j|) ^ 2 ≤ k * (s ⬝ᵥ s) := by
  have := sq_sum_le_card_mul_sum_sq (s := Finset.univ) (f := fun j => |s j|)
  simp only [Finset.card_univ, Fintype.card_fin, sq_abs] at this
  refine this.trans (le_of_eq ?_)
  congr 1
  exact Finset.sum_congr rfl fun i _ => sq (s i)

theorem abs_sum_le_sqrt (s : Vec k) : ∑ j, |s j| ≤ Real.sqrt k * nrm s := by
  rw [nrm, ← Real.sqrt_mul (Nat.cast_nonneg k)]
  exact Real.le_sqrt_of_sq_le (abs_sum_sq_le s)

theorem nrm_sum_le {ι : Type} (S : Finset ι) (f : ι → Vec n) : nrm (∑ i ∈ S, f i) ≤ ∑ i ∈ S, nrm (f i) := by
  classical
  induction S using Finset.induction_on with
  | empty => simp [nrm_zero]
  | insert a S ha ih =>
    rw [Finset.sum_insert ha, Finset.sum_insert ha]
    exact (nrm_add_le _ _).trans (by linarith)

theorem sum_last (hk : 0 < k) (s : Vec k) (r : Vec n) :
    ∑ j : Fin k, s j • (if (j : ℕ) + 1 = k then r else 0) = s ⟨k - 1, by omega⟩ • r := by
  rw [Finset.sum_eq_single (⟨k - 1, by omega⟩ : Fin k)]
  · rw [if_pos (by simp; omega)]
  · intro j _ hj
    rw [if_neg, smul_zero]
    intro hc
    apply hj
    ext
    simp
    omega
  · intro h
    exact absurd (Finset.mem_univ _) h

/-- The residual of an approximate eigenvector. -/
theorem NearRel.resid {A : Matrix (Fin n) (Fin n) ℝ} {q : Fin k → Vec n} {T : Matrix (Fin k) (Fin k) ℝ} {r : Vec n} {F : Fin k → Vec n}
    (h : NearRel A q T r F) (hk : 0 < k) (th : ℝ) (s : Vec k) (hs : T *ᵥ s = th • s) :
    A *ᵥ comb q s - th • comb q s = s ⟨k - 1, by omega⟩ • r + ∑ j, s j • F j := by
  have e1 : A *ᵥ comb q s = ∑ j, s j • (A *ᵥ q j) := by
    unfold comb
    rw [mulVec_sum]
    exact Finset.sum_congr rfl fun j _ => mulVec_smul _ _ _
  have e2 : ∑ j, s j • ∑ i, T i j • q i = th • comb q s := by
    unfold comb
    simp only [Finset.smul_sum, smul_smul]
    rw [Finset.sum_comm]
    refine Finset.sum_congr rfl fun i _ => ?_
    rw [← Finset.sum_smul]
    congr 1
    have := congrFun hs i
    rw [Pi.smul_apply, smul_eq_mul] at this
    rw [← this]
    exact Finset.sum_congr rfl fun j _ => mul_comm _ _
  rw [e1]
  simp only [h.rel, smul_add, Finset.sum_add_distrib]
  rw [e2, sum_last hk]
  abel

/-- Some eigenvalue is as close as the residual. -/
theorem eigen_near {A : Matrix (Fin n) (Fin n) ℝ} {lam : Fin n → ℝ} {U : Matrix (Fin n) (Fin n) ℝ} (hU : Spec.Eigen A lam U) (hn : 0 < n) (th : ℝ) (y : Vec n) :
    ∃ i, |lam i - th| * nrm y ≤ nrm (A *ᵥ y - th • y) := by
  obtain ⟨i, -, hi⟩ := Finset.exists_min_image Finset.univ (fun i => |lam i - th|) ⟨⟨0, hn⟩, Finset.mem_univ _⟩
  refine ⟨i, ?_⟩
  have hUU : U * Uᵀ = 1 := mul_eq_one_comm.mp hU.orthonormal
  have hnorm : ∀ z : Vec n, (Uᵀ *ᵥ z) ⬝ᵥ (Uᵀ *ᵥ z) = z ⬝ᵥ z := by
    intro z
    rw [dotProduct_mulVec, vecMul_transpose, mulVec_mulVec, hUU, one_mulVec]
  have hsy : ∀ l, (Uᵀ *ᵥ (A *ᵥ y - th • y)) l = (lam l - th) * (Uᵀ *ᵥ y) l := by
    have hAU : A * U = U * diagonal lam := by
      ext a b
      have := congrFun (hU.eigen b) a
      rw [Matrix.mul_diagonal]
      rw [Pi.smul_apply, smul_eq_mul] at this
      rw [mul_comm, ← this]
      rfl
    have hA : A = U * diagonal lam * Uᵀ := by
      rw [← hAU, Matrix.mul_assoc, hUU, Matrix.mul_one]
    have hUA : Uᵀ * A = diagonal lam * Uᵀ := by
      rw [hA, ← Matrix.mul_assoc, ← Matrix.mul_assoc, hU.orthonormal, Matrix.one_mul]
    intro l
    rw [mulVec_sub, mulVec_mulVec, hUA, ← mulVec_mulVec, mulVec_smul, Pi.sub_apply, Pi.smul_apply, mulVec_diagonal, smul_eq_mul]
    ring
  have key : (|lam i - th| * nrm y) ^ 2 ≤ nrm (A *ᵥ y - th • y) ^ 2 := by
    rw [mul_pow, sq_abs, sq (nrm y), nrm_sq, sq (nrm _), nrm_sq, ← hnorm y, ← hnorm (A *ᵥ y - th • y)]
    simp only [dotProduct]
    rw [Finset.mul_sum]
    refine Finset.sum_le_sum fun l _ => ?_
    rw [hsy]
    have h1 : (lam i - th) ^ 2 ≤ (lam l - th) ^ 2 := sq_le_sq.2 (hi l (Finset.mem_univ l))
    have h2 : 0 ≤ (Uᵀ *ᵥ y) l * (Uᵀ *ᵥ y) l := mul_self_nonneg _
    nlinarith
  exact (pow_le_pow_iff_left₀ (mul_nonneg (abs_nonneg _) (nrm_nonneg _)) (nrm_nonneg _) (by norm_num)).mp key

/-- Strictly upper triangular part of `QᵀQ`. -/
def upperGram (q : Fin k → Vec n) : Matrix (Fin k) (Fin k) ℝ := Matrix.of fun i j => if i < j then q i ⬝ᵥ q j else 0

/-- The defect `T R - R T - Qᵀ r e_kᵀ`. -/
def defect (q : Fin k → Vec n) (T : Matrix (Fin k) (Fin k) ℝ) (r : Vec n) : Matrix (Fin k) (Fin k) ℝ :=
  Matrix.of fun i j => (T * upperGram q) i j - (upperGram q * T) i j - if (j : ℕ) + 1 = k then q i ⬝ᵥ r else 0

variable {A : Matrix (Fin n) (Fin n) ℝ} {q : Fin k → Vec n} {T : Matrix (Fin k) (Fin k) ℝ} {r : Vec n} {F : Fin k → Vec n}

theorem NearRel.tri' (h : NearRel A q T r F) (i j : Fin k) (hij : (j : ℕ) + 1 < i) : T i j = 0 := by
  rw [← h.symm.apply]
  exact h.tri j i hij

theorem NearRel.defect_lower (h : NearRel A q T r F) (i j : Fin k) (hij : j < i) : defect q T r i j = 0 := by
  have hij' : (j : ℕ) < i := hij
  have e1 : (T * upperGram q) i j = 0 := by
    rw [Matrix.mul_apply]
    refine Finset.sum_eq_zero fun l _ => ?_
    by_cases hl : l < j
    · have hl' : (l : ℕ) < j := hl
      rw [h.tri' i l (by omega), zero_mul]
    · simp only [upperGram, Matrix.of_apply]
      rw [if_neg hl, mul_zero]
  have e2 : (upperGram q * T) i j = 0 := by
    rw [Matrix.mul_apply]
    refine Finset.sum_eq_zero fun l _ => ?_
    by_cases hl : i < l
    · have hl' : (i : ℕ) < l := hl
      rw [h.tri' l j (by omega), mul_zero]
    · simp only [upperGram, Matrix.of_apply]
      rw [if_neg hl, zero_mul]
  simp only [defect, Matrix.of_apply]
  rw [e1, e2, if_neg (by omega)]
  simp

theorem NearRel.defect_upper (h : NearRel A q T r F) (hA : A.IsSymm) (i j : Fin k) (hij : i < j) :
    defect q T r i j = q i ⬝ᵥ F j - F i ⬝ᵥ q j - T i j * (q j ⬝ᵥ q j - q i ⬝ᵥ q i) := by
  have hij' : (i : ℕ) < j := hij
  -- the full Gram matrix
  have g1 : ∑ l, T i l * (q l ⬝ᵥ q j) = (A *ᵥ q i) ⬝ᵥ q j - F i ⬝ᵥ q j := by
    have := congrArg (fun z => z ⬝ᵥ q j) (h.rel i)
    simp only [add_dotProduct, sum_dotProduct, smul_dotProduct, smul_eq_mul] at this
    rw [if_neg (by omega), zero_dotProduct] at this
    rw [this, add_zero, add_sub_cancel_right]
    exact Finset.sum_congr rfl fun l _ => by rw [h.symm.apply]
  have g2 : ∑ l, (q i ⬝ᵥ q l) * T l j = q i ⬝ᵥ (A *ᵥ q j) - q i ⬝ᵥ F j - if (j : ℕ) + 1 = k then q i ⬝ᵥ r else 0 := by
    have := congrArg (fun z => q i ⬝ᵥ z) (h.rel j)
    simp only [dotProduct_add, dotProduct_sum, dotProduct_smul, smul_eq_mul] at this
    have e : q i ⬝ᵥ (if (j : ℕ) + 1 = k then r else 0) = if (j : ℕ) + 1 = k then q i ⬝ᵥ r else 0 := by
      split_ifs
      · rfl
      · exact dotProduct_zero _
    rw [e] at this
    rw [this]
    have e2 : ∑ l, (q i ⬝ᵥ q l) * T l j = ∑ l, T l j * (q i ⬝ᵥ q l) := Finset.sum_congr rfl fun l _ => mul_comm _ _
    rw [e2]
    ring
  have g3 : (A *ᵥ q i) ⬝ᵥ q j = q i ⬝ᵥ (A *ᵥ q j) := by
    rw [dotProduct_mulVec, ← mulVec_transpose, hA.eq]
  -- the parts below
  have l1 : ∑ l, T i l * (q l ⬝ᵥ q j) = (T * upperGram q) i j + T i j * (q j ⬝ᵥ q j) := by
    rw [Matrix.mul_apply, ← sub_eq_iff_eq_add', ← Finset.sum_sub_distrib, Finset.sum_eq_single j]
    · simp [upperGram]
    · intro l _ hl
      simp only [upperGram, Matrix.of_apply]
      by_cases hlj : l < j
      · rw [if_pos hlj, sub_self]
      · have : (j : ℕ) < l := lt_of_le_of_ne (not_lt.1 hlj) (fun hc => hl (Fin.ext hc.symm))
        rw [h.tri i l (by omega)]
        simp
    · intro hc
      exact absurd (Finset.mem_univ _) hc
  have l2 : ∑ l, (q i ⬝ᵥ q l) * T l j = (upperGram q * T) i j + (q i ⬝ᵥ q i) * T i j := by
    rw [Matrix.mul_apply, ← sub_eq_iff_eq_add', ← Finset.sum_sub_distrib, Finset.sum_eq_single i]
    · simp [upperGram]
    · intro l _ hl
      simp only [upperGram, Matrix.of_apply]
      by_cases hlj : i < l
      · rw [if_pos hlj, sub_self]
      · have : (l : ℕ) < i := lt_of_le_of_ne (not_lt.1 hlj) (fun hc => hl (Fin.ext hc))
        rw [h.tri l j (by omega)]
        simp
    · intro hc
      exact absurd (Finset.mem_univ _) hc
  simp only [defect, Matrix.of_apply]
  linarith

theorem NearRel.defect_diag (h : NearRel A q T r F) (j : Fin k) :
    defect q T r j j = (if hj : 0 < (j : ℕ) then T j ⟨j - 1, by omega⟩ * (q ⟨j - 1, by omega⟩ ⬝ᵥ q j) else 0)
      - (if hj : (j : ℕ) + 1 < k then (q j ⬝ᵥ q ⟨j + 1, hj⟩) * T ⟨j + 1, hj⟩ j else q j ⬝ᵥ r) := by
  have e1 : (T * upperGram q) j j = if hj : 0 < (j : ℕ) then T j ⟨j - 1, by omega⟩ * (q ⟨j - 1, by omega⟩ ⬝ᵥ q j) else 0 := by
    rw [Matrix.mul_apply]
    by_cases hj : 0 < (j : ℕ)
    · rw [dif_pos hj, Finset.sum_eq_single (⟨j - 1, by omega⟩ : Fin k)]
      · simp only [upperGram, Matrix.of_apply]
        rw [if_pos (by rw [Fin.lt_def]; simp; omega)]
      · intro l _ hl
        simp only [upperGram, Matrix.of_apply]
        by_cases hlj : l < j
        · have h1 : (l : ℕ) < j := hlj
          have h2 : (l : ℕ) ≠ j - 1 := fun hc => hl (Fin.ext hc)
          rw [h.tri' j l (by omega), zero_mul]
        · rw [if_neg hlj, mul_zero]
      · intro hc
        exact absurd (Finset.mem_univ _) hc
    · rw [dif_neg hj]
      refine Finset.sum_eq_zero fun l _ => ?_
      simp only [upperGram, Matrix.of_apply]
      rw [if_neg, mul_zero]
      intro hc
      have h1 : (l : ℕ) < j := hc
      omega
  have e2 : (upperGram q * T) j j = if hj : (j : ℕ) + 1 < k then (q j ⬝ᵥ q ⟨j + 1, hj⟩) * T ⟨j + 1, hj⟩ j else 0 := by
    rw [Matrix.mul_apply]
    by_cases hj : (j : ℕ) + 1 < k
    · rw [dif_pos hj, Finset.sum_eq_single (⟨j + 1, hj⟩ : Fin k)]
      · simp only [upperGram, Matrix.of_apply]
        rw [if_pos (by rw [Fin.lt_def]; simp)]
      · intro l _ hl
        simp only [upperGram, Matrix.of_apply]
        by_cases hlj : j < l
        · have h1 : (j : ℕ) < l := hlj
          have h2 : (l : ℕ) ≠ j + 1 := fun hc => hl (Fin.ext hc)
          rw [h.tri' l j (by omega), mul_zero]
        · rw [if_neg hlj, zero_mul]
      · intro hc
        exact absurd (Finset.mem_univ _) hc
    · rw [dif_neg hj]
      refine Finset.sum_eq_zero fun l _ => ?_
      simp only [upperGram, Matrix.of_apply]
      rw [if_neg, zero_mul]
      intro hc
      have h1 : (j : ℕ) < l := hc
      omega
  simp only [defect, Matrix.of_apply]
  rw [e1, e2]
  by_cases hj : (j : ℕ) + 1 < k
  · rw [dif_pos hj, dif_pos hj, if_neg (by omega), sub_zero]
  · rw [dif_neg hj, dif_neg hj, if_pos (by omega), sub_zero]

/-- Paige's identity: the product of the loss of orthogonality and the last entry of the eigenvector is a quadratic form of the defect. -/
theorem paige_identity (hT : T.IsSymm) (hk : 0 < k) (th : ℝ) (s : Vec k) (hs : T *ᵥ s = th • s) :
    s ⟨k - 1, by omega⟩ * (comb q s ⬝ᵥ r) = -(s ⬝ᵥ (defect q T r *ᵥ s)) := by
  set R := upperGram q with hR
  have e1 : s ⬝ᵥ ((T * R) *ᵥ s) = th * (s ⬝ᵥ (R *ᵥ s)) := by
    rw [← mulVec_mulVec, dotProduct_mulVec, ← mulVec_transpose, hT.eq, hs, smul_dotProduct, smul_eq_mul]
  have e2 : s ⬝ᵥ ((R * T) *ᵥ s) = th * (s ⬝ᵥ (R *ᵥ s)) := by
    rw [← mulVec_mulVec, hs, mulVec_smul, dotProduct_smul, smul_eq_mul]
  have e3 : defect q T r = T * R - R * T - Matrix.of (fun i j : Fin k => if (j : ℕ) + 1 = k then q i ⬝ᵥ r else 0) := by
    ext i j
    rfl
  have e4 : (Matrix.of (fun i j : Fin k => if (j : ℕ) + 1 = k then q i ⬝ᵥ r else 0)) *ᵥ s = fun i => s ⟨k - 1, by omega⟩ * (q i ⬝ᵥ r) := by
    funext i
    have := sum_last (n := 1) hk s (fun _ => q i ⬝ᵥ r)
    have h2 := congrFun this 0
    rw [Finset.sum_apply] at h2
    rw [Pi.smul_apply, smul_eq_mul] at h2
    rw [← h2]
    simp only [mulVec, dotProduct]
    refine Finset.sum_congr rfl fun j _ => ?_
    simp only [Matrix.of_apply, Pi.smul_apply, smul_eq_mul]
    split_ifs
    · exact mul_comm _ _
    · simp
  rw [e3, sub_mulVec, sub_mulVec, dotProduct_sub, dotProduct_sub, e1, e2, e4]
  have e5 : s ⬝ᵥ (fun i => s ⟨k - 1, by omega⟩ * (q i ⬝ᵥ r)) = s ⟨k - 1, by omega⟩ * (comb q s ⬝ᵥ r) := by
    unfold comb
    rw [sum_dotProduct, Finset.mul_sum]
    refine Finset.sum_congr rfl fun i _ => ?_
    rw [smul_dotProduct, smul_eq_mul]
    ring
  rw [e5]
  ring

theorem abs_quad_le (H : Matrix (Fin k) (Fin k) ℝ) (e : ℝ) (hH : ∀ i j, |H i j| ≤ e) (s : Vec k) : |s ⬝ᵥ (H *ᵥ s)| ≤ e * (k * (s ⬝ᵥ s)) := by
  by_cases hk : k = 0
  · subst hk
    simp [dotProduct]
  have he : 0 ≤ e := (abs_nonneg _).trans (hH ⟨0, by omega⟩ ⟨0, by omega⟩)
  have h1 : |s ⬝ᵥ (H *ᵥ s)| ≤ e * (∑ j, |s j|) ^ 2 := by
    simp only [dotProduct, mulVec, Finset.mul_sum]
    refine (Finset.abs_sum_le_sum_abs _ _).trans ?_
    rw [sq, Finset.sum_mul, Finset.mul_sum]
    refine Finset.sum_le_sum fun i _ => ?_
    refine (Finset.abs_sum_le_sum_abs _ _).trans ?_
    rw [Finset.mul_sum, Finset.mul_sum]
    refine Finset.sum_le_sum fun j _ => ?_
    rw [abs_mul, abs_mul]
    have h2 := hH i j
    have h3 : |s i| * (|H i j| * |s j|) = |H i j| * (|s i| * |s j|) := by ring
    rw [h3]
    exact mul_le_mul_of_nonneg_right h2 (by positivity)
  exact h1.trans (mul_le_mul_of_nonneg_left (abs_sum_sq_le s) he)

end Primate
