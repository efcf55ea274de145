import Verif.Props.Quadrature

/-!
# Ritz values
-/

noncomputable section

namespace Primate

open Matrix

variable {n : ℕ}

theorem quadForm_bounds {B : Matrix (Fin n) (Fin n) ℝ} {lam : Fin n → ℝ} {U : Matrix (Fin n) (Fin n) ℝ}
    (h : IsEigh B lam U) (lo hi : ℝ) (hlo : ∀ a, lo ≤ lam a) (hhi : ∀ a, lam a ≤ hi) (u : Vec n) :
    lo * (u ⬝ᵥ u) ≤ u ⬝ᵥ (B *ᵥ u) ∧ u ⬝ᵥ (B *ᵥ u) ≤ hi * (u ⬝ᵥ u) := by
  have hq : u ⬝ᵥ (B *ᵥ u) = ∑ a, lam a * (Uᵀ *ᵥ u) a ^ 2 := by
    conv_lhs => rw [← h.matFun_id]
    exact h.quad_sum _ u
  rw [hq, ← h.norm_sum u, Finset.mul_sum, Finset.mul_sum]
  exact ⟨Finset.sum_le_sum fun a _ => mul_le_mul_of_nonneg_right (hlo a) (sq_nonneg _),
    Finset.sum_le_sum fun a _ => mul_le_mul_of_nonneg_right (hhi a) (sq_nonneg _)⟩

/-- The quadratic form of a tridiagonal matrix. -/
theorem triMat_quad {k : ℕ} (d e y : ℕ → ℝ) :
    (fun i : Fin k => y i) ⬝ᵥ (triMat k d e *ᵥ fun i : Fin k => y i) =
      (∑ i ∈ Finset.range k, d i * y i ^ 2) + 2 * ∑ i ∈ Finset.range (k - 1), e (i + 1) * y i * y (i + 1) := by
  have hrow : ∀ i : Fin k, (triMat k d e *ᵥ fun i : Fin k => y i) i =
      (if 0 < (i : ℕ) then e i * y (i - 1) else 0) + d i * y i + (if (i : ℕ) + 1 < k then e (i + 1) * y (i + 1) else 0) := by
    intro i
    have h3 := congrFun (triMat_col (n := 1) d e (fun l => fun _ => y l) i) 0
    rw [Finset.sum_apply] at h3
    have h4 : ∑ l : Fin k, (triMat k d e l i • (fun _ : Fin 1 => y (l : ℕ))) 0 =
        (triMat k d e *ᵥ fun i : Fin k => y i) i := by
      show _ = ∑ l, triMat k d e i l * y l
      refine Finset.sum_congr rfl fun l _ => ?_
      have hs : triMat k d e l i = triMat k d e i l := congrFun (congrFun (triMat_symm k d e) i) l
      show triMat k d e l i * y l = _
      rw [hs]
    rw [h4] at h3
    rw [h3]
    simp only [Pi.add_apply]
    congr 1
    · congr 1
      split_ifs <;> rfl
    · split_ifs <;> rfl
  have h1 : (fun i : Fin k => y i) ⬝ᵥ (triMat k d e *ᵥ fun i : Fin k => y i) =
      ∑ i ∈ Finset.range k, y i * ((if 0 < i then e i * y (i - 1) else 0) + d i * y i +
        (if i + 1 < k then e (i + 1) * y (i + 1) else 0)) := by
    rw [← Fin.sum_univ_eq_sum_range fun i => y i * ((if 0 < i then e i * y (i - 1) else 0) + d i * y i +
        (if i + 1 < k then e (i + 1) * y (i + 1) else 0))]
    exact Finset.sum_congr rfl fun i _ => by rw [hrow]
  rw [h1]
  rcases k with _ | k
  · simp
  · have e1 : ∑ i ∈ Finset.range (k + 1), y i * (if 0 < i then e i * y (i - 1) else 0) =
        ∑ i ∈ Finset.range k, e (i + 1) * y i * y (i + 1) := by
      rw [Finset.sum_range_succ']
      simp only [lt_irrefl, if_false, mul_zero, add_zero, Nat.zero_lt_succ, if_true, Nat.add_sub_cancel]
      exact Finset.sum_congr rfl fun i _ => by ring
    have e2 : ∑ i ∈ Finset.range (k + 1), y i * (if i + 1 < k + 1 then e (i + 1) * y (i + 1) else 0) =
        ∑ i ∈ Finset.range k, e (i + 1) * y i * y (i + 1) := by
      rw [Finset.sum_range_succ]
      simp only [lt_irrefl, if_false, mul_zero, add_zero]
      refine Finset.sum_congr rfl fun i hi => ?_
      rw [if_pos (by simpa using hi)]
      ring
    have e3 : ∑ i ∈ Finset.range (k + 1), y i * (d i * y i) = ∑ i ∈ Finset.range (k + 1), d i * y i ^ 2 :=
      Finset.sum_congr rfl fun i _ => by ring
    simp only [mul_add, Finset.sum_add_distrib]
    rw [e1, e2, e3, Nat.add_sub_cancel]
    ring

theorem qcols_orth (B : Matrix (Fin n) (Fin n) ℝ) (hB : B.IsSymm) (v : Vec n) (hv : v ≠ 0) (J : ℕ)
    (hb : ∀ i < J, lzb B.mulVec v (i + 1) ≠ 0) :
    (qcols B.mulVec v J (J + 1))ᵀ * qcols B.mulVec v J (J + 1) = 1 ∧
      ∀ j, (fun i => qcols B.mulVec v J (J + 1) i j) ⬝ᵥ (lzb B.mulVec v (J + 1) • lzq B.mulVec v (J + 1)) = 0 := by
  have hA := SelfAdj.mulVec hB
  have horth := lz_orthonormal B.mulVec v hA hv J hb
  have hcol : ∀ j : Fin (J + 1), (fun i => qcols B.mulVec v J (J + 1) i j) = lzq B.mulVec v j := by
    intro j
    have := qcols_col B.mulVec v J (J + 1) j
    rw [if_pos (by omega)] at this
    exact this
  constructor
  · ext i j
    rw [Matrix.mul_apply]
    show (fun l => qcols B.mulVec v J (J + 1) l i) ⬝ᵥ (fun l => qcols B.mulVec v J (J + 1) l j) = _
    rw [hcol, hcol, horth i j (by omega) (by omega), Matrix.one_apply]
    simp only [Fin.ext_iff]
  · intro j
    rw [hcol, dotProduct_smul]
    by_cases h0 : lzb B.mulVec v (J + 1) = 0
    · rw [h0, zero_smul]
    · rw [lz_orthonormal B.mulVec v hA hv (J + 1) (fun i hi => by
        rcases Nat.lt_succ_iff_lt_or_eq.mp hi with h | h
        · exact hb i h
        · rw [h]; exact h0) j (J + 1) (by omega) le_rfl, if_neg (by omega), smul_zero]

/-- The quadratic form of the operator on the span of the Lanczos vectors. -/
theorem lz_quad (B : Matrix (Fin n) (Fin n) ℝ) (hB : B.IsSymm) (v : Vec n) (hv : v ≠ 0) (J : ℕ)
    (hb : ∀ i < J, lzb B.mulVec v (i + 1) ≠ 0) (y : ℕ → ℝ) (u : Vec n)
    (hu : u = ∑ j ∈ Finset.range (J + 1), y j • lzq B.mulVec v j) :
    u ⬝ᵥ u = ∑ i ∈ Finset.range (J + 1), y i ^ 2 ∧
    u ⬝ᵥ (B *ᵥ u) = (∑ i ∈ Finset.range (J + 1), lza B.mulVec v i * y i ^ 2) +
      2 * ∑ i ∈ Finset.range J, lzb B.mulVec v (i + 1) * y i * y (i + 1) := by
  have hd := kdata_of_final B hB v hv (J + 1) J (lza B.mulVec v) (lzb B.mulVec v) (by omega) hb (fun _ _ => rfl)
    (fun _ _ => rfl) (Or.inl rfl)
  rw [if_pos rfl] at hd
  obtain ⟨hQ, hr⟩ := qcols_orth B hB v hv J hb
  have huQ : u = qcols B.mulVec v J (J + 1) *ᵥ fun i : Fin (J + 1) => y i := by
    rw [hu, mulVec_cols, ← Fin.sum_univ_eq_sum_range fun j => y j • lzq B.mulVec v j]
    refine Finset.sum_congr rfl fun j _ => ?_
    rw [qcols_col, if_pos (by omega)]
  have hQr : (qcols B.mulVec v J (J + 1))ᵀ *ᵥ (lzb B.mulVec v (J + 1) • lzq B.mulVec v (J + 1)) = 0 := funext fun j => hr j
  constructor
  · rw [huQ, dotProduct_mulVec, ← mulVec_transpose, mulVec_mulVec, hQ, one_mulVec]
    rw [← Fin.sum_univ_eq_sum_range fun j => y j ^ 2]
    exact Finset.sum_congr rfl fun j _ => by ring
  · rw [huQ, hd.rel, dotProduct_add, dotProduct_smul, dotProduct_mulVec, ← mulVec_transpose, mulVec_mulVec, hQ, one_mulVec]
    have hz : (qcols B.mulVec v J (J + 1) *ᵥ fun i : Fin (J + 1) => y i) ⬝ᵥ
        (lzb B.mulVec v (J + 1) • lzq B.mulVec v (J + 1)) = 0 := by
      rw [dotProduct_comm, dotProduct_mulVec, ← mulVec_transpose, hQr, zero_dotProduct]
    rw [hz, smul_zero, add_zero, triMat_quad, Nat.add_sub_cancel]

/-- Ritz values after `J + 1` completed steps: they lie in the hull of the spectrum, zero included if the iteration
stopped early, up to the last off-diagonal entry. -/
theorem ritz_bounds (B : Matrix (Fin n) (Fin n) ℝ) (hB : B.IsSymm) {lam : Fin n → ℝ} {U : Matrix (Fin n) (Fin n) ℝ}
    (hU : IsEigh B lam U) (v : Vec n) (hv : v ≠ 0) (deg J : ℕ) (tol : ℝ) (htol : 0 < tol) (hJ : J < deg)
    (hJ1 : ∀ i < J, tol ≤ lzb B.mulVec v (i + 1)) (hJ2 : lzb B.mulVec v (J + 1) < tol ∨ J + 1 = deg)
    (alpha beta : ℕ → ℝ) (ha : ∀ i ≤ J, alpha i = lza B.mulVec v i) (ha0 : ∀ i, J < i → i < deg → alpha i = 0)
    (hbe : ∀ i ≤ J + 1, beta i = lzb B.mulVec v i) (hbe0 : ∀ i, J + 1 < i → i < deg → beta i = 0)
    {theta : Fin deg → ℝ} {Y : Matrix (Fin deg) (Fin deg) ℝ} (hY : IsEigh (triMat deg alpha beta) theta Y) (a : Fin deg)
    (lo hi : ℝ) (hlo : ∀ a, lo ≤ lam a) (hhi : ∀ a, lam a ≤ hi) :
    (min lo 0 - tol ≤ theta a ∧ theta a ≤ max hi 0 + tol) ∧
      (J + 1 = deg → lo ≤ theta a ∧ theta a ≤ hi) := by
  obtain ⟨y, hy⟩ : ∃ y : ℕ → ℝ, y = ofFin (Y.col a) := ⟨_, rfl⟩
  have hyv : (fun i : Fin deg => y i) = Y.col a := by
    funext i
    rw [hy, ofFin, dif_pos i.2]
  have hunit : ∑ i ∈ Finset.range deg, y i ^ 2 = 1 := by
    rw [← hY.unit_col a, ← hyv, ← Fin.sum_univ_eq_sum_range fun j => y j ^ 2]
    exact Finset.sum_congr rfl fun j _ => by ring
  have hth : theta a = (∑ i ∈ Finset.range deg, alpha i * y i ^ 2) +
      2 * ∑ i ∈ Finset.range (deg - 1), beta (i + 1) * y i * y (i + 1) := by
    rw [← triMat_quad, hyv, hY.col_eq, dotProduct_smul, hY.unit_col, smul_eq_mul, mul_one]
  have hb0 : ∀ i < J, lzb B.mulVec v (i + 1) ≠ 0 := fun i hi => (lt_of_lt_of_le htol (hJ1 i hi)).ne'
  obtain ⟨u, hu⟩ : ∃ u, u = ∑ j ∈ Finset.range (J + 1), y j • lzq B.mulVec v j := ⟨_, rfl⟩
  obtain ⟨h1, h2⟩ := lz_quad B hB v hv J hb0 y u hu
  obtain ⟨h3, h4⟩ := quadForm_bounds hU lo hi hlo hhi u
  have s1 : ∑ i ∈ Finset.range deg, alpha i * y i ^ 2 = ∑ i ∈ Finset.range (J + 1), lza B.mulVec v i * y i ^ 2 := by
    symm
    have : ∀ i ∈ Finset.range (J + 1), lza B.mulVec v i * y i ^ 2 = alpha i * y i ^ 2 := fun i hi => by
      rw [ha i (by have := Finset.mem_range.mp hi; omega)]
    rw [Finset.sum_congr rfl this]
    refine Finset.sum_subset (fun i hi => ?_) fun i hi hi' => ?_
    · simp only [Finset.mem_range] at hi ⊢
      omega
    · simp only [Finset.mem_range] at hi hi'
      rw [ha0 i (by omega) hi, zero_mul]
  by_cases hd : J + 1 = deg
  · have s2 : ∑ i ∈ Finset.range (deg - 1), beta (i + 1) * y i * y (i + 1) =
        ∑ i ∈ Finset.range J, lzb B.mulVec v (i + 1) * y i * y (i + 1) := by
      rw [show deg - 1 = J by omega]
      exact Finset.sum_congr rfl fun i hi => by rw [hbe (i + 1) (by have := Finset.mem_range.mp hi; omega)]
    rw [hd, hunit] at h1
    rw [s1, s2, ← h2] at hth
    rw [h1, mul_one] at h3 h4
    rw [hth]
    refine ⟨⟨?_, ?_⟩, fun _ => ⟨h3, h4⟩⟩
    · have := min_le_left lo 0
      linarith
    · have := le_max_left hi 0
      linarith
  · have hlt : lzb B.mulVec v (J + 1) < tol := by tauto
    have hnn : 0 ≤ lzb B.mulVec v (J + 1) := lzb_nonneg B.mulVec v _
    have s2 : ∑ i ∈ Finset.range (deg - 1), beta (i + 1) * y i * y (i + 1) =
        (∑ i ∈ Finset.range J, lzb B.mulVec v (i + 1) * y i * y (i + 1)) +
          lzb B.mulVec v (J + 1) * y J * y (J + 1) := by
      rw [← Finset.sum_range_succ fun i => lzb B.mulVec v (i + 1) * y i * y (i + 1)]
      symm
      have : ∀ i ∈ Finset.range (J + 1), lzb B.mulVec v (i + 1) * y i * y (i + 1) = beta (i + 1) * y i * y (i + 1) :=
        fun i hi => by rw [hbe (i + 1) (by have := Finset.mem_range.mp hi; omega)]
      rw [Finset.sum_congr rfl this]
      refine Finset.sum_subset (fun i hi => ?_) fun i hi hi' => ?_
      · simp only [Finset.mem_range] at hi ⊢
        omega
      · simp only [Finset.mem_range] at hi hi'
        rw [hbe0 (i + 1) (by omega) (by omega), zero_mul, zero_mul]
    have hsum : ∑ i ∈ Finset.range (J + 1), y i ^ 2 + y (J + 1) ^ 2 ≤ 1 := by
      rw [← Finset.sum_range_succ, ← hunit]
      refine Finset.sum_le_sum_of_subset_of_nonneg (fun i hi => ?_) fun i _ _ => sq_nonneg _
      simp only [Finset.mem_range] at hi ⊢
      omega
    have hyJ : y J ^ 2 ≤ ∑ i ∈ Finset.range (J + 1), y i ^ 2 :=
      Finset.single_le_sum (f := fun i => y i ^ 2) (fun i _ => sq_nonneg _) (Finset.mem_range.mpr (by omega))
    have hcross : |2 * (lzb B.mulVec v (J + 1) * y J * y (J + 1))| ≤ lzb B.mulVec v (J + 1) := by
      rw [abs_le]
      constructor <;> nlinarith [sq_nonneg (y J + y (J + 1)), sq_nonneg (y J - y (J + 1))]
    have hu0 : 0 ≤ u ⬝ᵥ u := by
      rw [h1]
      exact Finset.sum_nonneg fun i _ => sq_nonneg _
    have hu1 : u ⬝ᵥ u ≤ 1 := by
      rw [h1]
      have := sq_nonneg (y (J + 1))
      linarith
    obtain ⟨c1, c2⟩ := abs_le.mp hcross
    rw [s1, s2, mul_add, ← add_assoc, ← h2] at hth
    refine ⟨⟨?_, ?_⟩, fun h => absurd h hd⟩
    · have : min lo 0 ≤ lo * (u ⬝ᵥ u) := by
        rcases le_total 0 lo with h | h
        · exact (min_le_right lo 0).trans (mul_nonneg h hu0)
        · refine (min_le_left lo 0).trans ?_
          nlinarith
      linarith
    · have : hi * (u ⬝ᵥ u) ≤ max hi 0 := by
        rcases le_total 0 hi with h | h
        · refine le_trans ?_ (le_max_left hi 0)
          nlinarith
        · exact (mul_nonpos_of_nonpos_of_nonneg h hu0).trans (le_max_right hi 0)
      linarith

end Primate
