import Verif.Lemmas.EarlyStop
import Verif.Props.Ritz

/-!
# Nodes and weights after an early stop

The tridiagonal matrix of a new object after `J + 1` steps has zeros after the entry `beta (J + 1)`.
-/

noncomputable section

namespace Primate

open Matrix

variable {n : ℕ}

/-- A form without negative eigenvalues vanishes only on its kernel. -/
theorem IsEigh.kernel {m : ℕ} {T : Matrix (Fin m) (Fin m) ℝ} {w : Fin m → ℝ} {V : Matrix (Fin m) (Fin m) ℝ} (h : IsEigh T w V) (hw : ∀ a, 0 ≤ w a) {u : Vec m}
    (hu : u ⬝ᵥ (T *ᵥ u) = 0) : T *ᵥ u = 0 := by
  have h1 : ∑ a, w a * (Vᵀ *ᵥ u) a ^ 2 = 0 := by
    rw [← h.quad_sum (fun x => x) u, h.matFun_id, hu]
  have h2 := (Finset.sum_eq_zero_iff_of_nonneg fun a _ => mul_nonneg (hw a) (sq_nonneg _)).1 h1
  have h3 : T = V * diagonal w * Vᵀ := by rw [← h.2, Matrix.mul_assoc, h.mul_transpose, Matrix.mul_one]
  have h4 : diagonal w *ᵥ (Vᵀ *ᵥ u) = 0 := by
    funext a
    rw [mulVec_diagonal]
    rcases mul_eq_zero.1 (h2 a (Finset.mem_univ a)) with h | h
    · rw [h, zero_mul, Pi.zero_apply]
    · rw [pow_eq_zero_iff (by norm_num)] at h
      rw [h, mul_zero, Pi.zero_apply]
  rw [h3, ← mulVec_mulVec, ← mulVec_mulVec, h4, mulVec_zero]

/-- The column after the last step. -/
theorem tri_unit {m k : ℕ} (hk : k + 1 < m) {d e : ℕ → ℝ} (hd : d (k + 1) = 0) (he : k + 2 < m → e (k + 2) = 0) :
    triMat m d e *ᵥ (Pi.single ⟨k + 1, hk⟩ 1) = Pi.single ⟨k, by omega⟩ (e (k + 1)) := by
  funext i
  rw [mulVec_single_one, Matrix.col_apply, triMat_apply]
  simp only
  by_cases h1 : (i : ℕ) = k
  · have : i = ⟨k, by omega⟩ := Fin.ext h1
    rw [this, Pi.single_eq_same]
    simp
    omega
  · rw [Pi.single_eq_of_ne (fun h => h1 (congrArg Fin.val h)), if_neg (by omega : ¬ (i : ℕ) + 1 = k + 1)]
    by_cases h2 : (i : ℕ) = k + 1
    · rw [if_pos h2, hd, if_neg (by omega), zero_add, zero_add]
    · rw [if_neg h2]
      by_cases h3 : (i : ℕ) = k + 1 + 1
      · rw [if_pos h3, h3, he (by omega)]
        ring
      · rw [if_neg h3]
        ring

variable {B : Matrix (Fin n) (Fin n) ℝ} {v : Vec n} {deg J : ℕ} {alpha beta : ℕ → ℝ} {theta : Fin deg → ℝ} {Y : Matrix (Fin deg) (Fin deg) ℝ}

/-- The data of a run on a new object. -/
structure FreshRun (B : Matrix (Fin n) (Fin n) ℝ) (v : Vec n) (deg J : ℕ) (alpha beta : ℕ → ℝ) (theta : Fin deg → ℝ) (Y : Matrix (Fin deg) (Fin deg) ℝ) : Prop where
  symm : B.IsSymm
  ne : v ≠ 0
  lt : J < deg
  pos : ∀ i < J, lzb B.mulVec v (i + 1) ≠ 0
  ha : ∀ i ≤ J, alpha i = lza B.mulVec v i
  ha0 : ∀ i, J < i → i < deg → alpha i = 0
  hb : ∀ i ≤ J + 1, beta i = lzb B.mulVec v i
  hb0 : ∀ i, J + 1 < i → i < deg → beta i = 0
  eigh : IsEigh (triMat deg alpha beta) theta Y

namespace FreshRun

/-- An eigenvalue as a form of the original matrix. -/
theorem value (h : FreshRun B v deg J alpha beta theta Y) (a : Fin deg) : ∃ u : Vec n,
    u ⬝ᵥ u = ∑ i ∈ Finset.range (J + 1), ofFin (Y.col a) i ^ 2 ∧
    theta a = u ⬝ᵥ (B *ᵥ u) + if J + 1 < deg then 2 * (beta (J + 1) * ofFin (Y.col a) J * ofFin (Y.col a) (J + 1)) else 0 := by
  obtain ⟨y, hy⟩ : ∃ y : ℕ → ℝ, y = ofFin (Y.col a) := ⟨_, rfl⟩
  rw [← hy]
  have hyv : (fun i : Fin deg => y i) = Y.col a := by
    funext i
    rw [hy, ofFin, dif_pos i.2]
  have hth : theta a = (∑ i ∈ Finset.range deg, alpha i * y i ^ 2) +
      2 * ∑ i ∈ Finset.range (deg - 1), beta (i + 1) * y i * y (i + 1) := by
    rw [← triMat_quad, hyv, h.eigh.col_eq, dotProduct_smul, h.eigh.unit_col, smul_eq_mul, mul_one]
  obtain ⟨u, hu⟩ : ∃ u, u = ∑ j ∈ Finset.range (J + 1), y j • lzq B.mulVec v j := ⟨_, rfl⟩
  obtain ⟨h1, h2⟩ := lz_quad B h.symm v h.ne J h.pos y u hu
  refine ⟨u, h1, ?_⟩
  have s1 : ∑ i ∈ Finset.range deg, alpha i * y i ^ 2 = ∑ i ∈ Finset.range (J + 1), lza B.mulVec v i * y i ^ 2 := by
    have hl := h.lt
    rw [← Finset.sum_subset (Finset.range_subset_range.2 (by omega : J + 1 ≤ deg)) fun i hi hi' => ?_]
    · exact Finset.sum_congr rfl fun i hi => by rw [h.ha i (by have := Finset.mem_range.mp hi; omega)]
    · simp only [Finset.mem_range] at hi hi'
      rw [h.ha0 i (by omega) hi, zero_mul]
  have hl := h.lt
  have s3 : ∑ i ∈ Finset.range J, beta (i + 1) * y i * y (i + 1) = ∑ i ∈ Finset.range J, lzb B.mulVec v (i + 1) * y i * y (i + 1) :=
    Finset.sum_congr rfl fun i hi => by rw [h.hb (i + 1) (by have := Finset.mem_range.mp hi; omega)]
  have s2 : ∑ i ∈ Finset.range (deg - 1), beta (i + 1) * y i * y (i + 1) =
      (∑ i ∈ Finset.range J, lzb B.mulVec v (i + 1) * y i * y (i + 1)) + if J + 1 < deg then beta (J + 1) * y J * y (J + 1) else 0 := by
    rw [← s3]
    split_ifs with hc
    · rw [← Finset.sum_range_succ]
      refine (Finset.sum_subset (Finset.range_subset_range.2 (by omega)) fun i hi hi' => ?_).symm
      simp only [Finset.mem_range] at hi hi'
      rw [h.hb0 (i + 1) (by omega) (by omega), zero_mul, zero_mul]
    · rw [show deg - 1 = J by omega, add_zero]
  rw [hth, s1, s2, h2]
  split_ifs <;> ring

/-- After an early stop at a residual that is not zero some node is negative. -/
theorem neg_node (h : FreshRun B v deg J alpha beta theta Y) (hJ : J + 1 < deg) (hb : beta (J + 1) ≠ 0) : ∃ a, theta a < 0 := by
  by_contra hc
  push Not at hc
  have h1 := tri_unit hJ (h.ha0 (J + 1) (by omega) hJ) (fun hk => h.hb0 (J + 2) (by omega) hk)
  have h2 := h.eigh.kernel hc (u := Pi.single ⟨J + 1, hJ⟩ 1) (by
    rw [h1, single_dotProduct, Pi.single_eq_of_ne (by simp), mul_zero])
  rw [h1] at h2
  have := congrFun h2 ⟨J, by omega⟩
  rw [Pi.single_eq_same] at this
  exact hb this

/-- After an early stop at a zero residual, or two steps before the end, some node is zero. -/
theorem zero_node (h : FreshRun B v deg J alpha beta theta Y) (hJ : J + 1 < deg) (hb : beta (J + 1) = 0 ∨ J + 2 < deg) : ∃ a, theta a = 0 := by
  rcases hb with hb | hb
  · have h1 := tri_unit hJ (h.ha0 (J + 1) (by omega) hJ) (fun hk => h.hb0 (J + 2) (by omega) hk)
    refine h.eigh.zero_eigenvalue (Pi.single ⟨J + 1, hJ⟩ 1) (fun hc => ?_) (by rw [h1, hb, Pi.single_zero])
    have := congrFun hc ⟨J + 1, hJ⟩
    rw [Pi.single_eq_same] at this
    exact one_ne_zero this
  · have h1 := tri_unit (k := J + 1) hb (h.ha0 (J + 2) (by omega) hb) (fun hk => h.hb0 (J + 3) (by omega) hk)
    refine h.eigh.zero_eigenvalue (Pi.single ⟨J + 1 + 1, hb⟩ 1) (fun hc => ?_) (by
      rw [h1, show beta (J + 1 + 1) = _ from h.hb0 (J + 2) (by omega) hb, Pi.single_zero])
    have := congrFun hc ⟨J + 1 + 1, hb⟩
    rw [Pi.single_eq_same] at this
    exact one_ne_zero this

/-- The product in `value` vanishes at a node zero. -/
theorem cross (h : FreshRun B v deg J alpha beta theta Y) (hJ : J + 1 < deg) {a : Fin deg} (ha : theta a = 0) : beta (J + 1) * ofFin (Y.col a) J = 0 := by
  have h1 := tri_unit hJ (h.ha0 (J + 1) (by omega) hJ) (fun hk => h.hb0 (J + 2) (by omega) hk)
  have h2 : (Pi.single ⟨J + 1, hJ⟩ 1 : Vec deg) ⬝ᵥ (triMat deg alpha beta *ᵥ Y.col a) = 0 := by
    rw [h.eigh.col_eq, ha, zero_smul, dotProduct_zero]
  rw [dotProduct_mulVec, ← mulVec_transpose, (triMat_symm deg alpha beta).eq, h1, single_dotProduct] at h2
  rw [ofFin, dif_pos (by omega)]
  exact h2

/-- A node zero has weight zero if the matrix is positive definite, and the eigenvector lives on the unused part. -/
theorem zero_weight (h : FreshRun B v deg J alpha beta theta Y) (hp : ∀ u : Vec n, u ≠ 0 → 0 < u ⬝ᵥ (B *ᵥ u)) {a : Fin deg} (ha : theta a = 0) :
    ∀ i : Fin deg, (i : ℕ) ≤ J → Y i a = 0 := by
  obtain ⟨u, h1, h2⟩ := h.value a
  have hu : u = 0 := by
    by_contra hu
    have := hp u hu
    rw [ha] at h2
    split_ifs at h2 with hJ
    · rw [h.cross hJ ha, zero_mul, mul_zero, add_zero] at h2
      exact absurd h2 this.ne
    · rw [add_zero] at h2
      exact absurd h2 this.ne
  rw [hu, dotProduct_zero] at h1
  have h3 := (Finset.sum_eq_zero_iff_of_nonneg fun i _ => sq_nonneg _).1 h1.symm
  intro i hi
  have := h3 i (Finset.mem_range.2 (by omega))
  rw [pow_eq_zero_iff (by norm_num), ofFin, dif_pos i.2] at this
  exact this

/-- Without early stop, or at a zero residual, no node is negative. -/
theorem nonneg (h : FreshRun B v deg J alpha beta theta Y) (hp : ∀ u : Vec n, 0 ≤ u ⬝ᵥ (B *ᵥ u)) (hb : J + 1 < deg → beta (J + 1) = 0) (a : Fin deg) : 0 ≤ theta a := by
  obtain ⟨u, _, h2⟩ := h.value a
  rw [h2]
  split_ifs with hJ
  · rw [hb hJ, zero_mul, zero_mul, mul_zero, add_zero]
    exact hp u
  · rw [add_zero]
    exact hp u

/-- Without early stop every node is positive. -/
theorem pos_node (h : FreshRun B v deg J alpha beta theta Y) (hp : ∀ u : Vec n, u ≠ 0 → 0 < u ⬝ᵥ (B *ᵥ u)) (hJ : J + 1 = deg) (a : Fin deg) : 0 < theta a := by
  refine lt_of_le_of_ne (h.nonneg (fun u => ?_) (fun hc => by omega) a) fun hc => ?_
  · by_cases hu : u = 0
    · rw [hu, zero_dotProduct]
    · exact (hp u hu).le
  · have h1 := h.zero_weight hp hc.symm
    have h2 := h.eigh.unit_col a
    rw [show Y.col a = 0 from funext fun i => h1 i (by omega), zero_dotProduct] at h2
    exact zero_ne_one h2

/-- One step before the end, at a residual that is not zero, no node is zero. -/
theorem ne_node (h : FreshRun B v deg J alpha beta theta Y) (hp : ∀ u : Vec n, u ≠ 0 → 0 < u ⬝ᵥ (B *ᵥ u)) (hJ : J + 2 = deg) (hb : beta (J + 1) ≠ 0) (a : Fin deg) :
    theta a ≠ 0 := by
  intro ha
  have h1 := h.zero_weight hp ha
  have hlt : J + 1 < deg := by omega
  have h2 : Y.col a = Y ⟨J + 1, hlt⟩ a • Pi.single ⟨J + 1, hlt⟩ 1 := by
    funext i
    rw [Pi.smul_apply, smul_eq_mul, Matrix.col_apply]
    by_cases hi : i = ⟨J + 1, hlt⟩
    · rw [hi, Pi.single_eq_same, mul_one]
    · rw [Pi.single_eq_of_ne hi, mul_zero, h1 i]
      have : (i : ℕ) ≠ J + 1 := fun hc => hi (Fin.ext hc)
      omega
  have h3 := h.eigh.col_eq a
  rw [ha, zero_smul, h2, mulVec_smul, tri_unit hlt (h.ha0 (J + 1) (by omega) hlt) (fun hk => by omega)] at h3
  have h4 := congrFun h3 ⟨J, by omega⟩
  rw [Pi.smul_apply, Pi.single_eq_same, smul_eq_mul, Pi.zero_apply, mul_eq_zero] at h4
  have h5 := h.eigh.unit_col a
  rw [h2, h4.resolve_right hb, zero_smul, zero_dotProduct] at h5
  exact zero_ne_one h5

end FreshRun

end Primate
