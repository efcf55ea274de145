import Verif.Model.MatFunOp
import Verif.Props.MatrixFunction
import Verif.Props.Ritz
import Mathlib.LinearAlgebra.Matrix.Notation
import Mathlib.Tactic.NormNum
import Mathlib.Tactic.Linarith

/-!
# C92: `matrix_function`; C93: the declared adjoint of a `MatrixFunction`; C94: how many values `rayleigh_ritz` returns
-/

noncomputable section

namespace Primate

open Matrix

variable {n : ℕ}

/-! ## C92 -/

/-- C92: without a vector the result is the operator of degree `min deg n`; degrees below 2 are rejected, with or without a vector. -/
theorem C92_operator (K : TriKernels) (eps : ℝ) (fuel : ℕ) (A : Vec n → Vec n) (f : Option (ℝ → ℝ)) (v : Option (Vec n)) (deg : ℤ) :
    (deg < 2 → matrixFunction K eps fuel A f v deg = some (.error .assertion)) ∧
    (2 ≤ deg → ∃ M, matrixFunction K eps fuel A f none deg = some (.ok (.op M)) ∧ MF.init A (f.getD fun x => x) deg 3 = .ok M ∧
      (M.deg : ℤ) = min deg n) := by
  constructor
  · intro h
    simp [matrixFunction, MF.init, h]
  · intro h
    have h' : ¬ deg < 2 := by omega
    simp only [matrixFunction, MF.init, if_neg h']
    refine ⟨_, rfl, rfl, ?_⟩
    simp only
    omega

/-- C92: with a vector the result is one column, equal to `f(A) v` if the degree is at least `n` or `f` is a polynomial of degree below
the Krylov degree, and within twice the best uniform approximation error times `‖v‖` otherwise, provided that the recurrence did not stop
at a residual that is small but not zero. Missing: runs that stop at a residual below the tolerance but not zero, of which the claim is false (`C92_counterexample`, bound in C122). -/
theorem C92_column_partial (K : TriKernels) (hK : EighOk K) (eps : ℝ) (heps : 0 ≤ eps) (fuel : ℕ)
    (B : Matrix (Fin n) (Fin n) ℝ) (hB : B.IsSymm) (lam : Fin n → ℝ) (U : Matrix (Fin n) (Fin n) ℝ)
    (hU : Spec.Eigen B lam U) (f : ℝ → ℝ) (deg : ℤ) (hd : 2 ≤ deg) (hn : 0 < n) (v : Vec n) :
    ∃ (M M' : MF n) (Y : Matrix (Fin n) (Fin 1) ℝ), MF.init B.mulVec f deg 3 = .ok M ∧
      matrixFunction K eps fuel B.mulVec (some f) (some v) deg = some (.ok (.arr (some Y))) ∧
      M.matvec K eps fuel v = some (.ok (M', some (Y.col 0))) ∧
      (Spec.CleanStop (Real.sqrt n * 1e-8) M.deg M'.beta.get →
        ((n : ℤ) ≤ deg → Y.col 0 = Spec.matFun lam U f *ᵥ v) ∧
        ∀ p : Polynomial ℝ, (p.natDegree : ℤ) ≤ min deg n - 1 →
          ((∀ t, f t = p.eval t) → Y.col 0 = Spec.matFun lam U f *ᵥ v) ∧
          ∀ e : ℝ, (∀ t, (∃ a, lam a ≤ t) → (∃ b, t ≤ lam b) → |f t - p.eval t| ≤ e) →
            ∑ i, ((Spec.matFun lam U f *ᵥ v) i - Y i 0) ^ 2 ≤ (2 * e) ^ 2 * ∑ i, v i ^ 2) := by
  obtain ⟨M, hM⟩ : ∃ M, MF.init B.mulVec f deg 3 = .ok M := by
    unfold MF.init
    rw [if_neg (by omega)]
    exact ⟨_, rfl⟩
  obtain ⟨M1, y1, g1, g2⟩ := C45_matvec_near_optimal_partial K hK eps heps fuel B hB lam U hU f deg 3 hn M M hM (.refl M) v
  obtain ⟨M2, y2, k1, k2⟩ := C46_matvec_exact_partial K hK eps heps fuel B hB lam U hU f deg 3 hn M M hM (.refl M) v
  rw [g1] at k1
  simp only [Option.some.injEq, Except.ok.injEq, Prod.mk.injEq] at k1
  obtain ⟨rfl, rfl⟩ := k1
  refine ⟨M, M1, Matrix.of fun i _ => y1 i, hM, ?_, g1, fun hc => ⟨fun h => k2 hc (Or.inl h), g2 hc⟩⟩
  simp only [matrixFunction, Option.getD_some, hM, g1, Option.map_some]

/-- C92: `matrix_function(A, v=v)` is the product `A v`. Missing: runs that stop at a residual below the tolerance but not zero, of which the claim is false (`C92_counterexample`, bound in C122). -/
theorem C92_identity_partial (K : TriKernels) (hK : EighOk K) (eps : ℝ) (heps : 0 ≤ eps) (fuel : ℕ)
    (B : Matrix (Fin n) (Fin n) ℝ) (hB : B.IsSymm) (lam : Fin n → ℝ) (U : Matrix (Fin n) (Fin n) ℝ)
    (hU : Spec.Eigen B lam U) (hn : 0 < n) (v : Vec n) :
    ∃ (M M' : MF n) (Y : Matrix (Fin n) (Fin 1) ℝ), MF.init B.mulVec (fun x => x) 20 3 = .ok M ∧
      M.matvec K eps fuel v = some (.ok (M', some (Y.col 0))) ∧
      matrixFunction K eps fuel B.mulVec none (some v) = some (.ok (.arr (some Y))) ∧
      (Spec.CleanStop (Real.sqrt n * 1e-8) M.deg M'.beta.get → Y.col 0 = B *ᵥ v) := by
  obtain ⟨M, M', Y, h1, h2, h3, h4⟩ := C92_column_partial K hK eps heps fuel B hB lam U hU (fun x => x) 20 (by norm_num) hn v
  have hid := (isEigh_iff_eigen.mpr hU).matFun_id
  refine ⟨M, M', Y, h1, h3, h2, fun hc => ?_⟩
  rw [hid] at h4
  by_cases hn2 : n = 1
  · exact (h4 hc).1 (by omega)
  · refine ((h4 hc).2 Polynomial.X ?_).1 (fun t => by simp)
    have := Polynomial.natDegree_X_le (R := ℝ)
    omega

/-! ## C93 -/

theorem matFun_symm (lam : Fin n → ℝ) (U : Matrix (Fin n) (Fin n) ℝ) (f : ℝ → ℝ) : (Spec.matFun lam U f).IsSymm := by
  unfold Spec.matFun Matrix.IsSymm
  rw [Matrix.transpose_mul, Matrix.transpose_mul, Matrix.transpose_transpose, Matrix.diagonal_transpose, Matrix.mul_assoc]

/-- C93 (partial): the declared adjoint (the object itself) is the adjoint, and the object is linear, when the results are exact: the
degree is at least `n`, or `f` is a polynomial of degree below the Krylov degree.  The calls may come in any order and after any other
calls.  Missing: smaller degrees, of which the claim is false (see `C93_counterexample`). -/
theorem C93_exact_partial (K : TriKernels) (hK : EighOk K) (eps : ℝ) (heps : 0 ≤ eps) (fuel : ℕ)
    (B : Matrix (Fin n) (Fin n) ℝ) (hB : B.IsSymm) (lam : Fin n → ℝ) (U : Matrix (Fin n) (Fin n) ℝ)
    (hU : Spec.Eigen B lam U) (f : ℝ → ℝ) (deg orth : ℤ) (hn : 0 < n) (M0 M1 M2 : MF n)
    (h0 : MF.init B.mulVec f deg orth = .ok M0) (h1 : MF.Reach K eps fuel M0 M1) (h2 : MF.Reach K eps fuel M0 M2)
    (hex : (n : ℤ) ≤ deg ∨ ∃ p : Polynomial ℝ, (p.natDegree : ℤ) ≤ min deg n - 1 ∧ ∀ t, f t = p.eval t) (x z : Vec n) :
    ∃ M1' M2' y1 y2, M1.matvec K eps fuel x = some (.ok (M1', some y1)) ∧ M2.adjoint.matvec K eps fuel z = some (.ok (M2', some y2)) ∧
      (Spec.CleanStop (Real.sqrt n * 1e-8) M0.deg M1'.beta.get → Spec.CleanStop (Real.sqrt n * 1e-8) M0.deg M2'.beta.get →
        y1 ⬝ᵥ z = x ⬝ᵥ y2 ∧
        ∀ M3, MF.Reach K eps fuel M0 M3 → ∀ a b : ℝ, ∃ M3' y3, M3.matvec K eps fuel (a • x + b • z) = some (.ok (M3', some y3)) ∧
          (Spec.CleanStop (Real.sqrt n * 1e-8) M0.deg M3'.beta.get → y3 = a • y1 + b • y2)) := by
  have key : ∀ M, MF.Reach K eps fuel M0 M → ∀ w : Vec n, ∃ M' y, M.matvec K eps fuel w = some (.ok (M', some y)) ∧
      (Spec.CleanStop (Real.sqrt n * 1e-8) M0.deg M'.beta.get → y = Spec.matFun lam U f *ᵥ w) := by
    intro M hM w
    rcases hex with hex | ⟨p, hp, hfp⟩
    · obtain ⟨M', y, g1, g2⟩ := C46_matvec_exact_partial K hK eps heps fuel B hB lam U hU f deg orth hn M0 M h0 hM w
      exact ⟨M', y, g1, fun hc => g2 hc (Or.inl hex)⟩
    · obtain ⟨M', y, g1, g2⟩ := C45_matvec_near_optimal_partial K hK eps heps fuel B hB lam U hU f deg orth hn M0 M h0 hM w
      exact ⟨M', y, g1, fun hc => (g2 hc p hp).1 hfp⟩
  obtain ⟨M1', y1, a1, a2⟩ := key M1 h1 x
  obtain ⟨M2', y2, b1, b2⟩ := key M2 h2 z
  refine ⟨M1', M2', y1, y2, a1, b1, fun c1 c2 => ⟨?_, fun M3 h3 a b => ?_⟩⟩
  · rw [a2 c1, b2 c2]
    exact SelfAdj.mulVec (matFun_symm lam U f) x z
  · obtain ⟨M3', y3, d1, d2⟩ := key M3 h3 (a • x + b • z)
    refine ⟨M3', y3, d1, fun c3 => ?_⟩
    rw [d2 c3, a2 c1, b2 c2, Matrix.mulVec_add, Matrix.mulVec_smul, Matrix.mulVec_smul]

/-- The matrix of the counterexample. -/
def D123 : Matrix (Fin 3) (Fin 3) ℝ := Matrix.diagonal ![1, 2, 3]

theorem D123_symm : D123.IsSymm := Matrix.isSymm_diagonal _

theorem D123_eigen : Spec.Eigen D123 ![1, 2, 3] 1 := by
  refine ⟨by simp, fun j => ?_⟩
  funext i
  rw [D123, Matrix.mulVec_diagonal]
  simp only [Pi.smul_apply, smul_eq_mul, Matrix.one_apply]
  by_cases h : i = j
  · subst h; rfl
  · simp [h]

/-- An eigenvector ends the recurrence at the first step. -/
theorem lzb_one_eigen (B : Matrix (Fin n) (Fin n) ℝ) (v : Vec n) (hv : v ⬝ᵥ v = 1) (c : ℝ) (h : B *ᵥ v = c • v) : lzb B.mulVec v 1 = 0 := by
  have hq : lzq B.mulVec v 0 = v := by
    rw [lzq_zero]
    unfold normalized nrm
    rw [if_pos (by rw [hv]; exact one_pos), hv, Real.sqrt_one]
    simp
  have hw : lzw B.mulVec v 0 = c • v := by rw [lzw, hq, h, lzb_zero, zero_smul, sub_zero]
  have hr : lzr B.mulVec v 0 = 0 := by
    rw [lzr, lza, hw, hq, dotProduct_smul, hv, smul_eq_mul, mul_one, sub_self]
  rw [show (1 : ℕ) = 0 + 1 from rfl, lzb_succ, hr, nrm_zero]

/-- With degree 2, results are combinations of `x` and `B x`. -/
theorem matvec_deg_two (K : TriKernels) (hK : EighOk K) (eps : ℝ) (heps : 0 ≤ eps) (fuel : ℕ) (M : MF n) (hM : M.WF)
    (B : Matrix (Fin n) (Fin n) ℝ) (hB : B.IsSymm) (hA : M.A = B.mulVec) (hr : 0 < M.rtol) (hd : M.deg = 2) (x : Vec n) :
    ∃ M' y, M.matvec K eps fuel x = some (.ok (M', some y)) ∧ ∃ c d : ℝ, y = c • x + d • (B *ᵥ x) := by
  obtain ⟨J, s, theta, Y, hJ, -, -, -, -, hq⟩ := matvec_run K hK eps heps fuel M hM B hB hA hr x
  refine ⟨_, _, hq, ?_⟩
  have hx : ∃ c : ℝ, lzq B.mulVec x 0 = c • x := by
    rw [lzq_zero]
    unfold normalized
    split_ifs
    · exact ⟨(nrm x)⁻¹, by funext i; simp [div_eq_inv_mul]⟩
    · exact ⟨1, by simp⟩
  obtain ⟨c0, h0⟩ := hx
  have hx1 : ∃ c d : ℝ, lzq B.mulVec x 1 = c • x + d • (B *ᵥ x) := by
    rw [show (1 : ℕ) = 0 + 1 from rfl, lzq_succ, lzr, lzw, lzb_zero, zero_smul, sub_zero, h0]
    refine ⟨-((lzb B.mulVec x (0 + 1))⁻¹ * lza B.mulVec x 0 * c0), (lzb B.mulVec x (0 + 1))⁻¹ * c0, ?_⟩
    rw [Matrix.mulVec_smul]
    module
  obtain ⟨c1, d1, h1⟩ := hx1
  have hcols : ∀ j : Fin M.deg, ∃ c d : ℝ, (qcols B.mulVec x J M.deg).col j = c • x + d • (B *ᵥ x) := by
    intro j
    rw [qcols_col]
    split_ifs
    · have hj2 : (j : ℕ) < 2 := hd ▸ j.isLt
      rcases (by omega : (j : ℕ) = 0 ∨ (j : ℕ) = 1) with h | h <;> rw [h]
      · exact ⟨c0, 0, by rw [h0]; module⟩
      · exact ⟨c1, d1, h1⟩
    · exact ⟨0, 0, by module⟩
  choose c d hcd using hcols
  generalize hw : (fun i => ∑ a, Y i a * (M.f (theta a) * Y ⟨0, hM.dpos⟩ a)) = w
  refine ⟨nrm x * ∑ j, w j * c j, nrm x * ∑ j, w j * d j, ?_⟩
  have hsum : qcols B.mulVec x J M.deg *ᵥ w = ∑ j, w j • (qcols B.mulVec x J M.deg).col j := by
    funext i
    simp [Matrix.mulVec, dotProduct, Finset.sum_apply, mul_comm]
  rw [hsum]
  simp only [hcd]
  rw [show (∑ j, w j • (c j • x + d j • (B *ᵥ x))) = (∑ j, w j * c j) • x + (∑ j, w j * d j) • (B *ᵥ x) by
    rw [Finset.sum_smul, Finset.sum_smul, ← Finset.sum_add_distrib]
    exact Finset.sum_congr rfl fun j _ => by module]
  module

/-- C93 is false of the code for small degrees: for `diag(1, 2, 3)`, `f(t) = t^2` and degree 2 there are vectors with
`⟨M x, z⟩ ≠ ⟨x, M z⟩`: `z` is an eigenvector, on which the object is exact (the recurrence stops at an exact zero), and `x = (1, 1, 1)`. -/
theorem C93_counterexample (K : TriKernels) (hK : EighOk K) (eps : ℝ) (heps : 0 ≤ eps) (fuel : ℕ) (orth : ℤ) (M0 : MF 3)
    (h0 : MF.init D123.mulVec (fun t => t ^ 2) 2 orth = .ok M0) :
    ∃ (x z : Vec 3) (M1 M2 : MF 3) (y1 y2 : Vec 3), M0.matvec K eps fuel x = some (.ok (M1, some y1)) ∧
      M0.adjoint.matvec K eps fuel z = some (.ok (M2, some y2)) ∧ Spec.CleanStop (Real.sqrt (3 : ℕ) * 1e-8) 2 M2.beta.get ∧
      y1 ⬝ᵥ z ≠ x ⬝ᵥ y2 := by
  have hMd : M0.deg = 2 := by
    unfold MF.init at h0
    rw [if_neg (by norm_num)] at h0
    simp only [Except.ok.injEq] at h0
    rw [← h0]
    rfl
  obtain ⟨w, hA, hf, -, -, hr⟩ := reached K eps fuel _ _ 2 orth (by norm_num) M0 M0 h0 (.refl _)
  obtain ⟨M1, y1, g1, c, d, hy1⟩ := matvec_deg_two K hK eps heps fuel M0 w D123 D123_symm hA (by rw [hr]; norm_num) hMd ![1, 1, 1]
  -- eigenvectors are treated exactly
  have key : ∀ j : Fin 3, ∃ M2 y2, M0.matvec K eps fuel (Pi.single j 1) = some (.ok (M2, some y2)) ∧
      Spec.CleanStop (Real.sqrt (3 : ℕ) * 1e-8) 2 M2.beta.get ∧ y2 = (((j : ℕ) : ℝ) + 1) ^ 2 • Pi.single j 1 := by
    intro j
    have heig : D123 *ᵥ Pi.single j 1 = (((j : ℕ) : ℝ) + 1) • (Pi.single j 1 : Vec 3) := by
      funext i
      rw [D123, Matrix.mulVec_diagonal]
      fin_cases i <;> fin_cases j <;> simp [Pi.single_apply] <;> norm_num
    have hb := lzb_one_eigen D123 (Pi.single j 1) (by simp) _ heig
    obtain ⟨J, s, theta, Y, hJ, hJ1, hJ2, hF, -, hq⟩ := matvec_run K hK eps heps fuel M0 w D123 D123_symm hA (by rw [hr]; norm_num)
      (Pi.single j 1)
    have hJ0 : J = 0 := by
      by_contra hne
      have := hJ1 0 (by omega)
      rw [hb, hr] at this
      have hs : 0 < Real.sqrt ((3 : ℕ) : ℝ) := Real.sqrt_pos.mpr (by norm_num)
      have : 0 < Real.sqrt ((3 : ℕ) : ℝ) * 1e-8 := mul_pos hs (by norm_num)
      linarith
    have hb1 : s.beta.get 1 = 0 := by rw [hF.beta_le 1 (by omega), hb]
    obtain ⟨M2, y2, k1, k2⟩ := C46_matvec_exact_partial K hK eps heps fuel D123 D123_symm _ _ D123_eigen (fun t => t ^ 2) 2 orth (by norm_num) M0 M0 h0
      (.refl _) (Pi.single j 1)
    have hMM := k1
    rw [hq] at hMM
    simp only [Option.some.injEq, Except.ok.injEq, Prod.mk.injEq] at hMM
    have hbeta : M2.beta.get 1 = 0 := by rw [← hMM.1]; exact hb1
    have hclean : Spec.CleanStop (Real.sqrt (3 : ℕ) * 1e-8) 2 M2.beta.get := by
      intro i h1 h2 _
      exact ⟨1, le_rfl, h1, hbeta⟩
    refine ⟨M2, y2, k1, hclean, ?_⟩
    rw [k2 (by rw [hMd]; exact hclean) (Or.inr ⟨1, le_rfl, by rw [hMd]; norm_num, hbeta⟩)]
    unfold Spec.matFun
    rw [Matrix.one_mul, Matrix.transpose_one, Matrix.mul_one]
    funext i
    rw [Matrix.mulVec_diagonal]
    fin_cases i <;> fin_cases j <;> simp [Pi.single_apply] <;> norm_num
  -- the three inner products cannot all agree
  by_contra hcon
  push Not at hcon
  have e : ∀ j : Fin 3, y1 j = (((j : ℕ) : ℝ) + 1) ^ 2 := by
    intro j
    obtain ⟨M2, y2, k1, hc, hy2⟩ := key j
    have := hcon ![1, 1, 1] (Pi.single j 1) M1 M2 y1 y2 g1 k1 hc
    rw [hy2, dotProduct_smul, dotProduct_single, dotProduct_single, mul_one, mul_one, smul_eq_mul] at this
    rw [this]
    fin_cases j <;> simp
  have v0 := e 0
  have v1 := e 1
  have v2 := e 2
  rw [hy1] at v0 v1 v2
  simp [D123, Matrix.mulVec_diagonal] at v0 v1 v2
  linarith

/-! ## C94 -/

/-- C94 (partial): `rayleigh_ritz` returns `min(deg, n)` values if the degree is at least 2 (or the matrix is `1 x 1`).  Missing: degree
1, of which the claim is false (see `C94_counterexample`). -/
theorem C94_count_partial (K : TriKernels) (hK : EighOk K) (hK' : EigvalshOk K) (eps : ℝ) (heps : 0 ≤ eps) (fuel : ℕ)
    (M : Matrix (Fin n) (Fin n) ℝ) (hM : M.IsSymm) (a : LanczosArgs n) (hA : a.A = M.mulVec) (hr : 0 < a.rtol)
    (h1 : a.alpha = none) (h2 : a.beta = none) (h3 : a.Q = none) (hn : 0 < n) (d : ℤ) (hd : 2 ≤ d ∨ (0 < d ∧ n = 1)) (vec : Bool)
    (method : String) :
    ∃ out, rayleighRitzCall K eps fuel a (some d) vec method = some (.ok (some out)) ∧ (out.k : ℤ) = min d n ∧
      (out.vectors.isSome ↔ vec = true) ∧ (out.basis.isSome ↔ a.return_basis = true) := by
  have hl : lanczosDeg n (some d) = min d n := rfl
  obtain ⟨J, s, out, Y, g1, g2, -, -, -, -, -, g8, g9, -⟩ := ritz_run K hK hK' eps heps fuel a (hA ▸ SelfAdj.mulVec hM) hr h1 h2 h3 hn
    (some d) (by rw [hl]; omega) vec
  refine ⟨out, g1, ?_, ?_, ?_⟩
  · rw [g2, ritzDeg, hl, npClip]
    omega
  · rw [g8]; cases vec <;> simp
  · rw [g9]; cases a.return_basis <;> simp

/-- C94 is false of the code for degree 1: two values are returned for every larger matrix. -/
theorem C94_counterexample (K : TriKernels) (hK : EighOk K) (hK' : EigvalshOk K) (eps : ℝ) (heps : 0 ≤ eps) (fuel : ℕ)
    (M : Matrix (Fin n) (Fin n) ℝ) (hM : M.IsSymm) (a : LanczosArgs n) (hA : a.A = M.mulVec) (hr : 0 < a.rtol)
    (h1 : a.alpha = none) (h2 : a.beta = none) (h3 : a.Q = none) (hn : 2 ≤ n) (vec : Bool) (method : String) :
    ∃ out, rayleighRitzCall K eps fuel a (some 1) vec method = some (.ok (some out)) ∧ out.k = 2 := by
  have hl : lanczosDeg n (some 1) = min 1 (n : ℤ) := rfl
  obtain ⟨J, s, out, Y, g1, g2, -⟩ := ritz_run K hK hK' eps heps fuel a (hA ▸ SelfAdj.mulVec hM) hr h1 h2 h3 (by omega)
    (some 1) (by rw [hl]; omega) vec
  refine ⟨out, g1, ?_⟩
  rw [ritzDeg, hl, npClip] at g2
  omega

/-- C94: degrees below 1 are rejected. -/
theorem C94_nonpositive (K : TriKernels) (eps : ℝ) (fuel : ℕ) (a : LanczosArgs n) (d : ℤ) (hd : d ≤ 0) (vec : Bool) (method : String) :
    rayleighRitzCall K eps fuel a (some d) vec method = some (.error .assertion) := by
  have hl : lanczosDeg n (some d) = min d n := rfl
  unfold rayleighRitzCall rayleighRitz
  rw [if_pos (by rw [hl]; omega)]

/-- The hypotheses of the theorems on `matrix_function` are met: the `2 x 2` identity. -/
example (K : TriKernels) (hK : EighOk K) (v : Vec 2) : ∃ (M M' : MF 2) (Y : Matrix (Fin 2) (Fin 1) ℝ),
    MF.init (1 : Matrix (Fin 2) (Fin 2) ℝ).mulVec (fun x => x) 20 3 = .ok M ∧
    M.matvec K 0 0 v = some (.ok (M', some (Y.col 0))) ∧
    (Spec.CleanStop (Real.sqrt (2 : ℕ) * 1e-8) M.deg M'.beta.get → Y.col 0 = v) := by
  obtain ⟨M, M', Y, h1, h2, -, h3⟩ := C92_identity_partial K hK 0 le_rfl 0 (1 : Matrix (Fin 2) (Fin 2) ℝ) (by rw [Matrix.IsSymm, Matrix.transpose_one])
    (fun _ => 1) 1 ⟨by simp, fun j => by simp⟩ (by norm_num) v
  exact ⟨M, M', Y, h1, h2, fun hc => by rw [h3 hc, Matrix.one_mulVec]⟩

end Primate
