import Verif.Props.LanczosFl
import Verif.Lemmas.QuadFlCore

/-! # Properties C136 and C137: Lanczos quadrature and function application in floating point arithmetic -/

noncomputable section

namespace Primate

open Matrix Polynomial Spec

variable {n : ℕ} {K : LKernels n} {A : Matrix (Fin n) (Fin n) ℝ} {M ε tol B : ℝ} {v : Vec n} {deg : ℕ} {orth : ℤ} {alpha beta : Buf ℝ} {Q : Buf (Vec n)}

/-- The run with everything C132 says about it. -/
theorem Spec.FlInput.run' (h : FlInput K A M ε tol B v deg orth alpha beta Q) (otol : ℝ) :
    ∃ (t : LState n) (k : ℕ) (q : ℕ → Vec n), lanczosFl K v deg tol otol orth alpha beta Q = .ok t ∧ 1 ≤ k ∧ k ≤ deg ∧
      (t.beta.get k < tol ∨ k = deg) ∧ (∀ j, 1 ≤ j → j < k → tol ≤ t.beta.get j) ∧
      (∀ j < k, k ≤ j + Q.len → t.Q.get (j % Q.len) = q j) ∧ nrm (q 0 - (nrm v)⁻¹ • v) ≤ 5 * ε ∧
      NearLanczos A M ε k t.alpha.get t.beta.get q t.v ∧
      (∀ j < k, 0 ≤ t.beta.get j ∧ |t.alpha.get j| ≤ 4 * k * M ∧ t.beta.get j ≤ 4 * k * M) ∧ -(ε * tol) ≤ t.beta.get k ∧
      (∀ j, k ≤ j → t.alpha.get j = alpha.get j) ∧ (∀ j, k < j → t.beta.get j = beta.get j) ∧
      (∀ j, k ≤ j → j < Q.len → t.Q.get j = Q.get j ∨ t.Q.get j = 0) := by
  obtain ⟨t, k, q, h1, h2, h3, h4, h5, h6, h10, h7, h8, h9, -, f1, f2, f3⟩ := C132_local_errors K A M ε tol B h.kernels h.bound h.M0 h.eps0 h.eps1 h.tol0 v h.start
    h.startB deg h.deg1 h.degE h.degB otol orth h.noOrth alpha beta Q h.aLen h.bLen h.qLen h.qLen2
  refine ⟨t, k, q, h1, h2, h3, h4, h5, h6, h10, h7, fun j hj => ?_, ?_, f1, f2, f3⟩
  · obtain ⟨a1, a2, a3⟩ := h9 j hj
    have hjk : (j : ℝ) + 1 ≤ k := by exact_mod_cast hj
    have hm := mul_le_mul_of_nonneg_right hjk h.M0
    have hj0 : 0 ≤ (j : ℝ) * M := mul_nonneg (Nat.cast_nonneg j) h.M0
    have := h.M0
    exact ⟨a1, by linarith, by linarith⟩
  · have h11 := (abs_le.1 h8).1
    have h12 := mul_le_mul_of_nonneg_right h.eps1 (nrm_nonneg t.v)
    have h13 := nrm_nonneg t.v
    linarith

/-- What the recurrence provides. -/
theorem Spec.FlInput.qCore (h : FlInput K A M ε tol B v deg orth alpha beta Q) {t : LState n} {k : ℕ} {q : ℕ → Vec n} {S : ℝ} (h2 : 1 ≤ k) (h3 : k ≤ deg)
    (h4 : t.beta.get k < tol ∨ k = deg) (h7 : nrm (q 0 - (nrm v)⁻¹ • v) ≤ 5 * ε) (h8 : NearLanczos A M ε k t.alpha.get t.beta.get q t.v)
    (h9 : ∀ j < k, 0 ≤ t.beta.get j) (h10 : -(ε * tol) ≤ t.beta.get k) (f1 : ∀ j, k ≤ j → t.alpha.get j = alpha.get j)
    (f2 : ∀ j, k < j → t.beta.get j = beta.get j) (hMS : M ≤ S) (hS : ∀ j < deg, |t.alpha.get j| ≤ S ∧ |t.beta.get j| ≤ S) :
    QCore A ε tol S v deg k alpha beta t q :=
  ⟨h.eps0, h.eps1, h.M0.trans hMS, by linarith [h.start, h.tol0], h2, h3,
    h8.nearS h.eps0 S hMS h9 (fun j hj => ⟨(hS j (by omega)).1, (le_abs_self _).trans (hS j (by omega)).2⟩), h7, h4,
    by linarith [mul_le_mul_of_nonneg_right h.eps1 h.tol0.le, h.tol0], hS, f1, f2⟩

/-- C136: accuracy of `MatrixFunction.quad` in floating point arithmetic, without re-orthogonalisation.  The error of the returned number is at most the error of the
best approximation of `f` by polynomials of degree `2 k - 2` on an interval that is slightly larger than the spectrum, plus a multiple of the rounding errors. -/
theorem C136_quad_accuracy (h : FlInput K A M ε tol B v deg orth alpha beta Q) (hA : A.IsSymm) (E : QKernels n) (ω δ L H : ℝ) (hE : QKernelsOk E deg ω δ L H) (hω : 0 ≤ ω)
    (hω1 : deg * ω ≤ 1 / 100) (hδ : 0 ≤ δ) (otol lo hi : ℝ) (lam : Fin n → ℝ) (U : Matrix (Fin n) (Fin n) ℝ) (hU : Eigen A lam U)
    (hlam : ∀ i, lo ≤ lam i ∧ lam i ≤ hi) (f : ℝ → ℝ) :
    ∃ (t : LState n) (y : ℝ) (k : ℕ), quadColFl K E f v deg tol otol orth alpha beta Q = .ok (t, y) ∧ 1 ≤ k ∧ k ≤ deg ∧
      (t.beta.get k < tol ∨ k = deg) ∧ (∀ j, 1 ≤ j → j < k → tol ≤ t.beta.get j) ∧
      (∀ j < k, |t.alpha.get j| ≤ 4 * k * M ∧ |t.beta.get j| ≤ 4 * k * M) ∧ -tol ≤ t.beta.get k ∧
      (∀ j, k ≤ j → t.alpha.get j = alpha.get j) ∧ (∀ j, k < j → t.beta.get j = beta.get j) ∧
      ∀ S, M ≤ S → (∀ j < deg, |t.alpha.get j| ≤ S ∧ |t.beta.get j| ≤ S) → ∀ a b, a < b →
        a ≤ lo - 400 * k ^ 3 * ε * S - backward k deg δ S tol → hi + 400 * k ^ 3 * ε * S + backward k deg δ S tol ≤ b →
        RestOk k deg alpha beta a b (backward k deg δ S tol) →
        ∀ (g : ℝ[X]) (Φ η : ℝ), g.natDegree + 2 ≤ 2 * k → (∀ x, a ≤ x → x ≤ b → |f x| ≤ Φ) → (∀ x, a ≤ x → x ≤ b → |f x - g.eval x| ≤ η) →
          QRange L H S Φ (nrm v) →
          |y - v ⬝ᵥ (matFun lam U f *ᵥ v)| ≤ nrm v ^ 2 * (2.15 * η + (11 * ε + 8 * deg * ω) * Φ +
            (Φ + η) * (4 * k * (33 * ε + 496 * k ^ 3 * (ε * S) / (b - a)) + 32 * k ^ 3 * backward k deg δ S tol / (b - a))) := by
  obtain ⟨t, k, q, h1, h2, h3, h4, h5, h6, h7, h8, h9, h10, f1, f2, -⟩ := h.run' otol
  have hd : 0 < deg := by omega
  refine ⟨t, _, k, by unfold quadColFl; rw [h1]; rfl, h2, h3, h4, h5, fun j hj => ⟨(h9 j hj).2.1, by rw [abs_of_nonneg (h9 j hj).1]; exact (h9 j hj).2.2⟩,
    by linarith [mul_le_mul_of_nonneg_right h.eps1 h.tol0.le, h.tol0], f1, f2, fun S hMS hS a b hab ha hb hrest g Φ η hg hΦ hη hR => ?_⟩
  exact ((h.qCore h2 h3 h4 h7 h8 (fun j hj => (h9 j hj).1) h10 f1 f2 hMS hS).quad hA hE hω hω1 hδ hU hlam f hab ha hb hrest g hg hΦ hη hR).2

/-- C137: accuracy of the product of a `MatrixFunction` with a vector in floating point arithmetic, without re-orthogonalisation.  The error is at most the error of the
best approximation of `f` by polynomials of degree `k - 1`, times `1 + sqrt k`, plus a multiple of the rounding errors. -/
theorem C137_matvec_accuracy (h : FlInput K A M ε tol B v deg orth alpha beta (Buf.zeros deg)) (E : QKernels n) (ω δ L H : ℝ) (hE : QKernelsOk E deg ω δ L H)
    (hω : 0 ≤ ω) (hω1 : ω ≤ 1 / 100) (hδ : 0 ≤ δ) (otol lo hi : ℝ) (lam : Fin n → ℝ) (U : Matrix (Fin n) (Fin n) ℝ) (hU : Eigen A lam U)
    (hlam : ∀ i, lo ≤ lam i ∧ lam i ≤ hi) (f : ℝ → ℝ) :
    ∃ (t : LState n) (y : Vec n) (k : ℕ), matvecFl K E f v deg tol otol orth alpha beta = .ok (t, y) ∧ 1 ≤ k ∧ k ≤ deg ∧
      (t.beta.get k < tol ∨ k = deg) ∧ (∀ j, 1 ≤ j → j < k → tol ≤ t.beta.get j) ∧
      (∀ j < k, |t.alpha.get j| ≤ 4 * k * M ∧ |t.beta.get j| ≤ 4 * k * M) ∧ -tol ≤ t.beta.get k ∧
      (∀ j, k ≤ j → t.alpha.get j = alpha.get j) ∧ (∀ j, k < j → t.beta.get j = beta.get j) ∧
      ∀ S, M ≤ S → (∀ j < deg, |t.alpha.get j| ≤ S ∧ |t.beta.get j| ≤ S) → ∀ a b, a < b →
        a ≤ lo - 400 * k ^ 3 * ε * S - backward k deg δ S tol → hi + 400 * k ^ 3 * ε * S + backward k deg δ S tol ≤ b →
        RestOk k deg alpha beta a b (backward k deg δ S tol) →
        ∀ (g : ℝ[X]) (Φ η : ℝ), g.natDegree < k → (∀ x, a ≤ x → x ≤ b → |f x| ≤ Φ) → (∀ x, a ≤ x → x ≤ b → |f x - g.eval x| ≤ η) →
          QRange L H S Φ (nrm v) →
          nrm (y - matFun lam U f *ᵥ v) ≤ nrm v * (1.05 * (1 + Real.sqrt k) * η + (5 * ε + 5 * deg ^ 2 * ω) * Φ +
            (Φ + η) * (52 * k ^ 4 * (ε * S) / (b - a) + 5 * k ^ 4 * backward k deg δ S tol / (b - a))) := by
  obtain ⟨t, k, q, h1, h2, h3, h4, h5, h6, h7, h8, h9, h10, f1, f2, f3⟩ := h.run' otol
  have hd : 0 < deg := by omega
  refine ⟨t, _, k, by unfold matvecFl; rw [h1]; rfl, h2, h3, h4, h5, fun j hj => ⟨(h9 j hj).2.1, by rw [abs_of_nonneg (h9 j hj).1]; exact (h9 j hj).2.2⟩,
    by linarith [mul_le_mul_of_nonneg_right h.eps1 h.tol0.le, h.tol0], f1, f2, fun S hMS hS a b hab ha hb hrest g Φ η hg hΦ hη hR => ?_⟩
  refine (h.qCore h2 h3 h4 h7 h8 (fun j hj => (h9 j hj).1) h10 f1 f2 hMS hS).matvec (fun l hl => ?_) (fun l hl hl2 => ?_) hE hω hω1 hδ hU hlam f hab ha hb hrest g hg
    hΦ hη hR
  · have h11 := h6 l hl (by show k ≤ l + deg; omega)
    rw [show (Buf.zeros deg : Buf (Vec n)).len = deg from rfl, Nat.mod_eq_of_lt (by omega)] at h11
    exact h11
  · rcases f3 l hl hl2 with h11 | h11
    · rw [h11]; rfl
    · exact h11

/-! ### Concrete cases -/

/-- Operations without rounding errors meet the requirements. -/
theorem qKernels_exact (n : ℕ) : ∃ E : QKernels n, ∀ m L H, QKernelsOk E m 0 0 L H := by
  have hj : ∀ (k : ℕ) (d e : ℕ → ℝ), ∃ r : (Fin k → ℝ) × Matrix (Fin k) (Fin k) ℝ, IsEigh (jacobi k d e) r.1 r.2 := by
    intro k d e
    obtain ⟨w, V, h⟩ := exists_isEigh (jacobi k d e) (jac_symm d (fun i => e (i - 1)) k)
    exact ⟨(w, V), h⟩
  choose ei hei using hj
  refine ⟨⟨ei, fun k φ y => ∑ j, φ j * y j ^ 2, nrm, fun a b => a * b, fun k c q Y φ => c • ∑ l : Fin k, (∑ a, Y l a * (φ a * Y ⟨0, l.pos⟩ a)) • q l⟩,
    fun m L H => ⟨?_, ?_, ?_, ?_, ?_⟩⟩
  · intro d e S _ _ _ _
    refine ⟨0, (ei m d e).2, ?_, ?_, ?_⟩
    · simp
    · rw [add_zero]
      exact isEigh_iff_eigen.1 (hei m d e)
    · intro i j
      simp
  · intros; simp
  · intros; simp
  · intros; simp
  · intros; simp [nrm_zero]

theorem qRange_example {N : ℝ} (h0 : 0 ≤ N) (h2 : N ≤ 2) : QRange 0 1000 32 1 N := by
  constructor <;> nlinarith

theorem eigen_le {n : ℕ} {A : Matrix (Fin n) (Fin n) ℝ} {lam : Fin n → ℝ} {U : Matrix (Fin n) (Fin n) ℝ} (hU : Eigen A lam U) {M : ℝ}
    (hM : ∀ x, nrm (A *ᵥ x) ≤ M * nrm x) (i : Fin n) : -M ≤ lam i ∧ lam i ≤ M := by
  have h1 := hM fun l => U l i
  have h2 := congrFun (congrFun hU.orthonormal i) i
  rw [Matrix.mul_apply, Matrix.one_apply_eq] at h2
  have h3 : nrm (fun l => U l i) = 1 := by
    unfold nrm
    rw [show (fun l => U l i) ⬝ᵥ (fun l => U l i) = 1 from h2, Real.sqrt_one]
  rw [hU.eigen i, nrm_smul, h3, mul_one, mul_one] at h1
  exact abs_le.1 h1

/-- The input of `flInput_example` with the constant function one: the result is the squared norm of the vector up to an error. -/
theorem quad_example (otol : ℝ) : ∃ (K : LKernels 2) (E : QKernels 2) (t : LState 2) (y : ℝ),
    quadColFl K E (fun _ => 1) (fun _ => 1) 2 (1 / 2 ^ 20) otol 0 ⟨2, fun _ => 0⟩ ⟨3, fun _ => 0⟩ ⟨2, fun _ _ => 0⟩ = .ok (t, y) ∧ |y - 2| ≤ 1 / 1000 := by
  obtain ⟨K, h⟩ := flInput_example
  obtain ⟨E, hE⟩ := qKernels_exact 2
  have hA : (!![2, 1; 1, 2] : Matrix (Fin 2) (Fin 2) ℝ).IsSymm := by ext i j; fin_cases i <;> fin_cases j <;> rfl
  obtain ⟨w, V, hV⟩ := exists_isEigh (!![2, 1; 1, 2] : Matrix (Fin 2) (Fin 2) ℝ) hA
  obtain ⟨t, y, k, ht, hk1, hk2, hstop, -, hb, hlow, f1, f2, hacc⟩ := C136_quad_accuracy h hA E 0 0 0 1000 (hE 2 0 1000) le_rfl (by norm_num) le_rfl otol
    (-4) 4 w V (isEigh_iff_eigen.1 hV) (fun i => eigen_le (isEigh_iff_eigen.1 hV) h.bound i) (fun _ => 1)
  refine ⟨K, E, t, y, ht, ?_⟩
  have kr : (k : ℝ) ≤ 2 := by exact_mod_cast hk2
  have k0 : (1 : ℝ) ≤ k := by exact_mod_cast hk1
  have k3 : (k : ℝ) ^ 3 ≤ 8 := by
    have := pow_le_pow_left₀ (by linarith) kr 3
    linarith
  have hD : backward k 2 0 32 (1 / 2 ^ 20) ≤ 2 / 2 ^ 20 := by
    unfold backward
    split_ifs <;> norm_num
  have hD0 : 0 ≤ backward k 2 0 32 (1 / 2 ^ 20) := by
    unfold backward
    split_ifs <;> norm_num
  have hbound : ∀ j < 2, |t.alpha.get j| ≤ 32 ∧ |t.beta.get j| ≤ 32 := by
    intro j hj
    rcases Nat.lt_or_ge j k with hjk | hjk
    · have := hb j hjk
      constructor <;> linarith [this.1, this.2]
    · have hj1 : j = k := by omega
      subst hj1
      refine ⟨by rw [f1 j le_rfl]; norm_num, ?_⟩
      rcases hstop with hs | hs
      · exact abs_le.2 ⟨by linarith, by linarith⟩
      · omega
  have hmain := hacc 32 (by norm_num) hbound (-10) 10 (by norm_num) (by push_cast; linarith) (by push_cast; linarith)
    (restOk_zero (fun _ => rfl) (fun _ => rfl) (by linarith) (by linarith)) 1 1 0 (by rw [natDegree_one]; omega) (fun x _ _ => by norm_num) (fun x _ _ => by simp)
    (qRange_example (nrm_nonneg _) (by
      unfold nrm
      refine Real.sqrt_le_iff.2 ⟨by norm_num, ?_⟩
      rw [dotProduct, Fin.sum_univ_two]
      norm_num))
  have e1 : (fun _ : Fin 2 => (1 : ℝ)) ⬝ᵥ (matFun w V (fun _ => 1) *ᵥ fun _ => 1) = 2 := by
    have : matFun w V (fun _ => (1 : ℝ)) = 1 := by
      unfold matFun
      rw [show (diagonal fun _ : Fin 2 => (1 : ℝ)) = 1 from Matrix.diagonal_one, Matrix.mul_one, hV.mul_transpose]
    rw [this, one_mulVec, dotProduct, Fin.sum_univ_two]
    norm_num
  have e2 : nrm (fun _ : Fin 2 => (1 : ℝ)) ^ 2 = 2 := by
    rw [sq, nrm_sq, dotProduct, Fin.sum_univ_two]
    norm_num
  rw [e1, e2] at hmain
  refine hmain.trans ?_
  set D := backward k 2 0 32 (1 / 2 ^ 20) with hDdef
  have p1 : (k : ℝ) ^ 3 * D ≤ 8 * (2 / 2 ^ 20) := mul_le_mul k3 hD hD0 (by norm_num)
  have p2 : (k : ℝ) * k ^ 3 ≤ 2 * 8 := mul_le_mul kr k3 (by positivity) (by norm_num)
  push_cast
  ring_nf
  ring_nf at p1 p2
  linarith

/-- The same for the product with a vector. -/
theorem matvec_example (otol : ℝ) : ∃ (K : LKernels 2) (E : QKernels 2) (t : LState 2) (y : Vec 2),
    matvecFl K E (fun _ => 1) (fun _ => 1) 2 (1 / 2 ^ 20) otol 0 ⟨2, fun _ => 0⟩ ⟨3, fun _ => 0⟩ = .ok (t, y) ∧ nrm (y - fun _ => 1) ≤ 1 / 1000 := by
  obtain ⟨K, h⟩ := flInput_example
  obtain ⟨E, hE⟩ := qKernels_exact 2
  have hA : (!![2, 1; 1, 2] : Matrix (Fin 2) (Fin 2) ℝ).IsSymm := by ext i j; fin_cases i <;> fin_cases j <;> rfl
  obtain ⟨w, V, hV⟩ := exists_isEigh (!![2, 1; 1, 2] : Matrix (Fin 2) (Fin 2) ℝ) hA
  obtain ⟨t, y, k, ht, hk1, hk2, hstop, -, hb, hlow, f1, f2, hacc⟩ := C137_matvec_accuracy h E 0 0 0 1000 (hE 2 0 1000) le_rfl (by norm_num) le_rfl otol
    (-4) 4 w V (isEigh_iff_eigen.1 hV) (fun i => eigen_le (isEigh_iff_eigen.1 hV) h.bound i) (fun _ => 1)
  refine ⟨K, E, t, y, ht, ?_⟩
  have kr : (k : ℝ) ≤ 2 := by exact_mod_cast hk2
  have k0 : (1 : ℝ) ≤ k := by exact_mod_cast hk1
  have k3 : (k : ℝ) ^ 3 ≤ 8 := by
    have := pow_le_pow_left₀ (by linarith) kr 3
    linarith
  have k4 : (k : ℝ) ^ 4 ≤ 16 := by
    have := pow_le_pow_left₀ (by linarith) kr 4
    linarith
  have hD : backward k 2 0 32 (1 / 2 ^ 20) ≤ 2 / 2 ^ 20 := by
    unfold backward
    split_ifs <;> norm_num
  have hD0 : 0 ≤ backward k 2 0 32 (1 / 2 ^ 20) := by
    unfold backward
    split_ifs <;> norm_num
  have hbound : ∀ j < 2, |t.alpha.get j| ≤ 32 ∧ |t.beta.get j| ≤ 32 := by
    intro j hj
    rcases Nat.lt_or_ge j k with hjk | hjk
    · have := hb j hjk
      constructor <;> linarith [this.1, this.2]
    · have hj1 : j = k := by omega
      subst hj1
      refine ⟨by rw [f1 j le_rfl]; norm_num, ?_⟩
      rcases hstop with hs | hs
      · exact abs_le.2 ⟨by linarith, by linarith⟩
      · omega
  have hmain := hacc 32 (by norm_num) hbound (-10) 10 (by norm_num) (by push_cast; linarith) (by push_cast; linarith)
    (restOk_zero (fun _ => rfl) (fun _ => rfl) (by linarith) (by linarith)) 1 1 0 (by rw [natDegree_one]; omega) (fun x _ _ => by norm_num) (fun x _ _ => by simp)
    (qRange_example (nrm_nonneg _) (by
      unfold nrm
      refine Real.sqrt_le_iff.2 ⟨by norm_num, ?_⟩
      rw [dotProduct, Fin.sum_univ_two]
      norm_num))
  have e1 : (matFun w V (fun _ => 1) *ᵥ fun _ => 1) = fun _ : Fin 2 => (1 : ℝ) := by
    have : matFun w V (fun _ => (1 : ℝ)) = 1 := by
      unfold matFun
      rw [show (diagonal fun _ : Fin 2 => (1 : ℝ)) = 1 from Matrix.diagonal_one, Matrix.mul_one, hV.mul_transpose]
    rw [this, one_mulVec]
  have e2 : nrm (fun _ : Fin 2 => (1 : ℝ)) ≤ 2 := by
    unfold nrm
    refine Real.sqrt_le_iff.2 ⟨by norm_num, ?_⟩
    rw [dotProduct, Fin.sum_univ_two]
    norm_num
  rw [e1] at hmain
  refine hmain.trans ?_
  set D := backward k 2 0 32 (1 / 2 ^ 20) with hDdef
  have p1 : (k : ℝ) ^ 4 * D ≤ 16 * (2 / 2 ^ 20) := mul_le_mul k4 hD hD0 (by norm_num)
  refine (mul_le_mul_of_nonneg_right e2 ?_).trans ?_
  · positivity
  · push_cast
    ring_nf
    ring_nf at p1
    linarith

end Primate
