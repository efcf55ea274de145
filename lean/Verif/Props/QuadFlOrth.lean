import Verif.Props.LanczosFlOrth
import Verif.Props.QuadFl

/-! # Properties C140 and C141: Lanczos quadrature and function application with full re-orthogonalisation in floating point arithmetic -/

noncomputable section

namespace Primate

open Matrix Polynomial Spec

variable {n : ℕ} {K : LKernels n} {A : Matrix (Fin n) (Fin n) ℝ} {M ε tol otol B : ℝ} {v : Vec n} {deg : ℕ} {orth : ℤ} {alpha beta : Buf ℝ} {Q : Buf (Vec n)}

/-- What the recurrence provides. -/
theorem Spec.FullInput.qCore (h : FullInput K A M ε tol otol B v deg orth alpha beta Q) (hA : A.IsSymm) {t : LState n} {k : ℕ} {q : ℕ → Vec n} {S : ℝ} (h2 : 1 ≤ k)
    (h3 : k ≤ deg) (h4 : t.beta.get k < tol ∨ k = deg) (h7 : nrm (q 0 - (nrm v)⁻¹ • v) ≤ 5 * ε) (h10 : -(ε * tol) ≤ t.beta.get k)
    (f1 : ∀ j, k ≤ j → t.alpha.get j = alpha.get j) (f2 : ∀ j, k < j → t.beta.get j = beta.get j) {w0 w : ℕ → Vec n}
    (hO : OrthData A ε S otol orth.toNat (k - 1) t.alpha.get t.beta.get q w0 w) (hw : w (k - 1) = t.v)
    (hS : ∀ j < deg, |t.alpha.get j| ≤ S ∧ |t.beta.get j| ≤ S) {β δ : ℝ} (hb : ∀ j, 1 ≤ j → j < k → β ≤ t.beta.get j) (hβ : OrthBounds orth.toNat ε S otol β δ)
    (hTδ : orth.toNat * δ ≤ 1 / 100) : QCore A (orth.toNat * δ) tol S v deg k alpha beta t q := by
  have o1 := h.orth1
  have o2 := h.orthD
  have hT : 1 ≤ orth.toNat := by omega
  have Tr : (1 : ℝ) ≤ orth.toNat := by exact_mod_cast hT
  obtain ⟨hS1, hδ, hε, -⟩ := hβ.facts h.eps0 hT h.otol0
  have e1 : ε ≤ orth.toNat * ε := le_mul_of_one_le_left h.eps0 Tr
  have e2 : δ ≤ orth.toNat * δ := le_mul_of_one_le_left hδ Tr
  have hN := hO.nearS hA h.eps0 h.eps1 hT (by omega) h.otol0 hβ.pos hβ.le (fun j hj hj2 => hb j hj (by omega)) hβ.delta hβ.small
  rw [Nat.sub_add_cancel h2, hw] at hN
  exact ⟨by positivity, hTδ, hS1.le, by linarith [h.start, h.tol0], h2, h3, hN, h7.trans (by linarith [h.eps0]), h4,
    by linarith [mul_le_mul_of_nonneg_right h.eps1 h.tol0.le, h.tol0], hS, f1, f2⟩

/-- C140: accuracy of `MatrixFunction.quad` with full re-orthogonalisation in floating point arithmetic, first use of the object. -/
theorem C140_quad_full (h : FullInput K A M ε tol otol B v deg orth alpha beta Q) (hA : A.IsSymm) (E : QKernels n) (ω δ L H : ℝ) (hE : QKernelsOk E deg ω δ L H) (hω : 0 ≤ ω)
    (hω1 : deg * ω ≤ 1 / 100) (hδ : 0 ≤ δ) (lo hi : ℝ) (lam : Fin n → ℝ) (U : Matrix (Fin n) (Fin n) ℝ) (hU : Eigen A lam U)
    (hlam : ∀ i, lo ≤ lam i ∧ lam i ≤ hi) (f : ℝ → ℝ) :
    ∃ (t : LState n) (y : ℝ) (k : ℕ), quadColFl K E f v deg tol otol orth alpha beta Q = .ok (t, y) ∧ 1 ≤ k ∧ k ≤ deg ∧
      (t.beta.get k < tol ∨ k = deg) ∧ (∀ j, 1 ≤ j → j < k → tol ≤ t.beta.get j) ∧
      (∀ j < k, |t.alpha.get j| ≤ 4 * k * M ∧ |t.beta.get j| ≤ 4 * k * M) ∧ -tol ≤ t.beta.get k ∧
      (∀ j, k ≤ j → t.alpha.get j = alpha.get j) ∧ (∀ j, k < j → t.beta.get j = beta.get j) ∧
      ∀ S, M ≤ S → 14 * S ≤ B → (∀ j < deg, |t.alpha.get j| ≤ S ∧ |t.beta.get j| ≤ S) →
        ∀ β γ, (∀ j, 1 ≤ j → j < k → β ≤ t.beta.get j) → OrthBounds orth.toNat ε S otol β γ → orth.toNat * γ ≤ 1 / 100 → ∀ ε', ε' = orth.toNat * γ → ∀ a b, a < b →
        a ≤ lo - 400 * k ^ 3 * ε' * S - backward k deg δ S tol → hi + 400 * k ^ 3 * ε' * S + backward k deg δ S tol ≤ b →
        RestOk k deg alpha beta a b (backward k deg δ S tol) →
        ∀ (g : ℝ[X]) (Φ η : ℝ), g.natDegree + 2 ≤ 2 * k → (∀ x, a ≤ x → x ≤ b → |f x| ≤ Φ) → (∀ x, a ≤ x → x ≤ b → |f x - g.eval x| ≤ η) →
          QRange L H S Φ (nrm v) →
          |y - v ⬝ᵥ (matFun lam U f *ᵥ v)| ≤ nrm v ^ 2 * (2.15 * η + (11 * ε' + 8 * deg * ω) * Φ +
            (Φ + η) * (4 * k * (33 * ε' + 496 * k ^ 3 * (ε' * S) / (b - a)) + 32 * k ^ 3 * backward k deg δ S tol / (b - a))) := by
  obtain ⟨t, k, q, h1, h2, h3, h4, h5, h6, h7, h8, h9, -, h10, f1, f2, f3, hD⟩ := h.run'
  refine ⟨t, _, k, by unfold quadColFl; rw [h1]; rfl, h2, h3, h4, h5, fun j hj => ?_,
    by linarith [mul_le_mul_of_nonneg_right h.eps1 h.tol0.le, h.tol0], f1, f2, fun S hMS hSB hS β γ hb hβ hγ ε' hε' a b hab ha hb2 hrest g Φ η hg hΦ hη hR => ?_⟩
  · obtain ⟨a1, a2, a3⟩ := h9 j hj
    have hjk : (j : ℝ) + 1 ≤ k := by exact_mod_cast hj
    have hm := mul_le_mul_of_nonneg_right hjk h.M0
    have hj0 : 0 ≤ (j : ℝ) * M := mul_nonneg (Nat.cast_nonneg j) h.M0
    have := h.M0
    exact ⟨by linarith, by rw [abs_of_nonneg a1]; linarith⟩
  · subst hε'
    obtain ⟨w0, w, hO, hw⟩ := hD S hMS hSB fun j hj => hS j (by omega)
    exact ((h.qCore hA h2 h3 h4 h7 h10 f1 f2 hO hw hS hb hβ hγ).quad hA hE hω hω1 hδ hU hlam f hab ha hb2 hrest g hg hΦ hη hR).2

/-- C141: accuracy of the product of a `MatrixFunction` with a vector with full re-orthogonalisation in floating point arithmetic. -/
theorem C141_matvec_full (h : FullInput K A M ε tol otol B v deg orth alpha beta (Buf.zeros deg)) (hA : A.IsSymm) (E : QKernels n) (ω δ L H : ℝ) (hE : QKernelsOk E deg ω δ L H)
    (hω : 0 ≤ ω) (hω1 : ω ≤ 1 / 100) (hδ : 0 ≤ δ) (lo hi : ℝ) (lam : Fin n → ℝ) (U : Matrix (Fin n) (Fin n) ℝ) (hU : Eigen A lam U)
    (hlam : ∀ i, lo ≤ lam i ∧ lam i ≤ hi) (f : ℝ → ℝ) :
    ∃ (t : LState n) (y : Vec n) (k : ℕ), matvecFl K E f v deg tol otol orth alpha beta = .ok (t, y) ∧ 1 ≤ k ∧ k ≤ deg ∧
      (t.beta.get k < tol ∨ k = deg) ∧ (∀ j, 1 ≤ j → j < k → tol ≤ t.beta.get j) ∧
      (∀ j < k, |t.alpha.get j| ≤ 4 * k * M ∧ |t.beta.get j| ≤ 4 * k * M) ∧ -tol ≤ t.beta.get k ∧
      (∀ j, k ≤ j → t.alpha.get j = alpha.get j) ∧ (∀ j, k < j → t.beta.get j = beta.get j) ∧
      ∀ S, M ≤ S → 14 * S ≤ B → (∀ j < deg, |t.alpha.get j| ≤ S ∧ |t.beta.get j| ≤ S) →
        ∀ β γ, (∀ j, 1 ≤ j → j < k → β ≤ t.beta.get j) → OrthBounds orth.toNat ε S otol β γ → orth.toNat * γ ≤ 1 / 100 → ∀ ε', ε' = orth.toNat * γ → ∀ a b, a < b →
        a ≤ lo - 400 * k ^ 3 * ε' * S - backward k deg δ S tol → hi + 400 * k ^ 3 * ε' * S + backward k deg δ S tol ≤ b →
        RestOk k deg alpha beta a b (backward k deg δ S tol) →
        ∀ (g : ℝ[X]) (Φ η : ℝ), g.natDegree < k → (∀ x, a ≤ x → x ≤ b → |f x| ≤ Φ) → (∀ x, a ≤ x → x ≤ b → |f x - g.eval x| ≤ η) →
          QRange L H S Φ (nrm v) →
          nrm (y - matFun lam U f *ᵥ v) ≤ nrm v * (1.05 * (1 + Real.sqrt k) * η + (5 * ε' + 5 * deg ^ 2 * ω) * Φ +
            (Φ + η) * (52 * k ^ 4 * (ε' * S) / (b - a) + 5 * k ^ 4 * backward k deg δ S tol / (b - a))) := by
  obtain ⟨t, k, q, h1, h2, h3, h4, h5, h6, h7, h8, h9, -, h10, f1, f2, f3, hD⟩ := h.run'
  refine ⟨t, _, k, by unfold matvecFl; rw [h1]; rfl, h2, h3, h4, h5, fun j hj => ?_,
    by linarith [mul_le_mul_of_nonneg_right h.eps1 h.tol0.le, h.tol0], f1, f2, fun S hMS hSB hS β γ hb hβ hγ ε' hε' a b hab ha hb2 hrest g Φ η hg hΦ hη hR => ?_⟩
  · obtain ⟨a1, a2, a3⟩ := h9 j hj
    have hjk : (j : ℝ) + 1 ≤ k := by exact_mod_cast hj
    have hm := mul_le_mul_of_nonneg_right hjk h.M0
    have hj0 : 0 ≤ (j : ℝ) * M := mul_nonneg (Nat.cast_nonneg j) h.M0
    have := h.M0
    exact ⟨by linarith, by rw [abs_of_nonneg a1]; linarith⟩
  · subst hε'
    obtain ⟨w0, w, hO, hw⟩ := hD S hMS hSB fun j hj => hS j (by omega)
    exact (h.qCore hA h2 h3 h4 h7 h10 f1 f2 hO hw hS hb hβ hγ).matvec h6 f3 hE hω hω1 hδ hU hlam f hab ha hb2 hrest g hg hΦ hη hR

/-! ### Concrete cases -/

/-- The input of `fullInput_example` with the constant function one: the result is the squared norm of the vector up to an error. -/
theorem quad_full_example : ∃ (K : LKernels 2) (E : QKernels 2) (t : LState 2) (y : ℝ),
    quadColFl K E (fun _ => 1) (Pi.single 0 1) 2 (1 / 2 ^ 10) (1 / 2 ^ 50) 1 ⟨2, fun _ => 0⟩ ⟨3, fun _ => 0⟩ ⟨2, fun _ _ => 0⟩ = .ok (t, y) ∧ |y - 1| ≤ 1 / 10 := by
  obtain ⟨K, h⟩ := fullInput_example
  obtain ⟨E, hE⟩ := qKernels_exact 2
  have hA : (!![2, 1; 1, 2] : Matrix (Fin 2) (Fin 2) ℝ).IsSymm := by ext i j; fin_cases i <;> fin_cases j <;> rfl
  obtain ⟨w, V, hV⟩ := exists_isEigh (!![2, 1; 1, 2] : Matrix (Fin 2) (Fin 2) ℝ) hA
  obtain ⟨t, y, k, ht, hk1, hk2, hstop, htol, hb, hlow, f1, f2, hacc⟩ := C140_quad_full h hA E 0 0 0 1000 (hE 2 0 1000) le_rfl (by norm_num) le_rfl
    (-4) 4 w V (isEigh_iff_eigen.1 hV) (fun i => eigen_le (isEigh_iff_eigen.1 hV) h.bound i) (fun _ => 1)
  refine ⟨K, E, t, y, ht, ?_⟩
  have kr : (k : ℝ) ≤ 2 := by exact_mod_cast hk2
  have k0 : (1 : ℝ) ≤ k := by exact_mod_cast hk1
  have k3 : (k : ℝ) ^ 3 ≤ 8 := by
    have := pow_le_pow_left₀ (by linarith) kr 3
    linarith
  have hD : backward k 2 0 32 (1 / 2 ^ 10) ≤ 2 / 2 ^ 10 := by
    unfold backward
    split_ifs <;> norm_num
  have hD0 : 0 ≤ backward k 2 0 32 (1 / 2 ^ 10) := by
    unfold backward
    split_ifs <;> norm_num
  have hbound : ∀ j < 2, |t.alpha.get j| ≤ 32 ∧ |t.beta.get j| ≤ 32 := by
    intro j hj
    rcases Nat.lt_or_ge j k with hjk | hjk
    · have := hb j hjk
      constructor <;> linarith [this.1, this.2]
    · have hj1 : j = k := by omega
      subst hj1
      refine ⟨by rw [f1 j le_rfl]; norm_num, ?_⟩
      rcases hstop with hs | hs
      · exact abs_le.2 ⟨by linarith, by linarith⟩
      · omega
  have hB : (1024 : ℝ) ≤ (2 : ℝ) ^ (400 : ℤ) := by
    have h5 : (2 : ℝ) ^ (10 : ℤ) ≤ (2 : ℝ) ^ (400 : ℤ) := zpow_le_zpow_right₀ (by norm_num) (by norm_num)
    have e5 : (2 : ℝ) ^ (10 : ℤ) = 1024 := by norm_num
    rwa [e5] at h5
  have T1 : (((1 : ℤ).toNat : ℕ) : ℝ) = 1 := by norm_num
  have hmain := hacc 32 (by norm_num) (le_trans (by norm_num) hB) hbound (1 / 2 ^ 10) (2 / 10 ^ 7) htol ⟨by norm_num, by norm_num, by norm_num, by norm_num⟩ (by norm_num) _ rfl (-10) 10 (by norm_num) (by push_cast; linarith) (by push_cast; linarith)
    (restOk_zero (fun _ => rfl) (fun _ => rfl) (by linarith) (by linarith)) 1 1 0 (by rw [natDegree_one]; omega) (fun x _ _ => by norm_num) (fun x _ _ => by simp)
    (qRange_example (nrm_nonneg _) (by
      unfold nrm
      refine Real.sqrt_le_iff.2 ⟨by norm_num, ?_⟩
      rw [dotProduct, Fin.sum_univ_two]
      norm_num))
  have e1 : (Pi.single (0 : Fin 2) (1 : ℝ)) ⬝ᵥ (matFun w V (fun _ => 1) *ᵥ Pi.single 0 1) = 1 := by
    have : matFun w V (fun _ => (1 : ℝ)) = 1 := by
      unfold matFun
      rw [show (diagonal fun _ : Fin 2 => (1 : ℝ)) = 1 from Matrix.diagonal_one, Matrix.mul_one, hV.mul_transpose]
    rw [this, one_mulVec, dotProduct, Fin.sum_univ_two]
    simp
  have e2 : nrm (Pi.single (0 : Fin 2) (1 : ℝ)) ^ 2 = 1 := by
    rw [sq, nrm_sq, dotProduct, Fin.sum_univ_two]
    simp
  rw [e1, e2, T1] at hmain
  refine hmain.trans ?_
  set D := backward k 2 0 32 (1 / 2 ^ 10) with hDdef
  have p1 : (k : ℝ) ^ 3 * D ≤ 8 * (2 / 2 ^ 10) := mul_le_mul k3 hD hD0 (by norm_num)
  have p2 : (k : ℝ) * k ^ 3 ≤ 2 * 8 := mul_le_mul kr k3 (by positivity) (by norm_num)
  push_cast
  ring_nf
  ring_nf at p1 p2
  linarith

/-- The same for the product with a vector. -/
theorem matvec_full_example : ∃ (K : LKernels 2) (E : QKernels 2) (t : LState 2) (y : Vec 2),
    matvecFl K E (fun _ => 1) (Pi.single 0 1) 2 (1 / 2 ^ 10) (1 / 2 ^ 50) 1 ⟨2, fun _ => 0⟩ ⟨3, fun _ => 0⟩ = .ok (t, y) ∧ nrm (y - Pi.single 0 1) ≤ 1 / 10 := by
  obtain ⟨K, h⟩ := fullInput_example
  obtain ⟨E, hE⟩ := qKernels_exact 2
  have hA : (!![2, 1; 1, 2] : Matrix (Fin 2) (Fin 2) ℝ).IsSymm := by ext i j; fin_cases i <;> fin_cases j <;> rfl
  obtain ⟨w, V, hV⟩ := exists_isEigh (!![2, 1; 1, 2] : Matrix (Fin 2) (Fin 2) ℝ) hA
  obtain ⟨t, y, k, ht, hk1, hk2, hstop, htol, hb, hlow, f1, f2, hacc⟩ := C141_matvec_full h hA E 0 0 0 1000 (hE 2 0 1000) le_rfl (by norm_num) le_rfl
    (-4) 4 w V (isEigh_iff_eigen.1 hV) (fun i => eigen_le (isEigh_iff_eigen.1 hV) h.bound i) (fun _ => 1)
  refine ⟨K, E, t, y, ht, ?_⟩
  have kr : (k : ℝ) ≤ 2 := by exact_mod_cast hk2
  have k0 : (1 : ℝ) ≤ k := by exact_mod_cast hk1
  have k3 : (k : ℝ) ^ 3 ≤ 8 := by
    have := pow_le_pow_left₀ (by linarith) kr 3
    linarith
  have k4 : (k : ℝ) ^ 4 ≤ 16 := by
    have := pow_le_pow_left₀ (by linarith) kr 4
    linarith
  have hD : backward k 2 0 32 (1 / 2 ^ 10) ≤ 2 / 2 ^ 10 := by
    unfold backward
    split_ifs <;> norm_num
  have hD0 : 0 ≤ backward k 2 0 32 (1 / 2 ^ 10) := by
    unfold backward
    split_ifs <;> norm_num
  have hbound : ∀ j < 2, |t.alpha.get j| ≤ 32 ∧ |t.beta.get j| ≤ 32 := by
    intro j hj
    rcases Nat.lt_or_ge j k with hjk | hjk
    · have := hb j hjk
      constructor <;> linarith [this.1, this.2]
    · have hj1 : j = k := by omega
      subst hj1
      refine ⟨by rw [f1 j le_rfl]; norm_num, ?_⟩
      rcases hstop with hs | hs
      · exact abs_le.2 ⟨by linarith, by linarith⟩
      · omega
  have hB : (1024 : ℝ) ≤ (2 : ℝ) ^ (400 : ℤ) := by
    have h5 : (2 : ℝ) ^ (10 : ℤ) ≤ (2 : ℝ) ^ (400 : ℤ) := zpow_le_zpow_right₀ (by norm_num) (by norm_num)
    have e5 : (2 : ℝ) ^ (10 : ℤ) = 1024 := by norm_num
    rwa [e5] at h5
  have T1 : (((1 : ℤ).toNat : ℕ) : ℝ) = 1 := by norm_num
  have hmain := hacc 32 (by norm_num) (le_trans (by norm_num) hB) hbound (1 / 2 ^ 10) (2 / 10 ^ 7) htol ⟨by norm_num, by norm_num, by norm_num, by norm_num⟩ (by norm_num) _ rfl (-10) 10 (by norm_num) (by push_cast; linarith) (by push_cast; linarith)
    (restOk_zero (fun _ => rfl) (fun _ => rfl) (by linarith) (by linarith)) 1 1 0 (by rw [natDegree_one]; omega) (fun x _ _ => by norm_num) (fun x _ _ => by simp)
    (qRange_example (nrm_nonneg _) (by
      unfold nrm
      refine Real.sqrt_le_iff.2 ⟨by norm_num, ?_⟩
      rw [dotProduct, Fin.sum_univ_two]
      norm_num))
  have e1 : (matFun w V (fun _ => 1) *ᵥ Pi.single 0 1) = Pi.single (0 : Fin 2) (1 : ℝ) := by
    have : matFun w V (fun _ => (1 : ℝ)) = 1 := by
      unfold matFun
      rw [show (diagonal fun _ : Fin 2 => (1 : ℝ)) = 1 from Matrix.diagonal_one, Matrix.mul_one, hV.mul_transpose]
    rw [this, one_mulVec]
  have e2 : nrm (Pi.single (0 : Fin 2) (1 : ℝ)) ≤ 2 := by
    unfold nrm
    refine Real.sqrt_le_iff.2 ⟨by norm_num, ?_⟩
    rw [dotProduct, Fin.sum_univ_two]
    simp
  rw [e1, T1] at hmain
  refine hmain.trans ?_
  set D := backward k 2 0 32 (1 / 2 ^ 10) with hDdef
  have p1 : (k : ℝ) ^ 4 * D ≤ 16 * (2 / 2 ^ 10) := mul_le_mul k4 hD hD0 (by norm_num)
  refine (mul_le_mul_of_nonneg_right e2 ?_).trans ?_
  · positivity
  · push_cast
    ring_nf
    ring_nf at p1
    linarith

end Primate
