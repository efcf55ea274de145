import Verif.Lemmas.LanczosFlStep
import Verif.Lemmas.KData
import Verif.Lemmas.Perturb
import Mathlib.LinearAlgebra.Lagrange

/-! # Polynomials of a tridiagonal matrix and sequences that nearly satisfy its recurrence -/

noncomputable section

namespace Primate

open Matrix Polynomial

variable {n : ℕ}

/-- The characteristic polynomials of the leading blocks of a tridiagonal matrix. -/
def jacPoly (α β : ℕ → ℝ) : ℕ → ℝ[X]
  | 0 => 1
  | 1 => X - C (α 0)
  | j + 2 => (X - C (α (j + 1))) * jacPoly α β (j + 1) - C (β (j + 1) ^ 2) * jacPoly α β j

theorem jacPoly_monic (α β : ℕ → ℝ) (j : ℕ) : (jacPoly α β j).Monic ∧ (jacPoly α β j).natDegree = j := by
  suffices h : ∀ j, ((jacPoly α β j).Monic ∧ (jacPoly α β j).natDegree = j) ∧ ((jacPoly α β (j + 1)).Monic ∧ (jacPoly α β (j + 1)).natDegree = j + 1) from (h j).1
  intro j
  induction j with
  | zero => exact ⟨⟨monic_one, natDegree_one⟩, monic_X_sub_C _, natDegree_X_sub_C _⟩
  | succ j ih =>
    refine ⟨ih.2, ?_⟩
    obtain ⟨⟨h1, h2⟩, h3, h4⟩ := ih
    have hm : ((X - C (α (j + 1))) * jacPoly α β (j + 1)).Monic := (monic_X_sub_C _).mul h3
    have hd : ((X - C (α (j + 1))) * jacPoly α β (j + 1)).natDegree = j + 2 := by
      rw [(monic_X_sub_C _).natDegree_mul h3, natDegree_X_sub_C, h4]
      omega
    have hlt : (C (β (j + 1) ^ 2) * jacPoly α β j).degree < ((X - C (α (j + 1))) * jacPoly α β (j + 1)).degree := by
      rw [degree_eq_natDegree hm.ne_zero, hd]
      rw [← smul_eq_C_mul]
      refine lt_of_le_of_lt (degree_smul_le _ _) ?_
      rw [degree_eq_natDegree h1.ne_zero, h2]
      exact_mod_cast (by omega : j < j + 2)
    refine ⟨hm.sub_of_left hlt, ?_⟩
    show ((X - C (α (j + 1))) * jacPoly α β (j + 1) - C (β (j + 1) ^ 2) * jacPoly α β j).natDegree = _
    rw [natDegree_eq_of_degree_eq (degree_sub_eq_left_of_degree_lt hlt), hd]

theorem jacPoly_zero_apply (A : Matrix (Fin n) (Fin n) ℝ) (α β : ℕ → ℝ) (x : Vec n) : aeval A (jacPoly α β 0) *ᵥ x = x := by
  simp [jacPoly]

theorem jacPoly_one_apply (A : Matrix (Fin n) (Fin n) ℝ) (α β : ℕ → ℝ) (x : Vec n) : aeval A (jacPoly α β 1) *ᵥ x = A *ᵥ x - α 0 • x := by
  simp [jacPoly, Matrix.sub_mulVec, Algebra.algebraMap_eq_smul_one, Matrix.smul_mulVec]

theorem jacPoly_succ_apply (A : Matrix (Fin n) (Fin n) ℝ) (α β : ℕ → ℝ) (j : ℕ) (x : Vec n) : aeval A (jacPoly α β (j + 2)) *ᵥ x =
    A *ᵥ (aeval A (jacPoly α β (j + 1)) *ᵥ x) - α (j + 1) • (aeval A (jacPoly α β (j + 1)) *ᵥ x) - β (j + 1) ^ 2 • (aeval A (jacPoly α β j) *ᵥ x) := by
  rw [jacPoly]
  simp only [map_sub, map_mul, aeval_X, aeval_C, Matrix.sub_mulVec, Matrix.sub_mul, Algebra.algebraMap_eq_smul_one, Matrix.smul_mul, Matrix.one_mul, Matrix.smul_mulVec,
    Matrix.mulVec_mulVec]

theorem jacPoly_bound (A : Matrix (Fin n) (Fin n) ℝ) {S : ℝ} (hS : 0 ≤ S) (hA : ∀ x, nrm (A *ᵥ x) ≤ S * nrm x) (α β : ℕ → ℝ) {k : ℕ}
    (hα : ∀ j < k, |α j| ≤ S) (hβ : ∀ j < k, |β j| ≤ S) (x : Vec n) (j : ℕ) (hj : j ≤ k) : nrm (aeval A (jacPoly α β j) *ᵥ x) ≤ (3 * S) ^ j * nrm x := by
  suffices h : ∀ j, (j ≤ k → nrm (aeval A (jacPoly α β j) *ᵥ x) ≤ (3 * S) ^ j * nrm x) ∧
      (j + 1 ≤ k → nrm (aeval A (jacPoly α β (j + 1)) *ᵥ x) ≤ (3 * S) ^ (j + 1) * nrm x) from (h j).1 hj
  have hx := nrm_nonneg x
  intro j
  induction j with
  | zero =>
    refine ⟨fun _ => by rw [jacPoly_zero_apply]; simp, fun h => ?_⟩
    rw [jacPoly_one_apply, zero_add, pow_one]
    refine (nrm_sub_le _ _).trans ?_
    rw [nrm_smul]
    have h1 := mul_le_mul_of_nonneg_right (hα 0 (by omega)) hx
    have h2 := hA x
    have h3 := mul_nonneg hS hx
    linarith
  | succ j ih =>
    refine ⟨ih.2, fun h => ?_⟩
    have i1 := ih.1 (by omega)
    have i2 := ih.2 (by omega)
    rw [jacPoly_succ_apply]
    refine (nrm_sub_le _ _).trans ((add_le_add ((nrm_sub_le _ _).trans (add_le_add (hA _) le_rfl)) le_rfl).trans ?_)
    rw [nrm_smul, nrm_smul]
    have h1 : |α (j + 1)| * nrm (aeval A (jacPoly α β (j + 1)) *ᵥ x) ≤ S * ((3 * S) ^ (j + 1) * nrm x) := mul_le_mul (hα _ (by omega)) i2 (nrm_nonneg _) hS
    have h2 : S * nrm (aeval A (jacPoly α β (j + 1)) *ᵥ x) ≤ S * ((3 * S) ^ (j + 1) * nrm x) := mul_le_mul_of_nonneg_left i2 hS
    have h3 : |β (j + 1) ^ 2| * nrm (aeval A (jacPoly α β j) *ᵥ x) ≤ S ^ 2 * ((3 * S) ^ j * nrm x) := by
      refine mul_le_mul ?_ i1 (nrm_nonneg _) (sq_nonneg S)
      rw [abs_pow]
      exact pow_le_pow_left₀ (abs_nonneg _) (hβ _ (by omega)) 2
    have h4 : 0 ≤ S ^ 2 * ((3 * S) ^ j * nrm x) := by positivity
    have e1 : S * ((3 * S) ^ (j + 1) * nrm x) = 3 * (S ^ 2 * ((3 * S) ^ j * nrm x)) := by ring
    have e2 : (3 * S) ^ (j + 1 + 1) * nrm x = 9 * (S ^ 2 * ((3 * S) ^ j * nrm x)) := by ring
    rw [e2]
    rw [e1] at h1 h2
    linarith

/-- A sequence that nearly satisfies the recurrence is near to the polynomials. -/
theorem jacPoly_near (A : Matrix (Fin n) (Fin n) ℝ) {S D : ℝ} (hS : 0 ≤ S) (hD : 0 ≤ D) (hA : ∀ x, nrm (A *ᵥ x) ≤ S * nrm x) (α β : ℕ → ℝ) {k : ℕ}
    (hα : ∀ j < k, |α j| ≤ S) (hβ : ∀ j < k, |β j| ≤ S) (z : ℕ → Vec n) (h1 : 1 ≤ k → nrm (z 1 - (A *ᵥ z 0 - α 0 • z 0)) ≤ D * S)
    (h2 : ∀ j, j + 2 ≤ k → nrm (z (j + 2) - (A *ᵥ z (j + 1) - α (j + 1) • z (j + 1) - β (j + 1) ^ 2 • z j)) ≤ D * S ^ (j + 2)) (j : ℕ) (hj : j ≤ k) :
    nrm (z j - aeval A (jacPoly α β j) *ᵥ z 0) ≤ D * S ^ j * (3 ^ j - 1) := by
  suffices h : ∀ j, (j ≤ k → nrm (z j - aeval A (jacPoly α β j) *ᵥ z 0) ≤ D * S ^ j * (3 ^ j - 1)) ∧
      (j + 1 ≤ k → nrm (z (j + 1) - aeval A (jacPoly α β (j + 1)) *ᵥ z 0) ≤ D * S ^ (j + 1) * (3 ^ (j + 1) - 1)) from (h j).1 hj
  intro j
  induction j with
  | zero =>
    refine ⟨fun _ => by rw [jacPoly_zero_apply]; simp [nrm_zero], fun h => ?_⟩
    rw [jacPoly_one_apply]
    have := h1 (by omega)
    have h3 := mul_nonneg hD hS
    norm_num
    linarith
  | succ j ih =>
    refine ⟨ih.2, fun h => ?_⟩
    have i1 := ih.1 (by omega)
    have i2 := ih.2 (by omega)
    rw [jacPoly_succ_apply]
    set x := aeval A (jacPoly α β (j + 1)) *ᵥ z 0
    set y := aeval A (jacPoly α β j) *ᵥ z 0
    have e : z (j + 1 + 1) - (A *ᵥ x - α (j + 1) • x - β (j + 1) ^ 2 • y) =
        (z (j + 2) - (A *ᵥ z (j + 1) - α (j + 1) • z (j + 1) - β (j + 1) ^ 2 • z j)) +
          (A *ᵥ (z (j + 1) - x) - α (j + 1) • (z (j + 1) - x) - β (j + 1) ^ 2 • (z j - y)) := by
      rw [mulVec_sub, smul_sub, smul_sub]
      show z (j + 2) - _ = _
      abel
    rw [e]
    refine (nrm_add_le _ _).trans ((add_le_add (h2 j (by omega)) ((nrm_sub_le _ _).trans (add_le_add ((nrm_sub_le _ _).trans (add_le_add (hA _) le_rfl)) le_rfl))).trans ?_)
    rw [nrm_smul, nrm_smul]
    have g1 : |α (j + 1)| * nrm (z (j + 1) - x) ≤ S * (D * S ^ (j + 1) * (3 ^ (j + 1) - 1)) := mul_le_mul (hα _ (by omega)) i2 (nrm_nonneg _) hS
    have g2 : S * nrm (z (j + 1) - x) ≤ S * (D * S ^ (j + 1) * (3 ^ (j + 1) - 1)) := mul_le_mul_of_nonneg_left i2 hS
    have g3 : |β (j + 1) ^ 2| * nrm (z j - y) ≤ S ^ 2 * (D * S ^ j * (3 ^ j - 1)) := by
      refine mul_le_mul ?_ i1 (nrm_nonneg _) (sq_nonneg S)
      rw [abs_pow]
      exact pow_le_pow_left₀ (abs_nonneg _) (hβ _ (by omega)) 2
    have g4 : 0 ≤ D * S ^ (j + 2) := by positivity
    have g5 : (1 : ℝ) ≤ 3 ^ j := one_le_pow₀ (by norm_num)
    have e1 : S * (D * S ^ (j + 1) * (3 ^ (j + 1) - 1)) = (D * S ^ (j + 2)) * (3 * 3 ^ j - 1) := by ring
    have e2 : S ^ 2 * (D * S ^ j * (3 ^ j - 1)) = (D * S ^ (j + 2)) * (3 ^ j - 1) := by ring
    have e3 : D * S ^ (j + 1 + 1) * (3 ^ (j + 1 + 1) - 1) = (D * S ^ (j + 2)) * (9 * 3 ^ j - 1) := by ring
    rw [e3]
    rw [e1] at g1 g2
    rw [e2] at g3
    have g6 := mul_nonneg g4 (by linarith : (0 : ℝ) ≤ 3 ^ j)
    linarith

/-- A monic polynomial of degree `k` is not small at `k + 1` numbers with distances of at least `g`. -/
theorem monic_max {ι : Type} [DecidableEq ι] (s : Finset ι) (x : ι → ℝ) {g : ℝ} (hg : 0 < g) (hx : ∀ i ∈ s, ∀ j ∈ s, i ≠ j → g ≤ |x i - x j|) (p : ℝ[X]) (hp : p.Monic)
    (hd : p.natDegree + 1 = s.card) : ∃ i ∈ s, g ^ p.natDegree / s.card ≤ |p.eval (x i)| := by
  have hinj : Set.InjOn x s := by
    intro i hi j hj hij
    by_contra hne
    have := hx i hi j hj hne
    rw [hij, sub_self, abs_zero] at this
    linarith
  have h1 := Lagrange.coeff_eq_sum hinj (P := p) (by
    rw [degree_eq_natDegree hp.ne_zero, ← hd]
    exact_mod_cast Nat.lt_succ_self _)
  rw [← hd, Nat.add_sub_cancel] at h1
  have h2 : p.coeff p.natDegree = 1 := hp
  rw [h2] at h1
  by_contra hc
  push Not at hc
  have hcard : (0 : ℝ) < s.card := by exact_mod_cast (by omega : 0 < s.card)
  have h3 : ∀ i ∈ s, |p.eval (x i) / ∏ j ∈ s.erase i, (x i - x j)| < 1 / s.card := by
    intro i hi
    have h4 : g ^ p.natDegree ≤ |∏ j ∈ s.erase i, (x i - x j)| := by
      rw [Finset.abs_prod]
      have : g ^ p.natDegree = ∏ j ∈ s.erase i, g := by
        rw [Finset.prod_const, Finset.card_erase_of_mem hi, ← hd, Nat.add_sub_cancel]
      rw [this]
      refine Finset.prod_le_prod (fun _ _ => hg.le) fun j hj => ?_
      exact hx i hi j (Finset.mem_of_mem_erase hj) (Finset.ne_of_mem_erase hj).symm
    have h5 : 0 < g ^ p.natDegree := pow_pos hg _
    rw [abs_div, div_lt_div_iff₀ (h5.trans_le h4) hcard]
    have h6 := hc i hi
    rw [lt_div_iff₀ hcard] at h6
    linarith
  have hne : s.Nonempty := Finset.card_pos.1 (by omega)
  have h4 : |∑ i ∈ s, p.eval (x i) / ∏ j ∈ s.erase i, (x i - x j)| < 1 := by
    refine lt_of_le_of_lt (Finset.abs_sum_le_sum_abs _ _) (lt_of_lt_of_le (Finset.sum_lt_sum_of_nonempty hne h3) (le_of_eq ?_))
    rw [Finset.sum_const, nsmul_eq_mul]
    field_simp
  rw [← h1] at h4
  norm_num at h4

end Primate
