import Verif.Lemmas.LanczosFlStep
import Verif.Lemmas.PaigeInterval
import Verif.Lemmas.LanczosIeee
import Verif.Props.StatsFl
import Mathlib.LinearAlgebra.Matrix.Notation

/-! # Properties C132 to C135: the Lanczos recurrence in floating point arithmetic -/

noncomputable section

namespace Primate

open Matrix Spec

variable {n : ℕ}

/-- Vectors `q 0, ..., q (k-1)` of nearly unit length, neighbours nearly orthogonal, satisfy the three-term recurrence with the coefficients `α`, `β` and the
residual vector `r`, up to errors that are `ε` times the size of the terms. -/
structure Spec.NearLanczos (A : Matrix (Fin n) (Fin n) ℝ) (M ε : ℝ) (k : ℕ) (α β : ℕ → ℝ) (q : ℕ → Vec n) (r : Vec n) : Prop where
  beta_zero : β 0 = 0
  unit : ∀ j < k, |nrm (q j) - 1| ≤ 5 * ε
  step : ∀ j, j + 1 < k → nrm (A *ᵥ q j - β j • q (j - 1) - α j • q j - β (j + 1) • q (j + 1)) ≤ ε * (6 * M + 3 * β j + |α j| + 3 * β (j + 1))
  last : ∀ j, j + 1 = k → nrm (A *ᵥ q j - β j • q (j - 1) - α j • q j - r) ≤ ε * (6 * M + 3 * β j + |α j|)
  ortho : ∀ j, j + 1 < k → β (j + 1) * |q j ⬝ᵥ q (j + 1)| ≤ ε * (5 * M + 3 * β j + 12 * |α j| + 4 * β (j + 1))
  ortho_last : ∀ j, j + 1 = k → |q j ⬝ᵥ r| ≤ ε * (5 * M + 3 * β j + 12 * |α j|)

/-- C132: without re-orthogonalisation, `lanczos_recurrence` in floating point arithmetic returns coefficients that satisfy the three-term recurrence up to
rounding errors, with vectors of nearly unit length the last of which are in the columns of `Q`. -/
theorem C132_local_errors (K : LKernels n) (A : Matrix (Fin n) (Fin n) ℝ) (M ε tol B : ℝ) (hK : LKernelsOk K A M ε tol B)
    (hA : ∀ x, nrm (A *ᵥ x) ≤ M * nrm x) (hM : 0 ≤ M) (h0 : 0 ≤ ε) (h1 : ε ≤ 1 / 100) (htol : 0 < tol) (v : Vec n) (hv : 2 * tol ≤ nrm v) (hvB : nrm v ≤ B)
    (deg : ℕ) (hdeg : 1 ≤ deg) (hde : 36 * deg * ε ≤ 1) (hB : 8 * (deg + 1) * M ≤ B) (otol : ℝ) (orth : ℤ) (ho : orth ≤ 0) (alpha beta : Buf ℝ)
    (Q : Buf (Vec n)) (ha : deg ≤ alpha.len) (hb : deg + 1 ≤ beta.len) (hQ1 : 1 ≤ Q.len) (hQ2 : deg ≤ 1 ∨ 2 ≤ Q.len) :
    ∃ (t : LState n) (k : ℕ) (q : ℕ → Vec n), lanczosFl K v deg tol otol orth alpha beta Q = .ok t ∧ 1 ≤ k ∧ k ≤ deg ∧
      (t.beta.get k < tol ∨ k = deg) ∧ (∀ j, 1 ≤ j → j < k → tol ≤ t.beta.get j) ∧
      (∀ j < k, k ≤ j + Q.len → t.Q.get (j % Q.len) = q j) ∧
      nrm (q 0 - (nrm v)⁻¹ • v) ≤ 5 * ε ∧
      NearLanczos A M ε k t.alpha.get t.beta.get q t.v ∧
      |t.beta.get k - nrm t.v| ≤ ε * (nrm t.v + tol) ∧
      (∀ j < k, 0 ≤ t.beta.get j ∧ t.beta.get j ≤ 2 * j * M ∧ |t.alpha.get j| ≤ 2 * (2 * j + 1) * M) ∧ nrm t.v ≤ 2 * (k + 1) * M ∧
      (∀ j, k ≤ j → t.alpha.get j = alpha.get j) ∧ (∀ j, k < j → t.beta.get j = beta.get j) ∧
      (∀ j, k ≤ j → j < Q.len → t.Q.get j = Q.get j ∨ t.Q.get j = 0) := by
  obtain ⟨J, t, hJ, hJ1, hJ2, hrun, hF⟩ := lanczosFl_run K v deg hdeg tol otol orth ho alpha beta Q ha hb hQ1 hQ2
  set p0 := flPrev K v Q.len with hp0
  obtain ⟨hs1, hs2⟩ := fl_start hK h0 h1 htol v hv hvB
  have hp : nrm p0 ≤ 1 + 5 * ε := by
    rw [hp0, flPrev]
    split_ifs
    · linarith [(abs_le.1 hs1).2]
    · rw [nrm_zero]; linarith
  have good := fl_good hK hA h0 h1 hM htol v p0 hv hvB hp deg hde hB J hJ hJ1
  have hbM : ∀ j ≤ J, (flSeq K v p0 j).b ≤ 2 * j * M := fun j hj => (good j hj).b_le h0 hM hde (by omega)
  have hjM : ∀ j ≤ J, (j + 1 : ℝ) * M ≤ deg * M := by
    intro j hj
    have : (j : ℝ) + 1 ≤ deg := by exact_mod_cast (by omega : j + 1 ≤ deg)
    exact mul_le_mul_of_nonneg_right this hM
  have hBj : ∀ j ≤ J, 4 * (M + (flSeq K v p0 j).b) ≤ B := by
    intro j hj
    have h2 := hbM j hj
    have h3 := hjM j hj
    linarith
  have st := fun j (hj : j ≤ J) => fl_step hK hA h0 h1 hM (flSeq K v p0 j) j (good j hj).q (good j hj).p (good j hj).b0 (hBj j hj)
  have hwB : ∀ j ≤ J, nrm ((flSeq K v p0 j).w K j) ≤ B := by
    intro j hj
    obtain ⟨-, -, s3, -⟩ := st j hj
    have h2 := (good j hj).b0
    have h3 := hBj j hj
    have h4 : (1 + 15 * ε) * (M + (flSeq K v p0 j).b) ≤ 2 * (M + (flSeq K v p0 j).b) := mul_le_mul_of_nonneg_right (by linarith) (by linarith)
    linarith
  have hβ : ∀ j ≤ J + 1, t.beta.get j = (flSeq K v p0 j).b := hF.beta_le
  have hα : ∀ j ≤ J, t.alpha.get j = (flSeq K v p0 j).a K j := hF.alpha_le
  have hprev : ∀ j ≤ J, (flSeq K v p0 j).b • (flSeq K v p0 j).p = (flSeq K v p0 j).b • (flSeq K v p0 (j - 1)).q := by
    intro j _
    cases j with
    | zero =>
      show (0 : ℝ) • _ = (0 : ℝ) • _
      rw [zero_smul, zero_smul]
    | succ j => rfl
  refine ⟨t, J + 1, fun j => (flSeq K v p0 j).q, hrun, by omega, by omega, ?_, ?_, ?_, hs2, ⟨?_, ?_, ?_, ?_, ?_, ?_⟩, ?_, ?_, ?_, hF.alpha_gt, hF.beta_gt, hF.Q_gt⟩
  · rw [hβ _ le_rfl]; exact hJ2
  · intro j h2 h3
    rw [hβ j (by omega)]
    obtain ⟨i, rfl⟩ : ∃ i, j = i + 1 := ⟨j - 1, by omega⟩
    exact hJ1 i (by omega)
  · intro j hj hj2
    exact hF.Qcol j (by omega) (by omega)
  · rw [hβ 0 (by omega)]; rfl
  · intro j hj
    exact (good j (by omega)).q
  · intro j hj
    obtain ⟨s1, -, -, -⟩ := st j (by omega)
    obtain ⟨-, t2, -, -⟩ := fl_scale hK h0 h1 htol (j + 1) (j + 1) _ (hwB j (by omega)) (hJ1 j (by omega))
    rw [hβ j (by omega), hα j (by omega), hβ (j + 1) (by omega)]
    rw [hprev j (by omega)] at s1
    have e : A *ᵥ (flSeq K v p0 j).q - (flSeq K v p0 j).b • (flSeq K v p0 (j - 1)).q - (flSeq K v p0 j).a K j • (flSeq K v p0 j).q -
        (flSeq K v p0 (j + 1)).b • (flSeq K v p0 (j + 1)).q =
        (A *ᵥ (flSeq K v p0 j).q - (flSeq K v p0 j).b • (flSeq K v p0 (j - 1)).q - (flSeq K v p0 j).a K j • (flSeq K v p0 j).q - (flSeq K v p0 j).w K j) +
        ((flSeq K v p0 j).w K j - (flSeq K v p0 (j + 1)).b • (flSeq K v p0 (j + 1)).q) := by abel
    rw [e]
    refine (nrm_add_le _ _).trans ?_
    have t2' : nrm ((flSeq K v p0 j).w K j - (flSeq K v p0 (j + 1)).b • (flSeq K v p0 (j + 1)).q) ≤ 3 * ε * (flSeq K v p0 (j + 1)).b := t2
    linarith
  · intro j hj
    obtain rfl : j = J := by omega
    obtain ⟨s1, -, -, -⟩ := st j le_rfl
    rw [hβ j (by omega), hα j le_rfl, hF.v_eq]
    rwa [hprev j le_rfl] at s1
  · intro j hj
    obtain ⟨-, s2, -, -⟩ := st j (by omega)
    obtain ⟨-, t2, -, -⟩ := fl_scale hK h0 h1 htol (j + 1) (j + 1) _ (hwB j (by omega)) (hJ1 j (by omega))
    rw [hβ j (by omega), hα j (by omega), hβ (j + 1) (by omega)]
    set x := (flSeq K v p0 j).q with hx
    set y := (flSeq K v p0 (j + 1)).q with hy
    set b' := (flSeq K v p0 (j + 1)).b with hb'
    set w := (flSeq K v p0 j).w K j with hw
    have t2' : nrm (w - b' • y) ≤ 3 * ε * b' := t2
    have hb0 : 0 < b' := htol.trans_le (hJ1 j (by omega))
    have e : b' * |x ⬝ᵥ y| = |x ⬝ᵥ w - x ⬝ᵥ (w - b' • y)| := by
      rw [dotProduct_sub, dotProduct_smul, smul_eq_mul, sub_sub_cancel, abs_mul, abs_of_pos hb0]
    have nx := (abs_le.1 (good j (by omega)).q).2
    have t3 : |x ⬝ᵥ (w - b' • y)| ≤ 1.05 * (3 * ε * b') :=
      (abs_dot_le _ _).trans (mul_le_mul (by linarith) t2' (nrm_nonneg _) (by norm_num))
    have t4 := abs_sub (x ⬝ᵥ w) (x ⬝ᵥ (w - b' • y))
    have t5 : 0 ≤ ε * b' := by positivity
    rw [e]
    linarith
  · intro j hj
    obtain rfl : j = J := by omega
    obtain ⟨-, s2, -, -⟩ := st j le_rfl
    rw [hβ j (by omega), hα j le_rfl, hF.v_eq]
    exact s2
  · rw [hβ (J + 1) le_rfl, hF.v_eq]
    exact hK.norm (J + 1) _ (hwB J le_rfl)
  · intro j hj
    rw [hβ j (by omega), hα j (by omega)]
    obtain ⟨-, -, -, s4⟩ := st j (by omega)
    have h2 := hbM j (by omega)
    exact ⟨(good j (by omega)).b0, h2, by linarith⟩
  · rw [hF.v_eq]
    obtain ⟨-, -, s3, -⟩ := st J le_rfl
    have h2 := hbM J le_rfl
    have h3 := (good J le_rfl).b0
    push_cast
    have h5 : (J + 1 : ℝ) ≤ deg := by exact_mod_cast hJ
    have h4 : (1 + 15 * ε) * (M + (flSeq K v p0 J).b) ≤ (1 + 15 * ε) * ((2 * J + 1) * M) := mul_le_mul_of_nonneg_left (by linarith) (by linarith)
    have h6 : ε * ((J : ℝ) + 1) ≤ 1 / 36 := by nlinarith
    have h7 : 0 ≤ (J : ℝ) := Nat.cast_nonneg J
    have h8 : (1 + 15 * ε) * (2 * J + 1) ≤ 2 * ((J : ℝ) + 1 + 1) := by nlinarith
    have h9 : (1 + 15 * ε) * ((2 * J + 1) * M) ≤ 2 * ((J : ℝ) + 1 + 1) * M := by
      rw [← mul_assoc]
      exact mul_le_mul_of_nonneg_right h8 hM
    linarith

/-- One bound for all coefficients. -/
theorem Spec.NearLanczos.nearS {A : Matrix (Fin n) (Fin n) ℝ} {M ε : ℝ} {k : ℕ} {α β : ℕ → ℝ} {q : ℕ → Vec n} {r : Vec n} (h : NearLanczos A M ε k α β q r)
    (h0 : 0 ≤ ε) (S : ℝ) (hM : M ≤ S) (hb : ∀ j < k, 0 ≤ β j) (hS : ∀ j < k, |α j| ≤ S ∧ β j ≤ S) : NearS A ε S k α β q r := by
  have key : ∀ x c : ℝ, x ≤ c * S → ε * x ≤ c * (ε * S) := by
    intro x c hx
    have := mul_le_mul_of_nonneg_left hx h0
    linarith
  have hp : ∀ j < k, 0 ≤ S := fun j hj => (hb j hj).trans (hS j hj).2
  refine ⟨h.beta_zero, hb, fun j hj => (hS j hj).2, h.unit, fun j hj => (h.step j hj).trans (key _ _ ?_), fun j hj => (h.last j hj).trans (key _ _ ?_),
    fun j hj => (h.ortho j hj).trans (key _ _ ?_), fun j hj => (h.ortho_last j hj).trans (key _ _ ?_)⟩
  · have := hS j (by omega); have := hS (j + 1) hj; linarith
  · have := hS j (by omega); have := hp j (by omega); linarith
  · have := hS j (by omega); have := hS (j + 1) hj; linarith
  · have := hS j (by omega); have := hp j (by omega); linarith

/-- The input of the recurrence: a symmetric matrix with `‖A x‖ ≤ M ‖x‖`, vector operations with relative error `ε`, a start vector whose length is between `2 tol`
and `B`, and large enough arrays. -/
structure Spec.FlInput (K : LKernels n) (A : Matrix (Fin n) (Fin n) ℝ) (M ε tol B : ℝ) (v : Vec n) (deg : ℕ) (orth : ℤ) (alpha beta : Buf ℝ) (Q : Buf (Vec n)) : Prop where
  kernels : LKernelsOk K A M ε tol B
  bound : ∀ x, nrm (A *ᵥ x) ≤ M * nrm x
  M0 : 0 ≤ M
  eps0 : 0 ≤ ε
  eps1 : ε ≤ 1 / 100
  tol0 : 0 < tol
  start : 2 * tol ≤ nrm v
  startB : nrm v ≤ B
  deg1 : 1 ≤ deg
  degE : 36 * deg * ε ≤ 1
  degB : 8 * (deg + 1) * M ≤ B
  noOrth : orth ≤ 0
  aLen : deg ≤ alpha.len
  bLen : deg + 1 ≤ beta.len
  qLen : 1 ≤ Q.len
  qLen2 : deg ≤ 1 ∨ 2 ≤ Q.len

variable {K : LKernels n} {A : Matrix (Fin n) (Fin n) ℝ} {M ε tol B : ℝ} {v : Vec n} {deg : ℕ} {orth : ℤ} {alpha beta : Buf ℝ} {Q : Buf (Vec n)}

theorem Spec.FlInput.run (h : FlInput K A M ε tol B v deg orth alpha beta Q) (otol : ℝ) :
    ∃ (t : LState n) (k : ℕ) (q : ℕ → Vec n), lanczosFl K v deg tol otol orth alpha beta Q = .ok t ∧ 1 ≤ k ∧ k ≤ deg ∧
      (t.beta.get k < tol ∨ k = deg) ∧ (∀ j, 1 ≤ j → j < k → tol ≤ t.beta.get j) ∧
      (∀ j < k, k ≤ j + Q.len → t.Q.get (j % Q.len) = q j) ∧
      NearLanczos A M ε k t.alpha.get t.beta.get q t.v ∧
      |t.beta.get k - nrm t.v| ≤ ε * (nrm t.v + tol) ∧
      (∀ j < k, 0 ≤ t.beta.get j ∧ |t.alpha.get j| ≤ 4 * k * M ∧ t.beta.get j ≤ 4 * k * M) := by
  obtain ⟨t, k, q, h1, h2, h3, h4, h5, h6, -, h7, h8, h9, -⟩ := C132_local_errors K A M ε tol B h.kernels h.bound h.M0 h.eps0 h.eps1 h.tol0 v h.start h.startB
    deg h.deg1 h.degE h.degB otol orth h.noOrth alpha beta Q h.aLen h.bLen h.qLen h.qLen2
  refine ⟨t, k, q, h1, h2, h3, h4, h5, h6, h7, h8, fun j hj => ?_⟩
  obtain ⟨a1, a2, a3⟩ := h9 j hj
  have hjk : (j : ℝ) + 1 ≤ k := by exact_mod_cast hj
  have hm := mul_le_mul_of_nonneg_right hjk h.M0
  have hj0 : 0 ≤ (j : ℝ) * M := mul_nonneg (Nat.cast_nonneg j) h.M0
  have := h.M0
  exact ⟨a1, by linarith, by linarith⟩

theorem Spec.FlInput.n_pos (h : FlInput K A M ε tol B v deg orth alpha beta Q) : 0 < n := by
  rcases Nat.eq_zero_or_pos n with h0 | h0
  · subst h0
    have h1 := h.start
    have h2 := h.tol0
    have h3 : nrm v = 0 := by simp [nrm, dotProduct]
    linarith
  · exact h0

/-- C133: in floating point arithmetic, every Ritz pair of the computed tridiagonal matrix has a small residual when the last entry of its eigenvector is small:
there is an eigenvalue of `A` nearby. `S` is any common bound for `‖A‖` and the computed coefficients; `4 k M` is one. -/
theorem C133_ritz_near (h : FlInput K A M ε tol B v deg orth alpha beta Q) (hQ : deg ≤ Q.len) (otol : ℝ) (lam : Fin n → ℝ) (U : Matrix (Fin n) (Fin n) ℝ)
    (hU : Eigen A lam U) :
    ∃ (t : LState n) (k : ℕ) (hk : 0 < k), lanczosFl K v deg tol otol orth alpha beta Q = .ok t ∧ k ≤ deg ∧
      (t.beta.get k < tol ∨ k = deg) ∧ (∀ j, 1 ≤ j → j < k → tol ≤ t.beta.get j) ∧
      (∀ j < k, |t.alpha.get j| ≤ 4 * k * M ∧ t.beta.get j ≤ 4 * k * M) ∧
      ∀ S, M ≤ S → (∀ j < k, |t.alpha.get j| ≤ S ∧ t.beta.get j ≤ S) →
        ∀ (th : ℝ) (s : Vec k), jacobi k t.alpha.get (fun i => t.beta.get (i + 1)) *ᵥ s = th • s → ∃ i,
          |lam i - th| * nrm (∑ j : Fin k, s j • t.Q.get j) ≤
            |s ⟨k - 1, by omega⟩| * (1.02 * (t.beta.get k + ε * tol)) + 13 * ε * S * (Real.sqrt k * nrm s) := by
  obtain ⟨t, k, q, h1, h2, h3, h4, h5, h6, h7, h8, h9⟩ := h.run otol
  refine ⟨t, k, h2, h1, h3, h4, h5, fun j hj => (h9 j hj).2, fun S hMS hS th s hs => ?_⟩
  have hN := h7.nearS h.eps0 S hMS (fun j hj => (h9 j hj).1) hS
  obtain ⟨F, hR, hF⟩ := hN.nearRel
  obtain ⟨i, hi⟩ := eigen_near hU h.n_pos th (comb (fun i : Fin k => q i) s)
  refine ⟨i, ?_⟩
  have e : ∑ j : Fin k, s j • t.Q.get j = comb (fun i : Fin k => q i) s := by
    unfold comb
    refine Finset.sum_congr rfl fun j _ => ?_
    show _ = s j • q j
    rw [← h6 j j.2 (by omega), Nat.mod_eq_of_lt (by omega)]
  rw [e]
  refine hi.trans ?_
  rw [hR.resid h2 th s hs]
  refine (nrm_add_le _ _).trans (add_le_add ?_ ?_)
  · rw [nrm_smul]
    refine mul_le_mul_of_nonneg_left ?_ (abs_nonneg _)
    have h10 := (abs_le.1 h8).1
    have h11 : ε * nrm t.v ≤ 1 / 100 * nrm t.v := mul_le_mul_of_nonneg_right h.eps1 (nrm_nonneg _)
    have h12 : 0 ≤ ε * tol := mul_nonneg h.eps0 h.tol0.le
    have h13 := nrm_nonneg t.v
    linarith
  · have hS0 : 0 ≤ S := h.M0.trans hMS
    calc nrm (∑ j, s j • F j) ≤ ∑ j, nrm (s j • F j) := nrm_sum_le _ _
      _ ≤ ∑ j, |s j| * (13 * (ε * S)) := Finset.sum_le_sum fun j _ => by
          rw [nrm_smul]
          exact mul_le_mul_of_nonneg_left (hF j) (abs_nonneg _)
      _ = (∑ j, |s j|) * (13 * (ε * S)) := by rw [Finset.sum_mul]
      _ ≤ (Real.sqrt k * nrm s) * (13 * (ε * S)) := mul_le_mul_of_nonneg_right (abs_sum_le_sqrt s) (mul_nonneg (by norm_num) (mul_nonneg h.eps0 hS0))
      _ = 13 * ε * S * (Real.sqrt k * nrm s) := by ring

/-- C134: Paige's theorem. Orthogonality is lost only in the direction of converged Ritz vectors: the product of the inner product of a Ritz vector with the next
Lanczos vector and the last entry of the eigenvector, which measures convergence, is of the order of the rounding errors. -/
theorem C134_paige (h : FlInput K A M ε tol B v deg orth alpha beta Q) (hQ : deg ≤ Q.len) (hA : A.IsSymm) (otol : ℝ) :
    ∃ (t : LState n) (k : ℕ) (hk : 0 < k), lanczosFl K v deg tol otol orth alpha beta Q = .ok t ∧ k ≤ deg ∧
      (t.beta.get k < tol ∨ k = deg) ∧ (∀ j, 1 ≤ j → j < k → tol ≤ t.beta.get j) ∧
      (∀ j < k, |t.alpha.get j| ≤ 4 * k * M ∧ t.beta.get j ≤ 4 * k * M) ∧
      ∀ S, M ≤ S → (∀ j < k, |t.alpha.get j| ≤ S ∧ t.beta.get j ≤ S) →
        ∀ (th : ℝ) (s : Vec k), jacobi k t.alpha.get (fun i => t.beta.get (i + 1)) *ᵥ s = th • s →
          |s ⟨k - 1, by omega⟩| * |(∑ j : Fin k, s j • t.Q.get j) ⬝ᵥ t.v| ≤ 48 * k * ε * S * (s ⬝ᵥ s) := by
  obtain ⟨t, k, q, h1, h2, h3, h4, h5, h6, h7, h8, h9⟩ := h.run otol
  refine ⟨t, k, h2, h1, h3, h4, h5, fun j hj => (h9 j hj).2, fun S hMS hS th s hs => ?_⟩
  have hN := h7.nearS h.eps0 S hMS (fun j hj => (h9 j hj).1) hS
  have e : ∑ j : Fin k, s j • t.Q.get j = comb (fun i : Fin k => q i) s := by
    unfold comb
    refine Finset.sum_congr rfl fun j _ => ?_
    show _ = s j • q j
    rw [← h6 j j.2 (by omega), Nat.mod_eq_of_lt (by omega)]
  rw [e, ← abs_mul]
  refine (hN.loss hA h.eps0 h.eps1 (h.M0.trans hMS) h2 th s hs).trans (le_of_eq ?_)
  ring

/-- C135: the eigenvalues of the computed tridiagonal matrix, the nodes of the quadrature, do not leave the range of the spectrum of `A` by more than a multiple of
the rounding error. -/
theorem C135_nodes_in_range (h : FlInput K A M ε tol B v deg orth alpha beta Q) (otol : ℝ) (lo hi : ℝ) (lam : Fin n → ℝ) (U : Matrix (Fin n) (Fin n) ℝ)
    (hU : Eigen A lam U) (hlam : ∀ i, lo ≤ lam i ∧ lam i ≤ hi) :
    ∃ (t : LState n) (k : ℕ), 1 ≤ k ∧ lanczosFl K v deg tol otol orth alpha beta Q = .ok t ∧ k ≤ deg ∧
      (t.beta.get k < tol ∨ k = deg) ∧ (∀ j, 1 ≤ j → j < k → tol ≤ t.beta.get j) ∧
      (∀ j < k, |t.alpha.get j| ≤ 4 * k * M ∧ t.beta.get j ≤ 4 * k * M) ∧
      ∀ S, M ≤ S → (∀ j < k, |t.alpha.get j| ≤ S ∧ t.beta.get j ≤ S) →
        ∀ (th : ℝ) (s : Vec k), s ≠ 0 → jacobi k t.alpha.get (fun i => t.beta.get (i + 1)) *ᵥ s = th • s →
          lo - 400 * k ^ 3 * ε * S ≤ th ∧ th ≤ hi + 400 * k ^ 3 * ε * S := by
  have hE := isEigh_iff_eigen.2 hU
  have hUU : U * Uᵀ = 1 := mul_eq_one_comm.mp hU.orthonormal
  have hAe : A = matFun lam U fun x => x := by
    have h1 : A * U = U * Matrix.diagonal lam := by
      ext i j
      have := congrFun (hU.eigen j) i
      rw [Matrix.mul_diagonal]
      exact this.trans (by rw [Pi.smul_apply, smul_eq_mul, mul_comm])
    show A = U * Matrix.diagonal (fun i => lam i) * Uᵀ
    rw [← h1, Matrix.mul_assoc, hUU, Matrix.mul_one]
  have hA : A.IsSymm := by
    rw [hAe]
    show (U * Matrix.diagonal (fun i => lam i) * Uᵀ)ᵀ = U * Matrix.diagonal (fun i => lam i) * Uᵀ
    rw [Matrix.transpose_mul, Matrix.transpose_mul, Matrix.transpose_transpose, Matrix.diagonal_transpose, Matrix.mul_assoc]
  have hq : ∀ x : Vec n, x ⬝ᵥ (A *ᵥ x) = ∑ a, lam a * (Uᵀ *ᵥ x) a ^ 2 := by
    intro x
    rw [hAe]
    exact hE.quad_sum (fun x => x) x
  obtain ⟨t, k, q, h1, h2, h3, h4, h5, h6, h7, h8, h9⟩ := h.run otol
  refine ⟨t, k, h2, h1, h3, h4, h5, fun j hj => (h9 j hj).2, fun S hMS hS th s hs0 hs => ?_⟩
  have hN := h7.nearS h.eps0 S hMS (fun j hj => (h9 j hj).1) hS
  have hs1 : 0 < nrm s := lt_of_le_of_ne (nrm_nonneg s) fun hc => hs0 (nrm_eq_zero hc.symm)
  have := NearS.interval hA h.eps0 h.eps1 (h.M0.trans hMS) lo hi
    (fun x => by
      rw [hq, ← hE.norm_sum, Finset.mul_sum]
      exact Finset.sum_le_sum fun a _ => mul_le_mul_of_nonneg_right (hlam a).1 (sq_nonneg _))
    (fun x => by
      rw [hq, ← hE.norm_sum, Finset.mul_sum]
      exact Finset.sum_le_sum fun a _ => mul_le_mul_of_nonneg_right (hlam a).2 (sq_nonneg _))
    k t.v hN th ((nrm s)⁻¹ • s)
    (by
      rw [smul_dotProduct, dotProduct_smul, smul_eq_mul, smul_eq_mul, ← nrm_sq]
      field_simp)
    (by
      rw [mulVec_smul, smul_comm]
      exact congrArg _ hs)
  have e : 400 * ((k : ℝ) ^ 3 * (ε * S)) = 400 * k ^ 3 * ε * S := by ring
  rwa [e] at this

/-! ### binary64 -/

theorem binary64_room (n : ℕ) (hn : n ≤ 2 ^ 40) (M τ B : ℝ) (hM : (2 : ℝ) ^ (-400 : ℤ) ≤ M) (hM2 : M ≤ (2 : ℝ) ^ (400 : ℤ)) (hτ : (2 : ℝ) ^ (-400 : ℤ) ≤ τ)
    (hB0 : 0 ≤ B) (hB : B ≤ (2 : ℝ) ^ (400 : ℤ)) : binary64.Room n M τ B := by
  have hn' : (n : ℝ) ≤ (2 : ℝ) ^ (40 : ℤ) := by
    have : (n : ℝ) ≤ ((2 ^ 40 : ℕ) : ℝ) := by exact_mod_cast hn
    refine this.trans (le_of_eq ?_)
    norm_num
  have n0 : (0 : ℝ) ≤ n := Nat.cast_nonneg n
  have two : (0 : ℝ) < 2 := by norm_num
  have mono : ∀ {a b : ℤ}, a ≤ b → (2 : ℝ) ^ a ≤ (2 : ℝ) ^ b := fun h => zpow_le_zpow_right₀ (by norm_num) h
  have pos : ∀ a : ℤ, (0 : ℝ) < (2 : ℝ) ^ a := fun a => zpow_pos two a
  have add : ∀ a b : ℤ, (2 : ℝ) ^ a * (2 : ℝ) ^ b = (2 : ℝ) ^ (a + b) := fun a b => (zpow_add₀ two.ne' a b).symm
  have htop : (2 : ℝ) ^ (1000 : ℤ) ≤ binary64.top := by
    unfold Fmt.top binary64
    have e : (2 : ℝ) ^ (1000 : ℤ) = 2 ^ 29 * (2 : ℝ) ^ (971 : ℤ) := by
      rw [show (1000 : ℤ) = 29 + 971 by norm_num, zpow_add₀ two.ne']
      norm_num
    rw [e]
    exact mul_le_mul_of_nonneg_right (by norm_num) (pos _).le
  have hu : binary64.u = (2 : ℝ) ^ (-53 : ℤ) := rfl
  have heta : binary64.eta = (2 : ℝ) ^ (-1075 : ℤ) := rfl
  have hne : n * binary64.eta ≤ (2 : ℝ) ^ (-1035 : ℤ) := by
    rw [heta]
    refine (mul_le_mul_of_nonneg_right hn' (pos _).le).trans (le_of_eq ?_)
    rw [add]; norm_num
  have e8 : (8 : ℝ) = (2 : ℝ) ^ (3 : ℤ) := by norm_num
  have hBB : B * B ≤ (2 : ℝ) ^ (800 : ℤ) := by
    refine (mul_le_mul hB hB hB0 (pos _).le).trans (le_of_eq ?_)
    rw [add]; norm_num
  have p4 : (2 : ℝ) ^ (400 : ℤ) ≤ (2 : ℝ) ^ (800 : ℤ) := mono (by norm_num)
  have p0 : (1 : ℝ) ≤ (2 : ℝ) ^ (800 : ℤ) := by
    have := mono (show (0 : ℤ) ≤ 800 by norm_num)
    simpa using this
  have p1 : (26 : ℝ) * (2 : ℝ) ^ (800 : ℤ) ≤ (2 : ℝ) ^ (1000 : ℤ) := by
    have e : (2 : ℝ) ^ (1000 : ℤ) = (2 : ℝ) ^ (200 : ℤ) * (2 : ℝ) ^ (800 : ℤ) := by rw [add]; norm_num
    rw [e]
    refine mul_le_mul_of_nonneg_right ?_ (pos _).le
    have := mono (show (5 : ℤ) ≤ 200 by norm_num)
    have e5 : (2 : ℝ) ^ (5 : ℤ) = 32 := by norm_num
    linarith
  refine ⟨by norm_num [binary64], ?_, ?_, ?_, ?_, ?_, ?_, ?_⟩
  · rw [hu]
    have : (n : ℝ) * (2 : ℝ) ^ (-53 : ℤ) ≤ (2 : ℝ) ^ (-13 : ℤ) := by
      refine (mul_le_mul_of_nonneg_right hn' (pos _).le).trans (le_of_eq ?_)
      rw [add]; norm_num
    have e : (2 : ℝ) ^ (-13 : ℤ) = 1 / 8192 := by norm_num
    rw [e] at this
    rw [mul_assoc]
    generalize (n : ℝ) * (2 : ℝ) ^ (-53 : ℤ) = z at this
    linarith
  · rw [hu]
    have h1 : n * (n * binary64.eta) ≤ (2 : ℝ) ^ (40 : ℤ) * (2 : ℝ) ^ (-1035 : ℤ) := mul_le_mul hn' hne (by rw [heta]; have := pos (-1075); positivity) (pos _).le
    rw [add] at h1
    have h2 : (2 : ℝ) ^ (-53 : ℤ) * (2 : ℝ) ^ (-400 : ℤ) ≤ (2 : ℝ) ^ (-53 : ℤ) * M := mul_le_mul_of_nonneg_left hM (pos _).le
    rw [add] at h2
    have h3 : (2 : ℝ) ^ (3 : ℤ) * (2 : ℝ) ^ (40 + -1035 : ℤ) ≤ (2 : ℝ) ^ (-53 + -400 : ℤ) := by
      rw [add]; exact mono (by norm_num)
    rw [← e8] at h3
    rw [mul_assoc (n : ℝ)]
    linarith
  · rw [hu]
    have h1 : (2 : ℝ) ^ (-400 : ℤ) * (2 : ℝ) ^ (-400 : ℤ) ≤ τ * τ := mul_le_mul hτ hτ (pos _).le ((pos _).le.trans hτ)
    have h2 := mul_le_mul_of_nonneg_left h1 (mul_pos (pos (-53)) (pos (-53))).le
    rw [add, add, add] at h2
    rw [add]
    have h3 : (2 : ℝ) ^ (3 : ℤ) * (2 : ℝ) ^ (-1035 : ℤ) ≤ (2 : ℝ) ^ (-53 + -53 + (-400 + -400) : ℤ) := by
      rw [add]; exact mono (by norm_num)
    rw [← e8] at h3
    linarith
  · rw [hu]
    have h2 : (2 : ℝ) ^ (-53 : ℤ) * (2 : ℝ) ^ (-400 : ℤ) ≤ (2 : ℝ) ^ (-53 : ℤ) * τ := mul_le_mul_of_nonneg_left hτ (pos _).le
    rw [add] at h2
    exact hne.trans ((mono (by norm_num)).trans h2)
  · rw [hu]
    exact hne.trans (mono (by norm_num))
  · clear hτ hM hne e8 hu heta
    generalize (2 : ℝ) ^ (800 : ℤ) = X at *
    generalize (2 : ℝ) ^ (400 : ℤ) = Y at *
    generalize (2 : ℝ) ^ (1000 : ℤ) = Z at *
    linarith
  · have h1 : (2 : ℝ) ^ (-400 : ℤ) * (2 : ℝ) ^ (1000 : ℤ) ≤ τ * binary64.top := mul_le_mul hτ htop (pos _).le ((pos _).le.trans hτ)
    rw [add] at h1
    exact hB.trans ((mono (by norm_num)).trans h1)

/-- The theorems C132 to C135 hold for binary64 with `ε = 8 (n + 1) 2 ^ (-53)`, whatever the order of the operations in sums and inner products. -/
theorem C132_binary64 (fl : ℝ → ℝ) (hfl : binary64.Nearest fl) (n : ℕ) (hn0 : 0 < n) (hn : n ≤ 2 ^ 40) (A : Matrix (Fin n) (Fin n) ℝ) (K : LKernels n)
    (hK : LKernelsRounded fl A K) (M tol : ℝ) (hF : ∑ i, ∑ j, A i j ^ 2 ≤ M ^ 2) (hM : (2 : ℝ) ^ (-400 : ℤ) ≤ M) (htol : (2 : ℝ) ^ (-400 : ℤ) ≤ tol) (v : Vec n)
    (hv : 2 * tol ≤ nrm v) (hv2 : nrm v ≤ (2 : ℝ) ^ (400 : ℤ)) (deg : ℕ) (hd : 1 ≤ deg) (hd2 : 288 * deg * (n + 1) ≤ (2 : ℝ) ^ 53)
    (hd3 : 8 * (deg + 1) * M ≤ (2 : ℝ) ^ (400 : ℤ)) (orth : ℤ) (ho : orth ≤ 0) (alpha beta : Buf ℝ) (Q : Buf (Vec n)) (ha : deg ≤ alpha.len)
    (hb : deg + 1 ≤ beta.len) (hQ1 : 1 ≤ Q.len) (hQ2 : deg ≤ 1 ∨ 2 ≤ Q.len) :
    FlInput K A M (8 * (n + 1) * (1 / 2 ^ 53)) tol ((2 : ℝ) ^ (400 : ℤ)) v deg orth alpha beta Q := by
  have pos : ∀ a : ℤ, (0 : ℝ) < (2 : ℝ) ^ a := fun a => zpow_pos (by norm_num) a
  have hM0 : 0 < M := (pos _).trans_le hM
  have hu : binary64.u = 1 / 2 ^ 53 := by norm_num [Fmt.u, binary64]
  have hdr : (1 : ℝ) ≤ deg := by exact_mod_cast hd
  have hMB : M ≤ (2 : ℝ) ^ (400 : ℤ) := by
    have : 8 * M ≤ 8 * ((deg : ℝ) + 1) * M := mul_le_mul_of_nonneg_right (by linarith) hM0.le
    clear pos hM htol hv2
    generalize (2 : ℝ) ^ (400 : ℤ) = Y at *
    linarith
  have hn' : (n : ℝ) ≤ 2 ^ 40 := by exact_mod_cast hn
  refine ⟨?_, ?_, hM0.le, by positivity, by linarith, (pos _).trans_le htol, hv, hv2, hd, by linarith, hd3, ho, ha, hb, hQ1, hQ2⟩
  · have := rounded_ok hfl A hK M tol _ hM0 ((pos _).trans_le htol) (pos 400).le hF hn0 (binary64_room n hn M tol _ hM hMB htol (pos 400).le le_rfl)
    rwa [hu] at this
  · intro x
    have h1 := frobSq_mulVec A x
    rw [← nrm_sq, ← nrm_sq] at h1
    have h2 : frobSq A * (nrm x * nrm x) ≤ M ^ 2 * (nrm x * nrm x) := mul_le_mul_of_nonneg_right hF (mul_self_nonneg _)
    refine abs_le_of_sq_le_sq' ?_ (mul_nonneg hM0.le (nrm_nonneg _)) |>.2
    nlinarith

/-- A concrete input: the matrix with the rows `(2, 1)`, `(1, 2)`, the start vector `(1, 1)`, two iterations in binary64. -/
theorem flInput_example : ∃ K : LKernels 2, FlInput K !![2, 1; 1, 2] 4 (8 * ((2 : ℕ) + 1) * (1 / 2 ^ 53)) (1 / 2 ^ 20) ((2 : ℝ) ^ (400 : ℤ)) (fun _ => 1) 2 0
    ⟨2, fun _ => 0⟩ ⟨3, fun _ => 0⟩ ⟨2, fun _ _ => 0⟩ := by
  obtain ⟨fl, hfl⟩ := Fmt.exists_nearest (φ := binary64) (by norm_num [binary64])
  obtain ⟨K, hK⟩ := rounded_exist fl (!![2, 1; 1, 2] : Matrix (Fin 2) (Fin 2) ℝ) (by norm_num)
  have h4 : (2 : ℝ) ^ (-400 : ℤ) ≤ 1 / 2 ^ 20 := by
    have : (2 : ℝ) ^ (-400 : ℤ) ≤ (2 : ℝ) ^ (-20 : ℤ) := zpow_le_zpow_right₀ (by norm_num) (by norm_num)
    have e : (2 : ℝ) ^ (-20 : ℤ) = 1 / 2 ^ 20 := by norm_num
    rwa [e] at this
  have h5 : (2 : ℝ) ^ (10 : ℤ) ≤ (2 : ℝ) ^ (400 : ℤ) := zpow_le_zpow_right₀ (by norm_num) (by norm_num)
  have e5 : (2 : ℝ) ^ (10 : ℤ) = 1024 := by norm_num
  rw [e5] at h5
  have hv : nrm (fun _ : Fin 2 => (1 : ℝ)) = Real.sqrt 2 := by
    unfold nrm
    congr 1
    rw [dotProduct, Fin.sum_univ_two]
    norm_num
  have s1 : (1 : ℝ) ≤ Real.sqrt 2 := Real.one_le_sqrt.2 (by norm_num)
  have s2 : Real.sqrt 2 ≤ 2 := Real.sqrt_le_iff.2 ⟨by norm_num, by norm_num⟩
  refine ⟨K, C132_binary64 fl hfl 2 (by norm_num) (by norm_num) _ K hK 4 _ ?_ (h4.trans (by norm_num)) h4 _ ?_ ?_ 2 (by norm_num) (by norm_num) ?_ 0 le_rfl _ _ _
    le_rfl le_rfl (by norm_num) (Or.inr le_rfl)⟩
  · simp only [Fin.sum_univ_two]
    norm_num
  · rw [hv]
    refine le_trans ?_ s1
    norm_num
  · rw [hv]
    exact (s2.trans (by norm_num : (2 : ℝ) ≤ 1024)).trans h5
  · refine le_trans ?_ h5
    norm_num

example (otol : ℝ) : ∃ (K : LKernels 2) (t : LState 2), lanczosFl K (fun _ => 1) 2 (1 / 2 ^ 20) otol 0 ⟨2, fun _ => 0⟩ ⟨3, fun _ => 0⟩ ⟨2, fun _ _ => 0⟩ = .ok t := by
  obtain ⟨K, h⟩ := flInput_example
  obtain ⟨w, V, hE⟩ := exists_isEigh (!![2, 1; 1, 2] : Matrix (Fin 2) (Fin 2) ℝ) (by ext i j; fin_cases i <;> fin_cases j <;> rfl)
  obtain ⟨t, -, -, ht, -⟩ := C133_ritz_near h le_rfl otol w V (isEigh_iff_eigen.1 hE)
  exact ⟨K, t, ht⟩

example (otol : ℝ) : ∃ (K : LKernels 2) (t : LState 2), lanczosFl K (fun _ => 1) 2 (1 / 2 ^ 20) otol 0 ⟨2, fun _ => 0⟩ ⟨3, fun _ => 0⟩ ⟨2, fun _ _ => 0⟩ = .ok t := by
  obtain ⟨K, h⟩ := flInput_example
  obtain ⟨t, -, -, ht, -⟩ := C134_paige h le_rfl (by ext i j; fin_cases i <;> fin_cases j <;> rfl) otol
  exact ⟨K, t, ht⟩

example (otol : ℝ) : ∃ (K : LKernels 2) (t : LState 2), lanczosFl K (fun _ => 1) 2 (1 / 2 ^ 20) otol 0 ⟨2, fun _ => 0⟩ ⟨3, fun _ => 0⟩ ⟨2, fun _ _ => 0⟩ = .ok t := by
  obtain ⟨K, h⟩ := flInput_example
  obtain ⟨w, V, hE⟩ := exists_isEigh (!![2, 1; 1, 2] : Matrix (Fin 2) (Fin 2) ℝ) (by ext i j; fin_cases i <;> fin_cases j <;> rfl)
  obtain ⟨t, -, -, ht, -⟩ := C135_nodes_in_range h otol (-(|w 0| + |w 1|)) (|w 0| + |w 1|) w V (isEigh_iff_eigen.1 hE) (fun i => by
    have h0 := abs_le.1 (le_refl |w 0|)
    have h1 := abs_le.1 (le_refl |w 1|)
    have a0 := abs_nonneg (w 0)
    have a1 := abs_nonneg (w 1)
    fin_cases i
    · exact ⟨by show _ ≤ w 0; linarith, by show w 0 ≤ _; linarith⟩
    · exact ⟨by show _ ≤ w 1; linarith, by show w 1 ≤ _; linarith⟩)
  exact ⟨K, t, ht⟩

end Primate
