import Verif.Lemmas.MatFunRun

/-! Matrix functions of perturbed symmetric matrices, and the Krylov relation after dropping the residual. -/

noncomputable section

namespace Primate

open Matrix

/-- The sum of the squares of the entries. -/
def frobSq {m k : ℕ} (X : Matrix (Fin m) (Fin k) ℝ) : ℝ := ∑ i, ∑ j, X i j ^ 2

theorem frobSq_trace {m k : ℕ} (X : Matrix (Fin m) (Fin k) ℝ) : frobSq X = (Xᵀ * X).trace := by
  unfold frobSq Matrix.trace
  rw [Finset.sum_comm]
  refine Finset.sum_congr rfl fun j _ => ?_
  rw [diag_apply, Matrix.mul_apply]
  exact Finset.sum_congr rfl fun i _ => by rw [transpose_apply, sq]

theorem frobSq_rotate {m : ℕ} (X U V : Matrix (Fin m) (Fin m) ℝ) (hU : U * Uᵀ = 1) (hV : V * Vᵀ = 1) :
    frobSq (Uᵀ * X * V) = frobSq X := by
  rw [frobSq_trace, frobSq_trace, transpose_mul, transpose_mul, transpose_transpose]
  have : Vᵀ * (Xᵀ * U) * (Uᵀ * X * V) = Vᵀ * (Xᵀ * (U * Uᵀ) * X * V) := by simp only [Matrix.mul_assoc]
  rw [this, hU, Matrix.mul_one, Matrix.trace_mul_comm, Matrix.mul_assoc, hV, Matrix.mul_one]

theorem frobSq_nonneg {m k : ℕ} (X : Matrix (Fin m) (Fin k) ℝ) : 0 ≤ frobSq X :=
  Finset.sum_nonneg fun _ _ => Finset.sum_nonneg fun _ _ => sq_nonneg _

theorem frobSq_mulVec {m k : ℕ} (X : Matrix (Fin m) (Fin k) ℝ) (v : Vec k) :
    (X *ᵥ v) ⬝ᵥ (X *ᵥ v) ≤ frobSq X * (v ⬝ᵥ v) := by
  have e1 : (X *ᵥ v) ⬝ᵥ (X *ᵥ v) = ∑ i, (∑ j, X i j * v j) ^ 2 :=
    Finset.sum_congr rfl fun i _ => (sq _).symm
  have e2 : v ⬝ᵥ v = ∑ j, v j ^ 2 := Finset.sum_congr rfl fun i _ => (sq _).symm
  rw [e1, e2, frobSq, Finset.sum_mul]
  exact Finset.sum_le_sum fun i _ => Finset.sum_mul_sq_le_sq_mul_sq _ _ _

/-- Functions that do not increase the distance of the eigenvalues by more than the factor `L` do not increase the
distance of the matrices by more. -/
theorem matFun_frob {m : ℕ} {A B : Matrix (Fin m) (Fin m) ℝ} {lam mu : Fin m → ℝ} {U V : Matrix (Fin m) (Fin m) ℝ}
    (hA : IsEigh A lam U) (hB : IsEigh B mu V) (f : ℝ → ℝ) (L : ℝ)
    (hL : ∀ i j, |f (lam i) - f (mu j)| ≤ L * |lam i - mu j|) :
    frobSq (Spec.matFun lam U f - Spec.matFun mu V f) ≤ L ^ 2 * frobSq (A - B) := by
  have key : ∀ g : ℝ → ℝ, frobSq (Spec.matFun lam U g - Spec.matFun mu V g) =
      ∑ i, ∑ j, ((g (lam i) - g (mu j)) * (Uᵀ * V) i j) ^ 2 := by
    intro g
    rw [← frobSq_rotate _ U V hA.mul_transpose hB.mul_transpose]
    have e : Uᵀ * (Spec.matFun lam U g - Spec.matFun mu V g) * V =
        diagonal (fun i => g (lam i)) * (Uᵀ * V) - (Uᵀ * V) * diagonal (fun i => g (mu i)) := by
      unfold Spec.matFun
      rw [Matrix.mul_sub, Matrix.sub_mul]
      congr 1
      · rw [← Matrix.mul_assoc, ← Matrix.mul_assoc, hA.1, Matrix.one_mul, Matrix.mul_assoc]
      · rw [Matrix.mul_assoc, Matrix.mul_assoc, hB.1, Matrix.mul_one, Matrix.mul_assoc]
    rw [e]
    refine Finset.sum_congr rfl fun i _ => Finset.sum_congr rfl fun j _ => ?_
    rw [Matrix.sub_apply, diagonal_mul, mul_diagonal]
    ring
  have hid : ∀ {B : Matrix (Fin m) (Fin m) ℝ} {w : Fin m → ℝ} {V : Matrix (Fin m) (Fin m) ℝ}, IsEigh B w V →
      Spec.matFun w V (fun t => t) = B := by
    intro B w V h
    have := h.matFun_poly Polynomial.X
    simpa using this
  have h1 := key f
  have h2 := key fun t => t
  rw [hid hA, hid hB] at h2
  rw [h1, h2, Finset.mul_sum]
  refine Finset.sum_le_sum fun i _ => ?_
  rw [Finset.mul_sum]
  refine Finset.sum_le_sum fun j _ => ?_
  rw [mul_pow, mul_pow, ← mul_assoc]
  refine mul_le_mul_of_nonneg_right ?_ (sq_nonneg _)
  rw [← mul_pow, ← sq_abs (f _ - _), ← sq_abs (L * _)]
  refine pow_le_pow_left₀ (abs_nonneg _) ?_ 2
  calc |f (lam i) - f (mu j)| ≤ L * |lam i - mu j| := hL i j
    _ ≤ |L| * |lam i - mu j| := mul_le_mul_of_nonneg_right (le_abs_self L) (abs_nonneg _)
    _ = |(L * (lam i - mu j))| := (abs_mul _ _).symm

/-- The effect on one vector. -/
theorem matFun_lip {m : ℕ} {A B : Matrix (Fin m) (Fin m) ℝ} {lam mu : Fin m → ℝ} {U V : Matrix (Fin m) (Fin m) ℝ}
    (hA : IsEigh A lam U) (hB : IsEigh B mu V) (f : ℝ → ℝ) (L b : ℝ) (hL0 : 0 ≤ L) (hb : 0 ≤ b)
    (hL : ∀ s t, |f s - f t| ≤ L * |s - t|) (hAB : frobSq (A - B) ≤ 2 * b ^ 2) (x : Vec m) :
    nrm (Spec.matFun lam U f *ᵥ x - Spec.matFun mu V f *ᵥ x) ≤ L * (Real.sqrt 2 * b) * nrm x := by
  rw [← sub_mulVec]
  have h1 := frobSq_mulVec (Spec.matFun lam U f - Spec.matFun mu V f) x
  have h2 := matFun_frob hA hB f L fun i j => hL _ _
  have hx := dot_self_nonneg x
  have h3 : nrm ((Spec.matFun lam U f - Spec.matFun mu V f) *ᵥ x) ^ 2 ≤ (L * (Real.sqrt 2 * b) * nrm x) ^ 2 := by
    rw [sq (nrm _), nrm_sq, mul_pow, mul_pow, mul_pow, Real.sq_sqrt (by norm_num), sq (nrm x), nrm_sq]
    refine h1.trans (mul_le_mul_of_nonneg_right ?_ hx)
    exact h2.trans (mul_le_mul_of_nonneg_left hAB (sq_nonneg L))
  have h4 : 0 ≤ L * (Real.sqrt 2 * b) * nrm x :=
    mul_nonneg (mul_nonneg hL0 (mul_nonneg (Real.sqrt_nonneg _) hb)) (nrm_nonneg x)
  exact (pow_le_pow_iff_left₀ (nrm_nonneg _) h4 (by norm_num)).mp h3

theorem abs_dot_le {m : ℕ} (u v : Vec m) : |u ⬝ᵥ v| ≤ nrm u * nrm v := by
  have h : (u ⬝ᵥ v) ^ 2 ≤ (nrm u * nrm v) ^ 2 := by
    rw [mul_pow, sq (nrm u), nrm_sq, sq (nrm v), nrm_sq]
    have := Finset.sum_mul_sq_le_sq_mul_sq Finset.univ u v
    simp only [sq (u _), sq (v _)] at this
    exact this
  exact abs_le_of_sq_le_sq h (mul_nonneg (nrm_nonneg _) (nrm_nonneg _))

theorem nrm_add_le {m : ℕ} (u v : Vec m) : nrm (u + v) ≤ nrm u + nrm v := by
  have h : nrm (u + v) ^ 2 ≤ (nrm u + nrm v) ^ 2 := by
    rw [sq, nrm_sq, add_dotProduct, dotProduct_add, dotProduct_add, dotProduct_comm v u]
    have h1 := nrm_sq u
    have h2 := nrm_sq v
    have h3 := (le_abs_self _).trans (abs_dot_le u v)
    nlinarith
  exact (pow_le_pow_iff_left₀ (nrm_nonneg _) (add_nonneg (nrm_nonneg _) (nrm_nonneg _)) (by norm_num)).mp h

/-- Two outer products. -/
theorem frobSq_rank2 {m : ℕ} (r u : Vec m) (hru : r ⬝ᵥ u = 0) (hu : u ⬝ᵥ u = 1) :
    frobSq (vecMulVec r u + vecMulVec u r) = 2 * (r ⬝ᵥ r) := by
  have e : ∀ i j, (vecMulVec r u + vecMulVec u r) i j ^ 2 =
      (r i * r i) * (u j * u j) + (u i * u i) * (r j * r j) + 2 * ((r i * u i) * (r j * u j)) := by
    intro i j
    rw [Matrix.add_apply, vecMulVec_apply, vecMulVec_apply]
    ring
  unfold frobSq
  simp only [e, Finset.sum_add_distrib, ← Finset.mul_sum, ← Finset.sum_mul]
  change (r ⬝ᵥ r) * (u ⬝ᵥ u) + (u ⬝ᵥ u) * (r ⬝ᵥ r) + 2 * ((r ⬝ᵥ u) * (r ⬝ᵥ u)) = _
  rw [hru, hu]
  ring

variable {n k : ℕ}

/-- Subtracting the residual from the matrix makes the Krylov relation exact. -/
theorem KData.deflate {A : Matrix (Fin n) (Fin n) ℝ} {q0 r : Vec n} {Q : Matrix (Fin n) (Fin k) ℝ}
    {T : Matrix (Fin k) (Fin k) ℝ} (h : KData A q0 Q T r) (hA : A.IsSymm) :
    ∃ A' : Matrix (Fin n) (Fin n) ℝ, A'.IsSymm ∧ KData A' q0 Q T 0 ∧ frobSq (A - A') ≤ 2 * (r ⬝ᵥ r) := by
  rcases h.exact with hr | ⟨hQ, hrQ⟩
  · subst hr
    refine ⟨A, hA, h, ?_⟩
    simp [frobSq]
  · have hkp := h.kpos
    set l : Fin k := ⟨k - 1, by omega⟩ with hl
    set u : Vec n := Q.col l with hu
    have hQr : ∀ y, r ⬝ᵥ (Q *ᵥ y) = 0 := by
      intro y
      rw [mulVec_cols, dotProduct_sum]
      refine Finset.sum_eq_zero fun j _ => ?_
      rw [dotProduct_smul, dotProduct_comm]
      have := hrQ j
      show y j • (Q.col j ⬝ᵥ r) = 0
      rw [show Q.col j ⬝ᵥ r = 0 from this, smul_zero]
    have huQ : ∀ y, u ⬝ᵥ (Q *ᵥ y) = y l := by
      intro y
      have : Qᵀ *ᵥ (Q *ᵥ y) = y := by rw [mulVec_mulVec, hQ, one_mulVec]
      exact congrFun this l
    have hru : r ⬝ᵥ u = 0 := by rw [dotProduct_comm]; exact hrQ l
    have huu : u ⬝ᵥ u = 1 := by
      have := congrFun (congrFun hQ l) l
      rwa [Matrix.mul_apply, Matrix.one_apply_eq] at this
    refine ⟨A - (vecMulVec r u + vecMulVec u r), ?_, ⟨h.kpos, ?_, h.tri, h.symm, h.e0, h.q0Q, Or.inl rfl⟩, ?_⟩
    · show (A - (vecMulVec r u + vecMulVec u r))ᵀ = _
      rw [transpose_sub, hA.eq, transpose_add, transpose_vecMulVec, transpose_vecMulVec, add_comm]
    · intro y
      rw [sub_mulVec, h.rel, add_mulVec, vecMulVec_mulVec, vecMulVec_mulVec, huQ, hQr]
      simp [hl]
    · rw [sub_sub_cancel, frobSq_rank2 r u hru huu]

/-- The inclusion of the leading coordinates. -/
def incl (m k : ℕ) : Matrix (Fin m) (Fin k) ℝ := Matrix.of fun i j => if (i : ℕ) = j then 1 else 0

theorem incl_mulVec (m k : ℕ) (y : Vec k) (i : Fin m) :
    (incl m k *ᵥ y) i = if h : (i : ℕ) < k then y ⟨i, h⟩ else 0 := by
  show ∑ j : Fin k, (if (i : ℕ) = j then (1 : ℝ) else 0) * y j = _
  split_ifs with h
  · rw [Finset.sum_eq_single (⟨i, h⟩ : Fin k)]
    · simp
    · intro b _ hb
      rw [if_neg (fun he => hb (Fin.ext he.symm)), zero_mul]
    · intro hn; exact absurd (Finset.mem_univ _) hn
  · exact Finset.sum_eq_zero fun j _ => by rw [if_neg (by omega), zero_mul]

theorem mul_incl {l m k : ℕ} (hk : k ≤ m) (X : Matrix (Fin l) (Fin m) ℝ) (i : Fin l) (j : Fin k) :
    (X * incl m k) i j = X i (Fin.castLE hk j) := by
  rw [Matrix.mul_apply, Finset.sum_eq_single (Fin.castLE hk j)]
  · simp [incl]
  · intro b _ hb
    unfold incl
    rw [Matrix.of_apply, if_neg, mul_zero]
    intro he
    exact hb (Fin.ext he)
  · intro hn; exact absurd (Finset.mem_univ _) hn

/-- A tridiagonal matrix that decouples after `k` rows. -/
theorem kdata_incl {m : ℕ} (hk0 : 0 < k) (hk : k ≤ m) (d e : ℕ → ℝ) (he : k < m → e k = 0) :
    KData (triMat m d e) (Pi.single ⟨0, by omega⟩ 1) (incl m k) (triMat k d e) 0 := by
  have hrel : triMat m d e * incl m k = incl m k * triMat k d e := by
    ext i j
    rw [mul_incl hk]
    have : (incl m k * triMat k d e) i j = (incl m k *ᵥ (triMat k d e).col j) i := rfl
    rw [this, incl_mulVec, triMat_apply]
    split_ifs with h
    all_goals simp only [Fin.val_castLE, Matrix.col_apply, triMat_apply] at *
    all_goals try omega
    all_goals simp_all
    all_goals rw [show (j : ℕ) + 1 = k by omega]
    all_goals exact he (by omega)
  refine ⟨hk0, ?_, ?_, triMat_symm _ _ _, ?_, ?_, Or.inl rfl⟩
  · intro y
    rw [mulVec_mulVec, hrel, ← mulVec_mulVec, smul_zero, add_zero]
  · intro i j hij
    rw [triMat_apply, if_neg (by omega), if_neg (by omega), if_neg (by omega)]
    ring
  · funext i
    rw [incl_mulVec, Pi.single_apply]
    simp only [Fin.ext_iff]
    split_ifs with h1 h2 h2
    · rw [show (⟨i, h1⟩ : Fin k) = ⟨0, hk0⟩ from Fin.ext h2, Pi.single_eq_same]
    · rw [Pi.single_eq_of_ne]
      intro hc
      exact h2 (congrArg Fin.val hc)
    · omega
    · rfl
  · intro y
    rw [single_one_dotProduct, incl_mulVec, dif_pos hk0]

end Primate
