import Verif.Prelude
import Verif.Model.Xtrace
import Verif.Spec.Xtrace
import Mathlib.LinearAlgebra.Matrix.Block

/-! # Property C34 (update_trinv) and C30 (leave-one-out identity) -/

namespace Primate

open Matrix

variable {n m : ℕ}

/-! ## C34 -/

/-- **C34**: `update_trinv` inverts the bordered matrix. -/
theorem C34_inverse (B B_inv : Matrix (Fin n) (Fin n) ℝ) (hB : B_inv * B = 1)
    (b : Fin (n + 1) → ℝ) (hb : b (Fin.last n) ≠ 0) :
    ∃ M, updateTrinv B_inv b = .ok M ∧ M * Spec.border B b = 1 ∧ Spec.border B b * M = 1 := by
  refine ⟨_, by unfold updateTrinv; rw [dif_pos ⟨rfl, rfl⟩], ?_⟩
  set M : Matrix (Fin (n + 1)) (Fin (n + 1)) ℝ := Matrix.of _ with hM
  have key : M * Spec.border B b = 1 := by
    funext i j
    rw [mul_apply, Fin.sum_univ_castSucc, hM]
    simp only [Spec.border, of_apply, Fin.lastCases_last, Fin.lastCases_castSucc, Fin.cast_refl, id]
    refine Fin.lastCases ?_ (fun j => ?_) j
    · refine Fin.lastCases ?_ (fun i => ?_) i
      · simp only [Fin.lastCases_last, zero_mul, Finset.sum_const_zero, zero_add]
        rw [one_apply_eq]; field_simp
      · simp only [Fin.lastCases_castSucc, Fin.lastCases_last]
        rw [one_apply_ne (Fin.castSucc_lt_last i).ne]
        simp only [neg_mul, Finset.sum_neg_distrib]
        field_simp
        ring
    · refine Fin.lastCases ?_ (fun i => ?_) i
      · simp only [Fin.lastCases_last, Fin.lastCases_castSucc, zero_mul, Finset.sum_const_zero,
          mul_zero, add_zero]
        rw [one_apply_ne (Fin.castSucc_lt_last j).ne']
      · simp only [Fin.lastCases_castSucc, mul_zero, add_zero]
        have := congrFun (congrFun hB i) j
        rw [mul_apply] at this
        simp only [one_apply, Fin.castSucc_inj] at this ⊢
        exact this
  exact ⟨key, mul_eq_one_comm.mp key⟩

/-- **C34**: the result is again upper triangular when the bordered matrix is. -/
theorem C34_triangular (B B_inv : Matrix (Fin n) (Fin n) ℝ) (hB : B_inv * B = 1)
    (hup : ∀ i j : Fin n, j < i → B i j = 0)
    (b : Fin (n + 1) → ℝ) (hb : b (Fin.last n) ≠ 0) (M : Matrix (Fin (n + 1)) (Fin (n + 1)) ℝ)
    (h : updateTrinv B_inv b = .ok M) : ∀ i j : Fin (n + 1), j < i → M i j = 0 := by
  obtain ⟨M', h1, h2, h3⟩ := C34_inverse B B_inv hB b hb
  rw [h, Except.ok.injEq] at h1
  subst h1
  have ht : (Spec.border B b).BlockTriangular id := by
    intro i j hij
    have hij : j < i := hij
    revert hij
    simp only [Spec.border, of_apply]
    refine Fin.lastCases ?_ (fun j => ?_) j
    · intro h; exact absurd (Fin.le_last i) (not_le.mpr h)
    · refine Fin.lastCases ?_ (fun i => ?_) i
      · intro _; simp
      · intro h
        simp only [Fin.lastCases_castSucc]
        exact hup i j (by simpa using h)
  have hinv : (Spec.border B b)⁻¹ = M := inv_eq_left_inv h2
  letI : Invertible (Spec.border B b) := ⟨M, h2, h3⟩
  have := blockTriangular_inv_of_blockTriangular ht
  rw [hinv] at this
  exact fun i j hij => this hij

/-- **C34**: a shape mismatch raises AssertionError. -/
theorem C34_shape {n m l : ℕ} (B_inv : Matrix (Fin n) (Fin m) ℝ) (b : Fin l → ℝ)
    (h : n ≠ m ∨ l ≠ n + 1) : updateTrinv B_inv b = .error .assertion := by
  unfold updateTrinv
  rw [dif_neg (by omega)]

/-- Non-vacuity: a 2x2 triangular inverse extended by the column (5, 7, 2). -/
example : ∃ B B_inv : Matrix (Fin 2) (Fin 2) ℝ, B_inv * B = 1 ∧ (∀ i j : Fin 2, j < i → B i j = 0) ∧
    B 0 1 ≠ 0 ∧ (![5, 7, 2] : Fin 3 → ℝ) (Fin.last 2) ≠ 0 := by
  refine ⟨!![1, 2; 0, 4], !![1, -1/2; 0, 1/4], ?_, ?_, by norm_num, ?_⟩
  · funext i j; fin_cases i <;> fin_cases j <;> norm_num [mul_apply, Fin.sum_univ_two]
  · intro i j h; fin_cases i <;> fin_cases j <;> simp_all
  · norm_num [Fin.last]

/-! ## C30 -/

theorem proj_unique {P P' : Matrix (Fin n) (Fin n) ℝ} (h1 : Pᵀ = P) (h1' : P'ᵀ = P')
    (h2 : P * P' = P') (h2' : P' * P = P) : P = P' := by
  have : (P * P')ᵀ = P' * P := by rw [transpose_mul, h1, h1']
  rw [h2, h1', h2'] at this
  exact this.symm

/-- The data of an economic QR factorization of the image of the test vectors. -/
structure XData (A : Matrix (Fin n) (Fin n) ℝ) (W Q : Matrix (Fin n) (Fin m) ℝ)
    (R R_inv : Matrix (Fin m) (Fin m) ℝ) : Prop where
  orth : Qᵀ * Q = 1
  fact : A * W = Q * R
  inv : R_inv * R = 1

section
variable {A : Matrix (Fin n) (Fin n) ℝ} {W Q : Matrix (Fin n) (Fin m) ℝ}
  {R R_inv : Matrix (Fin m) (Fin m) ℝ}

/-- Row `i` of the inverse, normalized. -/
noncomputable def sVec (R_inv : Matrix (Fin m) (Fin m) ℝ) (i : Fin m) : Fin m → ℝ :=
  fun j => R_inv i j / Real.sqrt (∑ k, R_inv i k ^ 2)

theorem row_norm_pos (h : XData A W Q R R_inv) (i : Fin m) : 0 < ∑ k, R_inv i k ^ 2 := by
  have h0 : 0 ≤ ∑ k, R_inv i k ^ 2 := Finset.sum_nonneg fun k _ => sq_nonneg _
  rcases h0.lt_or_eq with h1 | h1
  · exact h1
  · exfalso
    have hz : ∀ k, R_inv i k = 0 := by
      intro k
      have := (Finset.sum_eq_zero_iff_of_nonneg (fun k _ => sq_nonneg (R_inv i k))).mp h1.symm k
        (Finset.mem_univ k)
      exact pow_eq_zero_iff two_ne_zero |>.mp this
    have := congrFun (congrFun h.inv i) i
    rw [mul_apply, one_apply_eq] at this
    simp [hz] at this

theorem sVec_unit (h : XData A W Q R R_inv) (i : Fin m) : sVec R_inv i ⬝ᵥ sVec R_inv i = 1 := by
  have hp := row_norm_pos h i
  have hs : Real.sqrt (∑ k, R_inv i k ^ 2) ≠ 0 := (Real.sqrt_pos.mpr hp).ne'
  have hsq := Real.mul_self_sqrt hp.le
  simp only [dotProduct, sVec, div_mul_div_comm, hsq]
  rw [← Finset.sum_div, div_eq_one_iff_eq hp.ne']
  exact Finset.sum_congr rfl fun k _ => (pow_two _).symm

theorem sVec_R (h : XData A W Q R R_inv) (i j : Fin m) (hij : i ≠ j) :
    sVec R_inv i ⬝ᵥ (fun k => R k j) = 0 := by
  have := congrFun (congrFun h.inv i) j
  rw [mul_apply, one_apply_ne hij] at this
  simp only [dotProduct, sVec, div_mul_eq_mul_div, ← Finset.sum_div, this, zero_div]

/-- The projector on the images of all test vectors but the `i`-th. -/
theorem looProj (h : XData A W Q R R_inv) (i : Fin m) :
    Spec.IsProjOn (Q * (1 - vecMulVec (sVec R_inv i) (sVec R_inv i)) * Qᵀ) (A * W) (fun j => j ≠ i) := by
  set s := sVec R_inv i with hs
  set E := vecMulVec s s with hE
  have hEt : Eᵀ = E := by rw [hE, transpose_vecMulVec]
  have hEE : E * E = E := by
    rw [hE, vecMulVec_mul_vecMulVec, sVec_unit h i, one_smul]
  have hEs : (1 - E) * (1 - E) = 1 - E := by
    rw [Matrix.sub_mul, Matrix.one_mul, Matrix.mul_sub, Matrix.mul_one, hEE]; simp
  refine ⟨?_, ?_, ?_, ?_⟩
  · rw [transpose_mul, transpose_mul, transpose_transpose, transpose_sub, transpose_one, hEt,
      Matrix.mul_assoc]
  · calc Q * (1 - E) * Qᵀ * (Q * (1 - E) * Qᵀ) = Q * (1 - E) * (Qᵀ * Q) * (1 - E) * Qᵀ := by
          simp only [Matrix.mul_assoc]
      _ = Q * ((1 - E) * (1 - E)) * Qᵀ := by rw [h.orth]; simp only [Matrix.mul_assoc, Matrix.one_mul]
      _ = _ := by rw [hEs]
  · intro j hj k
    have h1 : Q * (1 - E) * Qᵀ * (A * W) = Q * R - Q * (E * R) := by
      rw [h.fact]
      calc Q * (1 - E) * Qᵀ * (Q * R) = Q * (1 - E) * (Qᵀ * Q) * R := by
            simp only [Matrix.mul_assoc]
        _ = _ := by rw [h.orth, Matrix.mul_one, Matrix.mul_sub, Matrix.mul_one, Matrix.sub_mul,
              Matrix.mul_assoc Q E R]
    rw [h1, h.fact, Matrix.sub_apply]
    have h2 : ∀ l, (E * R) l j = 0 := by
      intro l
      have := sVec_R h i j hj.symm
      rw [← hs] at this
      simp only [hE, mul_apply, vecMulVec_apply, mul_assoc, ← Finset.mul_sum]
      simp only [dotProduct] at this
      rw [this, mul_zero]
    rw [mul_apply (M := Q) (N := E * R)]
    simp [h2]
  · refine ⟨R_inv * (1 - E) * Qᵀ, ?_, ?_⟩
    · rw [h.fact]
      have hRR : R * R_inv = 1 := mul_eq_one_comm.mp h.inv
      calc Q * (1 - E) * Qᵀ = Q * (R * R_inv) * (1 - E) * Qᵀ := by rw [hRR, Matrix.mul_one]
        _ = _ := by simp only [Matrix.mul_assoc]
    · intro j hj k
      have hj : j = i := not_not.mp hj
      subst hj
      have hrow : ∀ l, (R_inv * (1 - E)) j l = 0 := by
        intro l
        have hp := row_norm_pos h j
        have hsq : Real.sqrt (∑ k, R_inv j k ^ 2) ≠ 0 := (Real.sqrt_pos.mpr hp).ne'
        have hRs : ∀ l, R_inv j l = Real.sqrt (∑ k, R_inv j k ^ 2) * s l := by
          intro l; rw [hs]; simp only [sVec]; field_simp
        rw [Matrix.mul_sub, Matrix.mul_one, Matrix.sub_apply, mul_apply]
        simp only [hE, vecMulVec_apply]
        have hu := sVec_unit h j
        rw [← hs] at hu
        simp only [dotProduct] at hu
        have : ∑ x, R_inv j x * (s x * s l) = Real.sqrt (∑ k, R_inv j k ^ 2) * (∑ x, s x * s x) * s l := by
          rw [Finset.mul_sum, Finset.sum_mul]
          exact Finset.sum_congr rfl fun x _ => by rw [hRs x]; ring
        rw [this, hu, hRs l]; ring
      rw [mul_apply]
      simp [hrow]

theorem isProjOn_unique {P P' : Matrix (Fin n) (Fin n) ℝ} {Y : Matrix (Fin n) (Fin m) ℝ}
    {keep : Fin m → Prop} (h : Spec.IsProjOn P Y keep) (h' : Spec.IsProjOn P' Y keep) : P = P' := by
  have key : ∀ {P P' : Matrix (Fin n) (Fin n) ℝ}, Spec.IsProjOn P Y keep →
      Spec.IsProjOn P' Y keep → P * P' = P' := by
    intro P P' h h'
    obtain ⟨C, hC, hC0⟩ := h'.range
    rw [hC, ← Matrix.mul_assoc]
    funext i k
    rw [mul_apply, mul_apply]
    refine Finset.sum_congr rfl fun j _ => ?_
    by_cases hk : keep j
    · rw [h.fixes j hk]
    · rw [hC0 j hk, mul_zero, mul_zero]
  exact proj_unique h.symm h'.symm (key h h') (key h' h)

/-- The scale factor on line 214 of `trace.py`. -/
noncomputable def xscale (sphere : Bool) (W Q : Matrix (Fin n) (Fin m) ℝ)
    (R_inv : Matrix (Fin m) (Fin m) ℝ) (i : Fin m) : ℝ :=
  if sphere then ((n : ℝ) - m + 1) / ((n : ℝ) - ∑ k, (Qᵀ * W) k i ^ 2 +
    (∑ k, sVec R_inv i k * (Qᵀ * W) k i) ^ 2) else 1

theorem xtraceEsts_loo (h : XData A W Q R R_inv) (sphere : Bool) (i : Fin m)
    (P : Matrix (Fin n) (Fin n) ℝ) (hP : Spec.IsProjOn P (A * W) (fun j => j ≠ i)) :
    xtraceEsts W (A * Q) Q R R_inv sphere i =
      Spec.looValue A P (fun k => W k i) (xscale sphere W Q R_inv i) := by
  obtain rfl := isProjOn_unique hP (looProj h i)
  set s := sVec R_inv i with hs
  have hu : s ⬝ᵥ s = 1 := sVec_unit h i
  set w : Vec n := fun k => W k i with hw
  set p : Fin m → ℝ := Qᵀ *ᵥ w with hp
  set H := Qᵀ * (A * Q) with hH
  set α := s ⬝ᵥ p with hα
  -- columns of the intermediate matrices
  have c1 : ∀ k, (Qᵀ * W) k i = p k := fun k => rfl
  have c2 : ∀ k, (H * (Qᵀ * W)) k i = (H *ᵥ p) k := fun k => rfl
  have hR : ∀ k, R k i = (Qᵀ *ᵥ (A *ᵥ w)) k := by
    intro k
    have h1 : R = Qᵀ * (A * W) := by rw [h.fact, ← Matrix.mul_assoc, h.orth, Matrix.one_mul]
    have h2 : (Qᵀ * (A * W)) k i = (Qᵀ *ᵥ (A *ᵥ w)) k := by
      rw [← Matrix.mul_assoc, mulVec_mulVec]; rfl
    rw [← h2, ← h1]
  have c3 : ∀ k, ((A * Q)ᵀ * W) k i = (Qᵀ *ᵥ (Aᵀ *ᵥ w)) k := by
    intro k
    rw [mulVec_mulVec, transpose_mul]; rfl
  have c4 : ∀ k, (Hᵀ * (Qᵀ * W)) k i = (Hᵀ *ᵥ p) k := fun k => rfl
  have hval : xtraceEsts W (A * Q) Q R R_inv sphere i =
      H.trace - s ⬝ᵥ H *ᵥ s + (-((Qᵀ *ᵥ (Aᵀ *ᵥ w)) ⬝ᵥ p) + p ⬝ᵥ H *ᵥ p +
        α * (s ⬝ᵥ (Qᵀ *ᵥ (A *ᵥ w)) - s ⬝ᵥ H *ᵥ p) + α ^ 2 * (s ⬝ᵥ H *ᵥ s) +
        ((Qᵀ *ᵥ (Aᵀ *ᵥ w)) ⬝ᵥ s - (Hᵀ *ᵥ p) ⬝ᵥ s) * α) * xscale sphere W Q R_inv i := by
    have hscale : (if sphere = true then fun i => ((n : ℝ) - m + 1) /
        ((n : ℝ) - Real.sqrt (∑ k, (Qᵀ * W) k i ^ 2) ^ 2 +
          (diagProd (Matrix.of fun j i => R_inv i j / Real.sqrt (∑ k, R_inv i k ^ 2)) (Qᵀ * W) i *
            Real.sqrt (∑ k, (Matrix.of fun j i => R_inv i j / Real.sqrt (∑ k, R_inv i k ^ 2)) k i ^ 2)) ^ 2)
        else fun _ => 1) i = xscale sphere W Q R_inv i := by
      cases sphere with
      | false => rfl
      | true =>
        simp only [if_true, xscale]
        have e1 : Real.sqrt (∑ k, (Qᵀ * W) k i ^ 2) ^ 2 = ∑ k, (Qᵀ * W) k i ^ 2 :=
          Real.sq_sqrt (Finset.sum_nonneg fun k _ => sq_nonneg _)
        have e2 : ∑ k, (Matrix.of fun j i => R_inv i j / Real.sqrt (∑ k, R_inv i k ^ 2)) k i ^ 2 = 1 := by
          rw [← hu]
          simp only [dotProduct, ← pow_two]
          rfl
        rw [e1, e2, Real.sqrt_one, mul_one]
        rfl
    unfold xtraceEsts
    simp only [hscale]
    simp only [diagProd, Matrix.sub_apply, mul_sub, sub_mul, Finset.sum_sub_distrib, c1, c2, c3, c4, hR, ← hH]
    have e3 : ∀ k, (H * Matrix.of fun j i => R_inv i j / Real.sqrt (∑ k, R_inv i k ^ 2)) k i =
        (H *ᵥ s) k := fun k => rfl
    simp only [e3, of_apply]
    rw [sq_abs]
    simp only [dotProduct, hα, hs, sVec]
    try ring
  rw [hval]
  -- the specification
  have hQp : Qᵀ *ᵥ w = p := rfl
  set u : Vec n := Q *ᵥ s with hudef
  have hPw : (1 - Q * (1 - vecMulVec s s) * Qᵀ) *ᵥ w = w - Q *ᵥ p + α • u := by
    rw [sub_mulVec, one_mulVec, ← mulVec_mulVec, hQp, ← mulVec_mulVec, sub_mulVec, one_mulVec,
      vecMulVec_mulVec, mulVec_sub, hudef]
    rw [← hα, sub_add]
    congr 1
    congr 1
    rw [op_smul_eq_smul, mulVec_smul]
  have htr : (Q * (1 - vecMulVec s s) * Qᵀ * A * (Q * (1 - vecMulVec s s) * Qᵀ)).trace =
      H.trace - s ⬝ᵥ H *ᵥ s := by
    have hid := (looProj h i).idem
    rw [← hs] at hid
    rw [trace_mul_comm, ← Matrix.mul_assoc, hid, Matrix.mul_assoc, Matrix.mul_assoc, trace_mul_comm,
      Matrix.mul_assoc, Matrix.mul_assoc, ← hH, Matrix.sub_mul, Matrix.one_mul, trace_sub]
    congr 1
    rw [trace_mul_comm, mul_vecMulVec, trace_vecMulVec, dotProduct_comm]
  have hAw : A *ᵥ w = Q *ᵥ (Qᵀ *ᵥ (A *ᵥ w)) := by
    have h1 : A * W = Q * (Qᵀ * (A * W)) := by
      rw [h.fact, ← Matrix.mul_assoc Qᵀ, h.orth, Matrix.one_mul]
    funext k
    have h2 := congrFun (congrFun h1 k) i
    have h3 : (A * W) k i = (A *ᵥ w) k := rfl
    have h4 : (Q * (Qᵀ * (A * W))) k i = (Q *ᵥ (Qᵀ *ᵥ (A *ᵥ w))) k := by
      rw [mulVec_mulVec, mulVec_mulVec, ← Matrix.mul_assoc Q, ← Matrix.mul_assoc (Q * Qᵀ)]; rfl
    rw [← h3, h2, h4]
  -- bilinear pieces
  have dQ : ∀ (x : Vec n) (y : Fin m → ℝ), x ⬝ᵥ Q *ᵥ y = (Qᵀ *ᵥ x) ⬝ᵥ y := by
    intro x y; rw [dotProduct_mulVec, ← mulVec_transpose]
  have dQ' : ∀ (x : Vec n) (y : Fin m → ℝ), (Q *ᵥ y) ⬝ᵥ x = y ⬝ᵥ (Qᵀ *ᵥ x) := by
    intro x y; rw [dotProduct_comm, dQ, dotProduct_comm]
  have dA : ∀ x y : Vec n, x ⬝ᵥ A *ᵥ y = (Aᵀ *ᵥ x) ⬝ᵥ y := by
    intro x y; rw [dotProduct_mulVec, ← mulVec_transpose]
  have hHm : ∀ y, Qᵀ *ᵥ (A *ᵥ (Q *ᵥ y)) = H *ᵥ y := by
    intro y; rw [mulVec_mulVec, mulVec_mulVec, hH, Matrix.mul_assoc]
  have hHt : ∀ x y : Fin m → ℝ, (Hᵀ *ᵥ x) ⬝ᵥ y = x ⬝ᵥ H *ᵥ y := by
    intro x y; rw [mulVec_transpose, ← dotProduct_mulVec]
  have b1 : w ⬝ᵥ (A *ᵥ w) = p ⬝ᵥ (Qᵀ *ᵥ (A *ᵥ w)) := by
    rw [hAw, dQ, hQp, mulVec_mulVec (Qᵀ *ᵥ A *ᵥ w) Qᵀ Q, h.orth, one_mulVec]
  have b2 : (Q *ᵥ p) ⬝ᵥ (A *ᵥ w) = p ⬝ᵥ (Qᵀ *ᵥ (A *ᵥ w)) := dQ' _ _
  have b3 : ∀ y, w ⬝ᵥ (A *ᵥ (Q *ᵥ y)) = (Qᵀ *ᵥ (Aᵀ *ᵥ w)) ⬝ᵥ y := by
    intro y; rw [dA, dQ]
  have b4 : ∀ x y, (Q *ᵥ x) ⬝ᵥ (A *ᵥ (Q *ᵥ y)) = x ⬝ᵥ H *ᵥ y := by
    intro x y; rw [dQ', hHm]
  have b5 : ∀ x, (Q *ᵥ x) ⬝ᵥ (A *ᵥ w) = x ⬝ᵥ (Qᵀ *ᵥ (A *ᵥ w)) := fun x => dQ' _ _
  unfold Spec.looValue
  rw [htr, hPw]
  have hexp : (w - Q *ᵥ p + α • u) ⬝ᵥ (A *ᵥ (w - Q *ᵥ p + α • u)) =
      (-((Qᵀ *ᵥ (Aᵀ *ᵥ w)) ⬝ᵥ p) + p ⬝ᵥ H *ᵥ p +
        α * (s ⬝ᵥ (Qᵀ *ᵥ (A *ᵥ w)) - s ⬝ᵥ H *ᵥ p) + α ^ 2 * (s ⬝ᵥ H *ᵥ s) +
        ((Qᵀ *ᵥ (Aᵀ *ᵥ w)) ⬝ᵥ s - (Hᵀ *ᵥ p) ⬝ᵥ s) * α) := by
    simp only [mulVec_add, mulVec_sub, mulVec_smul, add_dotProduct, sub_dotProduct, dotProduct_add,
      dotProduct_sub, smul_dotProduct, dotProduct_smul, smul_eq_mul, hudef, b3, b4, b5, b1, hHt]
    ring
  rw [hexp]
  ring

/-- **C30**: the `i`-th value computed from the factors is the Hutch++ estimate whose projector
`P` is the orthogonal projector on the images of all test vectors but the `i`-th, with `w_i` as
the only residual vector. -/
theorem C30_leave_one_out (h : XData A W Q R R_inv) (i : Fin m)
    (P : Matrix (Fin n) (Fin n) ℝ) (hP : Spec.IsProjOn P (A * W) (fun j => j ≠ i)) :
    xtraceEsts W (A * Q) Q R R_inv false i = Spec.looValue A P (fun k => W k i) 1 :=
  xtraceEsts_loo h false i P hP

/-- **C30**: with `pdf = "sphere"` and test vectors of squared length `n`, the residual term is
rescaled by `(n - m + 1) / ‖(I - P) w_i‖²`. -/
theorem C30_leave_one_out_sphere (h : XData A W Q R R_inv) (i : Fin m)
    (hw : ∑ k, W k i ^ 2 = n)
    (P : Matrix (Fin n) (Fin n) ℝ) (hP : Spec.IsProjOn P (A * W) (fun j => j ≠ i)) :
    xtraceEsts W (A * Q) Q R R_inv true i =
      Spec.looValue A P (fun k => W k i)
        (((n : ℝ) - m + 1) / ∑ k, (((1 - P) *ᵥ fun k => W k i) k) ^ 2) := by
  rw [xtraceEsts_loo h true i P hP]
  congr 1
  simp only [xscale, if_true]
  congr 1
  obtain rfl := isProjOn_unique hP (looProj h i)
  set s := sVec R_inv i with hs
  set w : Vec n := fun k => W k i with hwdef
  have hPt := hP.symm
  have hPP := hP.idem
  set P := Q * (1 - vecMulVec s s) * Qᵀ with hPdef
  have e1 : ∑ k, (((1 - P) *ᵥ w) k) ^ 2 = w ⬝ᵥ w - w ⬝ᵥ (P *ᵥ w) := by
    have : ∑ k, (((1 - P) *ᵥ w) k) ^ 2 = ((1 - P) *ᵥ w) ⬝ᵥ ((1 - P) *ᵥ w) := by
      simp only [dotProduct, pow_two]
    rw [this, sub_mulVec, one_mulVec, sub_dotProduct, dotProduct_sub, dotProduct_sub]
    have e : (P *ᵥ w) ⬝ᵥ (P *ᵥ w) = w ⬝ᵥ (P *ᵥ w) := by
      rw [dotProduct_mulVec, vecMul_mulVec, hPt, hPP, dotProduct_comm, dotProduct_mulVec, dotProduct_comm]
    have e' : (P *ᵥ w) ⬝ᵥ w = w ⬝ᵥ (P *ᵥ w) := dotProduct_comm _ _
    rw [e, e']; ring
  have e2 : w ⬝ᵥ w = n := by rw [← hw]; simp only [dotProduct, pow_two, hwdef]
  have e3 : w ⬝ᵥ (P *ᵥ w) = ∑ k, (Qᵀ * W) k i ^ 2 - (∑ k, s k * (Qᵀ * W) k i) ^ 2 := by
    rw [hPdef, ← mulVec_mulVec, ← mulVec_mulVec, dotProduct_mulVec, ← mulVec_transpose, sub_mulVec,
      one_mulVec, vecMulVec_mulVec, dotProduct_sub, op_smul_eq_smul, dotProduct_smul, smul_eq_mul,
      dotProduct_comm _ s]
    have : ∀ k, (Qᵀ *ᵥ w) k = (Qᵀ * W) k i := fun k => rfl
    simp only [dotProduct, this, pow_two]
  rw [e1, e2, e3]; ring

/-- Such a projector exists for every `i`. -/
theorem C30_projector_exists (h : XData A W Q R R_inv) (i : Fin m) :
    ∃ P, Spec.IsProjOn P (A * W) (fun j => j ≠ i) := ⟨_, looProj h i⟩

end

/-- Non-vacuity of `XData`: `A = W = Q = R = R_inv = 1`. -/
example : XData (m := 3) (1 : Matrix (Fin 3) (Fin 3) ℝ) 1 1 1 1 := ⟨by simp, by simp, by simp⟩

/-- Non-vacuity of `XData`, with fewer vectors than rows and a non-trivial factor. -/
example : XData (!![2, 0; 1, 1] : Matrix (Fin 2) (Fin 2) ℝ) !![3; -3] !![1; 0] !![6] !![1/6] := by
  constructor <;> funext i j <;> fin_cases i <;> fin_cases j <;>
    norm_num [mul_apply, Fin.sum_univ_succ]

end Primate
