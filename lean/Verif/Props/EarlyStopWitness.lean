import Verif.Props.EarlyStop
import Verif.Props.SLQError
import Verif.Props.MatFunOp
import Mathlib.Analysis.Calculus.Deriv.Polynomial

/-!
# What goes wrong after an early stop

`E2 d = diag(1, 1 + 2 d)` with `0 < d ≤ 1e-8` and a sign vector `x`: the first residual has norm `d`, less than `√2 · 1e-8`, so the iteration stops after one
step although the Krylov space has dimension two.  The matrix given to the tridiagonal solver is `[[1 + d, d], [d, 0]]`.
-/

noncomputable section

namespace Primate

open Matrix Polynomial

/-- The example matrix. -/
def E2 (d : ℝ) : Matrix (Fin 2) (Fin 2) ℝ := Matrix.diagonal ![1, 1 + 2 * d]

theorem E2_symm (d : ℝ) : (E2 d).IsSymm := Matrix.diagonal_transpose _

theorem E2_eigen (d : ℝ) : Spec.Eigen (E2 d) ![1, 1 + 2 * d] 1 := by
  refine ⟨by simp, fun j => ?_⟩
  funext i
  fin_cases i <;> fin_cases j <;> simp [E2, mulVec, dotProduct, Fin.sum_univ_two]

theorem E2_steps (d : ℝ) (hd : 0 < d) (x : Vec 2) (hx : ∀ i, x i = 1 ∨ x i = -1) :
    nrm x ^ 2 = 2 ∧ lza (E2 d).mulVec x 0 = 1 + d ∧ lzb (E2 d).mulVec x 1 = d := by
  have h2 : ∀ i, x i * x i = 1 := fun i => by rcases hx i with h | h <;> rw [h] <;> norm_num
  have hxx : x ⬝ᵥ x = 2 := by
    simp only [dotProduct, Fin.sum_univ_two, h2]
    norm_num
  have hn : nrm x * nrm x = 2 := by rw [nrm_sq, hxx]
  have hn0 : nrm x ≠ 0 := fun h => by rw [h] at hn; norm_num at hn
  have hq : normalized x = fun i => x i / nrm x := by
    unfold normalized
    rw [if_pos (by rw [hxx]; norm_num)]
  have hw : lzw (E2 d).mulVec x 0 = fun i => (![1, 1 + 2 * d] : Fin 2 → ℝ) i * (x i / nrm x) := by
    rw [lzw, lzq_zero, lzb_zero, zero_smul, sub_zero, hq]
    funext i
    exact mulVec_diagonal _ _ i
  have e0 := h2 0
  have e1 := h2 1
  have g0 : x 0 / nrm x * (x 0 / nrm x) = 1 / 2 := by rw [div_mul_div_comm, e0, hn]
  have g1 : x 1 / nrm x * (x 1 / nrm x) = 1 / 2 := by rw [div_mul_div_comm, e1, hn]
  have ha : lza (E2 d).mulVec x 0 = 1 + d := by
    rw [lza, lzq_zero, hq, hw]
    simp only [dotProduct, Fin.sum_univ_two, Matrix.cons_val_zero, Matrix.cons_val_one]
    linear_combination g0 + (1 + 2 * d) * g1
  refine ⟨by rw [sq, hn], ha, ?_⟩
  rw [lzb_succ, nrm]
  have hr : lzr (E2 d).mulVec x 0 ⬝ᵥ lzr (E2 d).mulVec x 0 = d ^ 2 := by
    rw [lzr, hw, ha, lzq_zero, hq]
    simp only [dotProduct, Fin.sum_univ_two, Matrix.cons_val_zero, Matrix.cons_val_one, Pi.sub_apply, Pi.smul_apply, smul_eq_mul]
    linear_combination d ^ 2 * g0 + d ^ 2 * g1
  rw [hr, Real.sqrt_sq hd.le]

theorem sqrt2_gt : 1 < Real.sqrt ((2 : ℕ) : ℝ) := by
  rw [Real.lt_sqrt (by norm_num)]
  norm_num

theorem E2_early (d : ℝ) (hd : 0 < d) (hd1 : d ≤ 1e-8) (x : Vec 2) (hx : ∀ i, x i = 1 ∨ x i = -1) (J : ℕ)
    (h : ∀ i < J, Real.sqrt ((2 : ℕ) : ℝ) * 1e-8 ≤ lzb (E2 d).mulVec x (i + 1)) : J = 0 := by
  by_contra hJ
  have h1 := h 0 (by omega)
  rw [zero_add, (E2_steps d hd x hx).2.2] at h1
  have h2 := sqrt2_gt
  generalize Real.sqrt ((2 : ℕ) : ℝ) = t at *
  norm_num at *
  linarith

/-- The states that occur below: degree two and a zero in the second diagonal entry. -/
structure E2Inv (d : ℝ) (f : ℝ → ℝ) (M : MF 2) : Prop where
  wf : M.WF
  op : M.A = (E2 d).mulVec
  fn : M.f = f
  deg : M.deg = 2
  rtol : M.rtol = 1e-8
  orth : M.orth ≤ 2
  diag : M.alpha.get 1 = 0

/-- A new object with any degree and any `orth`, the defaults 20 and 3 included. -/
theorem E2_init (d : ℝ) (f : ℝ → ℝ) (deg orth : ℤ) (hdeg : 2 ≤ deg) : ∃ M0 : MF 2, MF.init (E2 d).mulVec f deg orth = .ok M0 ∧ E2Inv d f M0 := by
  obtain ⟨M0, h0, ho, ha⟩ : ∃ M0 : MF 2, MF.init (E2 d).mulVec f deg orth = .ok M0 ∧ M0.orth ≤ M0.deg ∧ M0.alpha.get 1 = 0 := by
    refine ⟨_, if_neg (by omega), ?_, rfl⟩
    simp only
    split_ifs with h <;> omega
  obtain ⟨w, a1, a2, a3, a4, -⟩ := init_wf _ _ _ _ M0 (by norm_num) h0
  have hd : M0.deg = 2 := by omega
  exact ⟨M0, h0, w, a1, a2, hd, a4, by rw [hd] at ho; exact ho, ha⟩

theorem cube_rule {m : ℕ} (hm : m = 2) (d e : ℕ → ℝ) (theta : Fin m → ℝ) (Y : Matrix (Fin m) (Fin m) ℝ)
    (h : IsEigh (triMat m d e) theta Y) (h0 : 0 < m) :
    ∑ a, theta a ^ 3 * Y ⟨0, h0⟩ a ^ 2 = d 0 ^ 3 + 2 * d 0 * e 1 ^ 2 + d 1 * e 1 ^ 2 := by
  subst hm
  have e1 := IsEigh.matFun_zero_zero (w := theta) (V := Y) h0 (fun x => x ^ 3)
  have e2 := h.matFun_poly (X ^ 3)
  simp only [eval_pow, eval_X, map_pow, aeval_X] at e2
  rw [e2] at e1
  rw [← e1]
  simp [pow_succ, mulVec, dotProduct, Matrix.mul_apply, Fin.sum_univ_two, triMat]
  ring

/-- `quad` for the cube: all sign vectors give the same value, with `2 d²` in place of `3 d²`. -/
theorem E2_quad (K : TriKernels) (hK : EighOk K) (eps : ℝ) (heps : 0 ≤ eps) (fuel : ℕ) (d : ℝ) (hd : 0 < d) (hd1 : d ≤ 1e-8) (M : MF 2)
    (hM : E2Inv d (fun t => t ^ 3) M) (x : Vec 2) (hx : ∀ i, x i = 1 ∨ x i = -1) :
    ∃ M', M.quadCol K eps fuel x = some (.ok (M', some (2 * (1 + d) ^ 3 + 4 * (1 + d) * d ^ 2))) ∧ E2Inv d (fun t => t ^ 3) M' := by
  obtain ⟨J, s, theta, Y, hJ, hJ1, hJ2, hF, hY, hq⟩ := quadCol_run K hK eps heps fuel M hM.wf _ (E2_symm d) hM.op
    (by rw [hM.rtol]; norm_num) (Or.inl hM.orth) x
  rw [hM.rtol] at hJ1
  obtain rfl := E2_early d hd hd1 x hx J hJ1
  obtain ⟨s1, s2, s3⟩ := E2_steps d hd x hx
  have hv : (∑ a, M.f (theta a) * Y ⟨0, hM.wf.dpos⟩ a ^ 2) * nrm x ^ 2 = 2 * (1 + d) ^ 3 + 4 * (1 + d) * d ^ 2 := by
    rw [hM.fn, cube_rule hM.deg _ _ theta Y hY, hF.alpha_le 0 le_rfl, hF.beta_le 1 (by omega), hF.alpha_gt 1 (by omega), hM.diag, s1, s2, s3]
    ring
  rw [hv] at hq
  refine ⟨_, hq, (quadCol_preserves K eps fuel M _ hM.wf _ _ hq).2, hM.op, hM.fn, hM.deg, hM.rtol, hM.orth, ?_⟩
  exact (hF.alpha_gt 1 (by omega)).trans hM.diag

theorem E2_exact (d : ℝ) (x : Vec 2) (hx : ∀ i, x i = 1 ∨ x i = -1) :
    Spec.quadForm (Spec.matFun ![1, 1 + 2 * d] 1 fun t => t ^ 3) x = 2 * (1 + d) ^ 3 + 6 * (1 + d) * d ^ 2 := by
  have h2 : ∀ i, x i * x i = 1 := fun i => by rcases hx i with h | h <;> rw [h] <;> norm_num
  have e0 := h2 0
  have e1 := h2 1
  have : Spec.matFun ![1, 1 + 2 * d] 1 (fun t => t ^ 3) = Matrix.diagonal ![1, (1 + 2 * d) ^ 3] := by
    unfold Spec.matFun
    rw [Matrix.transpose_one, Matrix.mul_one, Matrix.one_mul]
    congr 1
    funext i
    fin_cases i <;> simp
  rw [this]
  unfold Spec.quadForm
  simp only [dotProduct, mulVec_diagonal, Fin.sum_univ_two, Matrix.cons_val_zero, Matrix.cons_val_one]
  linear_combination e0 + (1 + 2 * d) ^ 3 * e1

/-- `M @ x` for the identity function: the residual is lost. -/
theorem E2_matvec (K : TriKernels) (hK : EighOk K) (eps : ℝ) (heps : 0 ≤ eps) (fuel : ℕ) (d : ℝ) (hd : 0 < d) (hd1 : d ≤ 1e-8) (M : MF 2)
    (hM : E2Inv d (fun t => t) M) (x : Vec 2) (hx : ∀ i, x i = 1 ∨ x i = -1) :
    ∃ M', M.matvec K eps fuel x = some (.ok (M', some ((1 + d) • x))) := by
  obtain ⟨J, s, theta, Y, hJ, hJ1, hJ2, hF, hY, hq⟩ := matvec_run K hK eps heps fuel M hM.wf _ (E2_symm d) hM.op
    (by rw [hM.rtol]; norm_num) x
  rw [hM.rtol] at hJ1
  obtain rfl := E2_early d hd hd1 x hx J hJ1
  obtain ⟨s1, s2, s3⟩ := E2_steps d hd x hx
  suffices hv : nrm x • (qcols (E2 d).mulVec x 0 M.deg *ᵥ fun i => ∑ a, Y i a * (M.f (theta a) * Y ⟨0, hM.wf.dpos⟩ a)) = (1 + d) • x by
    rw [hv] at hq
    exact ⟨_, hq⟩
  have h0 : (fun i => ∑ a, Y i a * (M.f (theta a) * Y ⟨0, hM.wf.dpos⟩ a)) =
      triMat M.deg s.alpha.get s.beta.get *ᵥ (Pi.single ⟨0, hM.wf.dpos⟩ 1 : Vec M.deg) := by
    have e2 := hY.matFun_poly X
    simp only [eval_X, aeval_X] at e2
    funext i
    rw [← e2, IsEigh.matFun_single, hM.fn]
  rw [h0]
  have hn0 : nrm x ≠ 0 := fun h => by rw [h] at s1; norm_num at s1
  funext i
  have hcol : ∀ j : Fin M.deg, qcols (E2 d).mulVec x 0 M.deg i j = if (j : ℕ) ≤ 0 then normalized x i else 0 := by
    intro j
    have := congrFun (qcols_col (E2 d).mulVec x 0 M.deg j) i
    rw [Matrix.col_apply] at this
    rw [this]
    split_ifs with h
    · rw [show (j : ℕ) = 0 by omega, lzq_zero]
    · rfl
  simp only [Pi.smul_apply, smul_eq_mul, mulVec, dotProduct, hcol]
  rw [Finset.sum_eq_single (⟨0, hM.wf.dpos⟩ : Fin M.deg)]
  · rw [if_pos le_rfl, Finset.sum_eq_single (⟨0, hM.wf.dpos⟩ : Fin M.deg)]
    · have hxx : 0 < x ⬝ᵥ x := by rw [← nrm_sq, ← sq, s1]; norm_num
      rw [Pi.single_eq_same, mul_one]
      simp only [triMat, Matrix.of_apply, if_true]
      rw [hF.alpha_le 0 le_rfl, s2, normalized, if_pos hxx]
      field_simp
    · intro b _ hb; rw [Pi.single_eq_of_ne hb, mul_zero]
    · intro h; exact absurd (Finset.mem_univ _) h
  · intro b _ hb
    rw [if_neg, zero_mul]
    intro h
    exact hb (Fin.ext (by simpa using h))
  · intro h; exact absurd (Finset.mem_univ _) h

/-! ## `C122_quad` and `C122_matvec` for this matrix and `f(t) = |t|`, although the iteration stops early -/

theorem E2_range (d : ℝ) (hd : 0 < d) (a : Fin 2) : (1 : ℝ) ≤ (![1, 1 + 2 * d] : Fin 2 → ℝ) a ∧ (![1, 1 + 2 * d] : Fin 2 → ℝ) a ≤ 1 + 2 * d := by
  fin_cases a <;> simp <;> linarith

example (K : TriKernels) (hK : EighOk K) (fuel : ℕ) (d : ℝ) (hd : 0 < d) (x : Vec 2) (hx : ∀ i, x i = 1 ∨ x i = -1) :
    ∃ M0 M' y, MF.init (E2 d).mulVec (fun t => |t|) 20 3 = .ok M0 ∧ M0.quadCol K 0 fuel x = some (.ok (M', some y)) ∧
      |y - Spec.quadForm (Spec.matFun ![1, 1 + 2 * d] 1 fun t => |t|) x| ≤ 1e-7 := by
  obtain ⟨M0, h0, -⟩ := E2_init d (fun t => |t|) 20 3 (by norm_num)
  obtain ⟨M', y, h1, -, h2⟩ := C122_quad K hK 0 le_rfl fuel (E2 d) (E2_symm d) _ _ (E2_eigen d) (fun t => |t|) 20 3 (by norm_num) M0 M0 h0
    (.refl _) (Or.inl rfl) 1 (1 + 2 * d) (fun a => (E2_range d hd a).1) (fun a => (E2_range d hd a).2) 1 zero_le_one
    (fun s _ t _ => by rw [one_mul]; exact abs_abs_sub_abs_le s t) x
  refine ⟨M0, M', y, h0, h1, (h2 (by norm_num)).trans ?_⟩
  have hxx : ∑ i, x i ^ 2 = 2 := by
    rw [Finset.sum_congr rfl fun i _ => show x i ^ 2 = 1 by rcases hx i with h | h <;> rw [h] <;> norm_num]
    simp
  have hs : Real.sqrt 2 * Real.sqrt ((2 : ℕ) : ℝ) = 2 := by
    rw [Nat.cast_ofNat, Real.mul_self_sqrt (by norm_num)]
  rw [hxx]
  calc 2 * Real.sqrt 2 * 1 * (Real.sqrt ((2 : ℕ) : ℝ) * 1e-8) * 2 = 4 * (Real.sqrt 2 * Real.sqrt ((2 : ℕ) : ℝ)) * 1e-8 := by ring
    _ ≤ 1e-7 := by rw [hs]; norm_num

/-- The node rule really evaluates `f` outside the interval of the eigenvalues: the matrix `[[1 + d, d], [d, 0]]` has a negative determinant. -/
example (d : ℝ) (hd : 0 < d) : (!![1 + d, d; d, 0] : Matrix (Fin 2) (Fin 2) ℝ).det < 0 := by
  rw [Matrix.det_fin_two_of]
  nlinarith

/-! ## Counterexamples -/

theorem ones_sign (i : Fin 2) : (![1, 1] : Vec 2) i = 1 ∨ (![1, 1] : Vec 2) i = -1 := by
  left
  fin_cases i <;> rfl

/-- **C45 is false of the code** without the exemption for early stops: the identity function, degree two, and `M @ x ≠ A x`. -/
theorem C45_counterexample (K : TriKernels) (hK : EighOk K) (eps : ℝ) (heps : 0 ≤ eps) (fuel : ℕ) (d : ℝ) (hd : 0 < d) (hd1 : d ≤ 1e-8)
    (deg orth : ℤ) (hdeg : 2 ≤ deg) :
    ∃ (M0 M' : MF 2) (y : Vec 2), MF.init (E2 d).mulVec (fun t => t) deg orth = .ok M0 ∧
      M0.matvec K eps fuel ![1, 1] = some (.ok (M', some y)) ∧ (X : ℝ[X]).natDegree ≤ 2 - 1 ∧ y = ![1 + d, 1 + d] ∧
      Spec.matFun ![1, 1 + 2 * d] 1 (fun t => (X : ℝ[X]).eval t) *ᵥ ![1, 1] = ![1, 1 + 2 * d] ∧
      y ≠ Spec.matFun ![1, 1 + 2 * d] 1 (fun t => (X : ℝ[X]).eval t) *ᵥ ![1, 1] := by
  obtain ⟨M0, h0, hi⟩ := E2_init d (fun t => t) deg orth hdeg
  obtain ⟨M', h1⟩ := E2_matvec K hK eps heps fuel d hd hd1 M0 hi ![1, 1] ones_sign
  have hy : (1 + d) • (![1, 1] : Vec 2) = ![1 + d, 1 + d] := by
    funext i
    fin_cases i <;> simp
  have hA : Spec.matFun ![1, 1 + 2 * d] 1 (fun t => (X : ℝ[X]).eval t) *ᵥ ![1, 1] = ![1, 1 + 2 * d] := by
    rw [(isEigh_iff_eigen.mpr (E2_eigen d)).matFun_poly X, aeval_X]
    funext i
    fin_cases i <;> simp [E2, mulVec_diagonal]
  refine ⟨M0, M', _, h0, h1, natDegree_X_le, hy, hA, fun h => ?_⟩
  rw [hy, hA] at h
  have := congrFun h 0
  simp at this
  linarith

/-- **C46 is false of the code** without the exemption: full degree, `f(t) = t³`, and `quad(x) < xᵀ f(A) x`. -/
theorem C46_counterexample (K : TriKernels) (hK : EighOk K) (eps : ℝ) (heps : 0 ≤ eps) (fuel : ℕ) (d : ℝ) (hd : 0 < d) (hd1 : d ≤ 1e-8)
    (deg orth : ℤ) (hdeg : 2 ≤ deg) :
    ∃ (M0 M' : MF 2) (y : ℝ), MF.init (E2 d).mulVec (fun t => t ^ 3) deg orth = .ok M0 ∧
      M0.quadCol K eps fuel ![1, 1] = some (.ok (M', some y)) ∧
      y = Spec.quadForm (Spec.matFun ![1, 1 + 2 * d] 1 fun t => t ^ 3) ![1, 1] - 2 * (1 + d) * d ^ 2 ∧
      y < Spec.quadForm (Spec.matFun ![1, 1 + 2 * d] 1 fun t => t ^ 3) ![1, 1] := by
  obtain ⟨M0, h0, hi⟩ := E2_init d (fun t => t ^ 3) deg orth hdeg
  obtain ⟨M', h1, -⟩ := E2_quad K hK eps heps fuel d hd hd1 M0 hi ![1, 1] ones_sign
  have hpos : 0 < 2 * (1 + d) * d ^ 2 := by positivity
  refine ⟨M0, M', _, h0, h1, ?_, ?_⟩ <;> rw [E2_exact d _ ones_sign]
  · ring
  · linarith

/-- **C92 is false of the code** without the exemption: `matrix_function(A, v=x) ≠ A x` with the default arguments. -/
theorem C92_counterexample (K : TriKernels) (hK : EighOk K) (eps : ℝ) (heps : 0 ≤ eps) (fuel : ℕ) (d : ℝ) (hd : 0 < d) (hd1 : d ≤ 1e-8) :
    ∃ Y : Matrix (Fin 2) (Fin 1) ℝ, matrixFunction K eps fuel (E2 d).mulVec none (some ![1, 1]) = some (.ok (.arr (some Y))) ∧
      Y.col 0 = ![1 + d, 1 + d] ∧ E2 d *ᵥ ![1, 1] = ![1, 1 + 2 * d] ∧ Y.col 0 ≠ E2 d *ᵥ ![1, 1] := by
  obtain ⟨M0, M', y, h0, h1, -, h2, h3, h4⟩ := C45_counterexample K hK eps heps fuel d hd hd1 20 3 (by norm_num)
  rw [(isEigh_iff_eigen.mpr (E2_eigen d)).matFun_poly X, aeval_X] at h3 h4
  refine ⟨Matrix.of fun i _ => y i, ?_, h2, h3, h4⟩
  simp only [matrixFunction, Option.getD_none, h0, h1, Option.map_some]

/-- **C103 is false of the code** without the exemption: a polynomial of degree `3 = 2 · 2 - 1` is not integrated exactly. -/
theorem C103_counterexample (K : TriKernels) (hK : EighOk K) (eps : ℝ) (heps : 0 ≤ eps) (fuel : ℕ) (d : ℝ) (hd : 0 < d) (hd1 : d ≤ 1e-8)
    (orth : ℤ) :
    ∃ (M0 M' : MF 2) (y : ℝ) (p : ℝ[X]), MF.init (E2 d).mulVec (fun t => t ^ 3) 2 orth = .ok M0 ∧
      M0.quadCol K eps fuel ![1, 1] = some (.ok (M', some y)) ∧ (p.natDegree : ℤ) ≤ 2 * min 2 ((2 : ℕ) : ℤ) - 1 ∧
      (∀ t, |t ^ 3 - p.eval t| ≤ 0) ∧
      ¬ |y - Spec.quadForm (Spec.matFun ![1, 1 + 2 * d] 1 fun t => t ^ 3) ![1, 1]| ≤ 2 * 0 * ∑ i, (![1, 1] : Vec 2) i ^ 2 := by
  obtain ⟨M0, M', y, h0, h1, -, h3⟩ := C46_counterexample K hK eps heps fuel d hd hd1 2 orth le_rfl
  refine ⟨M0, M', y, X ^ 3, h0, h1, by rw [natDegree_X_pow]; norm_num, fun t => by simp, fun h => ?_⟩
  rw [mul_zero, zero_mul] at h
  have := abs_nonpos_iff.1 h
  linarith

/-- **C104 is false of the code** without the exemption: the fourth derivative of `t³` is zero, and `quad(x)` falls below `xᵀ f(A) x`. -/
theorem C104_counterexample (K : TriKernels) (hK : EighOk K) (eps : ℝ) (heps : 0 ≤ eps) (fuel : ℕ) (d : ℝ) (hd : 0 < d) (hd1 : d ≤ 1e-8)
    (orth : ℤ) :
    ∃ (M0 M' : MF 2) (y : ℝ) (F : ℕ → ℝ → ℝ), F 0 = (fun t => t ^ 3) ∧ (∀ j < 2 * 2, ∀ t, HasDerivAt (F j) (F (j + 1) t) t) ∧
      (∀ t, F (2 * 2) t = 0) ∧ MF.init (E2 d).mulVec (F 0) 2 orth = .ok M0 ∧ M0.quadCol K eps fuel ![1, 1] = some (.ok (M', some y)) ∧
      ¬ Spec.quadForm (Spec.matFun ![1, 1 + 2 * d] 1 (F 0)) ![1, 1] ≤ y := by
  obtain ⟨M0, M', y, h0, h1, -, h3⟩ := C46_counterexample K hK eps heps fuel d hd hd1 2 orth le_rfl
  refine ⟨M0, M', y, fun j t => (derivative^[j] (X ^ 3 : ℝ[X])).eval t, ?_, fun j _ t => ?_, fun t => ?_, ?_, h1, ?_⟩
  · funext t; simp
  · simp only [Function.iterate_succ_apply']
    exact Polynomial.hasDerivAt _ t
  · simp only [iterate_derivative_eq_zero (show (X ^ 3 : ℝ[X]).natDegree < 2 * 2 by rw [natDegree_X_pow]; norm_num), eval_zero]
  · simpa using h0
  · simpa using h3

/-- **C73 and C105 are false of the code** without the exemption: for `f(t) = t³` and full degree `hutch` returns the same number for every generator, less
than the sum of `f` over the eigenvalues. -/
theorem C105_counterexample (tppf : ℝ → ℕ → ℝ) (zscore : ℝ → ℝ) (K : TriKernels) (hK : EighOk K) (eps : ℝ) (heps : 0 ≤ eps) (qf : ℕ) (d : ℝ)
    (hd : 0 < d) (hd1 : d ≤ 1e-8) (deg orth : ℤ) (hdeg : 2 ≤ deg) (k : ℕ) (hk : 0 < k) :
    ∃ (M0 : MF 2) (c : ℝ), MF.init (E2 d).mulVec (fun t => t ^ 3) deg orth = .ok M0 ∧
      c < ∑ i : Fin 2, (![1, 1 + 2 * d] : Fin 2 → ℝ) i ^ 3 ∧
      ∀ (rng : Rng) (_ : ∀ p, 0 ≤ rng.unif p ∧ rng.unif p < 1) (op : Operand 2), ∃ M',
        hutchMF tppf zscore rng K eps qf M0 ⟨op, 32, .name "rademacher", .obj (.count k), false, false, false, []⟩ (k + 1) =
          some (.ok (some (M', .scalar (.val fun _ => c), []))) := by
  obtain ⟨M0, h0, hi⟩ := E2_init d (fun t => t ^ 3) deg orth hdeg
  obtain ⟨c, hc⟩ : ∃ c, c = 2 * (1 + d) ^ 3 + 4 * (1 + d) * d ^ 2 := ⟨_, rfl⟩
  refine ⟨M0, c, h0, ?_, fun rng hu op => ?_⟩
  · have hpos : 0 < 2 * (1 + d) * d ^ 2 := by positivity
    rw [hc, Fin.sum_univ_two]
    simp only [Matrix.cons_val_zero, Matrix.cons_val_one]
    linarith [show (1 : ℝ) ^ 3 + (1 + 2 * d) ^ 3 = 2 * (1 + d) ^ 3 + 6 * (1 + d) * d ^ 2 by ring]
  have h3 := hutch_follows tppf zscore rng K eps qf (E2Inv d fun t => t ^ 3) (fun x => ∀ i, x i = 1 ∨ x i = -1) (fun _ => c)
    (fun M hM x hx => by rw [hc]; exact E2_quad K hK eps heps qf d hd hd1 M hM x hx)
    ⟨⟨(E2 d).mulVec, some fun _ => c⟩, 32, .name "rademacher", .obj (.count k), false, false, false, []⟩ (fun _ _ => rfl) _ rfl
    (fun h b j i => by
      have h4 := hu (h.sum * 2 + j * 2 + i)
      simp only [IsoDist.fill, rawCols]
      rcases lt_or_ge (rng.unif (h.sum * 2 + j * 2 + i)) (1/2) with h5 | h5
      · exact Or.inr ((rademacherEntry_half _).1 h4.1 h5)
      · exact Or.inl ((rademacherEntry_half _).2 h5 h4.2)) (k + 1) M0 hi
  rw [hutch_rademacher_op tppf zscore _ (by norm_num) k hk rng (fun p => decide (1/2 ≤ rng.unif (p.1 * 2 + p.2))) hu (by simp)] at h3
  have h5 : hutchMF tppf zscore rng K eps qf M0 ⟨op, 32, .name "rademacher", .obj (.count k), false, false, false, []⟩ (k + 1) =
    hutchMF tppf zscore rng K eps qf M0 ⟨⟨(E2 d).mulVec, some fun _ => c⟩, 32, .name "rademacher", .obj (.count k), false, false, false, []⟩ (k + 1) := rfl
  have hval : (∑ t : Fin k, (⟨(E2 d).mulVec, some fun _ => c⟩ : Operand 2).quadForm fun i =>
      sgn (decide (1/2 ≤ rng.unif ((t : ℕ) * 2 + (i : ℕ))))) / k = c := by
    have hk' : (0 : ℝ) < k := by exact_mod_cast hk
    have : ∀ x : Vec 2, (⟨(E2 d).mulVec, some fun _ => c⟩ : Operand 2).quadForm x = c := fun x => rfl
    simp only [this, Finset.sum_const, Finset.card_univ, Fintype.card_fin, nsmul_eq_mul]
    field_simp
  rw [h5]
  rcases hm : hutchMF tppf zscore rng K eps qf M0 ⟨⟨(E2 d).mulVec, some fun _ => c⟩, 32, .name "rademacher", .obj (.count k), false, false, false, []⟩
    (k + 1) with _ | r'
  · rw [hm] at h3; cases h3
  · rw [hm] at h3
    rcases r' with e | r'
    · simp [Except.map] at h3
    · rcases r' with _ | ⟨M', o⟩
      · simp [Except.map] at h3
      · simp only [Option.map_some, Except.map, Option.some.injEq, Except.ok.injEq] at h3
        refine ⟨M', ?_⟩
        rw [h3]
        simp only [hval]

end Primate
