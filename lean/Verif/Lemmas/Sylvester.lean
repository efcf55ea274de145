import Verif.Lemmas.Perturb
import Verif.Lemmas.MatFunRun
import Verif.Lemmas.LanczosFlStep
import Mathlib.Analysis.Calculus.MeanValue
import Mathlib.Analysis.Calculus.Deriv.Polynomial

/-! Polynomials of matrices that satisfy a perturbed Krylov relation. -/

noncomputable section

namespace Primate

open Matrix Polynomial

variable {n k : ℕ}

/-- The divided difference `(p(y) - p(x)) / (y - x)` as a polynomial in `y`. -/
def ddiff (p : ℝ[X]) (x : ℝ) : ℝ[X] := p /ₘ (X - C x)

theorem ddiff_mul (p : ℝ[X]) (x : ℝ) : p = C (p.eval x) + (X - C x) * ddiff p x := by
  have h := modByMonic_add_div p (X - C x)
  rw [modByMonic_X_sub_C_eq_C_eval] at h
  exact h.symm

theorem ddiff_eval (p : ℝ[X]) (x y : ℝ) : p.eval y - p.eval x = (y - x) * (ddiff p x).eval y := by
  have h := congrArg (eval y) (ddiff_mul p x)
  simp only [eval_add, eval_mul, eval_sub, eval_X, eval_C] at h
  linarith

theorem ddiff_self (p : ℝ[X]) (x : ℝ) : (ddiff p x).eval x = (derivative p).eval x := by
  have h := congrArg (fun q => eval x (derivative q)) (ddiff_mul p x)
  simp only [derivative_add, derivative_C, derivative_mul, derivative_sub, derivative_X, eval_add, eval_mul, eval_sub, eval_X, eval_C, eval_zero, eval_one] at h
  rw [h]
  ring

theorem ddiff_le (p : ℝ[X]) {a b L : ℝ} (hL : ∀ x, a ≤ x → x ≤ b → |(derivative p).eval x| ≤ L) {x y : ℝ} (hx : a ≤ x ∧ x ≤ b) (hy : a ≤ y ∧ y ≤ b) :
    |(ddiff p x).eval y| ≤ L := by
  by_cases h : y = x
  · rw [h, ddiff_self]
    exact hL x hx.1 hx.2
  · have h1 : ‖p.eval y - p.eval x‖ ≤ L * ‖y - x‖ := by
      refine (convex_Icc a b).norm_image_sub_le_of_norm_hasDerivWithin_le (f := fun t => p.eval t) (f' := fun t => (derivative p).eval t)
        (fun t _ => (p.hasDerivAt t).hasDerivWithinAt) (fun t ht => ?_) ⟨hx.1, hx.2⟩ ⟨hy.1, hy.2⟩
      exact hL t ht.1 ht.2
    rw [ddiff_eval, norm_mul, mul_comm] at h1
    have h2 : 0 < ‖y - x‖ := norm_pos_iff.2 (sub_ne_zero.2 h)
    exact le_of_mul_le_mul_right h1 h2

theorem ddiff_natDegree (p : ℝ[X]) (x : ℝ) : (ddiff p x).natDegree = p.natDegree - 1 := by
  unfold ddiff
  rw [natDegree_divByMonic _ (monic_X_sub_C x), natDegree_X_sub_C]

theorem ddiff_const (p : ℝ[X]) (x : ℝ) (h : p.natDegree = 0) : ddiff p x = 0 := by
  unfold ddiff
  rw [(divByMonic_eq_zero_iff (monic_X_sub_C x))]
  rw [degree_X_sub_C]
  exact lt_of_le_of_lt (natDegree_eq_zero_iff_degree_le_zero.1 h) (by norm_num)

/-- `T ^ m e_1` has only its first `m + 1` entries nonzero. -/
theorem tri_band {T : Matrix (Fin k) (Fin k) ℝ} (hk : 0 < k) (tri : ∀ i j : Fin k, (j : ℕ) + 1 < i → T i j = 0) (m : ℕ) (i : Fin k) (hi : m < i) :
    ((T ^ m) *ᵥ (Pi.single ⟨0, hk⟩ 1 : Vec k)) i = 0 := by
  induction m generalizing i with
  | zero =>
    rw [pow_zero, one_mulVec, Pi.single_apply, if_neg]
    intro he
    have := congrArg Fin.val he
    simp at this
    omega
  | succ m ih =>
    rw [pow_succ', ← mulVec_mulVec]
    show ∑ j, T i j * _ = 0
    refine Finset.sum_eq_zero fun j _ => ?_
    by_cases hj : m < j
    · rw [ih j hj, mul_zero]
    · rw [tri i j (by omega), zero_mul]

theorem tri_poly {T : Matrix (Fin k) (Fin k) ℝ} (hk : 0 < k) (tri : ∀ i j : Fin k, (j : ℕ) + 1 < i → T i j = 0) (d : ℝ[X]) (i : Fin k) (hi : d.natDegree < i) :
    (aeval T d *ᵥ (Pi.single ⟨0, hk⟩ 1 : Vec k)) i = 0 := by
  rw [KData.aeval_mulVec, Finset.sum_apply]
  refine Finset.sum_eq_zero fun m hm => ?_
  have := Finset.mem_range.1 hm
  rw [Pi.smul_apply, tri_band hk tri m i (by omega), smul_zero]

theorem frobSq_rotate' (E : Matrix (Fin n) (Fin k) ℝ) (U : Matrix (Fin n) (Fin n) ℝ) (V : Matrix (Fin k) (Fin k) ℝ) (hU : U * Uᵀ = 1) (hV : V * Vᵀ = 1) :
    frobSq (Uᵀ * E * V) = frobSq E := by
  rw [frobSq_trace, frobSq_trace, transpose_mul, transpose_mul, transpose_transpose]
  have : Vᵀ * (Eᵀ * U) * (Uᵀ * E * V) = Vᵀ * (Eᵀ * (U * Uᵀ) * E * V) := by simp only [Matrix.mul_assoc]
  rw [this, hU, Matrix.mul_one, Matrix.trace_mul_comm, Matrix.mul_assoc, hV, Matrix.mul_one]

theorem nrm_rotate {U : Matrix (Fin n) (Fin n) ℝ} (hU : U * Uᵀ = 1) (x : Vec n) : nrm (Uᵀ *ᵥ x) = nrm x := by
  unfold nrm
  rw [dotProduct_mulVec, vecMul_transpose, mulVec_mulVec, hU, one_mulVec]

/-- From `A X - X T = E + r e_kᵀ` to `p(A) X e_1 - X p(T) e_1` for polynomials of degree below `k`. -/
theorem sylvester_poly {A : Matrix (Fin n) (Fin n) ℝ} {lam : Fin n → ℝ} {U : Matrix (Fin n) (Fin n) ℝ} (hA : IsEigh A lam U) {T : Matrix (Fin k) (Fin k) ℝ}
    {th : Fin k → ℝ} {Y : Matrix (Fin k) (Fin k) ℝ} (hT : IsEigh T th Y) (hk : 0 < k) (tri : ∀ i j : Fin k, (j : ℕ) + 1 < i → T i j = 0)
    (X E : Matrix (Fin n) (Fin k) ℝ) (r : Vec n) (hrel : ∀ i j, (A * X) i j - (X * T) i j = E i j + if (j : ℕ) + 1 = k then r i else 0)
    (p : ℝ[X]) (hp : p.natDegree < k) {a b L : ℝ} (hL : ∀ x, a ≤ x → x ≤ b → |(derivative p).eval x| ≤ L) (hlam : ∀ i, a ≤ lam i ∧ lam i ≤ b)
    (hth : ∀ j, a ≤ th j ∧ th j ≤ b) :
    nrm (aeval A p *ᵥ (X *ᵥ (Pi.single ⟨0, hk⟩ 1 : Vec k)) - X *ᵥ (aeval T p *ᵥ (Pi.single ⟨0, hk⟩ 1 : Vec k))) ≤ L * Real.sqrt (frobSq E) := by
  set e : Vec k := Pi.single ⟨0, hk⟩ 1 with he
  have hL0 : 0 ≤ L := (abs_nonneg _).trans (hL (th ⟨0, hk⟩) (hth _).1 (hth _).2)
  have hUU := hA.mul_transpose
  have hYY := hT.mul_transpose
  set G := Uᵀ * X * Y with hG
  set Et := Uᵀ * E * Y with hEt
  set rt := Uᵀ *ᵥ r with hrt
  set last : Fin k := ⟨k - 1, by omega⟩ with hlast
  have hsymU : ∀ g : ℝ → ℝ, Uᵀ * Spec.matFun lam U g = diagonal (fun i => g (lam i)) * Uᵀ := by
    intro g
    unfold Spec.matFun
    rw [← Matrix.mul_assoc, ← Matrix.mul_assoc, hA.1, Matrix.one_mul]
  have hsymY : ∀ g : ℝ → ℝ, Spec.matFun th Y g * Y = Y * diagonal (fun i => g (th i)) := by
    intro g
    unfold Spec.matFun
    rw [Matrix.mul_assoc, hT.1, Matrix.mul_one]
  have conj : ∀ q : ℝ[X], ∀ i j, (Uᵀ * (aeval A q * X - X * aeval T q) * Y) i j = (q.eval (lam i) - q.eval (th j)) * G i j := by
    intro q i j
    have e1 : Uᵀ * (aeval A q * X - X * aeval T q) * Y = diagonal (fun i => q.eval (lam i)) * G - G * diagonal (fun i => q.eval (th i)) := by
      rw [← hA.matFun_poly, ← hT.matFun_poly, Matrix.mul_sub, Matrix.sub_mul]
      congr 1
      · rw [← Matrix.mul_assoc, hsymU, hG]
        simp only [Matrix.mul_assoc]
      · rw [Matrix.mul_assoc, Matrix.mul_assoc, hsymY, hG]
        simp only [Matrix.mul_assoc]
    rw [e1, Matrix.sub_apply, diagonal_mul, mul_diagonal]
    ring
  have rel2 : ∀ i j, (lam i - th j) * G i j = Et i j + rt i * Y last j := by
    intro i j
    have h1 := conj Polynomial.X i j
    rw [aeval_X, aeval_X, eval_X, eval_X] at h1
    rw [← h1]
    have h2 : A * X - X * T = E + Matrix.of fun i j => if j = last then r i else 0 := by
      ext i j
      rw [Matrix.sub_apply, hrel, Matrix.add_apply, Matrix.of_apply]
      congr 1
      by_cases hj : j = last
      · rw [if_pos hj, if_pos (by rw [hj, hlast]; show k - 1 + 1 = k; omega)]
      · rw [if_neg hj, if_neg]
        intro hc
        exact hj (Fin.ext (by rw [hlast]; show (j : ℕ) = k - 1; omega))
    rw [h2, Matrix.mul_add, Matrix.add_mul, Matrix.add_apply]
    congr 1
    rw [Matrix.mul_apply]
    have h3 : ∀ l, (Uᵀ * Matrix.of fun i j => if j = last then r i else 0) i l = if l = last then rt i else 0 := by
      intro l
      rw [Matrix.mul_apply]
      simp only [Matrix.of_apply]
      by_cases hl : l = last
      · simp only [if_pos hl]
        rfl
      · simp only [if_neg hl, mul_zero, Finset.sum_const_zero]
    simp only [h3, ite_mul, zero_mul, Finset.sum_ite_eq', Finset.mem_univ, if_true]
  -- the vector in the eigenbasis
  set y : Vec k := fun j => Y ⟨0, hk⟩ j with hy
  have hye : Yᵀ *ᵥ e = y := by
    funext j
    rw [he, mulVec_single_one]
    rfl
  have key : Uᵀ *ᵥ (aeval A p *ᵥ (X *ᵥ e) - X *ᵥ (aeval T p *ᵥ e)) = (Matrix.of fun i j => (ddiff p (lam i)).eval (th j) * Et i j) *ᵥ y := by
    have e1 : Uᵀ *ᵥ (aeval A p *ᵥ (X *ᵥ e) - X *ᵥ (aeval T p *ᵥ e)) = (Uᵀ * (aeval A p * X - X * aeval T p) * Y) *ᵥ y := by
      have w1 : ∀ W : Matrix (Fin n) (Fin k) ℝ, (Uᵀ * W * Y) *ᵥ (Yᵀ *ᵥ e) = Uᵀ *ᵥ (W *ᵥ e) := by
        intro W
        rw [mulVec_mulVec, Matrix.mul_assoc (Uᵀ * W), hYY, Matrix.mul_one, ← mulVec_mulVec]
      rw [← hye, w1, sub_mulVec, mulVec_mulVec, mulVec_mulVec]
    rw [e1]
    funext i
    show ∑ j, _ * y j = ∑ j, _ * y j
    have e2 : ∑ j, rt i * ((ddiff p (lam i)).eval (th j) * Y last j * y j) = 0 := by
      rw [← Finset.mul_sum]
      have h1 := hT.aeval_eq (ddiff p (lam i)) e last
      have h2 : ∀ j, ∑ l, Y l j * e l = y j := fun j => congrFun hye j
      simp only [h2] at h1
      have h3 : (aeval T (ddiff p (lam i)) *ᵥ e) last = 0 := by
        by_cases hd : p.natDegree = 0
        · rw [ddiff_const p _ hd, aeval_zero, zero_mulVec]
          rfl
        · exact tri_poly hk tri _ last (by rw [ddiff_natDegree]; show _ < k - 1; omega)
      rw [h3] at h1
      have h4 : ∑ j, (ddiff p (lam i)).eval (th j) * Y last j * y j = 0 := by
        rw [h1]
        exact Finset.sum_congr rfl fun j _ => by ring
      rw [h4, mul_zero]
    rw [← add_zero (∑ j, (Matrix.of fun i j => (ddiff p (lam i)).eval (th j) * Et i j) i j * y j), ← e2, ← Finset.sum_add_distrib]
    refine Finset.sum_congr rfl fun j _ => ?_
    rw [conj, Matrix.of_apply]
    have h1 := ddiff_eval p (lam i) (th j)
    have h2 := rel2 i j
    have h3 : (eval (lam i) p - eval (th j) p) * G i j = (ddiff p (lam i)).eval (th j) * ((lam i - th j) * G i j) := by
      have : eval (lam i) p - eval (th j) p = (lam i - th j) * (ddiff p (lam i)).eval (th j) := by linarith
      rw [this]
      ring
    rw [h3, h2]
    ring
  rw [← nrm_rotate hUU, key]
  have hyy : y ⬝ᵥ y = 1 := by
    have := congrFun (congrFun hYY ⟨0, hk⟩) ⟨0, hk⟩
    rw [Matrix.mul_apply, Matrix.one_apply_eq] at this
    exact this
  have f1 := frobSq_mulVec (Matrix.of fun i j => (ddiff p (lam i)).eval (th j) * Et i j) y
  rw [hyy, mul_one] at f1
  have f2 : frobSq (Matrix.of fun i j => (ddiff p (lam i)).eval (th j) * Et i j) ≤ L ^ 2 * frobSq E := by
    rw [← frobSq_rotate' E U Y hUU hYY, ← hEt]
    unfold frobSq
    rw [Finset.mul_sum]
    refine Finset.sum_le_sum fun i _ => ?_
    rw [Finset.mul_sum]
    refine Finset.sum_le_sum fun j _ => ?_
    rw [Matrix.of_apply, mul_pow]
    refine mul_le_mul_of_nonneg_right ?_ (sq_nonneg _)
    rw [← sq_abs]
    exact pow_le_pow_left₀ (abs_nonneg _) (ddiff_le p hL (hlam i) (hth j)) 2
  unfold nrm
  rw [← Real.sqrt_sq hL0, ← Real.sqrt_mul (sq_nonneg L)]
  exact Real.sqrt_le_sqrt (f1.trans f2)

end Primate
