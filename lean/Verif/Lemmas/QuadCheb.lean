import Verif.Lemmas.QuadFl

/-! Quadrature with the computed tridiagonal matrix: bounded polynomials and functions. -/

noncomputable section

namespace Primate

open Matrix Polynomial

variable {n k : ℕ} {A : Matrix (Fin n) (Fin n) ℝ} {ε S : ℝ} {α β : ℕ → ℝ} {q : ℕ → Vec n} {r : Vec n}

/-- The affine map from `[a, b]` to `[-1, 1]`. -/
def aff (a b : ℝ) : ℝ[X] := C (2 / (b - a)) * X - C ((a + b) / (b - a))

/-- The affine map from `[-1, 1]` to `[a, b]`. -/
def affInv (a b : ℝ) : ℝ[X] := C ((b - a) / 2) * X + C ((a + b) / 2)

/-- Chebyshev polynomials of the interval `[a, b]`. -/
def cheb (a b : ℝ) (j : ℕ) : ℝ[X] := (Chebyshev.T ℝ j).comp (aff a b)

theorem aff_eval (a b x : ℝ) : (aff a b).eval x = (2 * x - (a + b)) / (b - a) := by
  unfold aff
  simp only [eval_sub, eval_mul, eval_C, eval_X]
  ring

theorem aff_mem {a b : ℝ} (hab : a < b) {x : ℝ} (h1 : a ≤ x) (h2 : x ≤ b) : |(aff a b).eval x| ≤ 1 := by
  have hp : 0 < b - a := sub_pos.2 hab
  rw [aff_eval, abs_div, abs_of_pos hp, div_le_one hp, abs_le]
  constructor <;> linarith

theorem affInv_mem {a b : ℝ} (hab : a < b) {x : ℝ} (h : |x| ≤ 1) : a ≤ (affInv a b).eval x ∧ (affInv a b).eval x ≤ b := by
  have hp : 0 < b - a := sub_pos.2 hab
  obtain ⟨h1, h2⟩ := abs_le.1 h
  unfold affInv
  simp only [eval_add, eval_mul, eval_C, eval_X]
  constructor <;> nlinarith

theorem affInv_comp {a b : ℝ} (hab : a < b) : (affInv a b).comp (aff a b) = X := by
  have hp : b - a ≠ 0 := (sub_pos.2 hab).ne'
  unfold affInv aff
  simp only [add_comp, mul_comp, C_comp, X_comp]
  rw [mul_sub, ← mul_assoc, ← C_mul, ← C_mul]
  have e1 : (b - a) / 2 * (2 / (b - a)) = 1 := by field_simp
  have e2 : (b - a) / 2 * ((a + b) / (b - a)) = (a + b) / 2 := by field_simp
  rw [e1, e2, C_1]
  ring

theorem aff_natDegree (a b : ℝ) : (aff a b).natDegree ≤ 1 := by
  unfold aff
  exact (natDegree_sub_le _ _).trans (max_le ((natDegree_C_mul_le _ _).trans natDegree_X_le) (by rw [natDegree_C]; norm_num))

theorem affInv_natDegree (a b : ℝ) : (affInv a b).natDegree ≤ 1 := by
  unfold affInv
  exact (natDegree_add_le _ _).trans (max_le ((natDegree_C_mul_le _ _).trans natDegree_X_le) (by rw [natDegree_C]; norm_num))

theorem cheb_natDegree (a b : ℝ) (j : ℕ) : (cheb a b j).natDegree ≤ j := by
  unfold cheb
  refine natDegree_comp_le.trans ?_
  rw [Chebyshev.natDegree_T, Int.natAbs_natCast]
  exact (Nat.mul_le_mul_left j (aff_natDegree a b)).trans (by rw [mul_one])

theorem cheb_le {a b : ℝ} (hab : a < b) (j : ℕ) (x : ℝ) (h1 : a ≤ x) (h2 : x ≤ b) : |(cheb a b j).eval x| ≤ 1 := by
  unfold cheb
  rw [eval_comp]
  exact Chebyshev.abs_eval_T_real_le_one j (aff_mem hab h1 h2)

theorem cheb_deriv {a b : ℝ} (hab : a < b) (j : ℕ) (x : ℝ) (h1 : a ≤ x) (h2 : x ≤ b) : |(derivative (cheb a b j)).eval x| ≤ (j : ℝ) ^ 2 * (2 / (b - a)) := by
  have hp : 0 < b - a := sub_pos.2 hab
  unfold cheb
  rw [derivative_comp, eval_mul, eval_comp, abs_mul, mul_comm]
  have e : derivative (aff a b) = C (2 / (b - a)) := by
    unfold aff
    simp
  have h3 : 0 < 2 / (b - a) := div_pos two_pos hp
  rw [e, eval_C, abs_of_pos h3]
  exact mul_le_mul_of_nonneg_right (cheb_deriv_le j (aff_mem hab h1 h2)) h3.le

theorem cheb_mul (a b : ℝ) (m l : ℕ) (h : l ≤ m) : 2 * (cheb a b m * cheb a b l) = cheb a b (m + l) + cheb a b (m - l) := by
  unfold cheb
  have h1 := Chebyshev.T_mul_T (R := ℝ) m l
  have h2 := congrArg (fun p => p.comp (aff a b)) h1
  simp only [mul_comp, add_comp, ofNat_comp] at h2
  rw [← mul_assoc]
  push_cast [h]
  exact h2

theorem cheb_zero (a b : ℝ) : cheb a b 0 = 1 := by
  unfold cheb
  simp

/-- Bounded polynomials as combinations of Chebyshev polynomials of `[a, b]`. -/
theorem cheb_expand' {a b : ℝ} (hab : a < b) (g : ℝ[X]) (N : ℕ) (hg : g.natDegree < N) {G : ℝ} (hG : ∀ x, a ≤ x → x ≤ b → |g.eval x| ≤ G) :
    ∃ c : ℕ → ℝ, g = ∑ j ∈ Finset.range N, c j • cheb a b j ∧ ∀ j < N, |c j| ≤ 2 * G := by
  obtain ⟨c, h1, h2⟩ := cheb_expand (g.comp (affInv a b)) N (by
    refine lt_of_le_of_lt (natDegree_comp_le.trans (Nat.mul_le_mul_left _ (affInv_natDegree a b))) ?_
    rwa [mul_one]) (G := G) (fun x hx => by
    rw [eval_comp]
    obtain ⟨h1, h2⟩ := affInv_mem hab hx
    exact hG _ h1 h2)
  refine ⟨c, ?_, h2⟩
  have h3 := congrArg (fun p => p.comp (aff a b)) h1
  rw [comp_assoc, affInv_comp hab, comp_X, sum_comp] at h3
  rw [h3]
  refine Finset.sum_congr rfl fun j _ => ?_
  rw [smul_comp]
  rfl

theorem quadErr_add (T : Matrix (Fin k) (Fin k) ℝ) (hk : 0 < k) (q0 : Vec n) (f g : ℝ[X]) : quadErr A T hk q0 (f + g) = quadErr A T hk q0 f + quadErr A T hk q0 g := by
  unfold quadErr
  rw [map_add, map_add, add_mulVec, add_mulVec, dotProduct_add, Pi.add_apply]
  ring

theorem quadErr_smul (T : Matrix (Fin k) (Fin k) ℝ) (hk : 0 < k) (q0 : Vec n) (c : ℝ) (f : ℝ[X]) : quadErr A T hk q0 (c • f) = c * quadErr A T hk q0 f := by
  unfold quadErr
  rw [map_smul, map_smul, smul_mulVec, smul_mulVec, dotProduct_smul, Pi.smul_apply, smul_eq_mul, smul_eq_mul]
  ring

theorem quadErr_sum (T : Matrix (Fin k) (Fin k) ℝ) (hk : 0 < k) (q0 : Vec n) (s : Finset ℕ) (c : ℕ → ℝ) (f : ℕ → ℝ[X]) :
    quadErr A T hk q0 (∑ j ∈ s, c j • f j) = ∑ j ∈ s, c j * quadErr A T hk q0 (f j) := by
  induction s using Finset.induction_on with
  | empty =>
    simp [quadErr]
  | insert j s hj ih => rw [Finset.sum_insert hj, Finset.sum_insert hj, quadErr_add, quadErr_smul, ih]

/-- The hypotheses about the eigenvalues. -/
structure InRange (A : Matrix (Fin n) (Fin n) ℝ) (T : Matrix (Fin k) (Fin k) ℝ) (a b : ℝ) (lam : Fin n → ℝ) (U : Matrix (Fin n) (Fin n) ℝ) (th : Fin k → ℝ)
    (Y : Matrix (Fin k) (Fin k) ℝ) : Prop where
  hU : IsEigh A lam U
  hY : IsEigh T th Y
  hlam : ∀ i, a ≤ lam i ∧ lam i ≤ b
  hth : ∀ j, a ≤ th j ∧ th j ≤ b

variable {a b : ℝ} {lam : Fin n → ℝ} {U : Matrix (Fin n) (Fin n) ℝ} {th : Fin k → ℝ} {Y : Matrix (Fin k) (Fin k) ℝ}

theorem NearS.quad_cheb (h : NearS A ε S k α β q r) (hA : A.IsSymm) (h0 : 0 ≤ ε) (h1 : ε ≤ 1 / 100) (hS : 0 ≤ S) (hk : 0 < k) (hab : a < b)
    (hr : InRange A (jac α β k) a b lam U th Y) (j : ℕ) (hj : j + 2 ≤ 2 * k) :
    |quadErr A (jac α β k) hk (q 0) (cheb a b j)| ≤ 33 * ε + 496 * k ^ 3 * (ε * S) / (b - a) := by
  have hp : 0 < b - a := sub_pos.2 hab
  have eS : 0 ≤ ε * S := mul_nonneg h0 hS
  have prod : ∀ m l : ℕ, m < k → l < k → |quadErr A (jac α β k) hk (q 0) (cheb a b m * cheb a b l)| ≤
      11 * ε + 62 * k * (ε * S) * ((m : ℝ) ^ 2 * (2 / (b - a)) + (l : ℝ) ^ 2 * (2 / (b - a))) := by
    intro m l hm hl
    exact h.quad_mul hA h0 h1 hS hk hr.hU hr.hY hr.hlam hr.hth (cheb a b m) (cheb a b l) ((cheb_natDegree a b m).trans_lt hm)
      ((cheb_natDegree a b l).trans_lt hl) (cheb_deriv hab m) (cheb_deriv hab l) (cheb_le hab m) (cheb_le hab l)
  obtain ⟨l, d, hd, rfl⟩ : ∃ l d : ℕ, d ≤ 1 ∧ j = (l + d) + l := ⟨j / 2, j % 2, by omega, by omega⟩
  have hm : l + d < k := by omega
  have hl : l < k := by omega
  have e1 := cheb_mul a b (l + d) l (by omega)
  rw [Nat.add_sub_cancel_left] at e1
  have e2 := congrArg (quadErr A (jac α β k) hk (q 0)) e1
  rw [quadErr_add, show (2 : ℝ[X]) * (cheb a b (l + d) * cheb a b l) = (2 : ℝ) • (cheb a b (l + d) * cheb a b l) by
    rw [smul_eq_C_mul]; rfl, quadErr_smul] at e2
  have p1 := prod (l + d) l hm hl
  have p2 := prod d 0 (by omega) hk
  rw [cheb_zero, mul_one] at p2
  have e3 : quadErr A (jac α β k) hk (q 0) (cheb a b (l + d + l)) = 2 * quadErr A (jac α β k) hk (q 0) (cheb a b (l + d) * cheb a b l) -
      quadErr A (jac α β k) hk (q 0) (cheb a b d) := by linarith
  rw [e3]
  refine (abs_sub _ _).trans ?_
  rw [abs_mul, abs_two]
  have kr : (1 : ℝ) ≤ k := by exact_mod_cast hk
  have c1 : ((l + d : ℕ) : ℝ) ≤ k - 1 := by
    have : ((l + d : ℕ) : ℝ) + 1 ≤ k := by exact_mod_cast hm
    linarith
  have c2 : (l : ℝ) ≤ k - 1 := by
    have : (l : ℝ) + 1 ≤ k := by exact_mod_cast hl
    linarith
  have c3 : (d : ℝ) ≤ 1 := by exact_mod_cast hd
  have q1 : ((l + d : ℕ) : ℝ) ^ 2 ≤ ((k : ℝ) - 1) ^ 2 := pow_le_pow_left₀ (Nat.cast_nonneg _) c1 2
  have q2 : (l : ℝ) ^ 2 ≤ ((k : ℝ) - 1) ^ 2 := pow_le_pow_left₀ (Nat.cast_nonneg _) c2 2
  have q3 : (d : ℝ) ^ 2 ≤ 1 := by
    have := pow_le_pow_left₀ (Nat.cast_nonneg d) c3 2
    simpa using this
  have q4 : 2 * (((l + d : ℕ) : ℝ) ^ 2 + (l : ℝ) ^ 2) + (d : ℝ) ^ 2 ≤ 4 * (k : ℝ) ^ 2 := by nlinarith
  have q5 : 0 ≤ 124 * k * (ε * S) / (b - a) := by positivity
  have q6 := mul_le_mul_of_nonneg_left q4 q5
  have e4 : 2 * (11 * ε + 62 * k * (ε * S) * (((l + d : ℕ) : ℝ) ^ 2 * (2 / (b - a)) + (l : ℝ) ^ 2 * (2 / (b - a)))) +
      (11 * ε + 62 * k * (ε * S) * ((d : ℝ) ^ 2 * (2 / (b - a)) + ((0 : ℕ) : ℝ) ^ 2 * (2 / (b - a)))) =
      33 * ε + 124 * k * (ε * S) / (b - a) * (2 * (((l + d : ℕ) : ℝ) ^ 2 + (l : ℝ) ^ 2) + (d : ℝ) ^ 2) := by
    rw [Nat.cast_zero]
    ring
  have e5 : 124 * k * (ε * S) / (b - a) * (4 * (k : ℝ) ^ 2) = 496 * k ^ 3 * (ε * S) / (b - a) := by ring
  rw [e5] at q6
  linarith

/-- Bounded polynomials of degree at most `2 k - 2`. -/
theorem NearS.quad_bounded (h : NearS A ε S k α β q r) (hA : A.IsSymm) (h0 : 0 ≤ ε) (h1 : ε ≤ 1 / 100) (hS : 0 ≤ S) (hk : 0 < k) (hab : a < b)
    (hr : InRange A (jac α β k) a b lam U th Y) (g : ℝ[X]) (hg : g.natDegree + 2 ≤ 2 * k) {G : ℝ} (hG : ∀ x, a ≤ x → x ≤ b → |g.eval x| ≤ G) :
    |quadErr A (jac α β k) hk (q 0) g| ≤ 4 * k * G * (33 * ε + 496 * k ^ 3 * (ε * S) / (b - a)) := by
  have hp : 0 < b - a := sub_pos.2 hab
  have eS : 0 ≤ ε * S := mul_nonneg h0 hS
  have hG0 : 0 ≤ G := (abs_nonneg _).trans (hG a le_rfl hab.le)
  obtain ⟨c, hc1, hc2⟩ := cheb_expand' hab g (2 * k - 1) (by omega) hG
  rw [hc1, quadErr_sum]
  refine (Finset.abs_sum_le_sum_abs _ _).trans ?_
  set W := 33 * ε + 496 * k ^ 3 * (ε * S) / (b - a) with hW
  have hW0 : 0 ≤ W := by positivity
  calc ∑ j ∈ Finset.range (2 * k - 1), |c j * quadErr A (jac α β k) hk (q 0) (cheb a b j)| ≤ ∑ _j ∈ Finset.range (2 * k - 1), 2 * G * W := by
        refine Finset.sum_le_sum fun j hj => ?_
        have hj' := Finset.mem_range.1 hj
        rw [abs_mul]
        exact mul_le_mul (hc2 j hj') (h.quad_cheb hA h0 h1 hS hk hab hr j (by omega)) (abs_nonneg _) (by positivity)
    _ = ((2 * k - 1 : ℕ) : ℝ) * (2 * G * W) := by rw [Finset.sum_const, Finset.card_range, nsmul_eq_mul]
    _ ≤ (2 * k : ℝ) * (2 * G * W) := by
        refine mul_le_mul_of_nonneg_right ?_ (by positivity)
        exact_mod_cast Nat.sub_le (2 * k) 1
    _ = 4 * k * G * W := by ring

/-- Bounded polynomials of degree below `k`. -/
theorem NearS.apply_bounded (h : NearS A ε S k α β q r) (h0 : 0 ≤ ε) (hS : 0 ≤ S) (hk : 0 < k) (hab : a < b)
    (hr : InRange A (jac α β k) a b lam U th Y) (g : ℝ[X]) (hg : g.natDegree < k) {G : ℝ} (hG : ∀ x, a ≤ x → x ≤ b → |g.eval x| ≤ G) :
    nrm (aeval A g *ᵥ q 0 - comb (fun j : Fin k => q j) (aeval (jac α β k) g *ᵥ (Pi.single ⟨0, hk⟩ 1 : Vec k))) ≤ 52 * k ^ 4 * G * (ε * S) / (b - a) := by
  have hp : 0 < b - a := sub_pos.2 hab
  have eS : 0 ≤ ε * S := mul_nonneg h0 hS
  have hG0 : 0 ≤ G := (abs_nonneg _).trans (hG a le_rfl hab.le)
  obtain ⟨c, hc1, hc2⟩ := cheb_expand' hab g k hg hG
  set e : Vec k := Pi.single ⟨0, hk⟩ 1 with he
  have kr : (1 : ℝ) ≤ k := by exact_mod_cast hk
  have sk : Real.sqrt k ≤ k := by
    apply Real.sqrt_le_iff.2
    exact ⟨by linarith, by nlinarith⟩
  have e1 : aeval A g *ᵥ q 0 - comb (fun j : Fin k => q j) (aeval (jac α β k) g *ᵥ e) =
      ∑ j ∈ Finset.range k, c j • (aeval A (cheb a b j) *ᵥ q 0 - comb (fun j : Fin k => q j) (aeval (jac α β k) (cheb a b j) *ᵥ e)) := by
    rw [← cols_mulVec, hc1, map_sum, map_sum, sum_mulVec, sum_mulVec, mulVec_sum, ← Finset.sum_sub_distrib]
    refine Finset.sum_congr rfl fun j _ => ?_
    rw [map_smul, map_smul, smul_mulVec, smul_mulVec, mulVec_smul, ← smul_sub, cols_mulVec]
  rw [e1]
  refine (nrm_sum_le _ _).trans ?_
  calc ∑ j ∈ Finset.range k, nrm (c j • (aeval A (cheb a b j) *ᵥ q 0 - comb (fun j : Fin k => q j) (aeval (jac α β k) (cheb a b j) *ᵥ e)))
      ≤ ∑ _j ∈ Finset.range k, 2 * G * ((k : ℝ) ^ 2 * (2 / (b - a)) * (13 * k * (ε * S))) := by
        refine Finset.sum_le_sum fun j hj => ?_
        have hj' := Finset.mem_range.1 hj
        rw [nrm_smul]
        refine mul_le_mul (hc2 j hj') ?_ (nrm_nonneg _) (by positivity)
        refine (h.apply_poly h0 hS hk hr.hU hr.hY (cheb a b j) ((cheb_natDegree a b j).trans_lt hj') (cheb_deriv hab j) hr.hlam hr.hth).trans ?_
        have jk : (j : ℝ) ≤ k := by exact_mod_cast hj'.le
        have j2 : (j : ℝ) ^ 2 ≤ (k : ℝ) ^ 2 := pow_le_pow_left₀ (Nat.cast_nonneg _) jk 2
        refine mul_le_mul (mul_le_mul_of_nonneg_right j2 (by positivity)) ?_ (by positivity) (by positivity)
        refine mul_le_mul_of_nonneg_right ?_ eS
        linarith
    _ = 52 * k ^ 4 * G * (ε * S) / (b - a) := by
        rw [Finset.sum_const, Finset.card_range, nsmul_eq_mul]
        ring

/-- From the polynomial of the computed matrix to the function of `A`: quadratic forms. -/
theorem NearS.quad_fun (h : NearS A ε S k α β q r) (hA : A.IsSymm) (h0 : 0 ≤ ε) (h1 : ε ≤ 1 / 100) (hS : 0 ≤ S) (hk : 0 < k) (hab : a < b)
    (hr : InRange A (jac α β k) a b lam U th Y) (f : ℝ → ℝ) (g : ℝ[X]) (hg : g.natDegree + 2 ≤ 2 * k) {Φ η : ℝ}
    (hΦ : ∀ x, a ≤ x → x ≤ b → |f x| ≤ Φ) (hη : ∀ x, a ≤ x → x ≤ b → |f x - g.eval x| ≤ η) (x : Vec n) (hx : nrm x = 1) (hxq : nrm (q 0 - x) ≤ 5 * ε) :
    |(aeval (jac α β k) g *ᵥ (Pi.single ⟨0, hk⟩ 1 : Vec k)) ⟨0, hk⟩ - x ⬝ᵥ (Spec.matFun lam U f *ᵥ x)| ≤
      1.15 * η + 11 * ε * Φ + 4 * k * (Φ + η) * (33 * ε + 496 * k ^ 3 * (ε * S) / (b - a)) := by
  have hΦ0 : 0 ≤ Φ := (abs_nonneg _).trans (hΦ a le_rfl hab.le)
  have hη0 : 0 ≤ η := (abs_nonneg _).trans (hη a le_rfl hab.le)
  have hG : ∀ x, a ≤ x → x ≤ b → |g.eval x| ≤ Φ + η := by
    intro x h2 h3
    have h4 := hΦ x h2 h3
    have h5 := hη x h2 h3
    have e : g.eval x = f x - (f x - g.eval x) := by ring
    rw [e]
    exact (abs_sub _ _).trans (by linarith)
  have hq := h.quad_bounded hA h0 h1 hS hk hab hr g hg hG
  have hq0 : nrm (q 0) ≤ 1.05 := by
    have := (abs_le.1 (h.unit 0 hk)).2
    linarith
  have b2 : |q 0 ⬝ᵥ (aeval A g *ᵥ q 0) - q 0 ⬝ᵥ (Spec.matFun lam U f *ᵥ q 0)| ≤ 1.15 * η := by
    rw [← hr.hU.matFun_poly, hr.hU.quad_sum, hr.hU.quad_sum, ← Finset.sum_sub_distrib]
    calc |∑ j, (g.eval (lam j) * (Uᵀ *ᵥ q 0) j ^ 2 - f (lam j) * (Uᵀ *ᵥ q 0) j ^ 2)| ≤ ∑ j, |g.eval (lam j) * (Uᵀ *ᵥ q 0) j ^ 2 - f (lam j) * (Uᵀ *ᵥ q 0) j ^ 2| :=
          Finset.abs_sum_le_sum_abs _ _
      _ ≤ ∑ j, η * (Uᵀ *ᵥ q 0) j ^ 2 := by
          refine Finset.sum_le_sum fun j _ => ?_
          rw [← sub_mul, abs_mul, abs_of_nonneg (sq_nonneg ((Uᵀ *ᵥ q 0) j)), abs_sub_comm]
          exact mul_le_mul_of_nonneg_right (hη _ (hr.hlam j).1 (hr.hlam j).2) (sq_nonneg _)
      _ = η * (nrm (q 0) * nrm (q 0)) := by rw [← Finset.mul_sum, hr.hU.norm_sum, nrm_sq]
      _ ≤ η * (1.05 * 1.05) := mul_le_mul_of_nonneg_left (mul_self_le_mul_self (nrm_nonneg _) hq0) hη0
      _ ≤ 1.15 * η := by linarith
  have b3 : |q 0 ⬝ᵥ (Spec.matFun lam U f *ᵥ q 0) - x ⬝ᵥ (Spec.matFun lam U f *ᵥ x)| ≤ 11 * ε * Φ := by
    have e1 : q 0 ⬝ᵥ (Spec.matFun lam U f *ᵥ q 0) - x ⬝ᵥ (Spec.matFun lam U f *ᵥ x) =
        (q 0 - x) ⬝ᵥ (Spec.matFun lam U f *ᵥ q 0) + x ⬝ᵥ (Spec.matFun lam U f *ᵥ (q 0 - x)) := by
      rw [sub_dotProduct, mulVec_sub, dotProduct_sub]
      ring
    rw [e1]
    have s1 := spectral_le hr.hU f hΦ0 (fun i => hΦ _ (hr.hlam i).1 (hr.hlam i).2) (q 0)
    have s2 := spectral_le hr.hU f hΦ0 (fun i => hΦ _ (hr.hlam i).1 (hr.hlam i).2) (q 0 - x)
    have t1 := abs_dot_le (q 0 - x) (Spec.matFun lam U f *ᵥ q 0)
    have t2 := abs_dot_le x (Spec.matFun lam U f *ᵥ (q 0 - x))
    have t3 : nrm (q 0 - x) * nrm (Spec.matFun lam U f *ᵥ q 0) ≤ 5 * ε * (Φ * 1.05) :=
      mul_le_mul hxq (s1.trans (mul_le_mul_of_nonneg_left hq0 hΦ0)) (nrm_nonneg _) (by positivity)
    have t4 : nrm x * nrm (Spec.matFun lam U f *ᵥ (q 0 - x)) ≤ 1 * (Φ * (5 * ε)) := by
      rw [hx]
      exact mul_le_mul_of_nonneg_left (s2.trans (mul_le_mul_of_nonneg_left hxq hΦ0)) (by norm_num)
    have t5 := abs_add_le ((q 0 - x) ⬝ᵥ (Spec.matFun lam U f *ᵥ q 0)) (x ⬝ᵥ (Spec.matFun lam U f *ᵥ (q 0 - x)))
    have t6 : 0 ≤ ε * Φ := mul_nonneg h0 hΦ0
    linarith
  unfold quadErr at hq
  obtain ⟨u3, u4⟩ := abs_le.1 b2
  obtain ⟨u5, u6⟩ := abs_le.1 b3
  obtain ⟨u7, u8⟩ := abs_le.1 hq
  rw [abs_le]
  constructor <;> linarith

/-- From the polynomial of the computed matrix to the function of `A`: products with vectors. -/
theorem NearS.apply_fun (h : NearS A ε S k α β q r) (h0 : 0 ≤ ε) (h1 : ε ≤ 1 / 100) (hS : 0 ≤ S) (hk : 0 < k) (hab : a < b)
    (hr : InRange A (jac α β k) a b lam U th Y) (f : ℝ → ℝ) (g : ℝ[X]) (hg : g.natDegree < k) {Φ η : ℝ}
    (hΦ : ∀ x, a ≤ x → x ≤ b → |f x| ≤ Φ) (hη : ∀ x, a ≤ x → x ≤ b → |f x - g.eval x| ≤ η) (x : Vec n) (hxq : nrm (q 0 - x) ≤ 5 * ε) :
    nrm (comb (fun j : Fin k => q j) (aeval (jac α β k) g *ᵥ (Pi.single ⟨0, hk⟩ 1 : Vec k)) - Spec.matFun lam U f *ᵥ x) ≤
      1.05 * η + 5 * ε * Φ + 52 * k ^ 4 * (Φ + η) * (ε * S) / (b - a) := by
  have hΦ0 : 0 ≤ Φ := (abs_nonneg _).trans (hΦ a le_rfl hab.le)
  have hη0 : 0 ≤ η := (abs_nonneg _).trans (hη a le_rfl hab.le)
  have hG : ∀ x, a ≤ x → x ≤ b → |g.eval x| ≤ Φ + η := by
    intro x h2 h3
    have h4 := hΦ x h2 h3
    have h5 := hη x h2 h3
    have e : g.eval x = f x - (f x - g.eval x) := by ring
    rw [e]
    exact (abs_sub _ _).trans (by linarith)
  have hq := h.apply_bounded h0 hS hk hab hr g hg hG
  have hq0 : nrm (q 0) ≤ 1.05 := by
    have := (abs_le.1 (h.unit 0 hk)).2
    linarith
  set e : Vec k := Pi.single ⟨0, hk⟩ 1 with he
  have msub : ∀ {m : ℕ} (w : Fin m → ℝ) (V : Matrix (Fin m) (Fin m) ℝ) (u v : ℝ → ℝ), Spec.matFun w V u - Spec.matFun w V v = Spec.matFun w V fun x => u x - v x := by
    intro m w V u v
    unfold Spec.matFun
    rw [← Matrix.sub_mul, ← Matrix.mul_sub, diagonal_sub]
  have b2 : nrm (aeval A g *ᵥ q 0 - Spec.matFun lam U f *ᵥ q 0) ≤ 1.05 * η := by
    rw [nrm_sub_comm, ← sub_mulVec, ← hr.hU.matFun_poly, msub]
    have := spectral_le hr.hU (fun x => f x - g.eval x) hη0 (fun i => hη _ (hr.hlam i).1 (hr.hlam i).2) (q 0)
    have h2 := mul_le_mul_of_nonneg_left hq0 hη0
    linarith
  have b3 : nrm (Spec.matFun lam U f *ᵥ q 0 - Spec.matFun lam U f *ᵥ x) ≤ 5 * ε * Φ := by
    rw [← mulVec_sub]
    have := spectral_le hr.hU f hΦ0 (fun i => hΦ _ (hr.hlam i).1 (hr.hlam i).2) (q 0 - x)
    have h2 := mul_le_mul_of_nonneg_left hxq hΦ0
    linarith
  rw [nrm_sub_comm] at hq
  set z2 := comb (fun j : Fin k => q j) (aeval (jac α β k) g *ᵥ e)
  set z3 := aeval A g *ᵥ q 0
  set z4 := Spec.matFun lam U f *ᵥ q 0
  set z5 := Spec.matFun lam U f *ᵥ x
  have e1 : z2 - z5 = (z2 - z3) + ((z3 - z4) + (z4 - z5)) := by abel
  rw [e1]
  have t2 := nrm_add_le (z2 - z3) ((z3 - z4) + (z4 - z5))
  have t3 := nrm_add_le (z3 - z4) (z4 - z5)
  linarith

end Primate
