import Verif.Lemmas.JacForm

/-! The matrix handed to the eigenvalue solver: the computed tridiagonal matrix, filled up after a breakdown with what the arrays contained, and the backward error of the solver. -/

noncomputable section

namespace Primate

open Matrix Polynomial

variable {m k : ℕ}

theorem frob_add_le {p q : ℕ} (P R : Matrix (Fin p) (Fin q) ℝ) : Real.sqrt (frobSq (P + R)) ≤ Real.sqrt (frobSq P) + Real.sqrt (frobSq R) := by
  have cs : (∑ i, ∑ j, P i j * R i j) ^ 2 ≤ frobSq P * frobSq R := by
    unfold frobSq
    simp only [← Finset.sum_product']
    exact Finset.sum_mul_sq_le_sq_mul_sq _ (fun x : Fin p × Fin q => P x.1 x.2) (fun x : Fin p × Fin q => R x.1 x.2)
  have c2 : ∑ i, ∑ j, P i j * R i j ≤ Real.sqrt (frobSq P) * Real.sqrt (frobSq R) := by
    rw [← Real.sqrt_mul (frobSq_nonneg P)]
    exact (le_abs_self _).trans (by rw [← Real.sqrt_sq_eq_abs]; exact Real.sqrt_le_sqrt cs)
  have e : frobSq (P + R) = frobSq P + 2 * (∑ i, ∑ j, P i j * R i j) + frobSq R := by
    unfold frobSq
    simp only [Finset.mul_sum, ← Finset.sum_add_distrib]
    refine Finset.sum_congr rfl fun i _ => Finset.sum_congr rfl fun j _ => ?_
    rw [Matrix.add_apply]
    ring
  apply Real.sqrt_le_iff.2
  refine ⟨by positivity, ?_⟩
  rw [e]
  have h1 := Real.sq_sqrt (frobSq_nonneg P)
  have h2 := Real.sq_sqrt (frobSq_nonneg R)
  nlinarith

theorem frob_mulVec_le {p q : ℕ} (X : Matrix (Fin p) (Fin q) ℝ) (v : Vec q) : nrm (X *ᵥ v) ≤ Real.sqrt (frobSq X) * nrm v := by
  unfold nrm
  rw [← Real.sqrt_mul (frobSq_nonneg X)]
  exact Real.sqrt_le_sqrt (frobSq_mulVec X v)

/-- Polynomials of two matrices connected by `A X = X T + E`. -/
theorem lip_poly {n : ℕ} {A : Matrix (Fin n) (Fin n) ℝ} {lam : Fin n → ℝ} {U : Matrix (Fin n) (Fin n) ℝ} (hA : IsEigh A lam U) {T : Matrix (Fin k) (Fin k) ℝ}
    {th : Fin k → ℝ} {Y : Matrix (Fin k) (Fin k) ℝ} (hT : IsEigh T th Y) (X : Matrix (Fin n) (Fin k) ℝ) (p : ℝ[X]) {a b L : ℝ} (hL0 : 0 ≤ L)
    (hL : ∀ x, a ≤ x → x ≤ b → |(derivative p).eval x| ≤ L) (hlam : ∀ i, a ≤ lam i ∧ lam i ≤ b) (hth : ∀ j, a ≤ th j ∧ th j ≤ b) (y : Vec k) :
    nrm (aeval A p *ᵥ (X *ᵥ y) - X *ᵥ (aeval T p *ᵥ y)) ≤ L * Real.sqrt (frobSq (A * X - X * T)) * nrm y := by
  have hUU := hA.mul_transpose
  have hYY := hT.mul_transpose
  set G := Uᵀ * X * Y with hG
  have hsymU : ∀ g : ℝ → ℝ, Uᵀ * Spec.matFun lam U g = diagonal (fun i => g (lam i)) * Uᵀ := by
    intro g
    unfold Spec.matFun
    rw [← Matrix.mul_assoc, ← Matrix.mul_assoc, hA.1, Matrix.one_mul]
  have hsymY : ∀ g : ℝ → ℝ, Spec.matFun th Y g * Y = Y * diagonal (fun i => g (th i)) := by
    intro g
    unfold Spec.matFun
    rw [Matrix.mul_assoc, hT.1, Matrix.mul_one]
  have conj : ∀ q : ℝ[X], ∀ i j, (Uᵀ * (aeval A q * X - X * aeval T q) * Y) i j = (q.eval (lam i) - q.eval (th j)) * G i j := by
    intro q i j
    have e1 : Uᵀ * (aeval A q * X - X * aeval T q) * Y = diagonal (fun i => q.eval (lam i)) * G - G * diagonal (fun i => q.eval (th i)) := by
      rw [← hA.matFun_poly, ← hT.matFun_poly, Matrix.mul_sub, Matrix.sub_mul]
      congr 1
      · rw [← Matrix.mul_assoc, hsymU, hG]
        simp only [Matrix.mul_assoc]
      · rw [Matrix.mul_assoc, Matrix.mul_assoc, hsymY, hG]
        simp only [Matrix.mul_assoc]
    rw [e1, Matrix.sub_apply, diagonal_mul, mul_diagonal]
    ring
  have hfrob : frobSq (aeval A p * X - X * aeval T p) ≤ L ^ 2 * frobSq (A * X - X * T) := by
    rw [← frobSq_rotate' (aeval A p * X - X * aeval T p) U Y hUU hYY, ← frobSq_rotate' (A * X - X * T) U Y hUU hYY]
    unfold frobSq
    rw [Finset.mul_sum]
    refine Finset.sum_le_sum fun i _ => ?_
    rw [Finset.mul_sum]
    refine Finset.sum_le_sum fun j _ => ?_
    have h1 := conj Polynomial.X i j
    rw [aeval_X, aeval_X, eval_X, eval_X] at h1
    rw [conj, h1]
    have h2 := ddiff_eval p (th j) (lam i)
    have h3 := ddiff_le p hL (hth j) (hlam i)
    rw [h2]
    have h4 : (eval (lam i) (ddiff p (th j))) ^ 2 ≤ L ^ 2 := by
      rw [← sq_abs (eval _ _)]
      exact pow_le_pow_left₀ (abs_nonneg _) h3 2
    calc ((lam i - th j) * eval (lam i) (ddiff p (th j)) * G i j) ^ 2 = (eval (lam i) (ddiff p (th j))) ^ 2 * ((lam i - th j) * G i j) ^ 2 := by ring
      _ ≤ L ^ 2 * ((lam i - th j) * G i j) ^ 2 := mul_le_mul_of_nonneg_right h4 (sq_nonneg _)
  have e2 : aeval A p *ᵥ (X *ᵥ y) - X *ᵥ (aeval T p *ᵥ y) = (aeval A p * X - X * aeval T p) *ᵥ y := by
    rw [sub_mulVec, mulVec_mulVec, mulVec_mulVec]
  rw [e2]
  refine (frob_mulVec_le _ y).trans (mul_le_mul_of_nonneg_right ?_ (nrm_nonneg y))
  refine (Real.sqrt_le_sqrt hfrob).trans ?_
  rw [Real.sqrt_mul (sq_nonneg L), Real.sqrt_sq hL0]

/-- The derivative of a bounded polynomial. -/
theorem deriv_bounded {a b : ℝ} (hab : a < b) (g : ℝ[X]) (N : ℕ) (hg : g.natDegree < N) {G : ℝ} (hG : ∀ x, a ≤ x → x ≤ b → |g.eval x| ≤ G) (x : ℝ)
    (h1 : a ≤ x) (h2 : x ≤ b) : |(derivative g).eval x| ≤ 4 * N ^ 3 * G / (b - a) := by
  have hp : 0 < b - a := sub_pos.2 hab
  have hG0 : 0 ≤ G := (abs_nonneg _).trans (hG a le_rfl hab.le)
  obtain ⟨c, hc1, hc2⟩ := cheb_expand' hab g N hg hG
  rw [hc1, map_sum, eval_finsetSum]
  refine (Finset.abs_sum_le_sum_abs _ _).trans ?_
  calc ∑ j ∈ Finset.range N, |eval x (derivative (c j • cheb a b j))| ≤ ∑ _j ∈ Finset.range N, 2 * G * ((N : ℝ) ^ 2 * (2 / (b - a))) := by
        refine Finset.sum_le_sum fun j hj => ?_
        have hj' := Finset.mem_range.1 hj
        rw [map_smul, eval_smul, smul_eq_mul, abs_mul]
        refine mul_le_mul (hc2 j hj') ((cheb_deriv hab j x h1 h2).trans ?_) (abs_nonneg _) (by positivity)
        have jk : (j : ℝ) ≤ N := by exact_mod_cast hj'.le
        exact mul_le_mul_of_nonneg_right (pow_le_pow_left₀ (Nat.cast_nonneg _) jk 2) (by positivity)
    _ = 4 * N ^ 3 * G / (b - a) := by
        rw [Finset.sum_const, Finset.card_range, nsmul_eq_mul]
        ring

/-- The first `k` columns of the identity matrix. -/
def padX (m k : ℕ) : Matrix (Fin m) (Fin k) ℝ := Matrix.of fun i j => if (i : ℕ) = j then 1 else 0

theorem padX_mulVec (y : Vec k) (i : Fin m) : (padX m k *ᵥ y) i = if h : (i : ℕ) < k then y ⟨i, h⟩ else 0 := by
  simp only [mulVec, dotProduct, padX, Matrix.of_apply, ite_mul, one_mul, zero_mul]
  split_ifs with h
  · rw [Finset.sum_eq_single ⟨i, h⟩]
    · rw [if_pos rfl]
    · intro j _ hj
      rw [if_neg]
      intro he
      exact hj (Fin.ext he.symm)
    · intro h'
      exact absurd (Finset.mem_univ _) h'
  · refine Finset.sum_eq_zero fun j _ => if_neg ?_
    have := j.2
    omega

theorem padX_transpose (hkm : k ≤ m) (y : Vec m) (j : Fin k) : ((padX m k)ᵀ *ᵥ y) j = y ⟨j, j.2.trans_le hkm⟩ := by
  simp only [mulVec, dotProduct, padX, Matrix.transpose_apply, Matrix.of_apply, ite_mul, one_mul, zero_mul]
  rw [Finset.sum_eq_single ⟨j, j.2.trans_le hkm⟩]
  · rw [if_pos rfl]
  · intro i _ hi
    rw [if_neg]
    intro he
    exact hi (Fin.ext he)
  · intro h'
    exact absurd (Finset.mem_univ _) h'

theorem padX_orth (hkm : k ≤ m) : (padX m k)ᵀ * padX m k = 1 := by
  ext i j
  have h := padX_transpose hkm (fun l => padX m k l j) i
  refine h.trans ?_
  rw [padX, Matrix.of_apply, Matrix.one_apply]
  by_cases hij : i = j
  · rw [if_pos hij, if_pos (by rw [hij])]
  · rw [if_neg hij, if_neg]
    intro he
    exact hij (Fin.ext he)

theorem padX_single (hk : 0 < k) (hkm : k ≤ m) : padX m k *ᵥ (Pi.single ⟨0, hk⟩ 1 : Vec k) = Pi.single ⟨0, hk.trans_le hkm⟩ 1 := by
  funext i
  rw [padX_mulVec, Pi.single_apply]
  split_ifs with h1 h2 h2
  · have : (⟨i, h1⟩ : Fin k) = ⟨0, hk⟩ := Fin.ext (by have := congrArg Fin.val h2; exact this)
    rw [this, Pi.single_eq_same]
  · rw [Pi.single_apply, if_neg]
    intro he
    have h3 : (i : ℕ) = 0 := by have := congrArg Fin.val he; exact this
    exact h2 (Fin.ext h3)
  · exfalso
    have := congrArg Fin.val h2
    simp only at this
    omega
  · rfl

/-- `X T Xᵀ`. -/
theorem padX_conj (T : Matrix (Fin k) (Fin k) ℝ) (i j : Fin m) :
    (padX m k * T * (padX m k)ᵀ) i j = if h : (i : ℕ) < k ∧ (j : ℕ) < k then T ⟨i, h.1⟩ ⟨j, h.2⟩ else 0 := by
  have e1 : ∀ l, (padX m k * T) i l = if h : (i : ℕ) < k then T ⟨i, h⟩ l else 0 := fun l => padX_mulVec (fun r => T r l) i
  have e2 : (padX m k * T * (padX m k)ᵀ) i j = (padX m k *ᵥ fun l => (padX m k * T) i l) j := by
    rw [Matrix.mul_apply, mulVec, dotProduct]
    exact Finset.sum_congr rfl fun l _ => by rw [Matrix.transpose_apply, mul_comm]
  rw [e2, padX_mulVec]
  by_cases h1 : (i : ℕ) < k <;> by_cases h2 : (j : ℕ) < k <;> simp [h1, h2, e1]

theorem frob_padX (hkm : k ≤ m) {p : ℕ} (H : Matrix (Fin p) (Fin m) ℝ) : frobSq (H * padX m k) ≤ frobSq H := by
  unfold frobSq
  refine Finset.sum_le_sum fun i _ => ?_
  have e : ∀ j : Fin k, (H * padX m k) i j = H i ⟨j, j.2.trans_le hkm⟩ := by
    intro j
    have := padX_transpose hkm (fun l => H i l) j
    rw [← this, Matrix.mul_apply, mulVec, dotProduct]
    exact Finset.sum_congr rfl fun l _ => by rw [Matrix.transpose_apply, mul_comm]
  simp only [e]
  have inj : Function.Injective fun j : Fin k => (⟨j, j.2.trans_le hkm⟩ : Fin m) := by
    intro x y hxy
    have h3 : (x : ℕ) = y := by have := congrArg Fin.val hxy; exact this
    exact Fin.ext h3
  calc ∑ j : Fin k, H i ⟨j, j.2.trans_le hkm⟩ ^ 2 = ∑ l ∈ Finset.univ.map ⟨_, inj⟩, H i l ^ 2 := by rw [Finset.sum_map]; rfl
    _ ≤ ∑ l, H i l ^ 2 := Finset.sum_le_sum_of_subset_of_nonneg (Finset.subset_univ _) fun _ _ _ => sq_nonneg _

theorem frobSq_single {p q : ℕ} (i : Fin p) (j : Fin q) (c : ℝ) : frobSq (Matrix.single i j c) = c ^ 2 := by
  unfold frobSq
  rw [Finset.sum_eq_single i, Finset.sum_eq_single j]
  · rw [Matrix.single_apply_same]
  · intro l _ hl
    rw [Matrix.single_apply, if_neg (fun h => hl h.2.symm)]
    norm_num
  · intro h; exact absurd (Finset.mem_univ _) h
  · intro l _ hl
    refine Finset.sum_eq_zero fun r _ => ?_
    rw [Matrix.single_apply, if_neg (fun h => hl h.1.symm)]
    norm_num
  · intro h; exact absurd (Finset.mem_univ _) h

/-- What a breakdown after `k` of `m` iterations adds. -/
def padTol (m k : ℕ) (β : ℕ → ℝ) : ℝ := if k = m then 0 else 2 * |β k|

theorem padTol_nonneg (β : ℕ → ℝ) : 0 ≤ padTol m k β := by
  unfold padTol
  split_ifs <;> positivity

/-- The first columns of the large matrix are those of the small one, up to the coupling coefficient. -/
theorem pad_diff (α β : ℕ → ℝ) (hk : 0 < k) (hkm : k ≤ m) :
    Real.sqrt (frobSq (jac α β m * padX m k - padX m k * jac α β k)) ≤ padTol m k β := by
  have e1 : ∀ (i : Fin m) (j : Fin k), (jac α β m * padX m k) i j = jac α β m i ⟨j, j.2.trans_le hkm⟩ := by
    intro i j
    have := padX_transpose hkm (fun l => jac α β m i l) j
    rw [← this, Matrix.mul_apply, mulVec, dotProduct]
    exact Finset.sum_congr rfl fun l _ => by rw [Matrix.transpose_apply, mul_comm]
  have e2 : ∀ (i : Fin m) (j : Fin k), (padX m k * jac α β k) i j = if h : (i : ℕ) < k then jac α β k ⟨i, h⟩ j else 0 :=
    fun i j => padX_mulVec (fun r => jac α β k r j) i
  rcases Nat.lt_or_ge k m with h | h
  · have e : jac α β m * padX m k - padX m k * jac α β k = Matrix.single ⟨k, h⟩ ⟨k - 1, by omega⟩ (β k) := by
      ext i j
      rw [Matrix.sub_apply, e1, e2, Matrix.single_apply]
      simp only [jac, Spec.jacobi, Matrix.of_apply, Fin.ext_iff]
      have hj := j.2
      by_cases h1 : (i : ℕ) < k
      · rw [dif_pos h1, sub_self, if_neg (by omega)]
      · rw [dif_neg h1, sub_zero, if_neg (by omega), if_neg (by omega)]
        by_cases c4 : (j : ℕ) + 1 = i
        · rw [if_pos c4, if_pos (by omega), c4, show (i : ℕ) = k by omega]
        · rw [if_neg c4, if_neg (by omega)]
    rw [e, frobSq_single, Real.sqrt_sq_eq_abs, padTol, if_neg h.ne]
    linarith [abs_nonneg (β k)]
  · obtain rfl : k = m := le_antisymm hkm h
    have e : jac α β k * padX k k - padX k k * jac α β k = 0 := by
      ext i j
      rw [Matrix.sub_apply, e1, e2, dif_pos i.2, sub_self]
      rfl
    rw [e, padTol, if_pos rfl]
    simp [frobSq]

variable {α β : ℕ → ℝ} {F : Matrix (Fin m) (Fin m) ℝ} {δ : ℝ}

theorem pad_total (hk : 0 < k) (hkm : k ≤ m) (hδ : 0 ≤ δ) (hF : frobSq F ≤ δ ^ 2) :
    Real.sqrt (frobSq ((jac α β m + F) * padX m k - padX m k * jac α β k)) ≤ padTol m k β + δ := by
  have e : (jac α β m + F) * padX m k - padX m k * jac α β k = (jac α β m * padX m k - padX m k * jac α β k) + F * padX m k := by
    rw [Matrix.add_mul]
    abel
  rw [e]
  refine (frob_add_le _ _).trans (add_le_add (pad_diff α β hk hkm) ?_)
  rw [← Real.sqrt_sq hδ]
  exact Real.sqrt_le_sqrt ((frob_padX hkm F).trans hF)

/-- The eigenvalues of the large matrix. -/
theorem pad_nodes (hδ : 0 ≤ δ) (hF : frobSq F ≤ δ ^ 2) {th : Fin m → ℝ} {Y : Matrix (Fin m) (Fin m) ℝ} (hY : IsEigh (jac α β m + F) th Y) {lo hi : ℝ}
    (h : FormIn α β m lo hi) (j : Fin m) : lo - δ ≤ th j ∧ th j ≤ hi + δ := by
  have hE := isEigh_iff_eigen.1 hY
  set y : Vec m := fun i => Y i j with hy
  have hy1 : nrm y = 1 := by
    have := congrFun (congrFun hY.1 j) j
    rw [Matrix.mul_apply, Matrix.one_apply_eq] at this
    unfold nrm
    rw [show y ⬝ᵥ y = 1 from this, Real.sqrt_one]
  have hyy : y ⬝ᵥ y = 1 := by rw [← nrm_sq, hy1, mul_one]
  have hval : th j = y ⬝ᵥ ((jac α β m + F) *ᵥ y) := by
    rw [hE.eigen j, dotProduct_smul, hyy, smul_eq_mul, mul_one]
  have hFy : |y ⬝ᵥ (F *ᵥ y)| ≤ δ := by
    refine (abs_dot_le _ _).trans ?_
    rw [hy1, one_mul]
    have := frob_mulVec_le F y
    rw [hy1, mul_one] at this
    refine this.trans ?_
    rw [← Real.sqrt_sq hδ]
    exact Real.sqrt_le_sqrt hF
  obtain ⟨u1, u2⟩ := abs_le.1 hFy
  have hx : y = fun i : Fin m => (fun i : ℕ => if h : i < m then y ⟨i, h⟩ else 0) i := by
    funext i
    simp
  obtain ⟨g1, g2⟩ := h fun i : ℕ => if h : i < m then y ⟨i, h⟩ else 0
  rw [← tform_eq, ← sum_sq_fin, ← hx, hyy, mul_one] at g1
  rw [← tform_eq, ← sum_sq_fin, ← hx, hyy, mul_one] at g2
  rw [hval, add_mulVec, dotProduct_add]
  constructor <;> linarith

/-- Polynomials of the large matrix, applied to the first unit vector. -/
theorem pad_poly (hk : 0 < k) (hkm : k ≤ m) (hδ : 0 ≤ δ) (hF : frobSq F ≤ δ ^ 2)
    {th : Fin m → ℝ} {Y : Matrix (Fin m) (Fin m) ℝ} (hY : IsEigh (jac α β m + F) th Y) {th' : Fin k → ℝ} {Y' : Matrix (Fin k) (Fin k) ℝ}
    (hY' : IsEigh (jac α β k) th' Y') {a b : ℝ} (hth : ∀ j, a ≤ th j ∧ th j ≤ b) (hth' : ∀ j, a ≤ th' j ∧ th' j ≤ b) (p : ℝ[X]) {L : ℝ}
    (hL : ∀ x, a ≤ x → x ≤ b → |(derivative p).eval x| ≤ L) :
    nrm (aeval (jac α β m + F) p *ᵥ (Pi.single ⟨0, hk.trans_le hkm⟩ 1 : Vec m) - padX m k *ᵥ (aeval (jac α β k) p *ᵥ (Pi.single ⟨0, hk⟩ 1 : Vec k))) ≤
      L * (padTol m k β + δ) := by
  have hL0 : 0 ≤ L := (abs_nonneg _).trans (hL (th' ⟨0, hk⟩) (hth' _).1 (hth' _).2)
  have h := lip_poly hY hY' (padX m k) p hL0 hL hth hth' (Pi.single ⟨0, hk⟩ 1 : Vec k)
  rw [padX_single hk hkm, nrm_single_zero, mul_one] at h
  exact h.trans (mul_le_mul_of_nonneg_left (pad_total hk hkm hδ hF) hL0)

end Primate
