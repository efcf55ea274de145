import Verif.Lemmas.LanczosIeee
import Verif.Lemmas.QuadPad
import Verif.Spec.QuadFl

/-! The part of `MatrixFunction.quad` and `MatrixFunction._matvec` after the recurrence, in floating point arithmetic. -/

noncomputable section

namespace Primate

open Matrix Polynomial Spec

variable {n : ℕ} {K : LKernels n} {A : Matrix (Fin n) (Fin n) ℝ} {ε tol S : ℝ} {v : Vec n} {deg k : ℕ} {orth : ℤ} {alpha beta : Buf ℝ} {Q : Buf (Vec n)} {t : LState n}
  {q : ℕ → Vec n}

/-- Rounding errors in the weights and in the sum. -/
theorem wsum_error {E : QKernels n} {ω δ L H : ℝ} {m : ℕ} (hE : QKernelsOk E m ω δ L H) (h0 : 0 ≤ ω) (hm : 0 < m) (h1 : m * ω ≤ 1 / 100) (φ y y' : Fin m → ℝ)
    {Φ : ℝ} (hL : L ≤ Φ) (hH : Φ ≤ H) (hφ : ∀ j, |φ j| ≤ Φ) (hy' : ∑ j, y' j ^ 2 = 1) (hyy : ∀ j, |y j - y' j| ≤ ω) : |E.wsum m φ y - ∑ j, φ j * y' j ^ 2| ≤ 3.1 * m * ω * Φ := by
  have hΦ : 0 ≤ Φ := (abs_nonneg _).trans (hφ ⟨0, hm⟩)
  have mr : (1 : ℝ) ≤ m := by exact_mod_cast hm
  have hω : ω ≤ 1 / 100 := by nlinarith
  have hle : ∀ j, |y' j| ≤ 1 := by
    intro j
    have : y' j ^ 2 ≤ 1 := by
      rw [← hy']
      exact Finset.single_le_sum (f := fun j => y' j ^ 2) (fun i _ => sq_nonneg _) (Finset.mem_univ j)
    exact abs_le_one_iff_mul_self_le_one.2 (by nlinarith)
  have hsq : ∀ j, |y j ^ 2 - y' j ^ 2| ≤ 2.01 * ω := by
    intro j
    have e : y j ^ 2 - y' j ^ 2 = (y j - y' j) * (2 * y' j + (y j - y' j)) := by ring
    rw [e, abs_mul]
    have h2 : |2 * y' j + (y j - y' j)| ≤ 2.01 := by
      refine (abs_add_le _ _).trans ?_
      rw [abs_mul, abs_two]
      have := hle j
      have := hyy j
      linarith
    calc |y j - y' j| * |2 * y' j + (y j - y' j)| ≤ ω * 2.01 := mul_le_mul (hyy j) h2 (abs_nonneg _) h0
      _ = 2.01 * ω := by ring
  have hs : ∑ j, y j ^ 2 ≤ 1 + 2.01 * (m * ω) := by
    have : ∑ j, y j ^ 2 ≤ ∑ j, (y' j ^ 2 + 2.01 * ω) := Finset.sum_le_sum fun j _ => by
      have := (abs_le.1 (hsq j)).2
      linarith
    rw [Finset.sum_add_distrib, hy', Finset.sum_const, Finset.card_univ, Fintype.card_fin, nsmul_eq_mul] at this
    linarith
  have b1 : |E.wsum m φ y - ∑ j, φ j * y j ^ 2| ≤ ω * Φ := hE.wsum φ y Φ hL hH hφ (by linarith)
  have b2 : |∑ j, φ j * y j ^ 2 - ∑ j, φ j * y' j ^ 2| ≤ m * (Φ * (2.01 * ω)) := by
    rw [← Finset.sum_sub_distrib]
    refine (Finset.abs_sum_le_sum_abs _ _).trans ?_
    calc ∑ j, |φ j * y j ^ 2 - φ j * y' j ^ 2| ≤ ∑ _j : Fin m, Φ * (2.01 * ω) := Finset.sum_le_sum fun j _ => by
          rw [← mul_sub, abs_mul]
          exact mul_le_mul (hφ j) (hsq j) (abs_nonneg _) hΦ
      _ = m * (Φ * (2.01 * ω)) := by rw [Finset.sum_const, Finset.card_univ, Fintype.card_fin, nsmul_eq_mul]
  have h3 := abs_sub_le (E.wsum m φ y) (∑ j, φ j * y j ^ 2) (∑ j, φ j * y' j ^ 2)
  have h4 : ω * Φ ≤ m * (ω * Φ) := by
    have := mul_le_mul_of_nonneg_right mr (mul_nonneg h0 hΦ)
    linarith
  nlinarith

/-- Rounding errors in the scaling by the squared norm. -/
theorem scale_error {E : QKernels n} {ω δ L H S Φ : ℝ} {m : ℕ} (hE : QKernelsOk E m ω δ L H) (h0 : 0 ≤ ω) (h1 : ω ≤ 1 / 100) (x : Vec n)
    (hR : QRange L H S Φ (nrm x)) (hΦ : 0 ≤ Φ) (s : ℝ) (hs : |s| ≤ 1.04 * Φ) :
    |s * E.mul (E.norm x) (E.norm x)| ≤ 2 * (nrm x ^ 2 * Φ) ∧ |E.mul s (E.mul (E.norm x) (E.norm x)) - s * nrm x ^ 2| ≤ 4.4 * ω * Φ * nrm x ^ 2 := by
  have hn := hE.norm x hR.nlo (by linarith [hR.nhi, nrm_nonneg x])
  have r3 := hR.n2lo
  have r4 := hR.n2hi
  have r5 := hR.fn2lo
  have r6 := hR.fn2hi
  set c := E.norm x
  set N := nrm x with hN
  have hN0 : 0 ≤ N := nrm_nonneg x
  have c1 : |c| ≤ 1.01 * N := by
    have e : c = N + (c - N) := by ring
    rw [e]
    refine (abs_add_le _ _).trans ?_
    rw [abs_of_nonneg hN0]
    have := mul_le_mul_of_nonneg_right h1 hN0
    linarith
  have c2 : |c * c - N ^ 2| ≤ 2.01 * ω * N ^ 2 := by
    have e : c * c - N ^ 2 = (c - N) * (2 * N + (c - N)) := by ring
    rw [e, abs_mul]
    have h2 : |2 * N + (c - N)| ≤ 2.01 * N := by
      refine (abs_add_le _ _).trans ?_
      rw [abs_of_nonneg (by positivity)]
      have := mul_le_mul_of_nonneg_right h1 hN0
      linarith
    calc |c - N| * |2 * N + (c - N)| ≤ (ω * N) * (2.01 * N) := mul_le_mul hn h2 (abs_nonneg _) (by positivity)
      _ = 2.01 * ω * N ^ 2 := by ring
  have hN2 : 0 ≤ N ^ 2 := sq_nonneg N
  have c4 : |c * c| ≤ 1.03 * N ^ 2 := by
    rw [abs_mul]
    have := mul_le_mul c1 c1 (abs_nonneg _) (by positivity)
    nlinarith [sq_nonneg N]
  have c3 := hE.mul c c (1.03 * N ^ 2) (by linarith) (by linarith) c4
  set X := E.mul c c
  have c5 : |X - N ^ 2| ≤ 3.05 * ω * N ^ 2 := by
    have h3 := abs_sub_le X (c * c) (N ^ 2)
    have h5 : 0 ≤ ω * N ^ 2 := by positivity
    linarith
  have c6 : |X| ≤ 1.04 * N ^ 2 := by
    have e : X = N ^ 2 + (X - N ^ 2) := by ring
    rw [e]
    refine (abs_add_le _ _).trans ?_
    rw [abs_of_nonneg (sq_nonneg N)]
    have := mul_le_mul_of_nonneg_right h1 (sq_nonneg N)
    have := sq_nonneg N
    linarith
  have hNΦ : 0 ≤ N ^ 2 * Φ := mul_nonneg hN2 hΦ
  have c8 : |s * X| ≤ 1.1 * (N ^ 2 * Φ) := by
    rw [abs_mul]
    have := mul_le_mul hs c6 (abs_nonneg _) (by positivity)
    linarith
  have c7 := hE.mul s X (1.1 * (N ^ 2 * Φ)) (by linarith) (by linarith) c8
  refine ⟨by linarith, ?_⟩
  have h3 := abs_sub_le (E.mul s X) (s * X) (s * N ^ 2)
  have e : s * X - s * N ^ 2 = s * (X - N ^ 2) := by ring
  rw [e, abs_mul] at h3
  have h4 := mul_le_mul hs c5 (abs_nonneg _) (by positivity)
  have h6 : 0 ≤ ω * (N ^ 2 * Φ) := by positivity
  linarith

/-- Arrays of zeros, as they are allocated. -/
theorem restOk_zero {k deg : ℕ} {alpha beta : Buf ℝ} {a b D : ℝ} (h1 : ∀ j, alpha.get j = 0) (h2 : ∀ j, beta.get j = 0) (ha : a + D ≤ 0) (hb : 0 ≤ b - D) :
    RestOk k deg alpha beta a b D := by
  refine Or.inr fun x _ => ?_
  have e : jacobi deg alpha.get (fun i => beta.get (i + 1)) = 0 := by
    ext i j
    simp [jacobi, h1, h2]
  have hx : 0 ≤ x ⬝ᵥ x := Finset.sum_nonneg fun _ _ => mul_self_nonneg _
  rw [e, zero_mulVec, dotProduct_zero]
  exact ⟨mul_nonpos_of_nonpos_of_nonneg ha hx, mul_nonneg hb hx⟩

/-- What is used about the recurrence. -/
structure QCore (A : Matrix (Fin n) (Fin n) ℝ) (ε tol S : ℝ) (v : Vec n) (deg k : ℕ) (alpha beta : Buf ℝ) (t : LState n) (q : ℕ → Vec n) : Prop where
  eps0 : 0 ≤ ε
  eps1 : ε ≤ 1 / 100
  S0 : 0 ≤ S
  v0 : 0 < nrm v
  k1 : 1 ≤ k
  kd : k ≤ deg
  near : NearS A ε S k t.alpha.get t.beta.get q t.v
  first : nrm (q 0 - (nrm v)⁻¹ • v) ≤ 5 * ε
  stop : t.beta.get k < tol ∨ k = deg
  low : -tol ≤ t.beta.get k
  coef : ∀ j < deg, |t.alpha.get j| ≤ S ∧ |t.beta.get j| ≤ S
  alpha_rest : ∀ j, k ≤ j → t.alpha.get j = alpha.get j
  beta_rest : ∀ j, k < j → t.beta.get j = beta.get j

/-- The eigenvalues of the computed tridiagonal matrix. -/
theorem QCore.setup (h : QCore A ε tol S v deg k alpha beta t q) {lo hi : ℝ} {lam : Fin n → ℝ} {U : Matrix (Fin n) (Fin n) ℝ}
    (hU : Eigen A lam U) (hlam : ∀ i, lo ≤ lam i ∧ lam i ≤ hi) :
    ∃ th' Y', IsEigh (jac t.alpha.get t.beta.get k) th' Y' ∧ ∀ j, lo - 400 * k ^ 3 * ε * S ≤ th' j ∧ th' j ≤ hi + 400 * k ^ 3 * ε * S := by
  have hE := isEigh_iff_eigen.2 hU
  obtain ⟨th', Y', hY'⟩ := exists_isEigh (jac t.alpha.get t.beta.get k) (jac_symm _ _ _)
  refine ⟨th', Y', hY', fun j => ?_⟩
  have hA : A.IsSymm := by
    have := hE.matFun_poly Polynomial.X
    rw [aeval_X] at this
    rw [← this]
    unfold Spec.matFun
    show (U * _ * Uᵀ)ᵀ = _
    rw [Matrix.transpose_mul, Matrix.transpose_mul, Matrix.transpose_transpose, Matrix.diagonal_transpose, Matrix.mul_assoc]
  have hq : ∀ x : Vec n, x ⬝ᵥ (A *ᵥ x) = ∑ a, lam a * (Uᵀ *ᵥ x) a ^ 2 := by
    intro x
    have := hE.matFun_poly Polynomial.X
    rw [aeval_X] at this
    conv_lhs => rw [← this]
    rw [hE.quad_sum]
    exact Finset.sum_congr rfl fun a _ => by rw [eval_X]
  have hy := (isEigh_iff_eigen.1 hY').eigen j
  have hy1 := congrFun (congrFun hY'.1 j) j
  rw [Matrix.mul_apply, Matrix.one_apply_eq] at hy1
  have := NearS.interval hA h.eps0 h.eps1 h.S0 lo hi
    (fun x => by
      rw [hq, ← hE.norm_sum, Finset.mul_sum]
      exact Finset.sum_le_sum fun a _ => mul_le_mul_of_nonneg_right (hlam a).1 (sq_nonneg _))
    (fun x => by
      rw [hq, ← hE.norm_sum, Finset.mul_sum]
      exact Finset.sum_le_sum fun a _ => mul_le_mul_of_nonneg_right (hlam a).2 (sq_nonneg _))
    k t.v h.near (th' j) (fun i => Y' i j) hy1 hy
  have e : 400 * ((k : ℝ) ^ 3 * (ε * S)) = 400 * k ^ 3 * ε * S := by ring
  rwa [e] at this

/-- The common part of C136 and C137. -/
theorem QCore.common (h : QCore A ε tol S v deg k alpha beta t q) {lo hi : ℝ} {lam : Fin n → ℝ} {U : Matrix (Fin n) (Fin n) ℝ}
    (hU : Eigen A lam U) (hlam : ∀ i, lo ≤ lam i ∧ lam i ≤ hi) {δ : ℝ} (hk : 0 < k) (hkd : k ≤ deg) (hδ : 0 ≤ δ)
    {F Y : Matrix (Fin deg) (Fin deg) ℝ} {th : Fin deg → ℝ}
    (hF : ∑ i, ∑ j, F i j ^ 2 ≤ (δ * S) ^ 2) (hY : Eigen (jacobi deg t.alpha.get (fun i => t.beta.get (i + 1)) + F) th Y) {a b : ℝ}
    (ha : a ≤ lo - 400 * k ^ 3 * ε * S - backward k deg δ S tol) (hb : hi + 400 * k ^ 3 * ε * S + backward k deg δ S tol ≤ b)
    (hrest : RestOk k deg alpha beta a b (backward k deg δ S tol)) :
    ∃ th' Y', InRange A (jac t.alpha.get t.beta.get k) a b lam U th' Y' ∧ (∀ j, a ≤ th j ∧ th j ≤ b) ∧ 0 ≤ backward k deg δ S tol ∧
      ∀ (p : ℝ[X]) (L : ℝ), (∀ x, a ≤ x → x ≤ b → |(derivative p).eval x| ≤ L) →
        nrm (aeval (jac t.alpha.get t.beta.get deg + F) p *ᵥ (Pi.single ⟨0, hk.trans_le hkd⟩ 1 : Vec deg) -
          padX deg k *ᵥ (aeval (jac t.alpha.get t.beta.get k) p *ᵥ (Pi.single ⟨0, hk⟩ 1 : Vec k))) ≤ L * backward k deg δ S tol := by
  obtain ⟨th', Y', hY', hth'⟩ := h.setup hU hlam
  have hE := isEigh_iff_eigen.2 hY
  have hδS : 0 ≤ δ * S := mul_nonneg hδ h.S0
  have hpt : padTol deg k t.beta.get + δ * S ≤ backward k deg δ S tol := by
    unfold padTol backward
    refine add_le_add ?_ le_rfl
    split_ifs with hkm
    · exact le_rfl
    · rcases h.stop with hs | hs
      · have h3 : |t.beta.get k| ≤ tol := abs_le.2 ⟨h.low, hs.le⟩
        linarith
      · exact absurd hs hkm
  set D := backward k deg δ S tol with hD
  have hD0 : 0 ≤ D := by
    have := padTol_nonneg (m := deg) (k := k) t.beta.get
    linarith
  have hin : ∀ j, a + D ≤ th' j ∧ th' j ≤ b - D := fun j => ⟨by linarith [(hth' j).1], by linarith [(hth' j).2]⟩
  have h0 : 0 ≤ 400 * (k : ℝ) ^ 3 * ε * S := by
    have := h.eps0
    have := h.S0
    positivity
  have hform : FormIn t.alpha.get t.beta.get deg (a + δ * S) (b - δ * S) := by
    have hk1 := formIn_of_eigen hY' hin
    rcases Nat.lt_or_ge k deg with hlt | hge
    · have hbk : |t.beta.get k| ≤ tol := by
        rcases h.stop with hs | hs
        · exact abs_le.2 ⟨h.low, hs.le⟩
        · omega
      have hDk : D = 2 * tol + δ * S := by
        rw [hD]
        unfold backward
        rw [if_neg hlt.ne]
      have ht0 : 0 ≤ tol := (abs_nonneg _).trans hbk
      refine (FormIn.join (c := a + D) (d := b - D) hk hlt hbk hk1 fun y => ?_).mono (by linarith) (by linarith)
      rcases hrest with hr | hr
      · omega
      · have e1 : tform t.alpha.get t.beta.get deg (tailFrom k y) = tform alpha.get beta.get deg (tailFrom k y) := by
          refine tform_congr _ (fun i _ => ?_) (fun i _ => ?_)
          · rcases Nat.lt_or_ge i k with hi | hi
            · exact Or.inr (if_pos hi)
            · exact Or.inl (h.alpha_rest i hi)
          · rcases Nat.lt_or_ge i k with hi | hi
            · exact Or.inr (if_pos hi)
            · exact Or.inl (h.beta_rest (i + 1) (by omega))
        have := hr (fun i : Fin deg => tailFrom k y i) fun j hj => if_pos hj
        rwa [sum_sq_fin, tform_eq, ← e1] at this
    · obtain rfl : k = deg := le_antisymm hkd hge
      have hDk : D = δ * S := by
        rw [hD]
        unfold backward
        rw [if_pos rfl, zero_add]
      rw [← hDk]
      exact hk1
  have hth : ∀ j, a ≤ th j ∧ th j ≤ b := by
    intro j
    have := pad_nodes hδS hF hE hform j
    exact ⟨by linarith [this.1], by linarith [this.2]⟩
  refine ⟨th', Y', ⟨isEigh_iff_eigen.2 hU, hY', fun i => ⟨by linarith [(hlam i).1], by linarith [(hlam i).2]⟩,
    fun j => ⟨by linarith [(hin j).1], by linarith [(hin j).2]⟩⟩, hth, hD0, fun p L hL => ?_⟩
  have hth'' : ∀ j, a ≤ th' j ∧ th' j ≤ b := fun j => ⟨by linarith [(hin j).1], by linarith [(hin j).2]⟩
  have hL0 : 0 ≤ L := (abs_nonneg _).trans (hL (th' ⟨0, hk⟩) (hth'' _).1 (hth'' _).2)
  exact (pad_poly hk hkd hδS hF hE hY' hth hth'' p hL).trans (mul_le_mul_of_nonneg_left hpt hL0)

/-- The error of `MatrixFunction.quad`. -/
theorem QCore.quad (h : QCore A ε tol S v deg k alpha beta t q) (hA : A.IsSymm) {E : QKernels n} {ω δ L H : ℝ} (hE : QKernelsOk E deg ω δ L H) (hω : 0 ≤ ω)
    (hω1 : deg * ω ≤ 1 / 100) (hδ : 0 ≤ δ) {lo hi : ℝ} {lam : Fin n → ℝ} {U : Matrix (Fin n) (Fin n) ℝ} (hU : Eigen A lam U)
    (hlam : ∀ i, lo ≤ lam i ∧ lam i ≤ hi) (f : ℝ → ℝ) {a b : ℝ} (hab : a < b) (ha : a ≤ lo - 400 * k ^ 3 * ε * S - backward k deg δ S tol)
    (hb : hi + 400 * k ^ 3 * ε * S + backward k deg δ S tol ≤ b) (hrest : RestOk k deg alpha beta a b (backward k deg δ S tol))
    (g : ℝ[X]) {Φ η : ℝ} (hg : g.natDegree + 2 ≤ 2 * k) (hΦ : ∀ x, a ≤ x → x ≤ b → |f x| ≤ Φ) (hη : ∀ x, a ≤ x → x ≤ b → |f x - g.eval x| ≤ η)
    (hR : QRange L H S Φ (nrm v)) :
    |E.wsum deg (fun j => f ((E.eigh deg t.alpha.get (fun i => t.beta.get (i + 1))).1 j))
        (fun j => (E.eigh deg t.alpha.get (fun i => t.beta.get (i + 1))).2 ⟨0, j.pos⟩ j) * E.mul (E.norm v) (E.norm v)| ≤ 2 * (nrm v ^ 2 * Φ) ∧
    |E.mul (E.wsum deg (fun j => f ((E.eigh deg t.alpha.get (fun i => t.beta.get (i + 1))).1 j))
        (fun j => (E.eigh deg t.alpha.get (fun i => t.beta.get (i + 1))).2 ⟨0, j.pos⟩ j)) (E.mul (E.norm v) (E.norm v)) - v ⬝ᵥ (matFun lam U f *ᵥ v)| ≤
      nrm v ^ 2 * (2.15 * η + (11 * ε + 8 * deg * ω) * Φ +
        (Φ + η) * (4 * k * (33 * ε + 496 * k ^ 3 * (ε * S) / (b - a)) + 32 * k ^ 3 * backward k deg δ S tol / (b - a))) := by
  have h2 := h.k1
  have h3 := h.kd
  have hd : 0 < deg := by omega
  have hN := h.near
  have hS0 := h.S0
  have h7 := h.first
  obtain ⟨F, Y, hF, hY, hYY⟩ := hE.eigh t.alpha.get (fun i => t.beta.get (i + 1)) S hR.Slo hR.Shi (fun i hi => (h.coef i hi).1) (fun i hi => (h.coef (i + 1) hi).2)
  set th := (E.eigh deg t.alpha.get (fun i => t.beta.get (i + 1))).1 with hth
  set ev := (E.eigh deg t.alpha.get (fun i => t.beta.get (i + 1))).2 with hev
  obtain ⟨th', Y', hr, hth1, hD0, hpoly⟩ := h.common hU hlam h.k1 h.kd hδ hF hY ha hb hrest
  set D := backward k deg δ S tol with hD
  have hp : 0 < b - a := sub_pos.2 hab
  have hΦ0 : 0 ≤ Φ := (abs_nonneg _).trans (hΦ a le_rfl hab.le)
  have hη0 : 0 ≤ η := (abs_nonneg _).trans (hη a le_rfl hab.le)
  have hYE := isEigh_iff_eigen.2 hY
  have hY1 : ∑ j, Y ⟨0, hd⟩ j ^ 2 = 1 := by
    have := congrFun (congrFun hYE.mul_transpose ⟨0, hd⟩) ⟨0, hd⟩
    rw [Matrix.mul_apply, Matrix.one_apply_eq] at this
    rw [← this]
    exact Finset.sum_congr rfl fun j _ => sq _
  have dr : (1 : ℝ) ≤ deg := by exact_mod_cast hd
  have hω2 : ω ≤ 1 / 100 := by nlinarith
  -- the sum
  set s := E.wsum deg (fun j => f (th j)) (fun j => ev ⟨0, j.pos⟩ j) with hs
  have b1 : |s - ∑ j, f (th j) * Y ⟨0, hd⟩ j ^ 2| ≤ 3.1 * deg * ω * Φ :=
    wsum_error hE hω hd hω1 (fun j => f (th j)) (fun j => ev ⟨0, j.pos⟩ j) (fun j => Y ⟨0, hd⟩ j) hR.flo hR.fhi
      (fun j => hΦ _ (hth1 j).1 (hth1 j).2) hY1 (fun j => hYY _ j)
  have b1' : |∑ j, f (th j) * Y ⟨0, hd⟩ j ^ 2| ≤ Φ := by
    calc |∑ j, f (th j) * Y ⟨0, hd⟩ j ^ 2| ≤ ∑ j, |f (th j) * Y ⟨0, hd⟩ j ^ 2| := Finset.abs_sum_le_sum_abs _ _
      _ ≤ ∑ j, Φ * Y ⟨0, hd⟩ j ^ 2 := Finset.sum_le_sum fun j _ => by
          rw [abs_mul, abs_of_nonneg (sq_nonneg (Y ⟨0, hd⟩ j))]
          exact mul_le_mul_of_nonneg_right (hΦ _ (hth1 j).1 (hth1 j).2) (sq_nonneg _)
      _ = Φ := by rw [← Finset.mul_sum, hY1, mul_one]
  have hsle : |s| ≤ 1.04 * Φ := by
    have e : s = ∑ j, f (th j) * Y ⟨0, hd⟩ j ^ 2 + (s - ∑ j, f (th j) * Y ⟨0, hd⟩ j ^ 2) := by ring
    rw [e]
    refine (abs_add_le _ _).trans ?_
    have := mul_le_mul_of_nonneg_right hω1 hΦ0
    linarith
  obtain ⟨b0, b2⟩ := scale_error hE hω hω2 v hR hΦ0 s hsle
  refine ⟨b0, ?_⟩
  -- the polynomial
  have b3 : |∑ j, f (th j) * Y ⟨0, hd⟩ j ^ 2 - (aeval (jac t.alpha.get t.beta.get deg + F) g *ᵥ (Pi.single ⟨0, hd⟩ 1 : Vec deg)) ⟨0, hd⟩| ≤ η := by
    rw [← hYE.matFun_poly, IsEigh.matFun_zero_zero, ← Finset.sum_sub_distrib]
    calc |∑ j, (f (th j) * Y ⟨0, hd⟩ j ^ 2 - g.eval (th j) * Y ⟨0, hd⟩ j ^ 2)| ≤ ∑ j, |f (th j) * Y ⟨0, hd⟩ j ^ 2 - g.eval (th j) * Y ⟨0, hd⟩ j ^ 2| :=
          Finset.abs_sum_le_sum_abs _ _
      _ ≤ ∑ j, η * Y ⟨0, hd⟩ j ^ 2 := by
          refine Finset.sum_le_sum fun j _ => ?_
          rw [← sub_mul, abs_mul, abs_of_nonneg (sq_nonneg (Y ⟨0, hd⟩ j))]
          exact mul_le_mul_of_nonneg_right (hη _ (hth1 j).1 (hth1 j).2) (sq_nonneg _)
      _ = η := by rw [← Finset.mul_sum, hY1, mul_one]
  have hG : ∀ x, a ≤ x → x ≤ b → |g.eval x| ≤ Φ + η := by
    intro x h2 h3
    have h4 := hΦ x h2 h3
    have h5 := hη x h2 h3
    have e : g.eval x = f x - (f x - g.eval x) := by ring
    rw [e]
    exact (abs_sub _ _).trans (by linarith)
  have hL := deriv_bounded hab g (2 * k) (by omega) hG
  have b4 : |(aeval (jac t.alpha.get t.beta.get deg + F) g *ᵥ (Pi.single ⟨0, hd⟩ 1 : Vec deg)) ⟨0, hd⟩ -
      (aeval (jac t.alpha.get t.beta.get k) g *ᵥ (Pi.single ⟨0, h2⟩ 1 : Vec k)) ⟨0, h2⟩| ≤ 32 * k ^ 3 * (Φ + η) / (b - a) * D := by
    have h11 := hpoly g _ hL
    have h12 := (abs_le_nrm _ ⟨0, hd⟩).trans h11
    rw [Pi.sub_apply, padX_mulVec, dif_pos (show ((⟨0, hd⟩ : Fin deg) : ℕ) < k from h2)] at h12
    refine h12.trans (le_of_eq ?_)
    push_cast
    ring
  have hv0 := h.v0
  set x := (nrm v)⁻¹ • v with hx
  have hx1 : nrm x = 1 := by
    rw [hx, nrm_smul, abs_of_pos (inv_pos.2 hv0), inv_mul_cancel₀ hv0.ne']
  have b5 := hN.quad_fun hA h.eps0 h.eps1 hS0 h2 hab hr f g hg hΦ hη x hx1 h7
  have b6 : v ⬝ᵥ (matFun lam U f *ᵥ v) = nrm v ^ 2 * (x ⬝ᵥ (matFun lam U f *ᵥ x)) := by
    have e : v = nrm v • x := by
      rw [hx, smul_smul, mul_inv_cancel₀ hv0.ne', one_smul]
    conv_lhs => rw [e]
    rw [mulVec_smul, smul_dotProduct, dotProduct_smul, smul_eq_mul, smul_eq_mul]
    ring
  rw [b6]
  set z1 := ∑ j, f (th j) * Y ⟨0, hd⟩ j ^ 2
  set z2 := (aeval (jac t.alpha.get t.beta.get deg + F) g *ᵥ (Pi.single ⟨0, hd⟩ 1 : Vec deg)) ⟨0, hd⟩
  set z3 := (aeval (jac t.alpha.get t.beta.get k) g *ᵥ (Pi.single ⟨0, h2⟩ 1 : Vec k)) ⟨0, h2⟩
  set z4 := x ⬝ᵥ (matFun lam U f *ᵥ x)
  set W := 4 * k * (33 * ε + 496 * k ^ 3 * (ε * S) / (b - a)) with hW
  have hW' : 4 * k * (Φ + η) * (33 * ε + 496 * k ^ 3 * (ε * S) / (b - a)) = (Φ + η) * W := by rw [hW]; ring
  have hDW : 32 * k ^ 3 * (Φ + η) / (b - a) * D = (Φ + η) * (32 * k ^ 3 * D / (b - a)) := by ring
  rw [hW'] at b5
  rw [hDW] at b4
  have t1 := abs_sub_le s z1 z4
  have t2 := abs_sub_le z1 z2 z4
  have t3 := abs_sub_le z2 z3 z4
  have b7 : |s - z4| ≤ 3.1 * deg * ω * Φ + η + (Φ + η) * (32 * k ^ 3 * D / (b - a)) + (1.15 * η + 11 * ε * Φ + (Φ + η) * W) := by linarith
  have b8 : |s * nrm v ^ 2 - nrm v ^ 2 * z4| ≤ nrm v ^ 2 * (3.1 * deg * ω * Φ + η + (Φ + η) * (32 * k ^ 3 * D / (b - a)) + (1.15 * η + 11 * ε * Φ + (Φ + η) * W)) := by
    have e : s * nrm v ^ 2 - nrm v ^ 2 * z4 = nrm v ^ 2 * (s - z4) := by ring
    rw [e, abs_mul, abs_of_nonneg (sq_nonneg (nrm v))]
    exact mul_le_mul_of_nonneg_left b7 (sq_nonneg _)
  have b9 : 4.4 * ω * Φ * nrm v ^ 2 ≤ nrm v ^ 2 * (4.4 * deg * ω * Φ) := by
    have h12 : ω * Φ ≤ deg * (ω * Φ) := by
      have := mul_le_mul_of_nonneg_right dr (mul_nonneg hω hΦ0)
      linarith
    have := mul_le_mul_of_nonneg_right h12 (sq_nonneg (nrm v))
    linarith
  refine (abs_sub_le _ (s * nrm v ^ 2) _).trans ((add_le_add b2 b8).trans ((add_le_add b9 le_rfl).trans ?_))
  rw [← mul_add]
  refine mul_le_mul_of_nonneg_left ?_ (sq_nonneg _)
  have h11 : 0 ≤ (deg : ℝ) * ω * Φ := by positivity
  linarith

theorem prod_close {u u' w w' ω : ℝ} (h0 : 0 ≤ ω) (h1 : ω ≤ 1 / 100) (hu' : |u'| ≤ 1) (hw' : |w'| ≤ 1) (hu : |u - u'| ≤ ω) (hw : |w - w'| ≤ ω) :
    |u * w - u' * w'| ≤ 2.01 * ω ∧ |u| * |w| ≤ 1.03 := by
  have e : u * w - u' * w' = (u - u') * w' + u' * (w - w') + (u - u') * (w - w') := by ring
  have c1 : |(u - u') * w'| ≤ ω * 1 := by
    rw [abs_mul]
    exact mul_le_mul hu hw' (abs_nonneg _) h0
  have c2 : |u' * (w - w')| ≤ 1 * ω := by
    rw [abs_mul]
    exact mul_le_mul hu' hw (abs_nonneg _) (by norm_num)
  have c3 : |(u - u') * (w - w')| ≤ 1 / 100 * ω := by
    rw [abs_mul]
    exact mul_le_mul (hu.trans h1) hw (abs_nonneg _) (by norm_num)
  have c4 := abs_add_le ((u - u') * w' + u' * (w - w')) ((u - u') * (w - w'))
  have c5 := abs_add_le ((u - u') * w') (u' * (w - w'))
  refine ⟨by rw [e]; linarith, ?_⟩
  have d1 : |u| ≤ 1.01 := by
    have : u = u' + (u - u') := by ring
    rw [this]
    exact (abs_add_le _ _).trans (by linarith)
  have d2 : |w| ≤ 1.01 := by
    have : w = w' + (w - w') := by ring
    rw [this]
    exact (abs_add_le _ _).trans (by linarith)
  exact (mul_le_mul d1 d2 (abs_nonneg _) (by norm_num)).trans (by norm_num)

/-- Rounding errors in `x_norm * Q @ Y @ (f(rw) * Y[0, :]).T`. -/
theorem prod_error {E : QKernels n} {ω δ L H S Φ : ℝ} {m : ℕ} (hE : QKernelsOk E m ω δ L H) (h0 : 0 ≤ ω) (h1 : ω ≤ 1 / 100) (hm : 0 < m) (x : Vec n)
    (hR : QRange L H S Φ (nrm x)) (q : ℕ → Vec n)
    (hq : ∀ l < m, nrm (q l) ≤ 1.05) (Y Y' : Matrix (Fin m) (Fin m) ℝ) (hY' : ∀ i j, |Y' i j| ≤ 1) (hYY : ∀ i j, |Y i j - Y' i j| ≤ ω) (φ : Fin m → ℝ)
    (hφ : ∀ j, |φ j| ≤ Φ) (hrow : ∀ l, |∑ a, Y' l a * (φ a * Y' ⟨0, hm⟩ a)| ≤ Φ) :
    nrm (E.prod m (E.norm x) q Y φ - nrm x • ∑ l : Fin m, (∑ a, Y' l a * (φ a * Y' ⟨0, hm⟩ a)) • q l) ≤ nrm x * (5 * m ^ 2 * ω * Φ) := by
  have hΦ : 0 ≤ Φ := (abs_nonneg _).trans (hφ ⟨0, hm⟩)
  have mr : (1 : ℝ) ≤ m := by exact_mod_cast hm
  have hx0 := nrm_nonneg x
  have hn := hE.norm x hR.nlo (by linarith [hR.nhi])
  set c := E.norm x
  have hc : |c| ≤ 1.01 * nrm x := by
    have e : c = nrm x + (c - nrm x) := by ring
    rw [e]
    refine (abs_add_le _ _).trans ?_
    rw [abs_of_nonneg hx0]
    have := mul_le_mul_of_nonneg_right h1 hx0
    linarith
  set X1 := ∑ l : Fin m, (∑ a, Y l a * (φ a * Y ⟨0, hm⟩ a)) • q l with hX1
  set X2 := ∑ l : Fin m, (∑ a, Y' l a * (φ a * Y' ⟨0, hm⟩ a)) • q l with hX2
  have pc := fun l a => prod_close h0 h1 (hY' l a) (hY' ⟨0, hm⟩ a) (hYY l a) (hYY ⟨0, hm⟩ a)
  have b1 : nrm (E.prod m c q Y φ - c • X1) ≤ ω * (m ^ 2 * (1.01 * nrm x * Φ)) := by
    have r1 := hR.nlo
    have r2 := hR.nhi
    have r3 := hR.fnlo
    have r4 := hR.fnhi
    have r5 : 0 ≤ nrm x * Φ := mul_nonneg hx0 hΦ
    refine hE.prod c q Y φ (1.01 * nrm x) Φ (by linarith) hR.flo (by linarith) (by linarith) hR.fhi (by linarith) hc (fun l hl => (hq l hl).trans (by norm_num))
      (fun i j => ?_) hφ
    have e : Y i j = Y' i j + (Y i j - Y' i j) := by ring
    rw [e]
    exact (abs_add_le _ _).trans (by linarith [hY' i j, hYY i j])
  have b2 : nrm (X1 - X2) ≤ m * (m * (2.01 * ω * Φ) * 1.05) := by
    rw [hX1, hX2, ← Finset.sum_sub_distrib]
    refine (nrm_sum_le _ _).trans ?_
    calc ∑ l : Fin m, nrm ((∑ a, Y l a * (φ a * Y ⟨0, hm⟩ a)) • q l - (∑ a, Y' l a * (φ a * Y' ⟨0, hm⟩ a)) • q l) ≤ ∑ _l : Fin m, m * (2.01 * ω * Φ) * 1.05 := by
          refine Finset.sum_le_sum fun l _ => ?_
          rw [← sub_smul, nrm_smul, ← Finset.sum_sub_distrib]
          refine mul_le_mul ?_ (hq l l.2) (nrm_nonneg _) (by positivity)
          calc |∑ a, (Y l a * (φ a * Y ⟨0, hm⟩ a) - Y' l a * (φ a * Y' ⟨0, hm⟩ a))| ≤ ∑ a, |Y l a * (φ a * Y ⟨0, hm⟩ a) - Y' l a * (φ a * Y' ⟨0, hm⟩ a)| :=
                Finset.abs_sum_le_sum_abs _ _
            _ ≤ ∑ _a : Fin m, 2.01 * ω * Φ := Finset.sum_le_sum fun a _ => by
                have e : Y l a * (φ a * Y ⟨0, hm⟩ a) - Y' l a * (φ a * Y' ⟨0, hm⟩ a) = (Y l a * Y ⟨0, hm⟩ a - Y' l a * Y' ⟨0, hm⟩ a) * φ a := by ring
                rw [e, abs_mul]
                exact mul_le_mul (pc l a).1 (hφ a) (abs_nonneg _) (by positivity)
            _ = m * (2.01 * ω * Φ) := by rw [Finset.sum_const, Finset.card_univ, Fintype.card_fin, nsmul_eq_mul]
      _ = m * (m * (2.01 * ω * Φ) * 1.05) := by rw [Finset.sum_const, Finset.card_univ, Fintype.card_fin, nsmul_eq_mul]
  have b3 : nrm X2 ≤ m * (Φ * 1.05) := by
    rw [hX2]
    refine (nrm_sum_le _ _).trans ?_
    calc ∑ l : Fin m, nrm ((∑ a, Y' l a * (φ a * Y' ⟨0, hm⟩ a)) • q l) ≤ ∑ _l : Fin m, Φ * 1.05 := Finset.sum_le_sum fun l _ => by
          rw [nrm_smul]
          exact mul_le_mul (hrow l) (hq l l.2) (nrm_nonneg _) hΦ
      _ = m * (Φ * 1.05) := by rw [Finset.sum_const, Finset.card_univ, Fintype.card_fin, nsmul_eq_mul]
  have e : E.prod m c q Y φ - nrm x • X2 = (E.prod m c q Y φ - c • X1) + (c • (X1 - X2) + (c - nrm x) • X2) := by
    rw [smul_sub, sub_smul]
    abel
  rw [e]
  have t1 := nrm_add_le (E.prod m c q Y φ - c • X1) (c • (X1 - X2) + (c - nrm x) • X2)
  have t2 := nrm_add_le (c • (X1 - X2)) ((c - nrm x) • X2)
  rw [nrm_smul, nrm_smul] at t2
  have t3 : |c| * nrm (X1 - X2) ≤ 1.01 * nrm x * (m * (m * (2.01 * ω * Φ) * 1.05)) := mul_le_mul hc b2 (nrm_nonneg _) (by positivity)
  have t4 : |c - nrm x| * nrm X2 ≤ ω * nrm x * (m * (Φ * 1.05)) := mul_le_mul hn b3 (nrm_nonneg _) (by positivity)
  have w0 : 0 ≤ nrm x * ω * Φ * m := by positivity
  have w1 : nrm x * ω * Φ * m ≤ nrm x * ω * Φ * m * m := by nlinarith
  have w2 : nrm x * (5 * m ^ 2 * ω * Φ) = 5 * (nrm x * ω * Φ * m * m) := by ring
  have w3 : ω * (m ^ 2 * (1.01 * nrm x * Φ)) = 1.01 * (nrm x * ω * Φ * m * m) := by ring
  have w4 : 1.01 * nrm x * (m * (m * (2.01 * ω * Φ) * 1.05)) = 1.01 * 2.01 * 1.05 * (nrm x * ω * Φ * m * m) := by ring
  have w5 : ω * nrm x * (m * (Φ * 1.05)) = 1.05 * (nrm x * ω * Φ * m) := by ring
  rw [w3] at b1
  rw [w4] at t3
  rw [w5] at t4
  rw [w2]
  linarith

theorem padX_transpose_le {m k : ℕ} (hkm : k ≤ m) (w : Vec m) : nrm ((padX m k)ᵀ *ᵥ w) ≤ nrm w := by
  have inj : Function.Injective fun j : Fin k => (⟨j, j.2.trans_le hkm⟩ : Fin m) := by
    intro x y hxy
    have h3 : (x : ℕ) = y := by have := congrArg Fin.val hxy; exact this
    exact Fin.ext h3
  have hzz : ((padX m k)ᵀ *ᵥ w) ⬝ᵥ ((padX m k)ᵀ *ᵥ w) = ∑ l ∈ Finset.univ.map ⟨_, inj⟩, w l * w l := by
    rw [Finset.sum_map, dotProduct]
    exact Finset.sum_congr rfl fun l _ => by rw [padX_transpose hkm]; rfl
  unfold nrm
  refine Real.sqrt_le_sqrt ?_
  rw [hzz]
  exact Finset.sum_le_sum_of_subset_of_nonneg (Finset.subset_univ _) fun _ _ _ => mul_self_nonneg _

/-- The error of `MatrixFunction._matvec`. -/
theorem QCore.matvec (h : QCore A ε tol S v deg k alpha beta t q) (hqQ : ∀ l < k, t.Q.get l = q l) (hq0 : ∀ l, k ≤ l → l < deg → t.Q.get l = 0)
    {E : QKernels n} {ω δ L H : ℝ} (hE : QKernelsOk E deg ω δ L H) (hω : 0 ≤ ω) (hω1 : ω ≤ 1 / 100) (hδ : 0 ≤ δ) {lo hi : ℝ} {lam : Fin n → ℝ}
    {U : Matrix (Fin n) (Fin n) ℝ} (hU : Eigen A lam U) (hlam : ∀ i, lo ≤ lam i ∧ lam i ≤ hi) (f : ℝ → ℝ) {a b : ℝ} (hab : a < b)
    (ha : a ≤ lo - 400 * k ^ 3 * ε * S - backward k deg δ S tol) (hb : hi + 400 * k ^ 3 * ε * S + backward k deg δ S tol ≤ b)
    (hrest : RestOk k deg alpha beta a b (backward k deg δ S tol))
    (g : ℝ[X]) {Φ η : ℝ} (hg : g.natDegree < k) (hΦ : ∀ x, a ≤ x → x ≤ b → |f x| ≤ Φ) (hη : ∀ x, a ≤ x → x ≤ b → |f x - g.eval x| ≤ η)
    (hR : QRange L H S Φ (nrm v)) :
    nrm (E.prod deg (E.norm v) t.Q.get (E.eigh deg t.alpha.get (fun i => t.beta.get (i + 1))).2
        (fun a => f ((E.eigh deg t.alpha.get (fun i => t.beta.get (i + 1))).1 a)) - matFun lam U f *ᵥ v) ≤
      nrm v * (1.05 * (1 + Real.sqrt k) * η + (5 * ε + 5 * deg ^ 2 * ω) * Φ +
        (Φ + η) * (52 * k ^ 4 * (ε * S) / (b - a) + 5 * k ^ 4 * backward k deg δ S tol / (b - a))) := by
  have h2 := h.k1
  have h3 := h.kd
  have hd : 0 < deg := by omega
  have hN := h.near
  have hS0 := h.S0
  have h7 := h.first
  obtain ⟨F, Y, hF, hY, hYY⟩ := hE.eigh t.alpha.get (fun i => t.beta.get (i + 1)) S hR.Slo hR.Shi (fun i hi => (h.coef i hi).1) (fun i hi => (h.coef (i + 1) hi).2)
  set th := (E.eigh deg t.alpha.get (fun i => t.beta.get (i + 1))).1 with hth
  set ev := (E.eigh deg t.alpha.get (fun i => t.beta.get (i + 1))).2 with hev
  obtain ⟨th', Y', hr, hth1, hD0, hpoly⟩ := h.common hU hlam h.k1 h.kd hδ hF hY ha hb hrest
  set D := backward k deg δ S tol with hD
  have hp : 0 < b - a := sub_pos.2 hab
  have hΦ0 : 0 ≤ Φ := (abs_nonneg _).trans (hΦ a le_rfl hab.le)
  have hη0 : 0 ≤ η := (abs_nonneg _).trans (hη a le_rfl hab.le)
  have hYE := isEigh_iff_eigen.2 hY
  have hYle : ∀ i j, |Y i j| ≤ 1 := by
    intro i j
    have h11 := congrFun (congrFun hYE.mul_transpose i) i
    rw [Matrix.mul_apply, Matrix.one_apply_eq] at h11
    have h12 : Y i j * Y i j ≤ 1 := by
      rw [← h11]
      exact Finset.single_le_sum (f := fun j => Y i j * Yᵀ j i) (fun i _ => mul_self_nonneg _) (Finset.mem_univ j)
    exact abs_le_one_iff_mul_self_le_one.2 h12
  have hqle : ∀ l < deg, nrm (t.Q.get l) ≤ 1.05 := by
    intro l hl
    rcases Nat.lt_or_ge l k with hlk | hlk
    · rw [hqQ l hlk]
      have h11 := (abs_le.1 (hN.unit l hlk)).2
      have := h.eps1
      linarith
    · rw [hq0 l hlk hl, nrm_zero]
      norm_num
  set e1 : Vec deg := Pi.single ⟨0, hd⟩ 1 with he1
  set y' := matFun th Y f *ᵥ e1 with hy'
  have hy'l : ∀ l, ∑ a, Y l a * (f (th a) * Y ⟨0, hd⟩ a) = y' l := by
    intro l
    rw [hy', he1, mulVec_single_one]
    unfold matFun
    show _ = (Y * diagonal (fun i => f (th i)) * Yᵀ) l ⟨0, hd⟩
    rw [Matrix.mul_apply]
    exact Finset.sum_congr rfl fun a _ => by rw [Matrix.mul_diagonal, Matrix.transpose_apply]; ring
  have hy'le : nrm y' ≤ Φ := by
    have := spectral_le hYE f hΦ0 (fun i => hΦ _ (hth1 i).1 (hth1 i).2) e1
    rwa [he1, nrm_single_zero, mul_one] at this
  have b1 := prod_error hE hω hω1 hd v hR t.Q.get hqle ev Y hYle hYY (fun a => f (th a)) (fun j => hΦ _ (hth1 j).1 (hth1 j).2)
    (fun l => by rw [hy'l]; exact (abs_le_nrm y' l).trans hy'le)
  simp only [hy'l] at b1
  have e2 : ∑ l : Fin deg, y' l • t.Q.get l = comb (fun j : Fin k => q j) ((padX deg k)ᵀ *ᵥ y') := by
    have inj : Function.Injective fun j : Fin k => (⟨j, j.2.trans_le h3⟩ : Fin deg) := by
      intro x y hxy
      have h3 : (x : ℕ) = y := by have := congrArg Fin.val hxy; exact this
      exact Fin.ext h3
    have h11 : ∑ l ∈ Finset.univ.map ⟨_, inj⟩, y' l • t.Q.get l = ∑ l : Fin deg, y' l • t.Q.get l := by
      refine Finset.sum_subset (Finset.subset_univ _) fun l _ hl => ?_
      have hlk : k ≤ l := by
        by_contra hc
        apply hl
        rw [Finset.mem_map]
        exact ⟨⟨l, by omega⟩, Finset.mem_univ _, rfl⟩
      rw [hq0 l hlk l.2, smul_zero]
    rw [← h11, Finset.sum_map]
    unfold comb
    refine Finset.sum_congr rfl fun l _ => ?_
    rw [padX_transpose h3]
    show _ • t.Q.get l = _
    rw [hqQ l l.2]
    rfl
  rw [e2] at b1
  have hG : ∀ x, a ≤ x → x ≤ b → |g.eval x| ≤ Φ + η := by
    intro x h2 h3
    have h4 := hΦ x h2 h3
    have h5 := hη x h2 h3
    have e : g.eval x = f x - (f x - g.eval x) := by ring
    rw [e]
    exact (abs_sub _ _).trans (by linarith)
  have b2 := hpoly g _ (deriv_bounded hab g k hg hG)
  have msub : Spec.matFun th Y f - Spec.matFun th Y (fun x => g.eval x) = Spec.matFun th Y fun x => f x - g.eval x := by
    unfold Spec.matFun
    rw [← Matrix.sub_mul, ← Matrix.mul_sub, diagonal_sub]
  have b3 : nrm (y' - aeval (jac t.alpha.get t.beta.get deg + F) g *ᵥ e1) ≤ η := by
    rw [hy', ← hYE.matFun_poly, ← sub_mulVec, msub]
    have := spectral_le hYE (fun x => f x - g.eval x) hη0 (fun i => hη _ (hth1 i).1 (hth1 i).2) e1
    rwa [he1, nrm_single_zero, mul_one] at this
  set z := aeval (jac t.alpha.get t.beta.get k) g *ᵥ (Pi.single ⟨0, h2⟩ 1 : Vec k) with hz
  have b4 : nrm (y' - padX deg k *ᵥ z) ≤ η + 4 * k ^ 3 * (Φ + η) / (b - a) * D := by
    have e : y' - padX deg k *ᵥ z = (y' - aeval (jac t.alpha.get t.beta.get deg + F) g *ᵥ e1) + (aeval (jac t.alpha.get t.beta.get deg + F) g *ᵥ e1 - padX deg k *ᵥ z) := by
      abel
    rw [e]
    exact (nrm_add_le _ _).trans (add_le_add b3 b2)
  have b5 : nrm (comb (fun j : Fin k => q j) ((padX deg k)ᵀ *ᵥ y') - comb (fun j : Fin k => q j) z) ≤ 1.05 * (Real.sqrt k * (η + 4 * k ^ 3 * (Φ + η) / (b - a) * D)) := by
    have e : (padX deg k)ᵀ *ᵥ y' - z = (padX deg k)ᵀ *ᵥ (y' - padX deg k *ᵥ z) := by
      rw [mulVec_sub, mulVec_mulVec z, padX_orth h3, one_mulVec]
    rw [← cols_mulVec, ← cols_mulVec, ← mulVec_sub, cols_mulVec, e]
    refine (hN.comb_le h.eps1 _).trans ?_
    have h11 := (padX_transpose_le h3 (y' - padX deg k *ᵥ z)).trans b4
    have h12 := mul_le_mul_of_nonneg_left h11 (Real.sqrt_nonneg (k : ℝ))
    linarith
  have hv0 := h.v0
  set x := (nrm v)⁻¹ • v with hx
  have hvx : v = nrm v • x := by
    rw [hx, smul_smul, mul_inv_cancel₀ hv0.ne', one_smul]
  have b6 := hN.apply_fun h.eps0 h.eps1 hS0 h2 hab hr f g hg hΦ hη x h7
  have e3 : matFun lam U f *ᵥ v = nrm v • (matFun lam U f *ᵥ x) := by
    conv_lhs => rw [hvx]
    rw [mulVec_smul]
  set P := E.prod deg (E.norm v) t.Q.get ev fun a => f (th a)
  set c1 := comb (fun j : Fin k => q j) ((padX deg k)ᵀ *ᵥ y')
  set c2 := comb (fun j : Fin k => q j) z
  set c3 := matFun lam U f *ᵥ x
  rw [e3]
  have e4 : P - nrm v • c3 = (P - nrm v • c1) + nrm v • ((c1 - c2) + (c2 - c3)) := by
    rw [smul_add, smul_sub, smul_sub]
    abel
  rw [e4]
  have t1 := nrm_add_le (P - nrm v • c1) (nrm v • ((c1 - c2) + (c2 - c3)))
  rw [nrm_smul, abs_of_pos hv0] at t1
  have t2 := nrm_add_le (c1 - c2) (c2 - c3)
  have kr : (1 : ℝ) ≤ k := by exact_mod_cast h2
  have sk : Real.sqrt k ≤ k := Real.sqrt_le_iff.2 ⟨by linarith, by nlinarith⟩
  have t3 : 1.05 * (Real.sqrt k * (η + 4 * k ^ 3 * (Φ + η) / (b - a) * D)) ≤ 1.05 * Real.sqrt k * η + (Φ + η) * (5 * k ^ 4 * D / (b - a)) := by
    have h11 : 0 ≤ 4.2 * ((k : ℝ) ^ 3 * (Φ + η) / (b - a) * D) := by positivity
    have h12 := mul_le_mul_of_nonneg_right sk h11
    have h13 : (k : ℝ) * (4.2 * ((k : ℝ) ^ 3 * (Φ + η) / (b - a) * D)) = 4.2 * ((Φ + η) * (k ^ 4 * D / (b - a))) := by ring
    have h14 : 1.05 * (Real.sqrt k * (η + 4 * k ^ 3 * (Φ + η) / (b - a) * D)) =
        1.05 * Real.sqrt k * η + Real.sqrt k * (4.2 * ((k : ℝ) ^ 3 * (Φ + η) / (b - a) * D)) := by ring
    have h15 : (Φ + η) * (5 * k ^ 4 * D / (b - a)) = 5 * ((Φ + η) * (k ^ 4 * D / (b - a))) := by ring
    have h16 : 0 ≤ (Φ + η) * ((k : ℝ) ^ 4 * D / (b - a)) := by positivity
    rw [h14, h15]
    linarith
  have t4 : nrm ((c1 - c2) + (c2 - c3)) ≤ 1.05 * Real.sqrt k * η + (Φ + η) * (5 * k ^ 4 * D / (b - a)) +
      (1.05 * η + 5 * ε * Φ + (Φ + η) * (52 * k ^ 4 * (ε * S) / (b - a))) := by
    have e5 : 52 * (k : ℝ) ^ 4 * (Φ + η) * (ε * S) / (b - a) = (Φ + η) * (52 * k ^ 4 * (ε * S) / (b - a)) := by ring
    rw [e5] at b6
    linarith
  have t5 := mul_le_mul_of_nonneg_left t4 hv0.le
  refine t1.trans ((add_le_add b1 t5).trans (le_of_eq ?_))
  ring

end Primate
