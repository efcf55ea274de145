import Verif.Lemmas.PaigeInterval
import Verif.Lemmas.Sylvester
import Verif.Lemmas.ChebCoeff

/-! Quadrature with the computed tridiagonal matrix: polynomials. -/

noncomputable section

namespace Primate

open Matrix Polynomial

variable {n k : ℕ} {A : Matrix (Fin n) (Fin n) ℝ} {ε S : ℝ} {α β : ℕ → ℝ} {q : ℕ → Vec n} {r : Vec n}

theorem spectral_le {m : ℕ} {B : Matrix (Fin m) (Fin m) ℝ} {w : Fin m → ℝ} {V : Matrix (Fin m) (Fin m) ℝ} (h : IsEigh B w V) (f : ℝ → ℝ) {c : ℝ} (hc : 0 ≤ c)
    (hf : ∀ a, |f (w a)| ≤ c) (x : Vec m) : nrm (Spec.matFun w V f *ᵥ x) ≤ c * nrm x := by
  rw [← nrm_rotate h.mul_transpose, ← nrm_rotate h.mul_transpose x]
  have e : Vᵀ *ᵥ (Spec.matFun w V f *ᵥ x) = fun a => f (w a) * (Vᵀ *ᵥ x) a := by
    unfold Spec.matFun
    rw [← mulVec_mulVec, ← mulVec_mulVec, mulVec_mulVec, h.1, one_mulVec]
    funext a
    rw [mulVec_diagonal]
  rw [e]
  unfold nrm
  rw [← Real.sqrt_sq hc, ← Real.sqrt_mul (sq_nonneg c)]
  refine Real.sqrt_le_sqrt ?_
  simp only [dotProduct]
  rw [Finset.mul_sum]
  refine Finset.sum_le_sum fun a _ => ?_
  have h1 : f (w a) ^ 2 ≤ c ^ 2 := by
    rw [← sq_abs (f (w a))]
    exact pow_le_pow_left₀ (abs_nonneg _) (hf a) 2
  have h2 := mul_le_mul_of_nonneg_right h1 (mul_self_nonneg ((Vᵀ *ᵥ x) a))
  linarith

theorem nrm_single_zero (hk : 0 < k) : nrm (Pi.single ⟨0, hk⟩ 1 : Vec k) = 1 := by
  unfold nrm
  rw [single_dotProduct, one_mul, Pi.single_eq_same, Real.sqrt_one]

/-- The vectors as columns. -/
def cols (q : ℕ → Vec n) (k : ℕ) : Matrix (Fin n) (Fin k) ℝ := Matrix.of fun i j => q j i

theorem cols_mulVec (y : Vec k) : cols q k *ᵥ y = comb (fun j : Fin k => q j) y := by
  unfold comb cols
  funext i
  rw [Finset.sum_apply]
  simp only [mulVec, dotProduct, Matrix.of_apply]
  exact Finset.sum_congr rfl fun j _ => by rw [Pi.smul_apply, smul_eq_mul, mul_comm]

theorem cols_single (hk : 0 < k) : cols q k *ᵥ (Pi.single ⟨0, hk⟩ 1 : Vec k) = q 0 := by
  rw [mulVec_single_one]
  rfl

/-- `p(A) q_0` and `Q p(T) e_1`. -/
theorem NearS.apply_poly (h : NearS A ε S k α β q r) (h0 : 0 ≤ ε) (hS : 0 ≤ S) (hk : 0 < k) {lam : Fin n → ℝ} {U : Matrix (Fin n) (Fin n) ℝ} (hU : IsEigh A lam U)
    {th : Fin k → ℝ} {Y : Matrix (Fin k) (Fin k) ℝ} (hY : IsEigh (jac α β k) th Y) (p : ℝ[X]) (hp : p.natDegree < k) {a b L : ℝ}
    (hL : ∀ x, a ≤ x → x ≤ b → |(derivative p).eval x| ≤ L) (hlam : ∀ i, a ≤ lam i ∧ lam i ≤ b) (hth : ∀ j, a ≤ th j ∧ th j ≤ b) :
    nrm (aeval A p *ᵥ q 0 - comb (fun j : Fin k => q j) (aeval (jac α β k) p *ᵥ (Pi.single ⟨0, hk⟩ 1 : Vec k))) ≤ L * (13 * Real.sqrt k * (ε * S)) := by
  obtain ⟨F, hR, hF⟩ := h.nearRel
  have hL0 : 0 ≤ L := (abs_nonneg _).trans (hL (th ⟨0, hk⟩) (hth _).1 (hth _).2)
  have eS : 0 ≤ ε * S := mul_nonneg h0 hS
  have hs := sylvester_poly hU hY hk hR.tri' (cols q k) (Matrix.of fun i j => F j i) r (fun i j => by
    have h1 := congrFun (hR.rel j) i
    have e1 : (A * cols q k) i j = (A *ᵥ q j) i := rfl
    have e2 : (cols q k * jac α β k) i j = (∑ l, jac α β k l j • q l) i := by
      rw [Matrix.mul_apply, Finset.sum_apply]
      exact Finset.sum_congr rfl fun l _ => by rw [Pi.smul_apply, smul_eq_mul, mul_comm]; rfl
    rw [e1, e2, h1, Matrix.of_apply]
    simp only [Pi.add_apply]
    split_ifs
    · ring
    · simp) p hp hL hlam hth
  rw [cols_single, cols_mulVec] at hs
  refine hs.trans (mul_le_mul_of_nonneg_left ?_ hL0)
  apply Real.sqrt_le_iff.2
  refine ⟨by positivity, ?_⟩
  have e1 : frobSq (Matrix.of fun i j => F j i) = ∑ j, nrm (F j) * nrm (F j) := by
    unfold frobSq
    rw [Finset.sum_comm]
    refine Finset.sum_congr rfl fun j _ => ?_
    rw [nrm_sq]
    exact Finset.sum_congr rfl fun i _ => sq _
  rw [e1]
  calc ∑ j, nrm (F j) * nrm (F j) ≤ ∑ _j : Fin k, (13 * (ε * S)) * (13 * (ε * S)) :=
        Finset.sum_le_sum fun j _ => mul_self_le_mul_self (nrm_nonneg _) (hF j)
    _ = (13 * Real.sqrt k * (ε * S)) ^ 2 := by
        rw [Finset.sum_const, Finset.card_univ, Fintype.card_fin, nsmul_eq_mul, mul_pow, mul_pow, Real.sq_sqrt (Nat.cast_nonneg k)]
        ring

/-- `R p(T) e_1` is small. -/
theorem NearS.upper_poly (h : NearS A ε S k α β q r) (hA : A.IsSymm) (h0 : 0 ≤ ε) (h1 : ε ≤ 1 / 100) (hS : 0 ≤ S) (hk : 0 < k)
    {th : Fin k → ℝ} {Y : Matrix (Fin k) (Fin k) ℝ} (hY : IsEigh (jac α β k) th Y) (p : ℝ[X]) (hp : p.natDegree < k) {a b L : ℝ}
    (hL : ∀ x, a ≤ x → x ≤ b → |(derivative p).eval x| ≤ L) (hth : ∀ j, a ≤ th j ∧ th j ≤ b) :
    nrm (upperGram (fun j : Fin k => q j) *ᵥ (aeval (jac α β k) p *ᵥ (Pi.single ⟨0, hk⟩ 1 : Vec k))) ≤ L * (48 * k * (ε * S)) := by
  obtain ⟨F, hR, hF⟩ := h.nearRel
  have hL0 : 0 ≤ L := (abs_nonneg _).trans (hL (th ⟨0, hk⟩) (hth _).1 (hth _).2)
  have eS : 0 ≤ ε * S := mul_nonneg h0 hS
  have hs := sylvester_poly hY hY hk hR.tri' (upperGram fun j : Fin k => q j) (defect (fun j : Fin k => q j) (jac α β k) r) (fun i => q i ⬝ᵥ r) (fun i j => by
    unfold defect
    rw [Matrix.of_apply]
    ring) p hp hL hth hth
  have e0 : upperGram (fun j : Fin k => q j) *ᵥ (Pi.single ⟨0, hk⟩ 1 : Vec k) = 0 := by
    rw [mulVec_single_one]
    funext i
    show (if i < (⟨0, hk⟩ : Fin k) then q i ⬝ᵥ q 0 else (0 : ℝ)) = 0
    rw [if_neg]
    intro hc
    have : (i : ℕ) < 0 := hc
    omega
  rw [e0, mulVec_zero, zero_sub, nrm_neg] at hs
  refine hs.trans (mul_le_mul_of_nonneg_left ?_ hL0)
  apply Real.sqrt_le_iff.2
  refine ⟨by positivity, ?_⟩
  unfold frobSq
  calc ∑ i, ∑ j, defect (fun j : Fin k => q j) (jac α β k) r i j ^ 2 ≤ ∑ _i : Fin k, ∑ _j : Fin k, (48 * (ε * S)) ^ 2 := by
        refine Finset.sum_le_sum fun i _ => Finset.sum_le_sum fun j _ => ?_
        rw [← sq_abs]
        exact pow_le_pow_left₀ (abs_nonneg _) (h.defect_le hA h0 h1 hS i j) 2
    _ = (48 * k * (ε * S)) ^ 2 := by
        simp only [Finset.sum_const, Finset.card_univ, Fintype.card_fin, nsmul_eq_mul]
        ring

/-- `Qᵀ Q = R + Rᵀ + D`. -/
theorem comb_dot (q : Fin k → Vec n) (x y : Vec k) :
    comb q x ⬝ᵥ comb q y = x ⬝ᵥ (upperGram q *ᵥ y) + (upperGram q *ᵥ x) ⬝ᵥ y + ∑ i, x i * y i * (q i ⬝ᵥ q i) := by
  have e1 : comb q x ⬝ᵥ comb q y = ∑ i, ∑ j, x i * y j * (q i ⬝ᵥ q j) := by
    unfold comb
    rw [sum_dotProduct]
    refine Finset.sum_congr rfl fun i _ => ?_
    rw [dotProduct_sum]
    refine Finset.sum_congr rfl fun j _ => ?_
    rw [smul_dotProduct, dotProduct_smul, smul_eq_mul, smul_eq_mul]
    ring
  have e2 : x ⬝ᵥ (upperGram q *ᵥ y) = ∑ i, ∑ j, x i * y j * (if i < j then q i ⬝ᵥ q j else 0) := by
    show ∑ i, x i * ∑ j, (if i < j then q i ⬝ᵥ q j else 0) * y j = _
    refine Finset.sum_congr rfl fun i _ => ?_
    rw [Finset.mul_sum]
    exact Finset.sum_congr rfl fun j _ => by ring
  have e3 : (upperGram q *ᵥ x) ⬝ᵥ y = ∑ i, ∑ j, x i * y j * (if j < i then q i ⬝ᵥ q j else 0) := by
    show ∑ i, (∑ j, (if i < j then q i ⬝ᵥ q j else 0) * x j) * y i = _
    simp only [Finset.sum_mul]
    rw [Finset.sum_comm]
    refine Finset.sum_congr rfl fun i _ => Finset.sum_congr rfl fun j _ => ?_
    rw [dotProduct_comm (q j)]
    ring
  have e4 : ∑ i, x i * y i * (q i ⬝ᵥ q i) = ∑ i, ∑ j, x i * y j * (if i = j then q i ⬝ᵥ q j else 0) := by
    refine Finset.sum_congr rfl fun i _ => ?_
    rw [Finset.sum_eq_single i]
    · rw [if_pos rfl]
    · intro j _ hj
      rw [if_neg (fun hc => hj hc.symm), mul_zero]
    · intro hc
      exact absurd (Finset.mem_univ i) hc
  rw [e1, e2, e3, e4, ← Finset.sum_add_distrib, ← Finset.sum_add_distrib]
  refine Finset.sum_congr rfl fun i _ => ?_
  rw [← Finset.sum_add_distrib, ← Finset.sum_add_distrib]
  refine Finset.sum_congr rfl fun j _ => ?_
  rcases lt_trichotomy i j with hij | hij | hij
  · rw [if_pos hij, if_neg (not_lt.2 hij.le), if_neg hij.ne]
    ring
  · rw [if_neg (by rw [hij]; exact lt_irrefl _), if_neg (by rw [hij]; exact lt_irrefl _), if_pos hij]
    ring
  · rw [if_neg (not_lt.2 hij.le), if_pos hij, if_neg hij.ne']
    ring

theorem NearS.comb_le (h : NearS A ε S k α β q r) (h1 : ε ≤ 1 / 100) (y : Vec k) : nrm (comb (fun j : Fin k => q j) y) ≤ 1.05 * (Real.sqrt k * nrm y) := by
  unfold comb
  calc nrm (∑ j : Fin k, y j • q j) ≤ ∑ j : Fin k, nrm (y j • q j) := nrm_sum_le _ _
    _ ≤ ∑ j, |y j| * 1.05 := Finset.sum_le_sum fun j _ => by
        rw [nrm_smul]
        refine mul_le_mul_of_nonneg_left ?_ (abs_nonneg _)
        have := (abs_le.1 (h.unit j j.2)).2
        linarith
    _ = (∑ j, |y j|) * 1.05 := by rw [Finset.sum_mul]
    _ ≤ (Real.sqrt k * nrm y) * 1.05 := mul_le_mul_of_nonneg_right (abs_sum_le_sqrt y) (by norm_num)
    _ = 1.05 * (Real.sqrt k * nrm y) := by ring

/-- The error of the quadrature. -/
def quadErr (A : Matrix (Fin n) (Fin n) ℝ) (T : Matrix (Fin k) (Fin k) ℝ) (hk : 0 < k) (q0 : Vec n) (g : ℝ[X]) : ℝ :=
  q0 ⬝ᵥ (aeval A g *ᵥ q0) - (aeval T g *ᵥ (Pi.single ⟨0, hk⟩ 1 : Vec k)) ⟨0, hk⟩

theorem aeval_symm {m : ℕ} {B : Matrix (Fin m) (Fin m) ℝ} (hB : B.IsSymm) (p : ℝ[X]) : (aeval B p).IsSymm := by
  show (aeval B p)ᵀ = aeval B p
  rw [aeval_eq_sum_range, transpose_sum]
  refine Finset.sum_congr rfl fun i _ => ?_
  rw [transpose_smul, KData.pow_symm hB i]

theorem aeval_mul_dot {m : ℕ} {B : Matrix (Fin m) (Fin m) ℝ} (hB : B.IsSymm) (p s : ℝ[X]) (x : Vec m) :
    x ⬝ᵥ (aeval B (p * s) *ᵥ x) = (aeval B p *ᵥ x) ⬝ᵥ (aeval B s *ᵥ x) := by
  rw [map_mul, ← mulVec_mulVec]
  exact (SelfAdj.mulVec (aeval_symm hB p) x (aeval B s *ᵥ x)).symm

/-- Products of two polynomials of degree below `k`. -/
theorem NearS.quad_mul (h : NearS A ε S k α β q r) (hA : A.IsSymm) (h0 : 0 ≤ ε) (h1 : ε ≤ 1 / 100) (hS : 0 ≤ S) (hk : 0 < k) {lam : Fin n → ℝ}
    {U : Matrix (Fin n) (Fin n) ℝ} (hU : IsEigh A lam U) {th : Fin k → ℝ} {Y : Matrix (Fin k) (Fin k) ℝ} (hY : IsEigh (jac α β k) th Y)
    {a b : ℝ} (hlam : ∀ i, a ≤ lam i ∧ lam i ≤ b) (hth : ∀ j, a ≤ th j ∧ th j ≤ b) (p s : ℝ[X]) (hp : p.natDegree < k) (hs : s.natDegree < k) {L1 L2 : ℝ}
    (hL1 : ∀ x, a ≤ x → x ≤ b → |(derivative p).eval x| ≤ L1) (hL2 : ∀ x, a ≤ x → x ≤ b → |(derivative s).eval x| ≤ L2)
    (hB1 : ∀ x, a ≤ x → x ≤ b → |p.eval x| ≤ 1) (hB2 : ∀ x, a ≤ x → x ≤ b → |s.eval x| ≤ 1) :
    |quadErr A (jac α β k) hk (q 0) (p * s)| ≤ 11 * ε + 62 * k * (ε * S) * (L1 + L2) := by
  have eS : 0 ≤ ε * S := mul_nonneg h0 hS
  have hL10 : 0 ≤ L1 := (abs_nonneg _).trans (hL1 (th ⟨0, hk⟩) (hth _).1 (hth _).2)
  have hL20 : 0 ≤ L2 := (abs_nonneg _).trans (hL2 (th ⟨0, hk⟩) (hth _).1 (hth _).2)
  set e : Vec k := Pi.single ⟨0, hk⟩ 1 with he
  set T := jac α β k with hT
  set y1 := aeval T p *ᵥ e with hy1
  set y2 := aeval T s *ᵥ e with hy2
  have n1 : nrm y1 ≤ 1 := by
    have := spectral_le hY (fun x => p.eval x) (c := 1) (by norm_num) (fun j => hB1 _ (hth j).1 (hth j).2) e
    rwa [hY.matFun_poly, he, nrm_single_zero, mul_one] at this
  have n2 : nrm y2 ≤ 1 := by
    have := spectral_le hY (fun x => s.eval x) (c := 1) (by norm_num) (fun j => hB2 _ (hth j).1 (hth j).2) e
    rwa [hY.matFun_poly, he, nrm_single_zero, mul_one] at this
  have hq0 : nrm (q 0) ≤ 1.05 := by
    have := (abs_le.1 (h.unit 0 hk)).2
    linarith
  have m2 : nrm (aeval A s *ᵥ q 0) ≤ 1.05 := by
    have := spectral_le hU (fun x => s.eval x) (c := 1) (by norm_num) (fun j => hB2 _ (hlam j).1 (hlam j).2) (q 0)
    rw [hU.matFun_poly, one_mul] at this
    exact this.trans hq0
  have d1 := h.apply_poly h0 hS hk hU hY p hp hL1 hlam hth
  have d2 := h.apply_poly h0 hS hk hU hY s hs hL2 hlam hth
  have u1 := h.upper_poly hA h0 h1 hS hk hY p hp hL1 hth
  have u2 := h.upper_poly hA h0 h1 hS hk hY s hs hL2 hth
  set x1 := comb (fun j : Fin k => q j) y1 with hx1
  set x2 := comb (fun j : Fin k => q j) y2 with hx2
  set R := upperGram fun j : Fin k => q j with hR
  have c1 : nrm x1 ≤ 1.05 * Real.sqrt k := by
    have := h.comb_le h1 y1
    have h2 : Real.sqrt k * nrm y1 ≤ Real.sqrt k * 1 := mul_le_mul_of_nonneg_left n1 (Real.sqrt_nonneg _)
    linarith
  have eq : quadErr A T hk (q 0) (p * s) = (aeval A p *ᵥ q 0 - x1) ⬝ᵥ (aeval A s *ᵥ q 0) + x1 ⬝ᵥ (aeval A s *ᵥ q 0 - x2) + y1 ⬝ᵥ (R *ᵥ y2) + (R *ᵥ y1) ⬝ᵥ y2 +
      ∑ i : Fin k, y1 i * y2 i * (q i ⬝ᵥ q i - 1) := by
    unfold quadErr
    have e1 : (aeval T (p * s) *ᵥ e) ⟨0, hk⟩ = y1 ⬝ᵥ y2 := by
      rw [hy1, hy2, ← aeval_mul_dot (jac_symm α β k), he, single_dotProduct, one_mul]
    have e2 := comb_dot (fun j : Fin k => q j) y1 y2
    rw [← hx1, ← hx2] at e2
    rw [← he, e1, aeval_mul_dot hA, sub_dotProduct, dotProduct_sub, e2]
    have e3 : ∑ i : Fin k, y1 i * y2 i * (q i ⬝ᵥ q i - 1) = ∑ i : Fin k, y1 i * y2 i * (q i ⬝ᵥ q i) - y1 ⬝ᵥ y2 := by
      rw [dotProduct, ← Finset.sum_sub_distrib]
      exact Finset.sum_congr rfl fun i _ => by ring
    rw [e3]
    ring
  have sk : Real.sqrt k ≤ k := by
    apply Real.sqrt_le_iff.2
    have : (1 : ℝ) ≤ k := by exact_mod_cast hk
    exact ⟨by linarith, by nlinarith⟩
  have skk : Real.sqrt k * Real.sqrt k = k := Real.mul_self_sqrt (Nat.cast_nonneg k)
  have t1 : |(aeval A p *ᵥ q 0 - x1) ⬝ᵥ (aeval A s *ᵥ q 0)| ≤ 1.05 * (13 * k * (L1 * (ε * S))) := by
    refine (abs_dot_le _ _).trans ?_
    have h2 : nrm (aeval A p *ᵥ q 0 - x1) ≤ 13 * k * (L1 * (ε * S)) := by
      refine d1.trans ?_
      have h3 : 0 ≤ 13 * (L1 * (ε * S)) := by positivity
      have := mul_le_mul_of_nonneg_right sk h3
      linarith
    have := mul_le_mul h2 m2 (nrm_nonneg _) ((nrm_nonneg _).trans h2)
    linarith
  have t2 : |x1 ⬝ᵥ (aeval A s *ᵥ q 0 - x2)| ≤ 1.05 * (13 * k * (L2 * (ε * S))) := by
    refine (abs_dot_le _ _).trans ?_
    have := mul_le_mul c1 d2 (nrm_nonneg _) (by positivity)
    refine this.trans (le_of_eq ?_)
    rw [show 1.05 * Real.sqrt k * (L2 * (13 * Real.sqrt k * (ε * S))) = 1.05 * (13 * (Real.sqrt k * Real.sqrt k) * (L2 * (ε * S))) by ring, skk]
  have t3 : |y1 ⬝ᵥ (R *ᵥ y2)| ≤ 48 * k * (L2 * (ε * S)) := by
    refine (abs_dot_le _ _).trans ?_
    have := mul_le_mul n1 u2 (nrm_nonneg _) (by norm_num)
    linarith
  have t4 : |(R *ᵥ y1) ⬝ᵥ y2| ≤ 48 * k * (L1 * (ε * S)) := by
    refine (abs_dot_le _ _).trans ?_
    have := mul_le_mul u1 n2 (nrm_nonneg _) ((nrm_nonneg _).trans u1)
    linarith
  have t5 : |∑ i : Fin k, y1 i * y2 i * (q i ⬝ᵥ q i - 1)| ≤ 11 * ε := by
    calc |∑ i : Fin k, y1 i * y2 i * (q i ⬝ᵥ q i - 1)| ≤ ∑ i : Fin k, |y1 i * y2 i * (q i ⬝ᵥ q i - 1)| := Finset.abs_sum_le_sum_abs _ _
      _ ≤ ∑ i : Fin k, |y1 i * y2 i| * (10.25 * ε) := by
          refine Finset.sum_le_sum fun i _ => ?_
          rw [abs_mul]
          refine mul_le_mul_of_nonneg_left ?_ (abs_nonneg _)
          rw [← nrm_sq, abs_sub_comm]
          exact near_one_sq h0 h1 (h.unit i i.2)
      _ = (∑ i : Fin k, |y1 i * y2 i|) * (10.25 * ε) := by rw [Finset.sum_mul]
      _ ≤ 1 * (10.25 * ε) := by
          refine mul_le_mul_of_nonneg_right ?_ (by positivity)
          have h2 := abs_dot_le (fun i => |y1 i|) (fun i => |y2 i|)
          have ab : ∀ z : Vec k, nrm (fun i => |z i|) = nrm z := by
            intro z
            unfold nrm
            congr 1
            exact Finset.sum_congr rfl fun i _ => abs_mul_abs_self _
          rw [ab, ab] at h2
          have h3 : nrm y1 * nrm y2 ≤ 1 * 1 := mul_le_mul n1 n2 (nrm_nonneg _) (by norm_num)
          have h4 : ∑ i : Fin k, |y1 i * y2 i| = (fun i => |y1 i|) ⬝ᵥ (fun i => |y2 i|) := Finset.sum_congr rfl fun i _ => abs_mul _ _
          rw [h4]
          linarith [le_abs_self ((fun i => |y1 i|) ⬝ᵥ (fun i => |y2 i|))]
      _ ≤ 11 * ε := by linarith
  rw [eq]
  have a1 := abs_add_le ((aeval A p *ᵥ q 0 - x1) ⬝ᵥ (aeval A s *ᵥ q 0) + x1 ⬝ᵥ (aeval A s *ᵥ q 0 - x2) + y1 ⬝ᵥ (R *ᵥ y2) + (R *ᵥ y1) ⬝ᵥ y2)
    (∑ i : Fin k, y1 i * y2 i * (q i ⬝ᵥ q i - 1))
  have a2 := abs_add_le ((aeval A p *ᵥ q 0 - x1) ⬝ᵥ (aeval A s *ᵥ q 0) + x1 ⬝ᵥ (aeval A s *ᵥ q 0 - x2) + y1 ⬝ᵥ (R *ᵥ y2)) ((R *ᵥ y1) ⬝ᵥ y2)
  have a3 := abs_add_le ((aeval A p *ᵥ q 0 - x1) ⬝ᵥ (aeval A s *ᵥ q 0) + x1 ⬝ᵥ (aeval A s *ᵥ q 0 - x2)) (y1 ⬝ᵥ (R *ᵥ y2))
  have a4 := abs_add_le ((aeval A p *ᵥ q 0 - x1) ⬝ᵥ (aeval A s *ᵥ q 0)) (x1 ⬝ᵥ (aeval A s *ᵥ q 0 - x2))
  have z1 : 0 ≤ k * (L1 * (ε * S)) := by positivity
  have z2 : 0 ≤ k * (L2 * (ε * S)) := by positivity
  linarith

end Primate
