import Verif.Lemmas.Hermite
import Verif.Props.SLQ
import Verif.Props.Quadrature
import Mathlib.Analysis.SpecialFunctions.Log.Deriv
import Mathlib.Analysis.SpecialFunctions.ExpDeriv

/-!
# C103, C104: the error of `MatrixFunction.quad` below full degree
-/

noncomputable section

namespace Primate

open Matrix Polynomial

variable {n : ℕ}

/-! ## Facts about the rule -/

/-- The nodes of an unreduced Jacobi matrix are distinct. -/
theorem theta_injective {k : ℕ} (d e : ℕ → ℝ) (he : ∀ i, 1 ≤ i → i < k → e i ≠ 0) (theta : Fin k → ℝ) (Y : Matrix (Fin k) (Fin k) ℝ)
    (hY : IsEigh (triMat k d e) theta Y) : Function.Injective theta := by
  intro a b hab
  by_contra hne
  have hk : 0 < k := a.pos
  have hr : ∀ c j, Y j c = orthoPoly (theta c) 1 d e j * Y ⟨0, hk⟩ c := by
    intro c j
    have := eigvec_recurrence d e he (theta c) 1 (Y.col c) (hY.col_eq c) hk j j.2
    rw [one_mul] at this
    exact this
  have h1 : ∑ j, Y j a * Y j a = 1 := hY.unit_col a
  have h2 : ∑ j, Y j b * Y j b = 1 := hY.unit_col b
  have h3 : ∑ j, Y j a * Y j b = 0 := by
    have := congrFun (congrFun hY.1 a) b
    rw [Matrix.mul_apply, Matrix.one_apply_ne hne] at this
    exact this
  have e1 : ∑ j, Y j a * Y j a = Y ⟨0, hk⟩ a ^ 2 * ∑ j : Fin k, orthoPoly (theta b) 1 d e j ^ 2 := by
    rw [Finset.mul_sum]
    exact Finset.sum_congr rfl fun j _ => by rw [hr a j, hab]; ring
  have e2 : ∑ j, Y j b * Y j b = Y ⟨0, hk⟩ b ^ 2 * ∑ j : Fin k, orthoPoly (theta b) 1 d e j ^ 2 := by
    rw [Finset.mul_sum]
    exact Finset.sum_congr rfl fun j _ => by rw [hr b j]; ring
  have e3 : ∑ j, Y j a * Y j b = Y ⟨0, hk⟩ a * Y ⟨0, hk⟩ b * ∑ j : Fin k, orthoPoly (theta b) 1 d e j ^ 2 := by
    rw [Finset.mul_sum]
    exact Finset.sum_congr rfl fun j _ => by rw [hr a j, hr b j, hab]; ring
  rw [e1] at h1
  rw [e2] at h2
  rw [e3] at h3
  have h4 : (Y ⟨0, hk⟩ a * Y ⟨0, hk⟩ b * ∑ j : Fin k, orthoPoly (theta b) 1 d e j ^ 2) ^ 2 = 1 := by
    calc _ = (Y ⟨0, hk⟩ a ^ 2 * ∑ j : Fin k, orthoPoly (theta b) 1 d e j ^ 2) *
          (Y ⟨0, hk⟩ b ^ 2 * ∑ j : Fin k, orthoPoly (theta b) 1 d e j ^ 2) := by ring
      _ = 1 := by rw [h1, h2, one_mul]
  rw [h3] at h4
  norm_num at h4

theorem IsEigh.weights_sum {k : ℕ} {T Y : Matrix (Fin k) (Fin k) ℝ} {theta : Fin k → ℝ} (h : IsEigh T theta Y) (i : Fin k) :
    ∑ a, Y i a ^ 2 = 1 := by
  have := congrFun (congrFun h.mul_transpose i) i
  rw [Matrix.mul_apply, Matrix.one_apply_eq] at this
  rw [← this]
  exact Finset.sum_congr rfl fun a _ => by rw [transpose_apply]; ring

/-- The error of the rule is the weighted sum of the interpolation errors. -/
theorem KData.quad_error {k : ℕ} {B : Matrix (Fin n) (Fin n) ℝ} {lam : Fin n → ℝ} {U : Matrix (Fin n) (Fin n) ℝ} {q0 r : Vec n}
    {Q : Matrix (Fin n) (Fin k) ℝ} {T : Matrix (Fin k) (Fin k) ℝ} {theta : Fin k → ℝ} {Y : Matrix (Fin k) (Fin k) ℝ}
    (h : KData B q0 Q T r) (hB : B.IsSymm) (hU : IsEigh B lam U) (hY : IsEigh T theta Y) (f : ℝ → ℝ) (p : ℝ[X])
    (hp : p.natDegree < 2 * k) :
    Spec.quadForm (Spec.matFun lam U f) q0 - ∑ a, f (theta a) * Y ⟨0, h.kpos⟩ a ^ 2 =
      ∑ a, (f (lam a) - p.eval (lam a)) * (Uᵀ *ᵥ q0) a ^ 2 -
        ∑ a, (f (theta a) - p.eval (theta a)) * Y ⟨0, h.kpos⟩ a ^ 2 := by
  have h1 := h.quad_poly_eq hB hU hY p (Or.inl hp)
  unfold Spec.quadForm at h1 ⊢
  rw [hU.quad_sum] at h1 ⊢
  simp only [sub_mul, Finset.sum_sub_distrib, h1]
  ring

theorem abs_weighted_le {k : ℕ} (g w : Fin k → ℝ) (e : ℝ) (hw : ∑ a, w a ^ 2 = 1) (hg : ∀ a, |g a| ≤ e) :
    |∑ a, g a * w a ^ 2| ≤ e := by
  refine (Finset.abs_sum_le_sum_abs _ _).trans ?_
  calc ∑ a, |g a * w a ^ 2| ≤ ∑ a, e * w a ^ 2 := Finset.sum_le_sum fun a _ => by
        rw [abs_mul, abs_of_nonneg (sq_nonneg (w a))]
        exact mul_le_mul_of_nonneg_right (hg a) (sq_nonneg _)
    _ = e := by rw [← Finset.mul_sum, hw, mul_one]

/-- What is known of the error of one column. -/
theorem quadCol_error (K : TriKernels) (hK : EighOk K) (eps : ℝ) (heps : 0 ≤ eps) (fuel : ℕ) (M : MF n) (hM : M.WF)
    (B : Matrix (Fin n) (Fin n) ℝ) (hB : B.IsSymm) (lam : Fin n → ℝ) (U : Matrix (Fin n) (Fin n) ℝ)
    (hU : Spec.Eigen B lam U) (hA : M.A = B.mulVec) (hr : 0 < M.rtol) (hf : FreshQ M.orth M.Q) (x : Vec n) :
    ∃ M' y, M.quadCol K eps fuel x = some (.ok (M', some y)) ∧
      (Spec.CleanStop (Real.sqrt n * M.rtol) M.deg M'.beta.get →
        (∀ (p : ℝ[X]) (e : ℝ), p.natDegree < 2 * M.deg →
          (∀ t, (∃ a, lam a ≤ t) → (∃ b, t ≤ lam b) → |M.f t - p.eval t| ≤ e) →
          |y - Spec.quadForm (Spec.matFun lam U M.f) x| ≤ 2 * e * ∑ i, x i ^ 2) ∧
        ∀ (F : ℕ → ℝ → ℝ) (lo hi : ℝ), F 0 = M.f → (∀ a, lo ≤ lam a ∧ lam a ≤ hi) →
          (∀ j < 2 * M.deg, ∀ t ∈ Set.Icc lo hi, HasDerivAt (F j) (F (j + 1) t) t) →
          ((∀ t ∈ Set.Icc lo hi, 0 ≤ F (2 * M.deg) t) → y ≤ Spec.quadForm (Spec.matFun lam U M.f) x) ∧
          ((∀ t ∈ Set.Icc lo hi, F (2 * M.deg) t ≤ 0) → Spec.quadForm (Spec.matFun lam U M.f) x ≤ y) ∧
          ∀ c, (∀ t ∈ Set.Icc lo hi, |F (2 * M.deg) t| ≤ c) →
            |y - Spec.quadForm (Spec.matFun lam U M.f) x| ≤
              c / ((2 * M.deg).factorial : ℝ) * (hi - lo) ^ (2 * M.deg) * ∑ i, x i ^ 2) := by
  obtain ⟨J, s, theta, Y, hJ, hJ1, hJ2, hF, hY, hq⟩ := quadCol_run K hK eps heps fuel M hM B hB hA hr hf x
  refine ⟨_, _, hq, fun hc => ?_⟩
  have htol := tol_pos hM.npos hr
  have hc' := clean_stop B x M.deg J _ htol hJ1 hJ2 hJ _ _ _ s hF hc
  have hxx : ∑ i, x i ^ 2 = nrm x ^ 2 := by
    rw [sq, nrm_sq]; exact Finset.sum_congr rfl fun i _ => sq _
  by_cases hx : x = 0
  · subst hx
    have e1 : nrm (0 : Vec n) ^ 2 = 0 := by rw [nrm_zero]; ring
    have e2 : Spec.quadForm (Spec.matFun lam U M.f) (0 : Vec n) = 0 := by simp [Spec.quadForm]
    rw [e1, e2, mul_zero]
    simp
  have hk := kdata_of_clean B hB x hx M.deg J _ htol hJ hJ1 _ _ _ s hF hc'
  have hU' := isEigh_iff_eigen.mpr hU
  set R : ℝ := ∑ a, M.f (theta a) * Y ⟨0, hM.dpos⟩ a ^ 2 with hR
  have hD : R * nrm x ^ 2 - Spec.quadForm (Spec.matFun lam U M.f) x =
      -(Spec.quadForm (Spec.matFun lam U M.f) (normalized x) - R) * nrm x ^ 2 := by
    rw [← quadForm_normalized]; ring
  have hq1 : normalized x ⬝ᵥ normalized x = 1 := by
    have := hk.q0Q (Pi.single ⟨0, hk.kpos⟩ 1)
    rw [hk.e0] at this
    simpa using this
  have hw1 : ∑ a, (Uᵀ *ᵥ normalized x) a ^ 2 = 1 := by rw [hU'.norm_sum, hq1]
  have hw2 : ∑ a, Y ⟨0, hM.dpos⟩ a ^ 2 = 1 := hY.weights_sum _
  have hne : (normalized x) ≠ 0 := fun h => by rw [h] at hq1; simp at hq1
  obtain ⟨i0, -⟩ : ∃ i, normalized x i ≠ 0 := Function.ne_iff.1 hne
  by_cases hr0 : (if J + 1 = M.deg then lzb B.mulVec x M.deg • lzq B.mulVec x M.deg else 0) = 0
  · have hex : R * nrm x ^ 2 = Spec.quadForm (Spec.matFun lam U M.f) x := by
      rw [hR, hk.quad_exact hB hU' hY hr0, quadForm_normalized]
    rw [hex, sub_self, abs_zero, hxx]
    refine ⟨fun p e hp he => ?_, fun F lo hi h0 hlam hder => ⟨fun _ => le_rfl, fun _ => le_rfl, fun c hcb => ?_⟩⟩
    · have := (abs_nonneg _).trans (he (lam i0) ⟨i0, le_rfl⟩ ⟨i0, le_rfl⟩)
      positivity
    · have h1 := (abs_nonneg _).trans (hcb (lam i0) (hlam i0))
      have h2 : 0 ≤ hi - lo := by have := hlam i0; linarith
      positivity
  · obtain ⟨hQ, hrQ⟩ := hk.exact.resolve_left hr0
    have hJk : J + 1 = M.deg := by by_contra h; exact hr0 (if_neg h)
    have hhull := hk.ritz hU' hY hQ hrQ
    constructor
    · intro p e hp he
      rw [hD, abs_mul, abs_neg, hk.quad_error hB hU' hY M.f p hp, abs_of_nonneg (sq_nonneg (nrm x)), hxx]
      refine mul_le_mul_of_nonneg_right ?_ (sq_nonneg _)
      refine (abs_sub _ _).trans ?_
      have b1 := abs_weighted_le (fun a => M.f (lam a) - p.eval (lam a)) (Uᵀ *ᵥ normalized x) e hw1
        fun a => he _ ⟨a, le_rfl⟩ ⟨a, le_rfl⟩
      have b2 := abs_weighted_le (fun a => M.f (theta a) - p.eval (theta a)) (fun a => Y ⟨0, hM.dpos⟩ a) e hw2
        fun a => he _ (hhull a).1 (hhull a).2
      linarith
    · intro F lo hi h0 hlam hder
      have hinj := theta_injective s.alpha.get s.beta.get (fun i h1 h2 => by
        rw [hF.beta_le i (by omega)]
        have := hJ1 (i - 1) (by omega)
        rw [Nat.sub_add_cancel h1] at this
        exact (lt_of_lt_of_le htol this).ne') theta Y hY
      obtain ⟨S, hS⟩ : ∃ S : Finset ℝ, S = Finset.univ.image theta := ⟨_, rfl⟩
      have hcard : S.card = M.deg := by
        rw [hS, Finset.card_image_of_injective _ hinj, Finset.card_univ, Fintype.card_fin]
      have hSne : S.Nonempty := Finset.card_pos.1 (by rw [hcard]; exact hM.dpos)
      have hSI : ∀ t ∈ S, t ∈ Set.Icc lo hi := by
        intro t ht
        rw [hS] at ht
        obtain ⟨a, -, rfl⟩ := Finset.mem_image.1 ht
        obtain ⟨⟨b, hb⟩, ⟨c, hc⟩⟩ := hhull a
        exact ⟨(hlam b).1.trans hb, hc.trans (hlam c).2⟩
      obtain ⟨p, hp, hp0, hp1⟩ := exists_hermite S hSne (F 0) (F 1)
      have hrem := fun a => hermite_remainder lo hi S hSne hSI F (by rw [hcard]; exact hder) p hp hp0 hp1 (lam a) (hlam a)
      rw [hcard] at hp hrem
      choose tt htt hrem using hrem
      rw [h0] at hrem hp0
      have hz : ∑ a, (M.f (theta a) - p.eval (theta a)) * Y ⟨0, hM.dpos⟩ a ^ 2 = 0 :=
        Finset.sum_eq_zero fun a _ => by
          rw [hp0 (theta a) (by rw [hS]; exact Finset.mem_image_of_mem _ (Finset.mem_univ a)), sub_self, zero_mul]
      have herr := hk.quad_error hB hU' hY M.f p hp
      rw [hz, sub_zero, ← hR] at herr
      have hfac : (0 : ℝ) < ((2 * M.deg).factorial : ℝ) := by positivity
      refine ⟨fun hpos => ?_, fun hneg => ?_, fun c hcb => ?_⟩
      · have : 0 ≤ Spec.quadForm (Spec.matFun lam U M.f) (normalized x) - R := by
          rw [herr]
          refine Finset.sum_nonneg fun a _ => mul_nonneg ?_ (sq_nonneg _)
          rw [hrem a]
          exact mul_nonneg (div_nonneg (hpos _ (htt a)) hfac.le) (sq_nonneg _)
        have h5 := mul_nonneg this (sq_nonneg (nrm x))
        linarith
      · have : Spec.quadForm (Spec.matFun lam U M.f) (normalized x) - R ≤ 0 := by
          rw [herr]
          refine Finset.sum_nonpos fun a _ => mul_nonpos_of_nonpos_of_nonneg ?_ (sq_nonneg _)
          rw [hrem a]
          exact mul_nonpos_of_nonpos_of_nonneg (div_nonpos_of_nonpos_of_nonneg (hneg _ (htt a)) hfac.le) (sq_nonneg _)
        have h5 := mul_nonpos_of_nonpos_of_nonneg this (sq_nonneg (nrm x))
        linarith
      · rw [hD, abs_mul, abs_neg, herr, abs_of_nonneg (sq_nonneg (nrm x)), hxx]
        refine mul_le_mul_of_nonneg_right (abs_weighted_le _ _ _ hw1 fun a => ?_) (sq_nonneg _)
        rw [hrem a, abs_mul, abs_div, abs_of_pos hfac, abs_of_nonneg (sq_nonneg (∏ t ∈ S, (lam a - t)))]
        refine mul_le_mul (div_le_div_of_nonneg_right (hcb _ (htt a)) hfac.le) ?_ (sq_nonneg _)
          (div_nonneg ((abs_nonneg _).trans (hcb _ (htt a))) hfac.le)
        have hprod : |∏ t ∈ S, (lam a - t)| ≤ (hi - lo) ^ M.deg := by
          rw [Finset.abs_prod, ← hcard, ← Finset.prod_const]
          refine Finset.prod_le_prod (fun t _ => abs_nonneg _) fun t ht => ?_
          have h6 := hSI t ht
          have h7 := hlam a
          rw [abs_le]
          constructor <;> linarith [h6.1, h6.2, h7.1, h7.2]
        rw [← sq_abs, mul_comm 2, pow_mul]
        exact pow_le_pow_left₀ (abs_nonneg _) hprod 2

/-! ## C103: near-optimality -/

/-- **C103.**  `|MatrixFunction(A, f, deg).quad(x) - xᵀ f(A) x| ≤ 2 e |x|²`, where `e` bounds `|f - p|` on the spectral interval for any
polynomial `p` of degree at most `2 k - 1`, `k = min(deg, n)`: twice the degree of the matrix-vector product (C45). Missing: runs that stop at a residual below the tolerance but not zero, of which the claim is false (`C103_counterexample`, bound in C122). -/
theorem C103_quad_near_optimal_partial (K : TriKernels) (hK : EighOk K) (eps : ℝ) (heps : 0 ≤ eps) (fuel : ℕ)
    (B : Matrix (Fin n) (Fin n) ℝ) (hB : B.IsSymm) (lam : Fin n → ℝ) (U : Matrix (Fin n) (Fin n) ℝ)
    (hU : Spec.Eigen B lam U) (f : ℝ → ℝ) (deg orth : ℤ) (hn : 0 < n) (M0 M : MF n)
    (h0 : MF.init B.mulVec f deg orth = .ok M0) (h : MF.Reach K eps fuel M0 M) (hist : M = M0 ∨ M0.orth ≤ 2) (x : Vec n) :
    ∃ M' y, M.quadCol K eps fuel x = some (.ok (M', some y)) ∧
      (Spec.CleanStop (Real.sqrt n * 1e-8) M0.deg M'.beta.get →
        ∀ (p : ℝ[X]) (e : ℝ), (p.natDegree : ℤ) ≤ 2 * min deg n - 1 →
          (∀ t, (∃ a, lam a ≤ t) → (∃ b, t ≤ lam b) → |f t - p.eval t| ≤ e) →
          |y - Spec.quadForm (Spec.matFun lam U f) x| ≤ 2 * e * ∑ i, x i ^ 2) := by
  obtain ⟨w, hA, hf, hd, ho, hr⟩ := reached K eps fuel _ _ deg orth hn M0 M h0 h
  have hdeg := (init_wf _ _ deg orth M0 hn h0).2.2.2.1
  obtain ⟨M', y, h1, h2⟩ := quadCol_error K hK eps heps fuel M w B hB lam U hU hA (by rw [hr]; norm_num)
    (fresh_reached K eps fuel _ _ deg orth hn M0 M h0 h hist) x
  refine ⟨M', y, h1, fun hc p e hp he => ?_⟩
  rw [hr, hd, hf] at h2
  exact (h2 hc).1 p e (by omega) he

/-! ## C104: the sign of the error -/

/-- **C104.**  Let `f` have derivatives `F 1, ..., F (2k)` on an interval containing the spectrum, `k = min(deg, n)`.  Where the last one is not negative
`quad(x)` is at most `xᵀ f(A) x`, where it is not positive at least; in any case the error is at most `max |F (2k)| / (2k)! · (hi - lo)^(2k) |x|²`. Missing: runs that stop at a residual below the tolerance but not zero, of which the claim is false (`C104_counterexample`, bound in C122). -/
theorem C104_one_sided_partial (K : TriKernels) (hK : EighOk K) (eps : ℝ) (heps : 0 ≤ eps) (fuel : ℕ)
    (B : Matrix (Fin n) (Fin n) ℝ) (hB : B.IsSymm) (lam : Fin n → ℝ) (U : Matrix (Fin n) (Fin n) ℝ)
    (hU : Spec.Eigen B lam U) (f : ℝ → ℝ) (deg orth : ℤ) (hn : 0 < n) (M0 M : MF n)
    (h0 : MF.init B.mulVec f deg orth = .ok M0) (h : MF.Reach K eps fuel M0 M) (hist : M = M0 ∨ M0.orth ≤ 2) (x : Vec n)
    (k : ℕ) (hk : (k : ℤ) = min deg n) (F : ℕ → ℝ → ℝ) (lo hi : ℝ) (hF0 : F 0 = f) (hlam : ∀ a, lo ≤ lam a ∧ lam a ≤ hi)
    (hF : ∀ j < 2 * k, ∀ t ∈ Set.Icc lo hi, HasDerivAt (F j) (F (j + 1) t) t) :
    ∃ M' y, M.quadCol K eps fuel x = some (.ok (M', some y)) ∧
      (Spec.CleanStop (Real.sqrt n * 1e-8) M0.deg M'.beta.get →
        ((∀ t ∈ Set.Icc lo hi, 0 ≤ F (2 * k) t) → y ≤ Spec.quadForm (Spec.matFun lam U f) x) ∧
        ((∀ t ∈ Set.Icc lo hi, F (2 * k) t ≤ 0) → Spec.quadForm (Spec.matFun lam U f) x ≤ y) ∧
        ∀ c, (∀ t ∈ Set.Icc lo hi, |F (2 * k) t| ≤ c) →
          |y - Spec.quadForm (Spec.matFun lam U f) x| ≤ c / ((2 * k).factorial : ℝ) * (hi - lo) ^ (2 * k) * ∑ i, x i ^ 2) := by
  obtain ⟨w, hA, hf, hd, ho, hr⟩ := reached K eps fuel _ _ deg orth hn M0 M h0 h
  have hdeg := (init_wf _ _ deg orth M0 hn h0).2.2.2.1
  have hkd : M0.deg = k := by omega
  obtain ⟨M', y, h1, h2⟩ := quadCol_error K hK eps heps fuel M w B hB lam U hU hA (by rw [hr]; norm_num)
    (fresh_reached K eps fuel _ _ deg orth hn M0 M h0 h hist) x
  refine ⟨M', y, h1, fun hc => ?_⟩
  rw [hr, hd, hf] at h2
  have h3 := (h2 hc).2 F lo hi hF0 hlam (by rw [hkd]; exact hF)
  rw [hkd] at h3
  exact h3

/-- `quad` of the exponential never overestimates. Missing: early stops (see `C104_one_sided_partial`). -/
theorem C104_exp_partial (K : TriKernels) (hK : EighOk K) (eps : ℝ) (heps : 0 ≤ eps) (fuel : ℕ)
    (B : Matrix (Fin n) (Fin n) ℝ) (hB : B.IsSymm) (lam : Fin n → ℝ) (U : Matrix (Fin n) (Fin n) ℝ)
    (hU : Spec.Eigen B lam U) (deg orth : ℤ) (hn : 0 < n) (M0 M : MF n)
    (h0 : MF.init B.mulVec Real.exp deg orth = .ok M0) (h : MF.Reach K eps fuel M0 M) (hist : M = M0 ∨ M0.orth ≤ 2) (x : Vec n) :
    ∃ M' y, M.quadCol K eps fuel x = some (.ok (M', some y)) ∧
      (Spec.CleanStop (Real.sqrt n * 1e-8) M0.deg M'.beta.get → y ≤ Spec.quadForm (Spec.matFun lam U Real.exp) x) := by
  obtain ⟨w, -, -, hdeg, -⟩ := init_wf _ _ deg orth M0 hn h0
  obtain ⟨lo, hlo⟩ := (Set.finite_range lam).bddBelow
  obtain ⟨hi, hhi⟩ := (Set.finite_range lam).bddAbove
  have := w.dpos
  obtain ⟨M', y, h1, h2⟩ := C104_one_sided_partial K hK eps heps fuel B hB lam U hU Real.exp deg orth hn M0 M h0 h hist x M0.deg (by omega)
    (fun _ => Real.exp) lo hi rfl (fun a => ⟨hlo ⟨a, rfl⟩, hhi ⟨a, rfl⟩⟩) fun j _ t _ => Real.hasDerivAt_exp t
  exact ⟨M', y, h1, fun hc => (h2 hc).1 fun t _ => (Real.exp_pos t).le⟩

/-- The derivatives of `c / t^m` for positive `t`. -/
theorem hasDerivAt_invPow (c : ℝ) (m : ℕ) (t : ℝ) (ht : 0 < t) :
    HasDerivAt (fun t => c / t ^ m) (-(m * c) / t ^ (m + 1)) t := by
  have h1 := (hasDerivAt_const t c).div (hasDerivAt_pow m t) (pow_pos ht m).ne'
  refine h1.congr_deriv ?_
  rcases m with _ | m
  · simp
  · rw [Nat.add_sub_cancel]
    field_simp
    ring

/-- Without an early stop, so that the function is evaluated at positive arguments only (C81), `quad` of the inverse of a positive definite
matrix never overestimates. Missing: early stops (see `C104_one_sided_partial`). -/
theorem C104_inverse_partial (K : TriKernels) (hK : EighOk K) (eps : ℝ) (heps : 0 ≤ eps) (fuel : ℕ)
    (B : Matrix (Fin n) (Fin n) ℝ) (hB : B.IsSymm) (lam : Fin n → ℝ) (U : Matrix (Fin n) (Fin n) ℝ)
    (hU : Spec.Eigen B lam U) (hpd : ∀ a, 0 < lam a) (f : ℝ → ℝ) (hf : ∀ t, 0 < t → f t = 1 / t) (deg orth : ℤ) (hn : 0 < n) (M0 M : MF n)
    (h0 : MF.init B.mulVec f deg orth = .ok M0) (h : MF.Reach K eps fuel M0 M) (hist : M = M0 ∨ M0.orth ≤ 2) (x : Vec n) :
    ∃ M' y, M.quadCol K eps fuel x = some (.ok (M', some y)) ∧
      ((∀ i, 1 ≤ i → i < M0.deg → Real.sqrt n * 1e-8 ≤ M'.beta.get i) → y ≤ Spec.quadForm (Spec.matFun lam U f) x) := by
  obtain ⟨w, -, -, hdeg, -⟩ := init_wf _ _ deg orth M0 hn h0
  have : Nonempty (Fin n) := ⟨⟨0, hn⟩⟩
  obtain ⟨a0, ha0⟩ := Finite.exists_min lam
  obtain ⟨hi, hhi⟩ := (Set.finite_range lam).bddAbove
  have hd0 := w.dpos
  obtain ⟨M', y, h1, h2⟩ := C104_one_sided_partial K hK eps heps fuel B hB lam U hU f deg orth hn M0 M h0 h hist x M0.deg (by omega)
    (fun j t => if j = 0 then f t else (-1) ^ j * (j.factorial : ℝ) / t ^ (j + 1)) (lam a0) hi (by simp)
    (fun a => ⟨ha0 a, hhi ⟨a, rfl⟩⟩) fun j _ t ht => by
      have ht0 : 0 < t := (hpd a0).trans_le ht.1
      have h3 : HasDerivAt (fun t : ℝ => (-1) ^ j * (j.factorial : ℝ) / t ^ (j + 1))
          ((-1) ^ (j + 1) * ((j + 1).factorial : ℝ) / t ^ (j + 1 + 1)) t := by
        refine (hasDerivAt_invPow _ (j + 1) t ht0).congr_deriv ?_
        rw [Nat.factorial_succ]
        push_cast
        ring
      simp only [Nat.succ_ne_zero, if_false]
      by_cases hj : j = 0
      · subst hj
        refine h3.congr_of_eventuallyEq ?_
        filter_upwards [lt_mem_nhds ht0] with u hu
        simp [hf u hu]
      · simp only [hj, if_false]
        exact h3
  refine ⟨M', y, h1, fun hb => (h2 fun l hl1 hl2 hl3 => absurd (hb l hl1 hl2) (not_le.2 hl3)).1 fun t ht => ?_⟩
  have ht0 : 0 < t := (hpd a0).trans_le ht.1
  simp only [show 2 * M0.deg ≠ 0 by omega, if_false, pow_mul, neg_one_sq, one_pow, one_mul]
  positivity

/-- Without an early stop, `quad` of the logarithm of a positive definite matrix never underestimates. Missing: early stops (see `C104_one_sided_partial`). -/
theorem C104_log_partial (K : TriKernels) (hK : EighOk K) (eps : ℝ) (heps : 0 ≤ eps) (fuel : ℕ)
    (B : Matrix (Fin n) (Fin n) ℝ) (hB : B.IsSymm) (lam : Fin n → ℝ) (U : Matrix (Fin n) (Fin n) ℝ)
    (hU : Spec.Eigen B lam U) (hpd : ∀ a, 0 < lam a) (f : ℝ → ℝ) (hf : ∀ t, 0 < t → f t = Real.log t) (deg orth : ℤ) (hn : 0 < n)
    (M0 M : MF n) (h0 : MF.init B.mulVec f deg orth = .ok M0) (h : MF.Reach K eps fuel M0 M) (hist : M = M0 ∨ M0.orth ≤ 2) (x : Vec n) :
    ∃ M' y, M.quadCol K eps fuel x = some (.ok (M', some y)) ∧
      ((∀ i, 1 ≤ i → i < M0.deg → Real.sqrt n * 1e-8 ≤ M'.beta.get i) → Spec.quadForm (Spec.matFun lam U f) x ≤ y) := by
  obtain ⟨w, -, -, hdeg, -⟩ := init_wf _ _ deg orth M0 hn h0
  have : Nonempty (Fin n) := ⟨⟨0, hn⟩⟩
  obtain ⟨a0, ha0⟩ := Finite.exists_min lam
  obtain ⟨hi, hhi⟩ := (Set.finite_range lam).bddAbove
  have hd0 := w.dpos
  obtain ⟨M', y, h1, h2⟩ := C104_one_sided_partial K hK eps heps fuel B hB lam U hU f deg orth hn M0 M h0 h hist x M0.deg (by omega)
    (fun j t => match j with | 0 => f t | i + 1 => (-1) ^ i * (i.factorial : ℝ) / t ^ (i + 1)) (lam a0) hi rfl
    (fun a => ⟨ha0 a, hhi ⟨a, rfl⟩⟩) fun j _ t ht => by
      have ht0 : 0 < t := (hpd a0).trans_le ht.1
      rcases j with _ | i
      · refine ((Real.hasDerivAt_log ht0.ne').congr_deriv ?_).congr_of_eventuallyEq ?_
        · simp
        · filter_upwards [lt_mem_nhds ht0] with u hu
          simp [hf u hu]
      · refine (hasDerivAt_invPow _ (i + 1) t ht0).congr_deriv ?_
        simp only
        rw [Nat.factorial_succ]
        push_cast
        ring
  refine ⟨M', y, h1, fun hb => (h2 fun l hl1 hl2 hl3 => absurd (hb l hl1 hl2) (not_le.2 hl3)).2.1 fun t ht => ?_⟩
  have ht0 : 0 < t := (hpd a0).trans_le ht.1
  obtain ⟨i, hi⟩ : ∃ i, 2 * M0.deg = 2 * i + 1 + 1 := ⟨M0.deg - 1, by omega⟩
  have h5 : 0 ≤ ((2 * i + 1).factorial : ℝ) / t ^ (2 * i + 1 + 1) := by positivity
  have h6 : (-1 : ℝ) ^ (2 * i + 1) = -1 := by rw [pow_succ, pow_mul]; simp
  rw [hi]
  simp only [h6, neg_mul, one_mul, neg_div, neg_nonpos]
  exact h5

/-! ## A concrete case: `[[2, 1, 0], [1, 2, 1], [0, 1, 2]]`, degree two, start `e1` -/

/-- The example matrix. -/
def L3 : Matrix (Fin 3) (Fin 3) ℝ := !![2, 1, 0; 1, 2, 1; 0, 1, 2]

theorem L3_symm : L3.IsSymm := by ext i j; fin_cases i <;> fin_cases j <;> rfl

theorem L3_pos (lam : Fin 3 → ℝ) (U : Matrix (Fin 3) (Fin 3) ℝ) (hU : Spec.Eigen L3 lam U) (a : Fin 3) : 0 < lam a := by
  have h := isEigh_iff_eigen.mpr hU
  have h1 := h.unit_col a
  have h2 := h.col_eq a
  have h3 : U.col a ⬝ᵥ (L3 *ᵥ U.col a) = lam a := by rw [h2, dotProduct_smul, h1]; simp
  rw [← h3]
  have h4 : ∀ u : Vec 3, u ⬝ᵥ u = 1 → 0 < u ⬝ᵥ (L3 *ᵥ u) := by
    intro u hu
    simp [dotProduct, mulVec, Fin.sum_univ_three, L3] at hu ⊢
    have h5 : u 0 * (2 * u 0 + u 1) + u 1 * (u 0 + 2 * u 1 + u 2) + u 2 * (u 1 + 2 * u 2) =
      (u 0 + u 1) ^ 2 + (u 1 + u 2) ^ 2 + u 0 ^ 2 + u 2 ^ 2 := by ring
    rw [h5]
    by_contra hc
    have g1 : u 0 = 0 := by nlinarith [sq_nonneg (u 0 + u 1), sq_nonneg (u 1 + u 2), sq_nonneg (u 0), sq_nonneg (u 2)]
    have g2 : u 2 = 0 := by nlinarith [sq_nonneg (u 0 + u 1), sq_nonneg (u 1 + u 2), sq_nonneg (u 0), sq_nonneg (u 2)]
    rw [g1, g2] at hc hu
    nlinarith
  exact h4 _ h1

theorem L3_b1 : lzb L3.mulVec ![1, 0, 0] 1 = 1 := by
  have u1 : (![1, 0, 0] : Vec 3) ⬝ᵥ ![1, 0, 0] = 1 := by simp [dotProduct, Fin.sum_univ_three]
  have u2 : (![0, 1, 0] : Vec 3) ⬝ᵥ ![0, 1, 0] = 1 := by simp [dotProduct, Fin.sum_univ_three]
  have u12 : (![1, 0, 0] : Vec 3) ⬝ᵥ ![2, 1, 0] = 2 := by simp [dotProduct, Fin.sum_univ_three]
  have hS : L3 *ᵥ ![1, 0, 0] = ![2, 1, 0] := by
    funext i; fin_cases i <;> simp [L3, mulVec, dotProduct, Fin.sum_univ_three]
  have hw : lzw L3.mulVec ![1, 0, 0] 0 = ![2, 1, 0] := by
    rw [lzw, lzq_zero, normalized_of_unit u1, hS, lzb_zero, zero_smul, sub_zero]
  have ha : lza L3.mulVec ![1, 0, 0] 0 = 2 := by rw [lza, lzq_zero, normalized_of_unit u1, hw, u12]
  have hr : (![2, 1, 0] : Vec 3) - (2 : ℝ) • ![1, 0, 0] = ![0, 1, 0] := by
    funext i; fin_cases i <;> simp
  rw [lzb_succ, lzr, hw, ha, lzq_zero, normalized_of_unit u1, hr, nrm_of_unit u2]

theorem L3_tol : Real.sqrt ((3 : ℕ) : ℝ) * (1e-8 : ℝ) ≤ 1 := by
  have h := sqrt3_lt
  generalize Real.sqrt ((3 : ℕ) : ℝ) = t at *
  norm_num
  linarith

/-- In this case the iteration does not stop early. -/
theorem L3_run (K : TriKernels) (hK : EighOk K) (fuel : ℕ) (f : ℝ → ℝ) (orth : ℤ) : ∃ M0,
    MF.init L3.mulVec f 2 orth = .ok M0 ∧ ∀ M' y, M0.quadCol K 0 fuel ![1, 0, 0] = some (.ok (M', some y)) →
      ∀ i, 1 ≤ i → i < M0.deg → Real.sqrt (3 : ℕ) * 1e-8 ≤ M'.beta.get i := by
  obtain ⟨M0, h0⟩ : ∃ M0, MF.init L3.mulVec f 2 orth = .ok M0 := ⟨_, if_neg (by norm_num)⟩
  refine ⟨M0, h0, fun M' y h i hi1 hi2 => ?_⟩
  obtain ⟨w, a1, a2, a3, a4, -⟩ := init_wf _ _ _ _ M0 (by norm_num) h0
  have hd : M0.deg = 2 := a3
  have hfresh := fresh_reached K 0 fuel _ _ _ _ (by norm_num) M0 M0 h0 (.refl M0) (Or.inl rfl)
  obtain ⟨J, s, theta, Y, -, -, -, hF, -, hq⟩ := quadCol_run K hK 0 le_rfl fuel M0 w L3 L3_symm a1
    (by rw [a4]; norm_num) hfresh ![1, 0, 0]
  rw [h] at hq
  simp only [Option.some.injEq, Except.ok.injEq, Prod.mk.injEq] at hq
  rw [hq.1]
  obtain rfl : i = 1 := by omega
  show _ ≤ s.beta.get 1
  rw [hF.beta_le 1 (by omega), L3_b1]
  exact L3_tol

/-- `C104_log_partial` and `C104_inverse_partial` at work. -/
example (K : TriKernels) (hK : EighOk K) (fuel : ℕ) (lam : Fin 3 → ℝ) (U : Matrix (Fin 3) (Fin 3) ℝ) (hU : Spec.Eigen L3 lam U) :
    (∃ M0 M' y, MF.init L3.mulVec Real.log 2 3 = .ok M0 ∧ M0.quadCol K 0 fuel ![1, 0, 0] = some (.ok (M', some y)) ∧
      Spec.quadForm (Spec.matFun lam U Real.log) ![1, 0, 0] ≤ y) ∧
    ∃ M0 M' y, MF.init L3.mulVec (fun t => 1 / t) 2 3 = .ok M0 ∧ M0.quadCol K 0 fuel ![1, 0, 0] = some (.ok (M', some y)) ∧
      y ≤ Spec.quadForm (Spec.matFun lam U fun t => 1 / t) ![1, 0, 0] := by
  constructor
  · obtain ⟨M0, h0, hb⟩ := L3_run K hK fuel Real.log 3
    obtain ⟨M', y, h1, h2⟩ := C104_log_partial K hK 0 le_rfl fuel L3 L3_symm lam U hU (L3_pos lam U hU) Real.log (fun _ _ => rfl) 2 3 (by norm_num) M0 M0
      h0 (.refl _) (Or.inl rfl) ![1, 0, 0]
    exact ⟨M0, M', y, h0, h1, h2 (hb M' y h1)⟩
  · obtain ⟨M0, h0, hb⟩ := L3_run K hK fuel (fun t => 1 / t) 3
    obtain ⟨M', y, h1, h2⟩ := C104_inverse_partial K hK 0 le_rfl fuel L3 L3_symm lam U hU (L3_pos lam U hU) _ (fun _ _ => rfl) 2 3 (by norm_num) M0 M0
      h0 (.refl _) (Or.inl rfl) ![1, 0, 0]
    exact ⟨M0, M', y, h0, h1, h2 (hb M' y h1)⟩

/-- `C103_quad_near_optimal_partial` at work: the degree-two rule integrates `t³ + g(t)`, `|g| ≤ 1/10`, up to `1/5`. -/
example (K : TriKernels) (hK : EighOk K) (fuel : ℕ) (lam : Fin 3 → ℝ) (U : Matrix (Fin 3) (Fin 3) ℝ) (hU : Spec.Eigen L3 lam U) (g : ℝ → ℝ)
    (hg : ∀ t, |g t| ≤ 1 / 10) :
    ∃ M0 M' y, MF.init L3.mulVec (fun t => t ^ 3 + g t) 2 3 = .ok M0 ∧ M0.quadCol K 0 fuel ![1, 0, 0] = some (.ok (M', some y)) ∧
      |y - Spec.quadForm (Spec.matFun lam U fun t => t ^ 3 + g t) ![1, 0, 0]| ≤ 1 / 5 := by
  obtain ⟨M0, h0, hb⟩ := L3_run K hK fuel (fun t => t ^ 3 + g t) 3
  obtain ⟨M', y, h1, h2⟩ := C103_quad_near_optimal_partial K hK 0 le_rfl fuel L3 L3_symm lam U hU _ 2 3 (by norm_num) M0 M0 h0 (.refl _) (Or.inl rfl)
    ![1, 0, 0]
  refine ⟨M0, M', y, h0, h1, ?_⟩
  have h3 := h2 (fun l hl1 hl2 hl3 => absurd (hb M' y h1 l hl1 hl2) (not_le.2 hl3)) (X ^ 3) (1 / 10)
    (by rw [natDegree_X_pow]; norm_num) (fun t _ _ => by simpa using hg t)
  simp [Fin.sum_univ_three] at h3
  norm_num at h3 ⊢
  exact h3

end Primate
