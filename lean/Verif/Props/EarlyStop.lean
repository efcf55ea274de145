import Verif.Lemmas.EarlyStop
import Verif.Props.QuadError
import Verif.Props.MatrixFunctionHistory
import Verif.Props.MatrixFunctionWitness
import Verif.Model.FunAttr

/-!
# `MatrixFunction` when the iteration stops at a small residual (C122)
-/

noncomputable section

namespace Primate

open Matrix Polynomial

variable {n : ℕ}

/-! ## The range kept by every history -/

theorem quadCol_range (K : TriKernels) (hK : EighOk K) (eps : ℝ) (heps : 0 ≤ eps) (fuel : ℕ) (M M' : MF n) (hM : M.WF)
    (B : Matrix (Fin n) (Fin n) ℝ) (hB : B.IsSymm) {lam : Fin n → ℝ} {U : Matrix (Fin n) (Fin n) ℝ} (hU : IsEigh B lam U)
    (hA : M.A = B.mulVec) (hr : 0 < M.rtol) (hf : FreshQ M.orth M.Q) (x : Vec n) (y : Option ℝ)
    (h : M.quadCol K eps fuel x = some (.ok (M', y))) {lo hi : ℝ} (hlo : ∀ a, lo ≤ lam a) (hhi : ∀ a, lam a ≤ hi)
    (hlo0 : lo ≤ 0) (hhi0 : 0 ≤ hi) (h0 : RangeOk M.deg (Real.sqrt n * M.rtol) lo hi M.alpha.get M.beta.get) :
    RangeOk M.deg (Real.sqrt n * M.rtol) lo hi M'.alpha.get M'.beta.get := by
  obtain ⟨J, s, theta, Y, hJ, hJ1, hJ2, hF, hY, hq⟩ := quadCol_run K hK eps heps fuel M hM B hB hA hr hf x
  rw [h] at hq
  simp only [Option.some.injEq, Except.ok.injEq, Prod.mk.injEq] at hq
  rw [hq.1]
  exact RangeOk.step B hB hU x (tol_pos hM.npos hr) hJ hJ1 hJ2 hlo hhi hlo0 hhi0 h0 hF.alpha_le hF.alpha_gt hF.beta_le hF.beta_gt

theorem matvec_range (K : TriKernels) (hK : EighOk K) (eps : ℝ) (heps : 0 ≤ eps) (fuel : ℕ) (M M' : MF n) (hM : M.WF)
    (B : Matrix (Fin n) (Fin n) ℝ) (hB : B.IsSymm) {lam : Fin n → ℝ} {U : Matrix (Fin n) (Fin n) ℝ} (hU : IsEigh B lam U)
    (hA : M.A = B.mulVec) (hr : 0 < M.rtol) (x : Vec n) (y : Option (Vec n))
    (h : M.matvec K eps fuel x = some (.ok (M', y))) {lo hi : ℝ} (hlo : ∀ a, lo ≤ lam a) (hhi : ∀ a, lam a ≤ hi)
    (hlo0 : lo ≤ 0) (hhi0 : 0 ≤ hi) (h0 : RangeOk M.deg (Real.sqrt n * M.rtol) lo hi M.alpha.get M.beta.get) :
    RangeOk M.deg (Real.sqrt n * M.rtol) lo hi M'.alpha.get M'.beta.get := by
  obtain ⟨J, s, theta, Y, hJ, hJ1, hJ2, hF, hY, hq⟩ := matvec_run K hK eps heps fuel M hM B hB hA hr x
  rw [h] at hq
  simp only [Option.some.injEq, Except.ok.injEq, Prod.mk.injEq] at hq
  rw [hq.1]
  exact RangeOk.step B hB hU x (tol_pos hM.npos hr) hJ hJ1 hJ2 hlo hhi hlo0 hhi0 h0 hF.alpha_le hF.alpha_gt hF.beta_le hF.beta_gt

theorem quad_range (K : TriKernels) (hK : EighOk K) (eps : ℝ) (heps : 0 ≤ eps) (fuel : ℕ)
    (B : Matrix (Fin n) (Fin n) ℝ) (hB : B.IsSymm) {lam : Fin n → ℝ} {U : Matrix (Fin n) (Fin n) ℝ} (hU : IsEigh B lam U)
    {lo hi : ℝ} (hlo : ∀ a, lo ≤ lam a) (hhi : ∀ a, lam a ≤ hi) (hlo0 : lo ≤ 0) (hhi0 : 0 ≤ hi) (xs : List (Vec n)) :
    ∀ (M M' : MF n) (_ : M.WF) (_ : M.A = B.mulVec) (_ : 0 < M.rtol) (_ : M.orth ≤ 2) (ys : List (Option ℝ))
      (_ : M.quad K eps fuel xs = some (.ok (M', ys))) (_ : RangeOk M.deg (Real.sqrt n * M.rtol) lo hi M.alpha.get M.beta.get),
      RangeOk M.deg (Real.sqrt n * M.rtol) lo hi M'.alpha.get M'.beta.get := by
  induction xs with
  | nil =>
    intro M M' _ _ _ _ ys h h0
    unfold MF.quad at h
    cases h
    exact h0
  | cons x xs ih =>
    intro M M' hM hA hr ho ys h h0
    unfold MF.quad at h
    split at h
    · cases h
    · cases h
    · rename_i M1 y1 h1
      split at h
      · cases h
      · cases h
      · rename_i M2 ys2 h2
        simp only [Option.some.injEq, Except.ok.injEq, Prod.mk.injEq] at h
        obtain ⟨rfl, -⟩ := h
        obtain ⟨s1, w1⟩ := quadCol_preserves K eps fuel M M1 hM x y1 h1
        have r1 := quadCol_range K hK eps heps fuel M M1 hM B hB hU hA hr (Or.inl ho) x y1 h1 hlo hhi hlo0 hhi0 h0
        rw [← s1.deg, ← s1.rtol] at r1 ⊢
        exact ih M1 _ w1 (s1.A.trans hA) (by rw [s1.rtol]; exact hr) (by rw [s1.orth]; exact ho) ys2 h2 r1

/-- After any history of calls, the stored coefficients keep the range. -/
theorem reached_range (K : TriKernels) (hK : EighOk K) (eps : ℝ) (heps : 0 ≤ eps) (fuel : ℕ)
    (B : Matrix (Fin n) (Fin n) ℝ) (hB : B.IsSymm) {lam : Fin n → ℝ} {U : Matrix (Fin n) (Fin n) ℝ} (hU : IsEigh B lam U)
    {lo hi : ℝ} (hlo : ∀ a, lo ≤ lam a) (hhi : ∀ a, lam a ≤ hi) (hlo0 : lo ≤ 0) (hhi0 : 0 ≤ hi)
    (f : ℝ → ℝ) (deg orth : ℤ) (hn : 0 < n) (M0 M : MF n) (h0 : MF.init B.mulVec f deg orth = .ok M0)
    (h : MF.Reach K eps fuel M0 M) (hist : M = M0 ∨ M0.orth ≤ 2) :
    RangeOk M0.deg (Real.sqrt n * 1e-8) lo hi M.alpha.get M.beta.get := by
  have hbase : RangeOk M0.deg (Real.sqrt n * 1e-8) lo hi M0.alpha.get M0.beta.get := by
    have := RangeOk.zero M0.deg (Real.sqrt n * 1e-8) lo hi hlo0 hhi0
    unfold MF.init at h0
    split_ifs at h0
    simp only [Except.ok.injEq] at h0
    subst h0
    exact this
  rcases hist with rfl | ho
  · exact hbase
  · induction h with
    | refl => exact hbase
    | quad xs ys hR hq ih =>
      obtain ⟨w, hA, hf, hd, ho', hr⟩ := reached K eps fuel _ _ deg orth hn _ _ h0 hR
      have := quad_range K hK eps heps fuel B hB hU hlo hhi hlo0 hhi0 xs _ _ w hA (by rw [hr]; norm_num) (by rw [ho']; exact ho) ys hq
      rw [hd, hr] at this
      exact this ih
    | matvec x y hR hq ih =>
      obtain ⟨w, hA, hf, hd, ho', hr⟩ := reached K eps fuel _ _ deg orth hn _ _ h0 hR
      have := matvec_range K hK eps heps fuel _ _ w B hB hU hA (by rw [hr]; norm_num) x y hq hlo hhi hlo0 hhi0
      rw [hd, hr] at this
      exact this ih

/-- **C122**, where the function is evaluated.  After any history of calls `quad` evaluates the function only between
`min(lo, 0) - 2 tol` and `max(hi, 0) + 2 tol`, where `[lo, hi]` contains the spectrum and `tol = √n · 1e-8`.  (Without the margin
and the zero this is false: `C81_counterexample`.) -/
theorem C122_nodes (K : TriKernels) (hK : EighOk K) (eps : ℝ) (heps : 0 ≤ eps) (fuel : ℕ)
    (B : Matrix (Fin n) (Fin n) ℝ) (hB : B.IsSymm) (lam : Fin n → ℝ) (U : Matrix (Fin n) (Fin n) ℝ)
    (hU : Spec.Eigen B lam U) (f : ℝ → ℝ) (deg orth : ℤ) (hn : 0 < n) (M0 M : MF n)
    (h0 : MF.init B.mulVec f deg orth = .ok M0) (h : MF.Reach K eps fuel M0 M) (hist : M = M0 ∨ M0.orth ≤ 2)
    (lo hi : ℝ) (hlo : ∀ a, lo ≤ lam a) (hhi : ∀ a, lam a ≤ hi) (x : Vec n) :
    ∃ M' y, M.quadCol K eps fuel x = some (.ok (M', some y)) ∧
      y = (∑ i ∈ Finset.range M0.deg, f (M'.nodes i) * M'.weights i) * nrm x ^ 2 ∧
      ∀ i < M0.deg, min lo 0 - 2 * (Real.sqrt n * 1e-8) ≤ M'.nodes i ∧ M'.nodes i ≤ max hi 0 + 2 * (Real.sqrt n * 1e-8) := by
  have hU' := isEigh_iff_eigen.mpr hU
  obtain ⟨w, hA, hf, hd, ho, hr⟩ := reached K eps fuel _ _ deg orth hn M0 M h0 h
  have h1 := reached_range K hK eps heps fuel B hB hU' (fun a => (min_le_left lo 0).trans (hlo a))
    (fun a => (hhi a).trans (le_max_left hi 0)) (min_le_right lo 0) (le_max_right hi 0) f deg orth hn M0 M h0 h hist
  have htol : 0 < Real.sqrt n * (1e-8 : ℝ) := tol_pos hn (by norm_num)
  obtain ⟨J, s, theta, Y, hJ, hJ1, hJ2, hF, hY, hq⟩ := quadCol_run K hK eps heps fuel M w B hB hA (by rw [hr]; norm_num)
    (fresh_reached K eps fuel _ _ deg orth hn M0 M h0 h hist) x
  refine ⟨_, _, hq, ?_, fun i hi => ?_⟩
  · rw [← hd, sum_ofFin (fun a b => f a * b), hf]
    rfl
  · rw [hr] at hJ1 hJ2
    rw [← hd] at h1 hi
    have h2 := RangeOk.step B hB hU' x htol hJ hJ1 hJ2 (fun a => (min_le_left lo 0).trans (hlo a))
      (fun a => (hhi a).trans (le_max_left _ 0)) (min_le_right lo 0) (le_max_right _ 0) h1 hF.alpha_le hF.alpha_gt hF.beta_le hF.beta_gt
    show _ ≤ ofFin theta i ∧ ofFin theta i ≤ _
    rw [ofFin, dif_pos hi]
    exact h2.eigen htol hY ⟨i, hi⟩

/-- The same for the eigenvalues used by a call. -/
theorem run_theta (K : TriKernels) (hK : EighOk K) (eps : ℝ) (heps : 0 ≤ eps) (fuel : ℕ)
    (B : Matrix (Fin n) (Fin n) ℝ) (hB : B.IsSymm) {lam : Fin n → ℝ} {U : Matrix (Fin n) (Fin n) ℝ} (hU : IsEigh B lam U)
    {lo hi : ℝ} (hlo : ∀ a, lo ≤ lam a) (hhi : ∀ a, lam a ≤ hi) (f : ℝ → ℝ) (deg orth : ℤ) (hn : 0 < n) (M0 M : MF n)
    (h0 : MF.init B.mulVec f deg orth = .ok M0) (h : MF.Reach K eps fuel M0 M) (hist : M = M0 ∨ M0.orth ≤ 2)
    (x : Vec n) (J : ℕ) (s : LState n) (hJ : J < M.deg) (hJ1 : ∀ i < J, Real.sqrt n * 1e-8 ≤ lzb B.mulVec x (i + 1))
    (hJ2 : lzb B.mulVec x (J + 1) < Real.sqrt n * 1e-8 ∨ J + 1 = M.deg) (Q0 : Buf (Vec n))
    (hF : LFinal B.mulVec x M.alpha M.beta Q0 J s) {theta : Fin M.deg → ℝ} {Y : Matrix (Fin M.deg) (Fin M.deg) ℝ}
    (hY : IsEigh (triMat M.deg s.alpha.get s.beta.get) theta Y) (a : Fin M.deg) :
    min lo 0 - 2 * (Real.sqrt n * 1e-8) ≤ theta a ∧ theta a ≤ max hi 0 + 2 * (Real.sqrt n * 1e-8) := by
  have h1 := reached_range K hK eps heps fuel B hB hU (fun a => (min_le_left lo 0).trans (hlo a))
    (fun a => (hhi a).trans (le_max_left hi 0)) (min_le_right lo 0) (le_max_right hi 0) f deg orth hn M0 M h0 h hist
  rw [← (reached K eps fuel _ _ deg orth hn M0 M h0 h).2.2.2.1] at h1
  have htol : 0 < Real.sqrt n * (1e-8 : ℝ) := tol_pos hn (by norm_num)
  have h2 := RangeOk.step B hB hU x htol hJ hJ1 hJ2 (fun a => (min_le_left lo 0).trans (hlo a))
      (fun a => (hhi a).trans (le_max_left _ 0)) (min_le_right lo 0) (le_max_right _ 0) h1 hF.alpha_le hF.alpha_gt hF.beta_le hF.beta_gt
  exact h2.eigen htol hY a

/-! ## Values -/

theorem dot_self_sum (x : Vec n) : ∑ i, x i ^ 2 = nrm x ^ 2 := by
  rw [sq, nrm_sq]
  exact Finset.sum_congr rfl fun i _ => sq _

/-- **C122** (`quad`).  Let `f` be Lipschitz with constant `L` between `min(lo, 0) - 2 tol` and `max(hi, 0) + 2 tol`.  However the
iteration stops, `quad(x)` is within `max(2 e, 2 √2 L tol) |x|²` of `xᵀ f(A) x`, where `e` is the error of the best polynomial approximation of degree
at most `2 k - 1`; at full degree it is within `2 √2 L tol |x|²`. -/
theorem C122_quad (K : TriKernels) (hK : EighOk K) (eps : ℝ) (heps : 0 ≤ eps) (fuel : ℕ)
    (B : Matrix (Fin n) (Fin n) ℝ) (hB : B.IsSymm) (lam : Fin n → ℝ) (U : Matrix (Fin n) (Fin n) ℝ)
    (hU : Spec.Eigen B lam U) (f : ℝ → ℝ) (deg orth : ℤ) (hn : 0 < n) (M0 M : MF n)
    (h0 : MF.init B.mulVec f deg orth = .ok M0) (h : MF.Reach K eps fuel M0 M) (hist : M = M0 ∨ M0.orth ≤ 2)
    (lo hi : ℝ) (hlo : ∀ a, lo ≤ lam a) (hhi : ∀ a, lam a ≤ hi) (L : ℝ) (hL0 : 0 ≤ L)
    (hL : ∀ s ∈ Set.Icc (min lo 0 - 2 * (Real.sqrt n * 1e-8)) (max hi 0 + 2 * (Real.sqrt n * 1e-8)),
      ∀ t ∈ Set.Icc (min lo 0 - 2 * (Real.sqrt n * 1e-8)) (max hi 0 + 2 * (Real.sqrt n * 1e-8)), |f s - f t| ≤ L * |s - t|)
    (x : Vec n) :
    ∃ M' y, M.quadCol K eps fuel x = some (.ok (M', some y)) ∧
      (∀ (p : ℝ[X]) (e : ℝ), (p.natDegree : ℤ) ≤ 2 * min deg n - 1 →
        (∀ t, (∃ a, lam a ≤ t) → (∃ b, t ≤ lam b) → |f t - p.eval t| ≤ e) →
        |y - Spec.quadForm (Spec.matFun lam U f) x| ≤ max (2 * e) (2 * Real.sqrt 2 * L * (Real.sqrt n * 1e-8)) * ∑ i, x i ^ 2) ∧
      ((n : ℤ) ≤ deg → |y - Spec.quadForm (Spec.matFun lam U f) x| ≤ 2 * Real.sqrt 2 * L * (Real.sqrt n * 1e-8) * ∑ i, x i ^ 2) := by
  have hU' := isEigh_iff_eigen.mpr hU
  obtain ⟨w, hA, hf, hd, ho, hr⟩ := reached K eps fuel _ _ deg orth hn M0 M h0 h
  have hdeg := (init_wf _ _ deg orth M0 hn h0).2.2.2.1
  have hfresh := fresh_reached K eps fuel _ _ deg orth hn M0 M h0 h hist
  have htol : 0 < Real.sqrt n * (1e-8 : ℝ) := tol_pos hn (by norm_num)
  have hx2 : 0 ≤ ∑ i, x i ^ 2 := Finset.sum_nonneg fun _ _ => sq_nonneg _
  have hc0 : 0 ≤ 2 * Real.sqrt 2 * L * (Real.sqrt n * 1e-8) := by positivity
  obtain ⟨J, s, theta, Y, hJ, hJ1, hJ2, hF, hY, hq⟩ := quadCol_run K hK eps heps fuel M w B hB hA (by rw [hr]; norm_num) hfresh x
  rw [hr] at hJ1 hJ2
  by_cases hJd : J + 1 = M.deg
  · have hc : Spec.CleanStop (Real.sqrt n * 1e-8) M0.deg s.beta.get := by
      intro i hi1 hi2 hi3
      exfalso
      rw [hF.beta_le i (by omega)] at hi3
      have := hJ1 (i - 1) (by omega)
      rw [Nat.sub_add_cancel hi1] at this
      exact absurd this (not_le.mpr hi3)
    obtain ⟨M1, y1, g1, g2⟩ := C103_quad_near_optimal_partial K hK eps heps fuel B hB lam U hU f deg orth hn M0 M h0 h hist x
    obtain ⟨M2, y2, k1, k2⟩ := C46_quad_exact_partial K hK eps heps fuel B hB lam U hU f deg orth hn M0 M h0 h hist x
    have q1 := hq.symm.trans g1
    have q2 := hq.symm.trans k1
    simp only [Option.some.injEq, Except.ok.injEq, Prod.mk.injEq] at q1 q2
    obtain ⟨rfl, rfl⟩ := q1
    obtain ⟨rfl, rfl⟩ := q2
    refine ⟨_, _, hq, fun p e hp he => ?_, fun hfull => ?_⟩
    · exact (g2 hc p e hp he).trans (mul_le_mul_of_nonneg_right (le_max_left _ _) hx2)
    · rw [k2 hc (Or.inl hfull), sub_self, abs_zero]
      exact mul_nonneg hc0 hx2
  · have hlt : lzb B.mulVec x (J + 1) < Real.sqrt n * 1e-8 := by tauto
    have main : |(∑ a, M.f (theta a) * Y ⟨0, w.dpos⟩ a ^ 2) * nrm x ^ 2 - Spec.quadForm (Spec.matFun lam U f) x| ≤
        2 * Real.sqrt 2 * L * (Real.sqrt n * 1e-8) * ∑ i, x i ^ 2 := by
      by_cases hx : x = 0
      · subst hx
        simp [Spec.quadForm, nrm_zero]
      have hth := run_theta K hK eps heps fuel B hB hU' hlo hhi f deg orth hn M0 M h0 h hist x J s hJ hJ1 hJ2 M.Q hF hY
      obtain ⟨a, ha⟩ : ∃ a, a = min lo 0 - 2 * (Real.sqrt n * 1e-8) := ⟨_, rfl⟩
      obtain ⟨c, hc⟩ : ∃ c, c = max hi 0 + 2 * (Real.sqrt n * 1e-8) := ⟨_, rfl⟩
      rw [← ha, ← hc] at hL
      simp only [← ha, ← hc] at hth
      have hac : a ≤ c := by
        rw [ha, hc]
        have := min_le_right lo 0
        have := le_max_right hi 0
        linarith
      have e1 : ∑ b, M.f (theta b) * Y ⟨0, w.dpos⟩ b ^ 2 = ∑ b, clamp a c f (theta b) * Y ⟨0, w.dpos⟩ b ^ 2 :=
        Finset.sum_congr rfl fun b _ => by rw [clamp_eq f (hth b).1 (hth b).2, hf]
      have e2 : Spec.matFun lam U f = Spec.matFun lam U (clamp a c f) := by
        refine IsEigh.matFun_congr fun b => (clamp_eq f ?_ ?_).symm
        · rw [ha]
          have := min_le_left lo 0
          have := hlo b
          linarith
        · rw [hc]
          have := le_max_left hi 0
          have := hhi b
          linarith
      have e3 := (early_value B hB hU' x hx (by omega : J + 1 < M.deg) (fun i hi => (lt_of_lt_of_le htol (hJ1 i hi)).ne') s.alpha.get
        s.beta.get hF.alpha_le hF.beta_le hY (clamp a c f) L hL0 (clamp_lip hac f L hL0 hL)).1
      rw [hF.beta_le _ le_rfl] at e3
      rw [e1, e2, ← quadForm_normalized, ← sub_mul, abs_mul, abs_of_nonneg (sq_nonneg (nrm x)), dot_self_sum]
      refine mul_le_mul_of_nonneg_right (e3.trans ?_) (sq_nonneg _)
      have : L * (Real.sqrt 2 * lzb B.mulVec x (J + 1)) ≤ L * (Real.sqrt 2 * (Real.sqrt n * 1e-8)) :=
        mul_le_mul_of_nonneg_left (mul_le_mul_of_nonneg_left hlt.le (Real.sqrt_nonneg _)) hL0
      linarith
    exact ⟨_, _, hq, fun p e _ _ => main.trans (mul_le_mul_of_nonneg_right (le_max_right _ _) hx2), fun _ => main⟩

/-- The function may be replaced by one that is Lipschitz everywhere. -/
theorem clamp_for (K : TriKernels) (hK : EighOk K) (eps : ℝ) (heps : 0 ≤ eps) (fuel : ℕ)
    (B : Matrix (Fin n) (Fin n) ℝ) (hB : B.IsSymm) {lam : Fin n → ℝ} {U : Matrix (Fin n) (Fin n) ℝ}
    (hU : IsEigh B lam U) (f : ℝ → ℝ) (deg orth : ℤ) (hn : 0 < n) (M0 : MF n)
    (h0 : MF.init B.mulVec f deg orth = .ok M0)
    (lo hi : ℝ) (hlo : ∀ a, lo ≤ lam a) (hhi : ∀ a, lam a ≤ hi) (L : ℝ) (hL0 : 0 ≤ L) (free : Prop)
    (hL : (∀ s t, |f s - f t| ≤ L * |s - t|) ∨ free ∧
      ∀ s ∈ Set.Icc (min lo 0 - 2 * (Real.sqrt n * 1e-8)) (max hi 0 + 2 * (Real.sqrt n * 1e-8)),
        ∀ t ∈ Set.Icc (min lo 0 - 2 * (Real.sqrt n * 1e-8)) (max hi 0 + 2 * (Real.sqrt n * 1e-8)), |f s - f t| ≤ L * |s - t|) :
    ∃ g : ℝ → ℝ, (∀ s t, |g s - g t| ≤ L * |s - t|) ∧ Spec.matFun lam U f = Spec.matFun lam U g ∧
      ∀ (M : MF n) (_ : MF.Reach K eps fuel M0 M) (_ : free → M = M0 ∨ M0.orth ≤ 2) (x : Vec n) (J : ℕ) (s : LState n) (_ : J < M.deg)
        (_ : ∀ i < J, Real.sqrt n * 1e-8 ≤ lzb B.mulVec x (i + 1))
        (_ : lzb B.mulVec x (J + 1) < Real.sqrt n * 1e-8 ∨ J + 1 = M.deg) (Q0 : Buf (Vec n))
        (_ : LFinal B.mulVec x M.alpha M.beta Q0 J s) (theta : Fin M.deg → ℝ) (Y : Matrix (Fin M.deg) (Fin M.deg) ℝ)
        (_ : IsEigh (triMat M.deg s.alpha.get s.beta.get) theta Y) (a : Fin M.deg), f (theta a) = g (theta a) := by
  have htol : 0 < Real.sqrt n * (1e-8 : ℝ) := tol_pos hn (by norm_num)
  rcases hL with hL | ⟨hfree, hL⟩
  · exact ⟨f, hL, rfl, fun _ _ _ _ _ _ _ _ _ _ _ _ _ _ _ => rfl⟩
  · obtain ⟨a, ha⟩ : ∃ a, a = min lo 0 - 2 * (Real.sqrt n * 1e-8) := ⟨_, rfl⟩
    obtain ⟨c, hc⟩ : ∃ c, c = max hi 0 + 2 * (Real.sqrt n * 1e-8) := ⟨_, rfl⟩
    rw [← ha, ← hc] at hL
    have hac : a ≤ c := by
      rw [ha, hc]
      have := min_le_right lo 0
      have := le_max_right hi 0
      linarith
    refine ⟨clamp a c f, clamp_lip hac f L hL0 hL, IsEigh.matFun_congr fun b => (clamp_eq f ?_ ?_).symm, ?_⟩
    · rw [ha]
      have := min_le_left lo 0
      have := hlo b
      linarith
    · rw [hc]
      have := le_max_left hi 0
      have := hhi b
      linarith
    · intro M h hist x J s hJ hJ1 hJ2 Q0 hF theta Y hY b
      have hth := run_theta K hK eps heps fuel B hB hU hlo hhi f deg orth hn M0 M h0 h (hist hfree) x J s hJ hJ1 hJ2 Q0 hF hY b
      rw [← ha, ← hc] at hth
      exact (clamp_eq f hth.1 hth.2).symm

theorem sum_sq_sub (u v : Vec n) : ∑ i, (u i - v i) ^ 2 = nrm (u - v) ^ 2 := dot_self_sum (u - v)

/-- **C122** (matrix-vector product).  Let `f` be Lipschitz with constant `L` everywhere, or (on a new object or with `orth ≤ 2`) between
`min(lo, 0) - 2 tol` and `max(hi, 0) + 2 tol`.  However the iteration stops, `M @ x` is within `max(2 e, 2 √2 L tol) |x|` of `f(A) x`, where `e` is
the error of the best polynomial approximation of degree below `k`; at full degree it is within `2 √2 L tol |x|`. -/
theorem C122_matvec (K : TriKernels) (hK : EighOk K) (eps : ℝ) (heps : 0 ≤ eps) (fuel : ℕ)
    (B : Matrix (Fin n) (Fin n) ℝ) (hB : B.IsSymm) (lam : Fin n → ℝ) (U : Matrix (Fin n) (Fin n) ℝ)
    (hU : Spec.Eigen B lam U) (f : ℝ → ℝ) (deg orth : ℤ) (hn : 0 < n) (M0 M : MF n)
    (h0 : MF.init B.mulVec f deg orth = .ok M0) (h : MF.Reach K eps fuel M0 M)
    (lo hi : ℝ) (hlo : ∀ a, lo ≤ lam a) (hhi : ∀ a, lam a ≤ hi) (L : ℝ) (hL0 : 0 ≤ L)
    (hL : (∀ s t, |f s - f t| ≤ L * |s - t|) ∨ (M = M0 ∨ M0.orth ≤ 2) ∧
      ∀ s ∈ Set.Icc (min lo 0 - 2 * (Real.sqrt n * 1e-8)) (max hi 0 + 2 * (Real.sqrt n * 1e-8)),
        ∀ t ∈ Set.Icc (min lo 0 - 2 * (Real.sqrt n * 1e-8)) (max hi 0 + 2 * (Real.sqrt n * 1e-8)), |f s - f t| ≤ L * |s - t|)
    (x : Vec n) :
    ∃ M' y, M.matvec K eps fuel x = some (.ok (M', some y)) ∧
      (∀ (p : ℝ[X]) (e : ℝ), (p.natDegree : ℤ) ≤ min deg n - 1 →
        (∀ t, (∃ a, lam a ≤ t) → (∃ b, t ≤ lam b) → |f t - p.eval t| ≤ e) →
        ∑ i, ((Spec.matFun lam U f *ᵥ x) i - y i) ^ 2 ≤
          max (2 * e) (2 * Real.sqrt 2 * L * (Real.sqrt n * 1e-8)) ^ 2 * ∑ i, x i ^ 2) ∧
      ((n : ℤ) ≤ deg → ∑ i, ((Spec.matFun lam U f *ᵥ x) i - y i) ^ 2 ≤
        (2 * Real.sqrt 2 * L * (Real.sqrt n * 1e-8)) ^ 2 * ∑ i, x i ^ 2) := by
  have hU' := isEigh_iff_eigen.mpr hU
  obtain ⟨w, hA, hf, hd, ho, hr⟩ := reached K eps fuel _ _ deg orth hn M0 M h0 h
  have hdeg := (init_wf _ _ deg orth M0 hn h0).2.2.2.1
  have htol : 0 < Real.sqrt n * (1e-8 : ℝ) := tol_pos hn (by norm_num)
  have hx2 : 0 ≤ ∑ i, x i ^ 2 := Finset.sum_nonneg fun _ _ => sq_nonneg _
  have hc0 : 0 ≤ 2 * Real.sqrt 2 * L * (Real.sqrt n * 1e-8) := by positivity
  obtain ⟨J, s, theta, Y, hJ, hJ1, hJ2, hF, hY, hq⟩ := matvec_run K hK eps heps fuel M w B hB hA (by rw [hr]; norm_num) x
  rw [hr] at hJ1 hJ2
  by_cases hJd : J + 1 = M.deg
  · have hc : Spec.CleanStop (Real.sqrt n * M.rtol) M.deg s.beta.get := by
      intro i hi1 hi2 hi3
      exfalso
      rw [hF.beta_le i (by omega), hr] at hi3
      have := hJ1 (i - 1) (by omega)
      rw [Nat.sub_add_cancel hi1] at this
      exact absurd this (not_le.mpr hi3)
    obtain ⟨M1, y1, g1, g2⟩ := matvec_value K hK eps heps fuel M w B hB lam U hU hA (by rw [hr]; norm_num) x
    have q1 := hq.symm.trans g1
    simp only [Option.some.injEq, Except.ok.injEq, Prod.mk.injEq] at q1
    obtain ⟨rfl, rfl⟩ := q1
    obtain ⟨-, g3, g4⟩ := g2 hc
    refine ⟨_, _, hq, fun p e hp he => ?_, fun hfull => ?_⟩
    · have := g4 p e (by omega) (by rw [hf]; exact he)
      rw [hf] at this
      have he0 : 0 ≤ e := (abs_nonneg _).trans (he (lam ⟨0, hn⟩) ⟨_, le_rfl⟩ ⟨_, le_rfl⟩)
      rw [hf]
      exact this.trans (mul_le_mul_of_nonneg_right (pow_le_pow_left₀ (by linarith) (le_max_left _ _) 2) hx2)
    · have := g3 (Or.inl (by omega))
      rw [← hf, ← this]
      simp only [sub_self]
      simp only [ne_eq, OfNat.ofNat_ne_zero, not_false_eq_true, zero_pow, Finset.sum_const_zero]
      exact mul_nonneg (sq_nonneg _) hx2
  · have hlt : lzb B.mulVec x (J + 1) < Real.sqrt n * 1e-8 := by tauto
    obtain ⟨g, hg1, hg2, hg3⟩ := clamp_for K hK eps heps fuel B hB hU' f deg orth hn M0 h0 lo hi hlo hhi L hL0 _ hL
    have main : ∑ i, ((Spec.matFun lam U f *ᵥ x) i -
        (nrm x • (qcols B.mulVec x J M.deg *ᵥ fun i => ∑ a, Y i a * (M.f (theta a) * Y ⟨0, w.dpos⟩ a))) i) ^ 2 ≤
        (2 * Real.sqrt 2 * L * (Real.sqrt n * 1e-8)) ^ 2 * ∑ i, x i ^ 2 := by
      by_cases hx : x = 0
      · subst hx
        simp [nrm_zero]
      have e1 : (fun i => ∑ a, Y i a * (M.f (theta a) * Y ⟨0, w.dpos⟩ a)) = fun i => ∑ a, Y i a * (g (theta a) * Y ⟨0, w.dpos⟩ a) :=
        funext fun i => Finset.sum_congr rfl fun b _ => by rw [hf, hg3 M h id x J s hJ hJ1 hJ2 _ hF theta Y hY b]
      have e3 := (early_value B hB hU' x hx (by omega : J + 1 < M.deg) (fun i hi => (lt_of_lt_of_le htol (hJ1 i hi)).ne') s.alpha.get
        s.beta.get hF.alpha_le hF.beta_le hY g L hL0 hg1).2
      rw [hF.beta_le _ le_rfl] at e3
      rw [e1, hg2, ← mulVec_normalized, sum_sq_sub, ← smul_sub, nrm_smul, mul_pow, sq_abs, dot_self_sum, mul_comm, ← nrm_neg, neg_sub]
      refine mul_le_mul_of_nonneg_right (pow_le_pow_left₀ (nrm_nonneg _) (e3.trans ?_) 2) (sq_nonneg _)
      have : L * (Real.sqrt 2 * lzb B.mulVec x (J + 1)) ≤ L * (Real.sqrt 2 * (Real.sqrt n * 1e-8)) :=
        mul_le_mul_of_nonneg_left (mul_le_mul_of_nonneg_left hlt.le (Real.sqrt_nonneg _)) hL0
      linarith
    exact ⟨_, _, hq, fun p e _ _ => main.trans (mul_le_mul_of_nonneg_right (pow_le_pow_left₀ hc0 (le_max_right _ _) 2) hx2),
      fun _ => main⟩

/-- **C122**, call histories.  For such functions the values of `quad(x)` after two histories differ by at most `2 √2 L tol |x|²`, at every degree
(`orth ≤ 2`). -/
theorem C122_quad_history (K : TriKernels) (hK : EighOk K) (eps : ℝ) (heps : 0 ≤ eps) (fuel : ℕ)
    (B : Matrix (Fin n) (Fin n) ℝ) (hB : B.IsSymm) (lam : Fin n → ℝ) (U : Matrix (Fin n) (Fin n) ℝ)
    (hU : Spec.Eigen B lam U) (f : ℝ → ℝ) (deg orth : ℤ) (hn : 0 < n) (M0 M1 M2 : MF n)
    (h0 : MF.init B.mulVec f deg orth = .ok M0) (ho : M0.orth ≤ 2) (h1 : MF.Reach K eps fuel M0 M1) (h2 : MF.Reach K eps fuel M0 M2)
    (lo hi : ℝ) (hlo : ∀ a, lo ≤ lam a) (hhi : ∀ a, lam a ≤ hi) (L : ℝ) (hL0 : 0 ≤ L)
    (hL : ∀ s ∈ Set.Icc (min lo 0 - 2 * (Real.sqrt n * 1e-8)) (max hi 0 + 2 * (Real.sqrt n * 1e-8)),
      ∀ t ∈ Set.Icc (min lo 0 - 2 * (Real.sqrt n * 1e-8)) (max hi 0 + 2 * (Real.sqrt n * 1e-8)), |f s - f t| ≤ L * |s - t|)
    (x : Vec n) :
    ∃ M1' M2' y1 y2, M1.quadCol K eps fuel x = some (.ok (M1', some y1)) ∧
      M2.quadCol K eps fuel x = some (.ok (M2', some y2)) ∧
      |y1 - y2| ≤ 2 * Real.sqrt 2 * L * (Real.sqrt n * 1e-8) * ∑ i, x i ^ 2 := by
  have hU' := isEigh_iff_eigen.mpr hU
  have htol : 0 < Real.sqrt n * (1e-8 : ℝ) := tol_pos hn (by norm_num)
  have hx2 : 0 ≤ ∑ i, x i ^ 2 := Finset.sum_nonneg fun _ _ => sq_nonneg _
  have hc0 : 0 ≤ 2 * Real.sqrt 2 * L * (Real.sqrt n * 1e-8) := by positivity
  obtain ⟨g, hg1, hg2, hg3⟩ := clamp_for K hK eps heps fuel B hB hU' f deg orth hn M0 h0 lo hi hlo hhi L hL0 True (Or.inr ⟨trivial, hL⟩)
  by_cases hc : ∃ M1' y1, M1.quadCol K eps fuel x = some (.ok (M1', some y1)) ∧ Spec.CleanStop (Real.sqrt n * 1e-8) M0.deg M1'.beta.get
  · obtain ⟨N, z, hN, hclean⟩ := hc
    obtain ⟨M1', M2', y1, y2, e1, e2, e3⟩ := C47_quad_history_partial K hK eps heps fuel B hB f deg orth hn M0 M1 M2 h0 ho h1 h2 x
    have q1 := hN.symm.trans e1
    simp only [Option.some.injEq, Except.ok.injEq, Prod.mk.injEq] at q1
    obtain ⟨rfl, rfl⟩ := q1
    refine ⟨_, _, _, _, e1, e2, ?_⟩
    rw [e3 hclean, sub_self, abs_zero]
    exact mul_nonneg hc0 hx2
  · obtain ⟨w1, a1, f1, d1, o1, r1⟩ := reached K eps fuel _ _ deg orth hn M0 M1 h0 h1
    obtain ⟨w2, a2, f2, d2, o2, r2⟩ := reached K eps fuel _ _ deg orth hn M0 M2 h0 h2
    obtain ⟨J, s, theta, Y, hJ, hJ1, hJ2, hF, hY, hq⟩ := quadCol_run K hK eps heps fuel M1 w1 B hB a1
      (by rw [r1]; norm_num) (Or.inl (by rw [o1]; exact ho)) x
    obtain ⟨J', s', theta', Y', hJ', hJ1', hJ2', hF', hY', hq'⟩ := quadCol_run K hK eps heps fuel M2 w2 B hB a2
      (by rw [r2]; norm_num) (Or.inl (by rw [o2]; exact ho)) x
    refine ⟨_, _, _, _, hq, hq', ?_⟩
    rw [r1] at hJ1 hJ2
    rw [r2] at hJ1' hJ2'
    have hd : M2.deg = M1.deg := d2.trans d1.symm
    obtain rfl : J' = J := steps_unique _ M1.deg J' J _ (hd ▸ hJ') hJ hJ1' hJ1 (hd ▸ hJ2') hJ2
    have hJd : J' + 1 ≠ M1.deg := by
      intro hJd
      refine hc ⟨_, _, hq, fun i hi1 hi2 hi3 => ?_⟩
      exfalso
      have hi3' : s.beta.get i < Real.sqrt n * 1e-8 := hi3
      rw [hF.beta_le i (by omega)] at hi3'
      have := hJ1 (i - 1) (by omega)
      rw [Nat.sub_add_cancel hi1] at this
      exact absurd this (not_le.mpr hi3')
    by_cases hx : x = 0
    · subst hx
      simp [nrm_zero]
    have hlt : lzb B.mulVec x (J' + 1) < Real.sqrt n * 1e-8 := by tauto
    have hb0 : ∀ i < J', lzb B.mulVec x (i + 1) ≠ 0 := fun i hi => (lt_of_lt_of_le htol (hJ1 i hi)).ne'
    obtain ⟨v, V, hV⟩ := exists_isEigh _ (triMat_symm (J' + 1) s.alpha.get s.beta.get)
    have hT : triMat (J' + 1) s'.alpha.get s'.beta.get = triMat (J' + 1) s.alpha.get s.beta.get :=
      triMat_congr (fun i hi => by rw [hF'.alpha_le i (by omega), hF.alpha_le i (by omega)])
        (fun i h0 hi => by rw [hF'.beta_le i (by omega), hF.beta_le i (by omega)])
    have b1 := (early_block_value B hB x hx (by omega : J' + 1 < M1.deg) hb0 s.alpha.get s.beta.get hF.beta_le hY hV g L hL0 hg1).1
    have b2 := (early_block_value B hB x hx (by omega : J' + 1 < M2.deg) hb0 s'.alpha.get s'.beta.get hF'.beta_le hY' (hT ▸ hV) g L hL0 hg1).1
    rw [hF.beta_le _ le_rfl] at b1
    rw [hF'.beta_le _ le_rfl] at b2
    have e1 : ∑ b, M1.f (theta b) * Y ⟨0, w1.dpos⟩ b ^ 2 = ∑ b, g (theta b) * Y ⟨0, w1.dpos⟩ b ^ 2 :=
      Finset.sum_congr rfl fun b _ => by rw [f1, hg3 M1 h1 (fun _ => Or.inr ho) x J' s hJ hJ1 hJ2 _ hF theta Y hY b]
    have e2 : ∑ b, M2.f (theta' b) * Y' ⟨0, w2.dpos⟩ b ^ 2 = ∑ b, g (theta' b) * Y' ⟨0, w2.dpos⟩ b ^ 2 :=
      Finset.sum_congr rfl fun b _ => by rw [f2, hg3 M2 h2 (fun _ => Or.inr ho) x J' s' hJ' hJ1' hJ2' _ hF' theta' Y' hY' b]
    have e3 : L * (Real.sqrt 2 * lzb B.mulVec x (J' + 1)) ≤ L * (Real.sqrt 2 * (Real.sqrt n * 1e-8)) :=
      mul_le_mul_of_nonneg_left (mul_le_mul_of_nonneg_left hlt.le (Real.sqrt_nonneg _)) hL0
    rw [e1, e2, ← sub_mul, abs_mul, abs_of_nonneg (sq_nonneg (nrm x)), dot_self_sum]
    refine mul_le_mul_of_nonneg_right ?_ (sq_nonneg _)
    rw [abs_sub_comm] at b2
    refine (abs_sub_le _ _ _).trans ((add_le_add b1 b2).trans ?_)
    linarith

/-- **C122**, call histories of the matrix-vector product, for every `orth` when the function is Lipschitz everywhere. -/
theorem C122_matvec_history (K : TriKernels) (hK : EighOk K) (eps : ℝ) (heps : 0 ≤ eps) (fuel : ℕ)
    (B : Matrix (Fin n) (Fin n) ℝ) (hB : B.IsSymm) (lam : Fin n → ℝ) (U : Matrix (Fin n) (Fin n) ℝ)
    (hU : Spec.Eigen B lam U) (f : ℝ → ℝ) (deg orth : ℤ) (hn : 0 < n) (M0 M1 M2 : MF n)
    (h0 : MF.init B.mulVec f deg orth = .ok M0) (h1 : MF.Reach K eps fuel M0 M1) (h2 : MF.Reach K eps fuel M0 M2)
    (lo hi : ℝ) (hlo : ∀ a, lo ≤ lam a) (hhi : ∀ a, lam a ≤ hi) (L : ℝ) (hL0 : 0 ≤ L)
    (hL : (∀ s t, |f s - f t| ≤ L * |s - t|) ∨ M0.orth ≤ 2 ∧
      ∀ s ∈ Set.Icc (min lo 0 - 2 * (Real.sqrt n * 1e-8)) (max hi 0 + 2 * (Real.sqrt n * 1e-8)),
        ∀ t ∈ Set.Icc (min lo 0 - 2 * (Real.sqrt n * 1e-8)) (max hi 0 + 2 * (Real.sqrt n * 1e-8)), |f s - f t| ≤ L * |s - t|)
    (x : Vec n) :
    ∃ M1' M2' y1 y2, M1.matvec K eps fuel x = some (.ok (M1', some y1)) ∧
      M2.matvec K eps fuel x = some (.ok (M2', some y2)) ∧
      ∑ i, (y1 i - y2 i) ^ 2 ≤ (2 * Real.sqrt 2 * L * (Real.sqrt n * 1e-8)) ^ 2 * ∑ i, x i ^ 2 := by
  have hU' := isEigh_iff_eigen.mpr hU
  have htol : 0 < Real.sqrt n * (1e-8 : ℝ) := tol_pos hn (by norm_num)
  have hx2 : 0 ≤ ∑ i, x i ^ 2 := Finset.sum_nonneg fun _ _ => sq_nonneg _
  obtain ⟨g, hg1, hg2, hg3⟩ := clamp_for K hK eps heps fuel B hB hU' f deg orth hn M0 h0 lo hi hlo hhi L hL0 (M0.orth ≤ 2) hL
  by_cases hc : ∃ M1' y1, M1.matvec K eps fuel x = some (.ok (M1', some y1)) ∧ Spec.CleanStop (Real.sqrt n * 1e-8) M0.deg M1'.beta.get
  · obtain ⟨N, z, hN, hclean⟩ := hc
    obtain ⟨M1', M2', y1, y2, e1, e2, e3⟩ := C48_matvec_history K hK eps heps fuel B hB f deg orth hn M0 M1 M2 h0 h1 h2 x
    have q1 := hN.symm.trans e1
    simp only [Option.some.injEq, Except.ok.injEq, Prod.mk.injEq] at q1
    obtain ⟨rfl, rfl⟩ := q1
    refine ⟨_, _, _, _, e1, e2, ?_⟩
    rw [e3 hclean]
    simp only [sub_self, ne_eq, OfNat.ofNat_ne_zero, not_false_eq_true, zero_pow, Finset.sum_const_zero]
    exact mul_nonneg (sq_nonneg _) hx2
  · obtain ⟨w1, a1, f1, d1, o1, r1⟩ := reached K eps fuel _ _ deg orth hn M0 M1 h0 h1
    obtain ⟨w2, a2, f2, d2, o2, r2⟩ := reached K eps fuel _ _ deg orth hn M0 M2 h0 h2
    obtain ⟨J, s, theta, Y, hJ, hJ1, hJ2, hF, hY, hq⟩ := matvec_run K hK eps heps fuel M1 w1 B hB a1 (by rw [r1]; norm_num) x
    obtain ⟨J', s', theta', Y', hJ', hJ1', hJ2', hF', hY', hq'⟩ := matvec_run K hK eps heps fuel M2 w2 B hB a2 (by rw [r2]; norm_num) x
    refine ⟨_, _, _, _, hq, hq', ?_⟩
    rw [r1] at hJ1 hJ2
    rw [r2] at hJ1' hJ2'
    have hd : M2.deg = M1.deg := d2.trans d1.symm
    obtain rfl : J' = J := steps_unique _ M1.deg J' J _ (hd ▸ hJ') hJ hJ1' hJ1 (hd ▸ hJ2') hJ2
    have hJd : J' + 1 ≠ M1.deg := by
      intro hJd
      refine hc ⟨_, _, hq, fun i hi1 hi2 hi3 => ?_⟩
      exfalso
      have hi3' : s.beta.get i < Real.sqrt n * 1e-8 := hi3
      rw [hF.beta_le i (by omega)] at hi3'
      have := hJ1 (i - 1) (by omega)
      rw [Nat.sub_add_cancel hi1] at this
      exact absurd this (not_le.mpr hi3')
    by_cases hx : x = 0
    · subst hx
      simp [nrm_zero]
    have hlt : lzb B.mulVec x (J' + 1) < Real.sqrt n * 1e-8 := by tauto
    have hb0 : ∀ i < J', lzb B.mulVec x (i + 1) ≠ 0 := fun i hi => (lt_of_lt_of_le htol (hJ1 i hi)).ne'
    obtain ⟨v, V, hV⟩ := exists_isEigh _ (triMat_symm (J' + 1) s.alpha.get s.beta.get)
    have hT : triMat (J' + 1) s'.alpha.get s'.beta.get = triMat (J' + 1) s.alpha.get s.beta.get :=
      triMat_congr (fun i hi => by rw [hF'.alpha_le i (by omega), hF.alpha_le i (by omega)])
        (fun i h0 hi => by rw [hF'.beta_le i (by omega), hF.beta_le i (by omega)])
    have b1 := (early_block_value B hB x hx (by omega : J' + 1 < M1.deg) hb0 s.alpha.get s.beta.get hF.beta_le hY hV g L hL0 hg1).2
    have b2 := (early_block_value B hB x hx (by omega : J' + 1 < M2.deg) hb0 s'.alpha.get s'.beta.get hF'.beta_le hY' (hT ▸ hV) g L hL0 hg1).2
    rw [hF.beta_le _ le_rfl] at b1
    rw [hF'.beta_le _ le_rfl] at b2
    have e1 : (fun i => ∑ b, Y i b * (M1.f (theta b) * Y ⟨0, w1.dpos⟩ b)) = fun i => ∑ b, Y i b * (g (theta b) * Y ⟨0, w1.dpos⟩ b) :=
      funext fun i => Finset.sum_congr rfl fun b _ => by rw [f1, hg3 M1 h1 Or.inr x J' s hJ hJ1 hJ2 _ hF theta Y hY b]
    have e2 : (fun i => ∑ b, Y' i b * (M2.f (theta' b) * Y' ⟨0, w2.dpos⟩ b)) = fun i => ∑ b, Y' i b * (g (theta' b) * Y' ⟨0, w2.dpos⟩ b) :=
      funext fun i => Finset.sum_congr rfl fun b _ => by rw [f2, hg3 M2 h2 Or.inr x J' s' hJ' hJ1' hJ2' _ hF' theta' Y' hY' b]
    have e3 : L * (Real.sqrt 2 * lzb B.mulVec x (J' + 1)) ≤ L * (Real.sqrt 2 * (Real.sqrt n * 1e-8)) :=
      mul_le_mul_of_nonneg_left (mul_le_mul_of_nonneg_left hlt.le (Real.sqrt_nonneg _)) hL0
    rw [e1, e2, sum_sq_sub, ← smul_sub, nrm_smul, mul_pow, sq_abs, dot_self_sum, mul_comm]
    refine mul_le_mul_of_nonneg_right (pow_le_pow_left₀ (nrm_nonneg _) ?_ 2) (sq_nonneg _)
    rw [← nrm_neg, neg_sub] at b2
    have := nrm_add_le _ _ |>.trans (add_le_add b1 b2)
    rw [sub_add_sub_cancel] at this
    linarith

end Primate
