import Verif.Lemmas.Approx
import Verif.Props.SLQNear
import Verif.Props.Special
import Mathlib.Analysis.Calculus.MeanValue
import Mathlib.Analysis.SpecialFunctions.ExpDeriv

/-!
# C124: explicit convergence rates in the degree

The bounds of C122 and C123 refer to the best polynomial approximation of the function.  Here this is made explicit for Lipschitz functions and for the
function `exp` of `special.py`.
-/

open Matrix Polynomial

namespace Primate

variable {n N : ℕ}

/-- The error for a Lipschitz function at degree `m` of exactness. -/
noncomputable def lipErr (N : ℕ) (L lo hi : ℝ) (m : ℕ) : ℝ := max (L * (hi - lo) / Real.sqrt m) (2 * Real.sqrt 2 * L * (Real.sqrt N * 1e-8))

/-- The error for `exp(t s)` on `[lo, hi]` at degree `m` of exactness. -/
noncomputable def expErr (t lo hi : ℝ) (m : ℕ) : ℝ :=
  Real.exp (t * ((lo + hi) / 2) + |t| * ((hi - lo) / 2)) * ((|t| * ((hi - lo) / 2)) ^ (m + 1) / (m + 1).factorial)

/-- A Lipschitz constant of `exp(t s)` on `[a, b]`. -/
theorem exp_lipschitz (t a b : ℝ) : ∀ s ∈ Set.Icc a b, ∀ r ∈ Set.Icc a b,
    |Real.exp (t * s) - Real.exp (t * r)| ≤ |t| * Real.exp (max (t * a) (t * b)) * |s - r| := by
  intro s hs r hr
  have hmax : ∀ x ∈ Set.Icc a b, t * x ≤ max (t * a) (t * b) := fun x hx => by
    rcases le_total 0 t with h | h
    · exact le_max_of_le_right (mul_le_mul_of_nonneg_left hx.2 h)
    · exact le_max_of_le_left (mul_le_mul_of_nonpos_left hx.1 h)
  have hd : ∀ x ∈ Set.Icc a b, HasDerivWithinAt (fun x => Real.exp (t * x)) (Real.exp (t * x) * t) (Set.Icc a b) x := fun x _ => by
    have h1 : HasDerivAt (fun x => t * x) t x := by simpa using (hasDerivAt_id x).const_mul t
    exact h1.exp.hasDerivWithinAt
  have := Convex.norm_image_sub_le_of_norm_hasDerivWithin_le (C := |t| * Real.exp (max (t * a) (t * b))) hd (fun x hx => by
    rw [Real.norm_eq_abs, abs_mul, abs_of_pos (Real.exp_pos _), mul_comm]
    exact mul_le_mul_of_nonneg_left (Real.exp_le_exp.2 (hmax x hx)) (abs_nonneg t)) (convex_Icc a b) hr hs
  simpa [Real.norm_eq_abs] using this

/-- The Lipschitz constant of `exp(t s)` on the interval of C122. -/
noncomputable def expLip (N : ℕ) (t lo hi : ℝ) : ℝ :=
  |t| * Real.exp (max (t * (min lo 0 - 2 * (Real.sqrt N * 1e-8))) (t * (max hi 0 + 2 * (Real.sqrt N * 1e-8))))

/-- **C124** for Lipschitz functions: with `k = min(deg, n)` the quadrature `xᵀ f(A) x` has an error of at most `L (hi - lo) / sqrt(2 k - 1)` times `|x|²`
(or `2 sqrt 2 L tol` times `|x|²`, if that is larger). -/
theorem C124_lipschitz_quad (K : TriKernels) (hK : EighOk K) (eps : ℝ) (heps : 0 ≤ eps) (fuel : ℕ)
    (B : Matrix (Fin n) (Fin n) ℝ) (hB : B.IsSymm) (lam : Fin n → ℝ) (U : Matrix (Fin n) (Fin n) ℝ)
    (hU : Spec.Eigen B lam U) (f : ℝ → ℝ) (deg orth : ℤ) (hn : 0 < n) (M0 M : MF n)
    (h0 : MF.init B.mulVec f deg orth = .ok M0) (h : MF.Reach K eps fuel M0 M) (hist : M = M0 ∨ M0.orth ≤ 2)
    (lo hi : ℝ) (hlo : ∀ a, lo ≤ lam a) (hhi : ∀ a, lam a ≤ hi) (L : ℝ) (hL0 : 0 ≤ L)
    (hL : ∀ s ∈ Set.Icc (min lo 0 - 2 * (Real.sqrt n * 1e-8)) (max hi 0 + 2 * (Real.sqrt n * 1e-8)),
      ∀ t ∈ Set.Icc (min lo 0 - 2 * (Real.sqrt n * 1e-8)) (max hi 0 + 2 * (Real.sqrt n * 1e-8)), |f s - f t| ≤ L * |s - t|)
    (x : Vec n) :
    ∃ M' y, M.quadCol K eps fuel x = some (.ok (M', some y)) ∧
      ∀ m : ℕ, 0 < m → (m : ℤ) ≤ 2 * min deg n - 1 → |y - Spec.quadForm (Spec.matFun lam U f) x| ≤ lipErr n L lo hi m * ∑ i, x i ^ 2 := by
  obtain ⟨M', y, g1, g2, -⟩ := C122_quad K hK eps heps fuel B hB lam U hU f deg orth hn M0 M h0 h hist lo hi hlo hhi L hL0 hL x
  refine ⟨M', y, g1, fun m hm hm2 => ?_⟩
  have htol : 0 < Real.sqrt n * (1e-8 : ℝ) := tol_pos hn (by norm_num)
  have hsub : ∀ s ∈ Set.Icc lo hi, s ∈ Set.Icc (min lo 0 - 2 * (Real.sqrt n * 1e-8)) (max hi 0 + 2 * (Real.sqrt n * 1e-8)) := fun s hs =>
    ⟨by linarith [min_le_left lo 0, hs.1], by linarith [le_max_left hi 0, hs.2]⟩
  obtain ⟨p, p1, p2⟩ := lipschitz_approx m hm f lo hi L ((hlo ⟨0, hn⟩).trans (hhi ⟨0, hn⟩)) hL0 fun s hs t ht => hL s (hsub s hs) t (hsub t ht)
  have h3 := g2 p _ ((Int.ofNat_le.2 p1).trans hm2) fun t ⟨a, ha⟩ ⟨b, hb⟩ => p2 t ⟨(hlo a).trans ha, hb.trans (hhi b)⟩
  refine h3.trans_eq ?_
  unfold lipErr
  congr 2
  field_simp

/-- **C124** for Lipschitz functions: the product `f(A) x`, where the degree of exactness is `k - 1`. -/
theorem C124_lipschitz_matvec (K : TriKernels) (hK : EighOk K) (eps : ℝ) (heps : 0 ≤ eps) (fuel : ℕ)
    (B : Matrix (Fin n) (Fin n) ℝ) (hB : B.IsSymm) (lam : Fin n → ℝ) (U : Matrix (Fin n) (Fin n) ℝ)
    (hU : Spec.Eigen B lam U) (f : ℝ → ℝ) (deg orth : ℤ) (hn : 0 < n) (M0 M : MF n)
    (h0 : MF.init B.mulVec f deg orth = .ok M0) (h : MF.Reach K eps fuel M0 M)
    (lo hi : ℝ) (hlo : ∀ a, lo ≤ lam a) (hhi : ∀ a, lam a ≤ hi) (L : ℝ) (hL0 : 0 ≤ L)
    (hL : (∀ s t, |f s - f t| ≤ L * |s - t|) ∨ (M = M0 ∨ M0.orth ≤ 2) ∧
      ∀ s ∈ Set.Icc (min lo 0 - 2 * (Real.sqrt n * 1e-8)) (max hi 0 + 2 * (Real.sqrt n * 1e-8)),
        ∀ t ∈ Set.Icc (min lo 0 - 2 * (Real.sqrt n * 1e-8)) (max hi 0 + 2 * (Real.sqrt n * 1e-8)), |f s - f t| ≤ L * |s - t|)
    (x : Vec n) :
    ∃ M' y, M.matvec K eps fuel x = some (.ok (M', some y)) ∧
      ∀ m : ℕ, 0 < m → (m : ℤ) ≤ min deg n - 1 → ∑ i, ((Spec.matFun lam U f *ᵥ x) i - y i) ^ 2 ≤ lipErr n L lo hi m ^ 2 * ∑ i, x i ^ 2 := by
  obtain ⟨M', y, g1, g2, -⟩ := C122_matvec K hK eps heps fuel B hB lam U hU f deg orth hn M0 M h0 h lo hi hlo hhi L hL0 hL x
  refine ⟨M', y, g1, fun m hm hm2 => ?_⟩
  have htol : 0 < Real.sqrt n * (1e-8 : ℝ) := tol_pos hn (by norm_num)
  have hsub : ∀ s ∈ Set.Icc lo hi, s ∈ Set.Icc (min lo 0 - 2 * (Real.sqrt n * 1e-8)) (max hi 0 + 2 * (Real.sqrt n * 1e-8)) := fun s hs =>
    ⟨by linarith [min_le_left lo 0, hs.1], by linarith [le_max_left hi 0, hs.2]⟩
  obtain ⟨p, p1, p2⟩ := lipschitz_approx m hm f lo hi L ((hlo ⟨0, hn⟩).trans (hhi ⟨0, hn⟩)) hL0 fun s hs t ht => by
    rcases hL with h1 | ⟨-, h1⟩
    · exact h1 s t
    · exact h1 s (hsub s hs) t (hsub t ht)
  have h3 := g2 p _ ((Int.ofNat_le.2 p1).trans hm2) fun t ⟨a, ha⟩ ⟨b, hb⟩ => p2 t ⟨(hlo a).trans ha, hb.trans (hhi b)⟩
  refine h3.trans_eq ?_
  unfold lipErr
  congr 3
  field_simp

theorem exp_poly (m : ℕ) (t lo hi : ℝ) (lam : Fin n → ℝ) (hlo : ∀ a, lo ≤ lam a) (hhi : ∀ a, lam a ≤ hi) :
    ∃ p : ℝ[X], p.natDegree ≤ m ∧ ∀ s, (∃ a, lam a ≤ s) → (∃ b, s ≤ lam b) → |Real.exp (t * s) - p.eval s| ≤ expErr t lo hi m := by
  obtain ⟨p, p1, p2⟩ := exp_approx m t ((lo + hi) / 2) ((hi - lo) / 2)
  refine ⟨p, p1, fun s ⟨a, ha⟩ ⟨b, hb⟩ => p2 s (abs_le.2 ⟨?_, ?_⟩)⟩
  · linarith [hlo a]
  · linarith [hhi b]

/-- **C124** for `exp`: the error decreases like `1 / (2k)!`, until it reaches the stopping tolerance. -/
theorem C124_exp_quad (K : TriKernels) (hK : EighOk K) (eps : ℝ) (heps : 0 ≤ eps) (fuel : ℕ)
    (B : Matrix (Fin n) (Fin n) ℝ) (hB : B.IsSymm) (lam : Fin n → ℝ) (U : Matrix (Fin n) (Fin n) ℝ)
    (hU : Spec.Eigen B lam U) (kw : String → Option ℝ) (t : ℝ) (ht : (kw "t").getD 1 = t) (deg orth : ℤ) (hn : 0 < n)
    (lo hi : ℝ) (hlo : ∀ a, lo ≤ lam a) (hhi : ∀ a, lam a ≤ hi) :
    ∃ f : ℝ → ℝ, paramCallable (.str "exp") kw = .ok (fun s => .fin (f s)) ∧
      ∀ M0 M : MF n, MF.init B.mulVec f deg orth = .ok M0 → MF.Reach K eps fuel M0 M → (M = M0 ∨ M0.orth ≤ 2) → ∀ x : Vec n,
        ∃ M' y, M.quadCol K eps fuel x = some (.ok (M', some y)) ∧
          ∀ m : ℕ, (m : ℤ) ≤ 2 * min deg n - 1 → |y - Spec.quadForm (Spec.matFun lam U fun s => Real.exp (t * s)) x| ≤
            max (2 * expErr t lo hi m) (2 * Real.sqrt 2 * expLip n t lo hi * (Real.sqrt n * 1e-8)) * ∑ i, x i ^ 2 := by
  refine ⟨fun s => Real.exp (t * s), ?_, fun M0 M h0 h hist x => ?_⟩
  · obtain ⟨f, h1, h2⟩ := (C65_builtins kw).2.2.2.2.2.1
    rw [h1]
    congr 1
    funext s
    rw [h2, ht]
  · obtain ⟨M', y, g1, g2, -⟩ := C122_quad K hK eps heps fuel B hB lam U hU _ deg orth hn M0 M h0 h hist lo hi hlo hhi
      (expLip n t lo hi) (by unfold expLip; positivity) (exp_lipschitz t _ _) x
    refine ⟨M', y, g1, fun m hm => ?_⟩
    obtain ⟨p, p1, p2⟩ := exp_poly m t lo hi lam hlo hhi
    exact g2 p _ ((Int.ofNat_le.2 p1).trans hm) p2

/-- **C124** for `exp`: the product `exp(t A) x`. -/
theorem C124_exp_matvec (K : TriKernels) (hK : EighOk K) (eps : ℝ) (heps : 0 ≤ eps) (fuel : ℕ)
    (B : Matrix (Fin n) (Fin n) ℝ) (hB : B.IsSymm) (lam : Fin n → ℝ) (U : Matrix (Fin n) (Fin n) ℝ)
    (hU : Spec.Eigen B lam U) (kw : String → Option ℝ) (t : ℝ) (ht : (kw "t").getD 1 = t) (deg orth : ℤ) (hn : 0 < n)
    (lo hi : ℝ) (hlo : ∀ a, lo ≤ lam a) (hhi : ∀ a, lam a ≤ hi) :
    ∃ f : ℝ → ℝ, paramCallable (.str "exp") kw = .ok (fun s => .fin (f s)) ∧
      ∀ M0 M : MF n, MF.init B.mulVec f deg orth = .ok M0 → MF.Reach K eps fuel M0 M → (M = M0 ∨ M0.orth ≤ 2) → ∀ x : Vec n,
        ∃ M' y, M.matvec K eps fuel x = some (.ok (M', some y)) ∧
          ∀ m : ℕ, (m : ℤ) ≤ min deg n - 1 → ∑ i, ((Spec.matFun lam U (fun s => Real.exp (t * s)) *ᵥ x) i - y i) ^ 2 ≤
            max (2 * expErr t lo hi m) (2 * Real.sqrt 2 * expLip n t lo hi * (Real.sqrt n * 1e-8)) ^ 2 * ∑ i, x i ^ 2 := by
  refine ⟨fun s => Real.exp (t * s), ?_, fun M0 M h0 h hist x => ?_⟩
  · obtain ⟨f, h1, h2⟩ := (C65_builtins kw).2.2.2.2.2.1
    rw [h1]
    congr 1
    funext s
    rw [h2, ht]
  · obtain ⟨M', y, g1, g2, -⟩ := C122_matvec K hK eps heps fuel B hB lam U hU _ deg orth hn M0 M h0 h lo hi hlo hhi
      (expLip n t lo hi) (by unfold expLip; positivity) (Or.inr ⟨hist, exp_lipschitz t _ _⟩) x
    refine ⟨M', y, g1, fun m hm => ?_⟩
    obtain ⟨p, p1, p2⟩ := exp_poly m t lo hi lam hlo hhi
    exact g2 p _ ((Int.ofNat_le.2 p1).trans hm) p2

/-- **C124** for the identity: every degree the constructor accepts is enough. -/
theorem C124_identity_quad (K : TriKernels) (hK : EighOk K) (eps : ℝ) (heps : 0 ≤ eps) (fuel : ℕ)
    (B : Matrix (Fin n) (Fin n) ℝ) (hB : B.IsSymm) (deg orth : ℤ) (hn : 0 < n) :
    ∃ f : ℝ → ℝ, (∀ kw, paramCallable (.str "identity") kw = .ok (fun s => .fin (f s))) ∧
      ∀ M0 M : MF n, MF.init B.mulVec f deg orth = .ok M0 → MF.Reach K eps fuel M0 M → (M = M0 ∨ M0.orth ≤ 2) → ∀ x : Vec n,
        ∃ M' y, M.quadCol K eps fuel x = some (.ok (M', some y)) ∧
          |y - Spec.quadForm B x| ≤ 2 * Real.sqrt 2 * (Real.sqrt n * 1e-8) * ∑ i, x i ^ 2 := by
  obtain ⟨lam, U, hU'⟩ := exists_isEigh B hB
  have hU := isEigh_iff_eigen.mp hU'
  refine ⟨fun s => s, fun kw => (C65_builtins kw).1, fun M0 M h0 h hist x => ?_⟩
  have hd : 1 ≤ deg := by
    by_contra hc
    rw [MF.init, if_pos (by omega)] at h0
    cases h0
  have hne : (Finset.univ : Finset (Fin n)).Nonempty := ⟨⟨0, hn⟩, Finset.mem_univ _⟩
  obtain ⟨M', y, g1, g2, -⟩ := C122_quad K hK eps heps fuel B hB lam U hU _ deg orth hn M0 M h0 h hist (Finset.univ.inf' hne lam) (Finset.univ.sup' hne lam)
      (fun a => Finset.inf'_le _ (Finset.mem_univ a)) (fun a => Finset.le_sup' _ (Finset.mem_univ a)) 1 zero_le_one (fun s _ t _ => by rw [one_mul]) x
  refine ⟨M', y, g1, ?_⟩
  have h3 := g2 X 0 (by rw [natDegree_X]; have : (1 : ℤ) ≤ min deg n := le_min hd (by exact_mod_cast hn); push_cast; omega) fun t _ _ => by simp
  rw [hU'.matFun_id, mul_one, mul_zero, max_eq_right (by positivity)] at h3
  exact h3

/-! ## The reciprocal and the logarithm, if the iteration does not stop early -/

/-- **C124** for the reciprocal of a positive definite matrix: geometric convergence, if the iteration does not stop early.  (After an early stop the function is
evaluated at zero, C42, where the reciprocal is infinite.) -/
theorem C124_inverse_quad (K : TriKernels) (hK : EighOk K) (eps : ℝ) (heps : 0 ≤ eps) (fuel : ℕ)
    (B : Matrix (Fin n) (Fin n) ℝ) (hB : B.IsSymm) (lam : Fin n → ℝ) (U : Matrix (Fin n) (Fin n) ℝ)
    (hU : Spec.Eigen B lam U) (f : ℝ → ℝ) (lo hi : ℝ) (hlo0 : 0 < lo) (hlo : ∀ a, lo ≤ lam a) (hhi : ∀ a, lam a ≤ hi)
    (hf : ∀ kw, ∃ g, paramCallable (.str "inv") kw = .ok g ∧ ∀ t, lo ≤ t → g t = .fin (f t)) (deg orth : ℤ) (hn : 0 < n) (M0 M : MF n)
    (h0 : MF.init B.mulVec f deg orth = .ok M0) (h : MF.Reach K eps fuel M0 M) (hist : M = M0 ∨ M0.orth ≤ 2) (x : Vec n) :
    ∃ M' y, M.quadCol K eps fuel x = some (.ok (M', some y)) ∧
      ((∀ i, 1 ≤ i → i < M0.deg → Real.sqrt n * 1e-8 ≤ M'.beta.get i) → ∀ m : ℕ, (m : ℤ) ≤ 2 * min deg n - 1 →
        |y - Spec.quadForm (Spec.matFun lam U fun t => 1 / t) x| ≤ 2 * (((hi - lo) / (hi + lo)) ^ (m + 1) / lo) * ∑ i, x i ^ 2) := by
  have hf' : ∀ t, lo ≤ t → f t = 1 / t := fun t ht => by
    obtain ⟨g, h1, h2⟩ := hf fun _ => none
    obtain ⟨g', h3, h4, -⟩ := (C65_builtins fun _ => none).2.2.2.2.1
    rw [h1] at h3
    obtain rfl : g = g' := by injection h3
    obtain ⟨y, h5, h6⟩ := h4 t (hlo0.trans_le ht).ne'
    rw [h2 t ht] at h5
    obtain rfl : f t = y := by injection h5
    rw [eq_div_iff (hlo0.trans_le ht).ne', mul_comm]
    exact h6
  obtain ⟨M', y, g1, g2⟩ := C103_quad_near_optimal_partial K hK eps heps fuel B hB lam U hU f deg orth hn M0 M h0 h hist x
  refine ⟨M', y, g1, fun hb m hm => ?_⟩
  obtain ⟨p, p1, p2⟩ := inv_approx m lo hi hlo0
  have h3 := g2 (fun j h1 h2 h3 => absurd h3 (not_lt.2 (hb j h1 h2))) p _ ((Int.ofNat_le.2 p1).trans hm) fun t ⟨a, ha⟩ ⟨b, hb⟩ => by
    rw [hf' t ((hlo a).trans ha)]
    exact p2 t ⟨(hlo a).trans ha, hb.trans (hhi b)⟩
  rwa [show Spec.matFun lam U f = Spec.matFun lam U fun t => 1 / t by
    unfold Spec.matFun
    rw [show (fun a => f (lam a)) = fun a => 1 / lam a from funext fun a => hf' _ (hlo a)]] at h3

/-- **C124** for the logarithm of a matrix with eigenvalues of at least `2^-52`: geometric convergence, if the iteration does not stop early. -/
theorem C124_log_quad (K : TriKernels) (hK : EighOk K) (eps : ℝ) (heps : 0 ≤ eps) (fuel : ℕ)
    (B : Matrix (Fin n) (Fin n) ℝ) (hB : B.IsSymm) (lam : Fin n → ℝ) (U : Matrix (Fin n) (Fin n) ℝ)
    (hU : Spec.Eigen B lam U) (lo hi : ℝ) (hlo0 : 2 ^ (-52 : ℤ) ≤ lo) (hlo : ∀ a, lo ≤ lam a) (hhi : ∀ a, lam a ≤ hi) (deg orth : ℤ) (hn : 0 < n) :
    ∃ f : ℝ → ℝ, (∀ kw, paramCallable (.str "log") kw = .ok (fun s => .fin (f s))) ∧
      ∀ M0 M : MF n, MF.init B.mulVec f deg orth = .ok M0 → MF.Reach K eps fuel M0 M → (M = M0 ∨ M0.orth ≤ 2) → ∀ x : Vec n,
        ∃ M' y, M.quadCol K eps fuel x = some (.ok (M', some y)) ∧
          ((∀ i, 1 ≤ i → i < M0.deg → Real.sqrt n * 1e-8 ≤ M'.beta.get i) → ∀ m : ℕ, (m : ℤ) ≤ 2 * min deg n - 1 →
            |y - Spec.quadForm (Spec.matFun lam U Real.log) x| ≤
              2 * (((hi - lo) / (hi + lo)) ^ (m + 1) / (1 - (hi - lo) / (hi + lo))) * ∑ i, x i ^ 2) := by
  have hpos : 0 < lo := lt_of_lt_of_le (by positivity) hlo0
  have hf' : ∀ t, lo ≤ t → Real.log (max t eps64) = Real.log t := fun t ht => by
    rw [max_eq_left (show eps64 ≤ t from hlo0.trans ht)]
  refine ⟨fun t => Real.log (max t eps64), fun kw => ?_, fun M0 M h0 h hist x => ?_⟩
  · simp [paramCallable, BUILTIN_MATRIX_FUNCTIONS]
  obtain ⟨M', y, g1, g2⟩ := C103_quad_near_optimal_partial K hK eps heps fuel B hB lam U hU _ deg orth hn M0 M h0 h hist x
  refine ⟨M', y, g1, fun hb m hm => ?_⟩
  obtain ⟨p, p1, p2⟩ := log_approx m lo hi hpos
  have h3 := g2 (fun j h1 h2 h3 => absurd h3 (not_lt.2 (hb j h1 h2))) p _ ((Int.ofNat_le.2 p1).trans hm) fun t ⟨a, ha⟩ ⟨b, hb⟩ => by
    rw [hf' t ((hlo a).trans ha)]
    exact p2 t ⟨(hlo a).trans ha, hb.trans (hhi b)⟩
  rwa [show Spec.matFun lam U (fun t => Real.log (max t eps64)) = Spec.matFun lam U Real.log by
    unfold Spec.matFun
    rw [show (fun a => Real.log (max (lam a) eps64)) = fun a => Real.log (lam a) from funext fun a => hf' _ (hlo a)]] at h3

/-! ## The whole estimator with `exp` -/

section prob

open MeasureTheory ProbabilityTheory

variable (tppf : ℝ → ℕ → ℝ) (zscore : ℝ → ℝ) {Ω : Type*} [MeasurableSpace Ω] {P : Measure Ω}

/-- **C124**: `hutch` on `MatrixFunction(A, fun="exp", t=t, deg=deg)` with `k` Rademacher vectors estimates the trace of `exp(t A)`; the part of the error that
does not come from sampling decreases like `1 / (2 deg)!`. -/
theorem C124_trace_exp [IsProbabilityMeasure P] (K : TriKernels) (hK : EighOk K) (eps : ℝ) (heps : 0 ≤ eps) (qf : ℕ) (B : Matrix (Fin N) (Fin N) ℝ)
    (hN : 0 < N) (hB : B.IsSymm) (lam : Fin N → ℝ) (U : Matrix (Fin N) (Fin N) ℝ) (hU : Spec.Eigen B lam U) (t : ℝ) (deg orth : ℤ) (M0 M : MF N)
    (h0 : MF.init B.mulVec (fun s => Real.exp (t * s)) deg orth = .ok M0) (ho : M0.orth ≤ 2) (h : MF.Reach K eps qf M0 M)
    (lo hi : ℝ) (hlo : ∀ a, lo ≤ lam a) (hhi : ∀ a, lam a ≤ hi) (m : ℕ) (hm : (m : ℤ) ≤ 2 * min deg N - 1)
    (k : ℕ) (hk : 0 < k) (u X : ℕ → Ω → ℝ) (hu : Spec.IidUniform P u) (op : Operand N) :
    ∃ est : Ω → ℝ,
      (∀ᵐ ω ∂P, ∃ M', hutchMF tppf zscore ⟨fun q => u q ω, fun q => X q ω⟩ K eps qf M
        ⟨op, 32, .name "rademacher", .obj (.count k), false, false, false, []⟩ (k + 1) = some (.ok (some (M', .scalar (.val fun _ => est ω), [])))) ∧
      |∫ ω, est ω ∂P - ∑ i, Real.exp (t * lam i)| ≤ max (2 * expErr t lo hi m) (2 * Real.sqrt 2 * expLip N t lo hi * (Real.sqrt N * 1e-8)) * N ∧
      ∀ D : ℝ, 0 < D → (∀ x : Vec N, (∀ i, x i = 1 ∨ x i = -1) →
          |Spec.quadForm (Spec.matFun lam U fun s => Real.exp (t * s)) x - ∑ i, Real.exp (t * lam i)| ≤ D) → ∀ ε : ℝ, 0 < ε →
        P.real {ω | ε + max (2 * expErr t lo hi m) (2 * Real.sqrt 2 * expLip N t lo hi * (Real.sqrt N * 1e-8)) * N ≤ |est ω - ∑ i, Real.exp (t * lam i)|} ≤
          2 * Real.exp (-(k * ε ^ 2 / (2 * D ^ 2))) := by
  have hs : SlqSetup K eps qf B lam U (fun s => Real.exp (t * s)) deg orth M0 M (expLip N t lo hi) (expErr t lo hi m) := by
    refine ⟨hN, hB, hU, h0, ho, h, ⟨lo, hi, hlo, hhi, by unfold expLip; positivity, exp_lipschitz t _ _⟩, Or.inr ?_⟩
    obtain ⟨p, p1, p2⟩ := exp_poly m t lo hi lam hlo hhi
    exact ⟨p, (Int.ofNat_le.2 p1).trans hm, p2⟩
  obtain ⟨est, h1, -, h2, -, -, h3⟩ := C123_rademacher (P := P) tppf zscore K hK eps heps qf B lam U _ deg orth M0 M _ _ hs k hk u X hu op
  exact ⟨est, h1, h2, h3⟩

end prob

/-! ## Concrete cases -/

/-- The matrix `[[0, 1], [1, 0]]` with eigenvalues 1, -1 and `f = |t|` at degree 2: the error is at most `2 / sqrt 3` times `|x|²`. -/
example (K : TriKernels) (hK : EighOk K) (x : Vec 2) : ∃ M0, MF.init S2.mulVec (fun t => |t|) 2 3 = .ok M0 ∧
    ∃ M' y, M0.quadCol K 0 100 x = some (.ok (M', some y)) ∧
      |y - Spec.quadForm (Spec.matFun ![1, -1] !![Real.sqrt 2 / 2, Real.sqrt 2 / 2; Real.sqrt 2 / 2, -(Real.sqrt 2 / 2)] fun t => |t|) x| ≤
        2 / Real.sqrt 3 * ∑ i, x i ^ 2 := by
  refine ⟨_, if_neg (by norm_num), ?_⟩
  obtain ⟨M', y, g1, g2⟩ := C124_lipschitz_quad K hK 0 le_rfl 100 S2 S2_symm _ _ S2_eigen (fun t => |t|) 2 3 two_pos _ _ (if_neg (by norm_num)) (.refl _) (Or.inl rfl)
    (-1) 1 (fun a => by fin_cases a <;> norm_num) (fun a => by fin_cases a <;> norm_num) 1 zero_le_one
    (fun s _ t _ => by rw [one_mul]; exact abs_abs_sub_abs_le s t) x
  refine ⟨M', y, g1, (g2 3 (by norm_num) (by norm_num)).trans_eq ?_⟩
  congr 1
  unfold lipErr
  rw [max_eq_left]
  · norm_num
  · have hs : Real.sqrt 2 * Real.sqrt 2 = 2 := Real.mul_self_sqrt (by norm_num)
    have : 2 * Real.sqrt 2 * 1 * (Real.sqrt (2 : ℕ) * 1e-8) = 2 * (Real.sqrt 2 * Real.sqrt 2) * 1e-8 := by push_cast; ring
    rw [this, hs, le_div_iff₀ (Real.sqrt_pos.2 (by norm_num))]
    have h3 : Real.sqrt ((3 : ℕ) : ℝ) ≤ 3 := Real.sqrt_le_iff.2 ⟨by norm_num, by norm_num⟩
    calc 2 * 2 * 1e-8 * Real.sqrt ((3 : ℕ) : ℝ) ≤ 2 * 2 * 1e-8 * 3 := mul_le_mul_of_nonneg_left h3 (by norm_num)
      _ ≤ 1 * (1 - -1) := by norm_num

/-- The same matrix with `exp` at degree 2 (full degree), where exactness of degree 3 alone gives an error of at most `2 e / 24` for the exponential. -/
example : expErr 1 (-1) 1 3 = Real.exp 1 / 24 := by
  unfold expErr
  norm_num [Nat.factorial]
  ring

theorem L3_range (lam : Fin 3 → ℝ) (U : Matrix (Fin 3) (Fin 3) ℝ) (hU : Spec.Eigen L3 lam U) (a : Fin 3) : 1 / 2 ≤ lam a ∧ lam a ≤ 7 / 2 := by
  have h := isEigh_iff_eigen.mpr hU
  have h1 := h.unit_col a
  have h3 : U.col a ⬝ᵥ (L3 *ᵥ U.col a) = lam a := by rw [h.col_eq a, dotProduct_smul, h1]; simp
  rw [← h3]
  generalize U.col a = u at h1
  simp [dotProduct, mulVec, Fin.sum_univ_three, L3] at h1 ⊢
  constructor
  · nlinarith [sq_nonneg (u 0 + 2 / 3 * u 1), sq_nonneg (u 2 + 2 / 3 * u 1), sq_nonneg (u 1)]
  · nlinarith [sq_nonneg (u 0 - 2 / 3 * u 1), sq_nonneg (u 2 - 2 / 3 * u 1), sq_nonneg (u 1)]

/-- The matrix `[[2, 1, 0], [1, 2, 1], [0, 1, 2]]` at degree 2: the `(1, 1)` entries of the inverse and of the logarithm are found up to `4 (3/4)^4`
and `8 (3/4)^4`. -/
example (K : TriKernels) (hK : EighOk K) (fuel : ℕ) (lam : Fin 3 → ℝ) (U : Matrix (Fin 3) (Fin 3) ℝ) (hU : Spec.Eigen L3 lam U) :
    (∃ M0 M' y, MF.init L3.mulVec (fun t => 1 / t) 2 3 = .ok M0 ∧ M0.quadCol K 0 fuel ![1, 0, 0] = some (.ok (M', some y)) ∧
      |y - Spec.quadForm (Spec.matFun lam U fun t => 1 / t) ![1, 0, 0]| ≤ 4 * (3 / 4) ^ 4) ∧
    ∃ f M0 M' y, MF.init L3.mulVec f 2 3 = .ok M0 ∧ M0.quadCol K 0 fuel ![1, 0, 0] = some (.ok (M', some y)) ∧
      |y - Spec.quadForm (Spec.matFun lam U Real.log) ![1, 0, 0]| ≤ 8 * (3 / 4) ^ 4 := by
  constructor
  · obtain ⟨M0, h0, hb⟩ := L3_run K hK fuel (fun t => 1 / t) 3
    obtain ⟨M', y, h1, h2⟩ := C124_inverse_quad K hK 0 le_rfl fuel L3 L3_symm lam U hU _ (1 / 2) (7 / 2) (by norm_num) (fun a => (L3_range lam U hU a).1)
      (fun a => (L3_range lam U hU a).2) (fun kw => ⟨_, rfl, fun t ht => by
        have : t ≠ 0 := by intro h; rw [h] at ht; norm_num at ht
        simp [Fl.divFin, this]⟩) 2 3 (by norm_num) M0 M0 h0 (.refl _) (Or.inl rfl) ![1, 0, 0]
    have h3 := h2 (hb M' y h1) 3 (by norm_num)
    refine ⟨M0, M', y, h0, h1, h3.trans (le_of_eq ?_)⟩
    simp [Fin.sum_univ_three]
    norm_num
  · obtain ⟨f, -, hf⟩ := C124_log_quad K hK 0 le_rfl fuel L3 L3_symm lam U hU (1 / 2) (7 / 2) (by norm_num) (fun a => (L3_range lam U hU a).1)
      (fun a => (L3_range lam U hU a).2) 2 3 (by norm_num)
    obtain ⟨M0, h0, hb⟩ := L3_run K hK fuel f 3
    obtain ⟨M', y, h1, h2⟩ := hf M0 M0 h0 (.refl _) (Or.inl rfl) ![1, 0, 0]
    have h3 := h2 (hb M' y h1) 3 (by norm_num)
    refine ⟨f, M0, M', y, h0, h1, h3.trans (le_of_eq ?_)⟩
    simp [Fin.sum_univ_three]
    norm_num

end Primate
