import Verif.Lemmas.MatFunRun

/-!
# Properties of `MatrixFunction` (C38, C44 - C49)

`K` holds the tridiagonal eigensolver of SciPy; `EighOk K` says that it returns an orthogonal diagonalisation.
-/

noncomputable section

namespace Primate

open Matrix

variable {n : ℕ}

theorem MF.Reach.preserves {K : TriKernels} {eps : ℝ} {fuel : ℕ} {M M' : MF n} (h : MF.Reach K eps fuel M M')
    (hM : M.WF) : M.Same M' ∧ M'.WF := by
  induction h with
  | refl => exact ⟨.refl _, hM⟩
  | quad xs ys _ hq ih =>
    obtain ⟨s1, w1⟩ := ih
    obtain ⟨s2, w2⟩ := quad_preserves K eps fuel xs _ _ w1 ys hq
    exact ⟨s1.trans s2, w2⟩
  | matvec x y _ hq ih =>
    obtain ⟨s1, w1⟩ := ih
    obtain ⟨s2, w2⟩ := matvec_preserves K eps fuel _ _ w1 x y hq
    exact ⟨s1.trans s2, w2⟩

/-- An object built by the constructor and then used in any way. -/
theorem reached (K : TriKernels) (eps : ℝ) (fuel : ℕ) (A : Vec n → Vec n) (f : ℝ → ℝ) (deg orth : ℤ) (hn : 0 < n)
    (M0 M : MF n) (h0 : MF.init A f deg orth = .ok M0) (h : MF.Reach K eps fuel M0 M) :
    M.WF ∧ M.A = A ∧ M.f = f ∧ M.deg = M0.deg ∧ M.orth = M0.orth ∧ M.rtol = 1e-8 := by
  obtain ⟨w, a1, a2, a3, a4, a5⟩ := init_wf A f deg orth M0 hn h0
  obtain ⟨s, w'⟩ := h.preserves w
  exact ⟨w', s.A.trans a1, s.f.trans a2, s.deg, s.orth, s.rtol.trans a4⟩

/-- **C38** (for `MatrixFunction`).  In every state reached from a constructed object, neither `quad` nor the
matrix-vector product makes the native code touch memory outside the buffers of the object.  For an arbitrary (also
nonlinear) operator. -/
theorem C38_matrix_function_in_bounds (K : TriKernels) (eps : ℝ) (fuel : ℕ) (A : Vec n → Vec n) (f : ℝ → ℝ)
    (deg orth : ℤ) (hn : 0 < n) (M0 M : MF n) (h0 : MF.init A f deg orth = .ok M0) (h : MF.Reach K eps fuel M0 M)
    (x : Vec n) :
    (∃ s, lanczosNative M.A eps x M.deg M.rtol M.orth M.alpha M.beta M.Q = .ok s) ∧
    (∃ s, lanczosNative M.A eps x M.deg M.rtol M.orth M.alpha M.beta M.zeroQ = .ok s) := by
  obtain ⟨w, -⟩ := reached K eps fuel A f deg orth hn M0 M h0 h
  obtain ⟨s, hs, -⟩ := native_mf M w eps x M.Q w.Q_len
  obtain ⟨s', hs', -⟩ := native_mf M w eps x M.zeroQ w.Q_len
  exact ⟨⟨s, hs⟩, ⟨s', hs'⟩⟩

/-- What is known of a call of `quad` that cannot read stale columns. -/
theorem quadCol_value (K : TriKernels) (hK : EighOk K) (eps : ℝ) (heps : 0 ≤ eps) (fuel : ℕ) (M : MF n) (hM : M.WF)
    (B : Matrix (Fin n) (Fin n) ℝ) (hB : B.IsSymm) (lam : Fin n → ℝ) (U : Matrix (Fin n) (Fin n) ℝ)
    (hU : Spec.Eigen B lam U) (hA : M.A = B.mulVec) (hr : 0 < M.rtol) (hf : FreshQ M.orth M.Q) (x : Vec n) :
    ∃ M' y, M.quadCol K eps fuel x = some (.ok (M', some y)) ∧
      (Spec.CleanStop (Real.sqrt n * M.rtol) M.deg M'.beta.get →
        (∀ p : Polynomial ℝ, p.natDegree < 2 * M.deg → (∀ t, M.f t = p.eval t) →
          y = Spec.quadForm (Spec.matFun lam U M.f) x) ∧
        ((M.deg = n ∨ ∃ l, 1 ≤ l ∧ l < M.deg ∧ M'.beta.get l = 0) →
          y = Spec.quadForm (Spec.matFun lam U M.f) x)) := by
  obtain ⟨J, s, theta, Y, hJ, hJ1, hJ2, hF, hY, hq⟩ := quadCol_run K hK eps heps fuel M hM B hB hA hr hf x
  refine ⟨_, _, hq, fun hc => ?_⟩
  have htol := tol_pos hM.npos hr
  have hc' := clean_stop B x M.deg J _ htol hJ1 hJ2 hJ _ _ _ s hF hc
  by_cases hx : x = 0
  · subst hx
    have e1 : nrm (0 : Vec n) ^ 2 = 0 := by rw [nrm_zero]; ring
    have e2 : Spec.quadForm (Spec.matFun lam U M.f) (0 : Vec n) = 0 := by simp [Spec.quadForm]
    rw [e1, e2, mul_zero]
    exact ⟨fun _ _ _ => rfl, fun _ => rfl⟩
  have hk := kdata_of_clean B hB x hx M.deg J _ htol hJ hJ1 _ _ _ s hF hc'
  have hU' := isEigh_iff_eigen.mpr hU
  refine ⟨fun p hp hpf => ?_, fun hfull => ?_⟩
  · have hfe : M.f = fun t => p.eval t := funext hpf
    rw [hfe, hk.quad_poly_eq hB hU' hY p (Or.inl hp), quadForm_normalized]
  · have hr0 : (if J + 1 = M.deg then lzb B.mulVec x M.deg • lzq B.mulVec x M.deg else 0) = 0 := by
      rcases hfull with hfull | ⟨l, hl1, hl2, hl3⟩
      · exact hk.full hfull
      · by_cases hd : J + 1 = M.deg
        · exfalso
          have hl3' : s.beta.get l = 0 := hl3
          rw [hF.beta_le l (by omega)] at hl3'
          have := hJ1 (l - 1) (by omega)
          rw [Nat.sub_add_cancel hl1, hl3'] at this
          exact absurd this (not_le.mpr htol)
        · rw [if_neg hd]
    rw [hk.quad_exact hB hU' hY hr0, quadForm_normalized]

theorem fresh_reached (K : TriKernels) (eps : ℝ) (fuel : ℕ) (A : Vec n → Vec n) (f : ℝ → ℝ) (deg orth : ℤ)
    (hn : 0 < n) (M0 M : MF n) (h0 : MF.init A f deg orth = .ok M0) (h : MF.Reach K eps fuel M0 M)
    (hist : M = M0 ∨ M0.orth ≤ 2) : FreshQ M.orth M.Q := by
  rcases hist with rfl | h2
  · right
    intro l _ _
    unfold MF.init at h0
    split_ifs at h0
    simp only [Except.ok.injEq] at h0
    subst h0
    rfl
  · left
    rw [(reached K eps fuel A f deg orth hn M0 M h0 h).2.2.2.2.1]
    exact h2

/-- **C44.**  `MatrixFunction(A, f, deg).quad(x)` is `xᵀ f(A) x` when `f` is a polynomial of degree at most
`2 k - 1`, `k = min(deg, n)`, for every symmetric `A` and every `x`, provided the iteration does not stop at a residual that
is small but not zero.  On a new object for every `orth`; on a used one when at most two vectors are
re-orthogonalised against (see `C47_counterexample`). -/
theorem C44_quad_exact_poly (K : TriKernels) (hK : EighOk K) (eps : ℝ) (heps : 0 ≤ eps) (fuel : ℕ)
    (B : Matrix (Fin n) (Fin n) ℝ) (hB : B.IsSymm) (lam : Fin n → ℝ) (U : Matrix (Fin n) (Fin n) ℝ)
    (hU : Spec.Eigen B lam U) (p : Polynomial ℝ) (deg orth : ℤ) (hn : 0 < n) (M0 M : MF n)
    (h0 : MF.init B.mulVec (fun t => p.eval t) deg orth = .ok M0) (h : MF.Reach K eps fuel M0 M)
    (hist : M = M0 ∨ M0.orth ≤ 2) (hp : (p.natDegree : ℤ) ≤ 2 * min deg n - 1) (x : Vec n) :
    ∃ M' y, M.quadCol K eps fuel x = some (.ok (M', some y)) ∧
      (Spec.CleanStop (Real.sqrt n * 1e-8) M0.deg M'.beta.get →
        y = Spec.quadForm (Spec.matFun lam U fun t => p.eval t) x) := by
  obtain ⟨w, hA, hf, hd, ho, hr⟩ := reached K eps fuel _ _ deg orth hn M0 M h0 h
  have hdeg := (init_wf _ _ deg orth M0 hn h0).2.2.2.1
  obtain ⟨M', y, h1, h2⟩ := quadCol_value K hK eps heps fuel M w B hB lam U hU hA (by rw [hr]; norm_num)
    (fresh_reached K eps fuel _ _ deg orth hn M0 M h0 h hist) x
  refine ⟨M', y, h1, fun hc => ?_⟩
  rw [hr, hd] at h2
  rw [(h2 hc).1 p (by omega) (fun t => by rw [hf]), hf]

/-- **C46** (`quad`).  At full degree, or when the Krylov space is exhausted (`beta` has a zero entry), `quad(x)` is
`xᵀ f(A) x` for every function `f`. Missing: runs that stop at a residual below the tolerance but not zero, of which the claim is false (`C46_counterexample`, bound in C122). -/
theorem C46_quad_exact_partial (K : TriKernels) (hK : EighOk K) (eps : ℝ) (heps : 0 ≤ eps) (fuel : ℕ)
    (B : Matrix (Fin n) (Fin n) ℝ) (hB : B.IsSymm) (lam : Fin n → ℝ) (U : Matrix (Fin n) (Fin n) ℝ)
    (hU : Spec.Eigen B lam U) (f : ℝ → ℝ) (deg orth : ℤ) (hn : 0 < n) (M0 M : MF n)
    (h0 : MF.init B.mulVec f deg orth = .ok M0) (h : MF.Reach K eps fuel M0 M)
    (hist : M = M0 ∨ M0.orth ≤ 2) (x : Vec n) :
    ∃ M' y, M.quadCol K eps fuel x = some (.ok (M', some y)) ∧
      (Spec.CleanStop (Real.sqrt n * 1e-8) M0.deg M'.beta.get →
        ((n : ℤ) ≤ deg ∨ ∃ l, 1 ≤ l ∧ l < M0.deg ∧ M'.beta.get l = 0) →
        y = Spec.quadForm (Spec.matFun lam U f) x) := by
  obtain ⟨w, hA, hf, hd, ho, hr⟩ := reached K eps fuel _ _ deg orth hn M0 M h0 h
  have hdn : (n : ℤ) ≤ deg → M0.deg = n := by
    rw [(init_wf _ _ deg orth M0 hn h0).2.2.2.1]
    omega
  obtain ⟨M', y, h1, h2⟩ := quadCol_value K hK eps heps fuel M w B hB lam U hU hA (by rw [hr]; norm_num)
    (fresh_reached K eps fuel _ _ deg orth hn M0 M h0 h hist) x
  refine ⟨M', y, h1, fun hc hfull => ?_⟩
  rw [hr, hd] at h2
  rw [(h2 hc).2 (hfull.imp_left hdn), hf]

/-- What is known of a matrix-vector product. -/
theorem matvec_value (K : TriKernels) (hK : EighOk K) (eps : ℝ) (heps : 0 ≤ eps) (fuel : ℕ) (M : MF n) (hM : M.WF)
    (B : Matrix (Fin n) (Fin n) ℝ) (hB : B.IsSymm) (lam : Fin n → ℝ) (U : Matrix (Fin n) (Fin n) ℝ)
    (hU : Spec.Eigen B lam U) (hA : M.A = B.mulVec) (hr : 0 < M.rtol) (x : Vec n) :
    ∃ M' y, M.matvec K eps fuel x = some (.ok (M', some y)) ∧
      (Spec.CleanStop (Real.sqrt n * M.rtol) M.deg M'.beta.get →
        (∀ p : Polynomial ℝ, p.natDegree < M.deg → (∀ t, M.f t = p.eval t) → y = Spec.matFun lam U M.f *ᵥ x) ∧
        ((M.deg = n ∨ ∃ l, 1 ≤ l ∧ l < M.deg ∧ M'.beta.get l = 0) → y = Spec.matFun lam U M.f *ᵥ x) ∧
        ∀ (p : Polynomial ℝ) (e : ℝ), p.natDegree < M.deg →
          (∀ t, (∃ a, lam a ≤ t) → (∃ b, t ≤ lam b) → |M.f t - p.eval t| ≤ e) →
          ∑ i, ((Spec.matFun lam U M.f *ᵥ x) i - y i) ^ 2 ≤ (2 * e) ^ 2 * ∑ i, x i ^ 2) := by
  obtain ⟨J, s, theta, Y, hJ, hJ1, hJ2, hF, hY, hq⟩ := matvec_run K hK eps heps fuel M hM B hB hA hr x
  refine ⟨_, _, hq, fun hc => ?_⟩
  have htol := tol_pos hM.npos hr
  have hc' := clean_stop B x M.deg J _ htol hJ1 hJ2 hJ _ _ _ s hF hc
  by_cases hx : x = 0
  · subst hx
    have e1 : nrm (0 : Vec n) = 0 := nrm_zero
    rw [e1, zero_smul, mulVec_zero]
    refine ⟨fun _ _ _ => rfl, fun _ => rfl, fun p e _ _ => ?_⟩
    simp
  have hk := kdata_of_clean B hB x hx M.deg J _ htol hJ hJ1 _ _ _ s hF hc'
  have hU' := isEigh_iff_eigen.mpr hU
  refine ⟨fun p hp hpf => ?_, fun hfull => ?_, fun p e hp he => ?_⟩
  · have hfe : M.f = fun t => p.eval t := funext hpf
    rw [hfe, hk.matvec_poly_eq hU' hY p (Or.inl hp), mulVec_normalized]
  · have hr0 : (if J + 1 = M.deg then lzb B.mulVec x M.deg • lzq B.mulVec x M.deg else 0) = 0 := by
      rcases hfull with hfull | ⟨l, hl1, hl2, hl3⟩
      · exact hk.full hfull
      · by_cases hd : J + 1 = M.deg
        · exfalso
          have hl3' : s.beta.get l = 0 := hl3
          rw [hF.beta_le l (by omega)] at hl3'
          have := hJ1 (l - 1) (by omega)
          rw [Nat.sub_add_cancel hl1, hl3'] at this
          exact absurd this (not_le.mpr htol)
        · rw [if_neg hd]
    rw [hk.matvec_exact hU' hY hr0, mulVec_normalized]
  · rcases hk.exact with hr0 | ⟨hQ, hrQ⟩
    · rw [hk.matvec_exact hU' hY hr0, mulVec_normalized]
      simp only [sub_self]
      have : 0 ≤ ∑ i, x i ^ 2 := Finset.sum_nonneg fun i _ => sq_nonneg _
      simp only [ne_eq, OfNat.ofNat_ne_zero, not_false_eq_true, zero_pow, Finset.sum_const_zero]
      positivity
    · have hpoly := hk.matvec_poly_eq hU' hY p (Or.inl hp)
      set q0 := normalized x with hq0
      set Q := qcols B.mulVec x J M.deg with hQdef
      let g : ℝ → ℝ := fun t => M.f t - p.eval t
      have hlin1 : Spec.matFun lam U M.f *ᵥ x - Spec.matFun lam U (fun t => p.eval t) *ᵥ x =
          Spec.matFun lam U g *ᵥ x := by
        funext i
        rw [Pi.sub_apply, IsEigh.matFun_mulVec, IsEigh.matFun_mulVec, IsEigh.matFun_mulVec, ← Finset.sum_sub_distrib]
        exact Finset.sum_congr rfl fun a _ => by show _ = _ * ((M.f _ - p.eval _) * _); ring
      have hlin2 : (fun i => ∑ a, Y i a * (M.f (theta a) * Y ⟨0, hM.dpos⟩ a)) -
          (fun i => ∑ a, Y i a * (p.eval (theta a) * Y ⟨0, hM.dpos⟩ a)) =
          Spec.matFun theta Y g *ᵥ (Pi.single ⟨0, hM.dpos⟩ 1 : Vec M.deg) := by
        funext i
        rw [Pi.sub_apply, IsEigh.matFun_single, ← Finset.sum_sub_distrib]
        exact Finset.sum_congr rfl fun a _ => by show _ = _ * ((M.f _ - p.eval _) * _); ring
      set e1 : Vec M.deg := Pi.single ⟨0, hM.dpos⟩ 1 with he1
      have key : ∀ i, (Spec.matFun lam U M.f *ᵥ x) i -
          (nrm x • (Q *ᵥ fun i => ∑ a, Y i a * (M.f (theta a) * Y ⟨0, hM.dpos⟩ a))) i =
          (Spec.matFun lam U g *ᵥ x) i - (nrm x • (Q *ᵥ (Spec.matFun theta Y g *ᵥ e1))) i := by
        intro i
        rw [← hlin1, ← hlin2, mulVec_sub, hpoly, smul_sub, mulVec_normalized]
        simp only [Pi.sub_apply]
        ring
      simp only [key]
      refine le_trans (sum_sq_add_le _ _) ?_
      have b1 := hU'.matFun_norm g e (fun a => he _ ⟨a, le_rfl⟩ ⟨a, le_rfl⟩) x
      have b2 := hY.matFun_norm g e (fun a => by
        obtain ⟨h1, h2⟩ := hk.ritz hU' hY hQ hrQ a
        exact he _ h1 h2) e1
      have e1n : e1 ⬝ᵥ e1 = 1 := by rw [he1]; simp
      rw [e1n, mul_one] at b2
      have b3 : (nrm x • (Q *ᵥ (Spec.matFun theta Y g *ᵥ e1))) ⬝ᵥ (nrm x • (Q *ᵥ (Spec.matFun theta Y g *ᵥ e1))) ≤
          e ^ 2 * (x ⬝ᵥ x) := by
        rw [smul_dotProduct, dotProduct_smul, smul_eq_mul, smul_eq_mul, ← mul_assoc, nrm_sq, mul_comm]
        refine mul_le_mul_of_nonneg_right ?_ (dot_self_nonneg x)
        rw [dotProduct_mulVec, ← mulVec_transpose, mulVec_mulVec, hQ, one_mulVec]
        exact b2
      have e2 : ∑ i, x i ^ 2 = x ⬝ᵥ x := Finset.sum_congr rfl fun i _ => by ring
      rw [e2]
      nlinarith [b1, b3]

/-- **C45.**  `MatrixFunction(A, f, deg) @ x` is `f(A) x` when `f` is a polynomial of degree at most `k - 1`,
`k = min(deg, n)`, and in general `|f(A) x - M @ x| ≤ 2 e |x|` (here squared) where `e` bounds `|f - p|` on the spectral interval for
any polynomial `p` of degree below `k`.  In every state, for every `orth`, unless the iteration stops at a residual that is
small but not zero. Missing: runs that stop at a residual below the tolerance but not zero, of which the claim is false (`C45_counterexample`, bound in C122). -/
theorem C45_matvec_near_optimal_partial (K : TriKernels) (hK : EighOk K) (eps : ℝ) (heps : 0 ≤ eps) (fuel : ℕ)
    (B : Matrix (Fin n) (Fin n) ℝ) (hB : B.IsSymm) (lam : Fin n → ℝ) (U : Matrix (Fin n) (Fin n) ℝ)
    (hU : Spec.Eigen B lam U) (f : ℝ → ℝ) (deg orth : ℤ) (hn : 0 < n) (M0 M : MF n)
    (h0 : MF.init B.mulVec f deg orth = .ok M0) (h : MF.Reach K eps fuel M0 M) (x : Vec n) :
    ∃ M' y, M.matvec K eps fuel x = some (.ok (M', some y)) ∧
      (Spec.CleanStop (Real.sqrt n * 1e-8) M0.deg M'.beta.get →
        ∀ p : Polynomial ℝ, (p.natDegree : ℤ) ≤ min deg n - 1 →
          ((∀ t, f t = p.eval t) → y = Spec.matFun lam U f *ᵥ x) ∧
          ∀ e : ℝ, (∀ t, (∃ a, lam a ≤ t) → (∃ b, t ≤ lam b) → |f t - p.eval t| ≤ e) →
            ∑ i, ((Spec.matFun lam U f *ᵥ x) i - y i) ^ 2 ≤ (2 * e) ^ 2 * ∑ i, x i ^ 2) := by
  obtain ⟨w, hA, hf, hd, ho, hr⟩ := reached K eps fuel _ _ deg orth hn M0 M h0 h
  have hdeg := (init_wf _ _ deg orth M0 hn h0).2.2.2.1
  obtain ⟨M', y, h1, h2⟩ := matvec_value K hK eps heps fuel M w B hB lam U hU hA (by rw [hr]; norm_num) x
  refine ⟨M', y, h1, fun hc p hp => ?_⟩
  rw [hr, hd, hf] at h2
  obtain ⟨g1, -, g3⟩ := h2 hc
  exact ⟨g1 p (by omega), fun e he => g3 p e (by omega) he⟩

/-- **C46** (matrix-vector product).  At full degree, or when the Krylov space is exhausted, `M @ x` is `f(A) x` for
every function `f`, in every state and for every `orth`. Missing: runs that stop at a residual below the tolerance but not zero, of which the claim is false (`C45_counterexample`, bound in C122). -/
theorem C46_matvec_exact_partial (K : TriKernels) (hK : EighOk K) (eps : ℝ) (heps : 0 ≤ eps) (fuel : ℕ)
    (B : Matrix (Fin n) (Fin n) ℝ) (hB : B.IsSymm) (lam : Fin n → ℝ) (U : Matrix (Fin n) (Fin n) ℝ)
    (hU : Spec.Eigen B lam U) (f : ℝ → ℝ) (deg orth : ℤ) (hn : 0 < n) (M0 M : MF n)
    (h0 : MF.init B.mulVec f deg orth = .ok M0) (h : MF.Reach K eps fuel M0 M) (x : Vec n) :
    ∃ M' y, M.matvec K eps fuel x = some (.ok (M', some y)) ∧
      (Spec.CleanStop (Real.sqrt n * 1e-8) M0.deg M'.beta.get →
        ((n : ℤ) ≤ deg ∨ ∃ l, 1 ≤ l ∧ l < M0.deg ∧ M'.beta.get l = 0) → y = Spec.matFun lam U f *ᵥ x) := by
  obtain ⟨w, hA, hf, hd, ho, hr⟩ := reached K eps fuel _ _ deg orth hn M0 M h0 h
  have hdn : (n : ℤ) ≤ deg → M0.deg = n := by
    rw [(init_wf _ _ deg orth M0 hn h0).2.2.2.1]
    omega
  obtain ⟨M', y, h1, h2⟩ := matvec_value K hK eps heps fuel M w B hB lam U hU hA (by rw [hr]; norm_num) x
  refine ⟨M', y, h1, fun hc hfull => ?_⟩
  rw [hr, hd, hf] at h2
  exact (h2 hc).2.1 (hfull.imp_left hdn)

end Primate
