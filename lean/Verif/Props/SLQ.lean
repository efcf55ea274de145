import Verif.Model.TraceMF
import Verif.Props.MatrixFunctionWitness
import Verif.Props.HutchMoments

/-!
# C73: stochastic Lanczos quadrature
-/

noncomputable section

namespace Primate

open Matrix

variable {N : ℕ} (tppf : ℝ → ℕ → ℝ) (zscore : ℝ → ℝ) (rng : Rng)

/-! ## The loop with a state that does not matter -/

section generic

variable (K : TriKernels) (eps : ℝ) (qf : ℕ) (Inv : MF N → Prop) (good : Vec N → Prop) (q : Vec N → ℝ)
  (hstep : ∀ M, Inv M → ∀ x, good x → ∃ M', M.quadCol K eps qf x = some (.ok (M', some (q x))) ∧ Inv M')

include hstep

theorem quad_inv : ∀ (xs : List (Vec N)) (M : MF N), Inv M → (∀ x ∈ xs, good x) →
    ∃ M', M.quad K eps qf xs = some (.ok (M', xs.map fun x => some (q x))) ∧ Inv M' := by
  intro xs
  induction xs with
  | nil => intro M hM _; exact ⟨M, rfl, hM⟩
  | cons x xs ih =>
    intro M hM hx
    obtain ⟨M1, h1, i1⟩ := hstep M hM x (hx x (List.mem_cons_self ..))
    obtain ⟨M2, h2, i2⟩ := ih M1 i1 fun y hy => hx y (List.mem_cons_of_mem _ hy)
    refine ⟨M2, ?_, i2⟩
    unfold MF.quad
    simp only [h1, h2]
    rfl

omit hstep in
theorem allSome_map (xs : List (Vec N)) : allSome (xs.map fun x => some (q x)) = some (xs.map q) := by
  induction xs with
  | nil => rfl
  | cons x xs ih => simp [allSome, ih]

/-- The loop on the object follows the loop on the function. -/
theorem loop_follows (A : Operand N) (hq : ∀ x, good x → A.quadForm x = q x) (pdf : Pdf N) (hpdf : ∀ h b j, good (pdf h b j)) (b : ℕ)
    (c : Crit) : ∀ (fuel : ℕ) (M : MF N) (s : HutchState), Inv M →
    (hutchLoop A pdf b c fuel s = none ∧ hutchMFLoop K eps qf pdf b c fuel M s = none) ∨
    (∃ e, hutchLoop A pdf b c fuel s = some (.error e) ∧ hutchMFLoop K eps qf pdf b c fuel M s = some (.error e)) ∨
    (∃ s' M', hutchLoop A pdf b c fuel s = some (.ok s') ∧ hutchMFLoop K eps qf pdf b c fuel M s = some (.ok (some (M', s')))) := by
  intro fuel
  induction fuel with
  | zero => intro M s _; exact Or.inl ⟨rfl, rfl⟩
  | succ fuel ih =>
    intro M s hM
    unfold hutchLoop hutchMFLoop
    rcases hc : c.eval s.est.view with e | r
    · exact Or.inr (Or.inl ⟨e, rfl, rfl⟩)
    · cases r with
      | true => exact Or.inr (Or.inr ⟨s, M, rfl, rfl⟩)
      | false =>
        simp only
        unfold hutchBody hutchMFBody
        obtain ⟨M', h1, i1⟩ := quad_inv K eps qf Inv good q hstep (List.ofFn (pdf s.history b)) M hM (by
          intro x hx
          obtain ⟨j, rfl⟩ := List.mem_ofFn.1 hx
          exact hpdf _ _ _)
        have hl : (List.ofFn fun j => A.quadForm (pdf s.history b j)) = (List.ofFn (pdf s.history b)).map q := by
          rw [List.map_ofFn]
          congr 1
          funext j
          exact hq _ (hpdf _ _ _)
        simp only [h1, allSome_map, hl]
        rcases hu : s.est.update (.vec ((List.ofFn (pdf s.history b)).map q)) with e | est
        · exact Or.inr (Or.inl ⟨e, rfl, rfl⟩)
        · exact ih M' _ i1

/-- `hutch` on the object returns what it returns on the function. -/
theorem hutch_follows (a : HutchArgs N) (hq : ∀ x, good x → a.A.quadForm x = q x) (pdf : Pdf N) (hp : a.pdf.resolve rng = .ok pdf)
    (hpdf : ∀ h b j, good (pdf h b j)) (fuel : ℕ) (M : MF N) (hM : Inv M) :
    (hutchMF tppf zscore rng K eps qf M a fuel).map (Except.map (Option.map Prod.snd)) =
      (hutch tppf zscore rng a fuel).map (Except.map some) := by
  unfold hutchMF hutch
  rw [hp]
  simp only
  rcases hc : hutchCriterion tppf zscore a.converge a.kw with e | c
  · rfl
  · simp only
    by_cases hN : N = 0
    · rw [if_pos hN, if_pos hN]
      split_ifs <;> rfl
    · rw [if_neg hN, if_neg hN]
      by_cases hfc : (a.full || a.callback) = true
      · rw [if_pos hfc, if_pos hfc]
        rcases loop_follows K eps qf Inv good q hstep a.A hq pdf hpdf a.batch c fuel M ⟨[], MeanEst.init 1 true a.record, []⟩ hM with
          ⟨h1, h2⟩ | ⟨e, h1, h2⟩ | ⟨s', M', h1, h2⟩ <;> rw [h1, h2] <;> rfl
      · rw [if_neg hfc, if_neg hfc]
        rcases loop_follows K eps qf Inv good q hstep a.A hq pdf hpdf 1 c fuel M ⟨[], MeanEst.init 1 true a.record, []⟩ hM with
          ⟨h1, h2⟩ | ⟨e, h1, h2⟩ | ⟨s', M', h1, h2⟩ <;> rw [h1, h2] <;> rfl

end generic

/-! ## C73 -/

/-- On a new object the iteration from `x` does not stop at a residual that is small but not zero. -/
def Spec.Clean (K : TriKernels) (eps : ℝ) (qf : ℕ) (M0 : MF N) (x : Vec N) : Prop :=
  ∀ M' y, M0.quadCol K eps qf x = some (.ok (M', y)) → Spec.CleanStop (Real.sqrt N * 1e-8) M0.deg M'.beta.get

/-- One call at full degree, in any state: the exact value, for vectors that are clean on the new object. -/
theorem quad_step (K : TriKernels) (hK : EighOk K) (eps : ℝ) (heps : 0 ≤ eps) (qf : ℕ) (B : Matrix (Fin N) (Fin N) ℝ) (hB : B.IsSymm)
    (lam : Fin N → ℝ) (U : Matrix (Fin N) (Fin N) ℝ) (hU : Spec.Eigen B lam U) (f : ℝ → ℝ) (deg orth : ℤ) (hN : 0 < N) (M0 : MF N)
    (h0 : MF.init B.mulVec f deg orth = .ok M0) (ho : M0.orth ≤ 2) (hd : (N : ℤ) ≤ deg) (M : MF N) (h : MF.Reach K eps qf M0 M)
    (x : Vec N) (hx : Spec.Clean K eps qf M0 x) :
    ∃ M', M.quadCol K eps qf x = some (.ok (M', some (Spec.quadForm (Spec.matFun lam U f) x))) ∧ MF.Reach K eps qf M0 M' := by
  obtain ⟨w0, -, -, hdeg, hr0, -⟩ := init_wf B.mulVec f deg orth M0 hN h0
  obtain ⟨w, hA, hf, hdM, hoM, hr⟩ := reached K eps qf _ _ deg orth hN M0 M h0 h
  obtain ⟨w0', hA0, hf0, -, -, hr0'⟩ := reached K eps qf _ _ deg orth hN M0 M0 h0 (.refl _)
  have hrpos : 0 < M.rtol := by rw [hr]; norm_num
  have hrpos0 : 0 < M0.rtol := by rw [hr0']; norm_num
  obtain ⟨J0, s0, th0, Y0, hJ0, hJ01, hJ02, hF0, hY0, hq0⟩ := quadCol_run K hK eps heps qf M0 w0 B hB hA0 hrpos0 (Or.inl ho) x
  obtain ⟨J, s, theta, Y, hJ, hJ1, hJ2, hF, hY, hq⟩ := quadCol_run K hK eps heps qf M w B hB hA hrpos (Or.inl (by rw [hoM]; exact ho)) x
  have htol := tol_pos hN hrpos
  have hcl := hx _ _ hq0
  rw [← hr0'] at hcl
  have hc0 := clean_stop B x M0.deg J0 _ (tol_pos hN hrpos0) hJ01 hJ02 hJ0 _ _ _ s0 hF0 hcl
  have hJJ : J = J0 := by
    rw [hdM] at hJ hJ2
    rw [hr] at hJ1 hJ2
    rw [hr0'] at hJ01 hJ02
    exact steps_unique _ _ _ _ _ hJ hJ0 hJ1 hJ01 hJ2 hJ02
  have hc' : J + 1 = M.deg ∨ lzb B.mulVec x (J + 1) = 0 := by
    rw [hJJ, hdM]; exact hc0
  have hMn : M.deg = N := by rw [hdM, hdeg]; omega
  have hval : (∑ a, M.f (theta a) * Y ⟨0, w.dpos⟩ a ^ 2) * nrm x ^ 2 = Spec.quadForm (Spec.matFun lam U f) x := by
    by_cases hx0 : x = 0
    · subst hx0
      have e1 : nrm (0 : Vec N) ^ 2 = 0 := by rw [nrm_zero]; ring
      have e2 : Spec.quadForm (Spec.matFun lam U f) (0 : Vec N) = 0 := by simp [Spec.quadForm]
      rw [e1, e2, mul_zero]
    · have hk := kdata_of_clean B hB x hx0 M.deg J _ htol hJ hJ1 _ _ _ s hF hc'
      rw [hk.quad_exact hB (isEigh_iff_eigen.mpr hU) hY (hk.full hMn), quadForm_normalized, hf]
  rw [hval] at hq
  refine ⟨_, hq, ?_⟩
  refine MF.Reach.quad [x] [some (Spec.quadForm (Spec.matFun lam U f) x)] h ?_
  unfold MF.quad
  rw [hq]
  rfl

/-- C73: `hutch` applied to a `MatrixFunction` of full degree, new or used, with `orth <= 2`, returns for every sampler and every
argument exactly what it returns for the dense matrix `f(A)`, provided no sample makes the iteration stop at a residual that is small but
not zero. Missing: runs that stop at a residual below the tolerance but not zero, of which the claim is false (`C105_counterexample`, bound in C122). -/
theorem C73_dense_partial (K : TriKernels) (hK : EighOk K) (eps : ℝ) (heps : 0 ≤ eps) (qf : ℕ) (B : Matrix (Fin N) (Fin N) ℝ) (hB : B.IsSymm)
    (lam : Fin N → ℝ) (U : Matrix (Fin N) (Fin N) ℝ) (hU : Spec.Eigen B lam U) (f : ℝ → ℝ) (deg orth : ℤ) (hN : 0 < N) (M0 : MF N)
    (h0 : MF.init B.mulVec f deg orth = .ok M0) (ho : M0.orth ≤ 2) (hd : (N : ℤ) ≤ deg) (M : MF N) (h : MF.Reach K eps qf M0 M)
    (a : HutchArgs N) (ha : a.A = .ofMatrix (Spec.matFun lam U f)) (pdf : Pdf N) (hp : a.pdf.resolve rng = .ok pdf)
    (hpdf : ∀ h b j, Spec.Clean K eps qf M0 (pdf h b j)) (fuel : ℕ) :
    (hutchMF tppf zscore rng K eps qf M a fuel).map (Except.map (Option.map Prod.snd)) =
      (hutch tppf zscore rng a fuel).map (Except.map some) := by
  refine hutch_follows tppf zscore rng K eps qf (MF.Reach K eps qf M0) (Spec.Clean K eps qf M0)
    (Spec.quadForm (Spec.matFun lam U f)) ?_ a ?_ pdf hp hpdf fuel M h
  · intro M' hM' x hx
    exact quad_step K hK eps heps qf B hB lam U hU f deg orth hN M0 h0 ho hd M' hM' x hx
  · intro x _
    rw [ha]
    rfl

theorem matFun_trace (B : Matrix (Fin N) (Fin N) ℝ) (lam : Fin N → ℝ) (U : Matrix (Fin N) (Fin N) ℝ) (hU : Spec.Eigen B lam U)
    (f : ℝ → ℝ) : (Spec.matFun lam U f).trace = ∑ i, f (lam i) := by
  unfold Spec.matFun
  rw [Matrix.trace_mul_comm, ← Matrix.mul_assoc, hU.orthonormal, Matrix.one_mul, Matrix.trace_diagonal]

/-- C73: averaged over all `2^(kN)` sign patterns, `hutch` with Rademacher vectors and `CountCriterion(k)` applied to
`MatrixFunction(A, f, deg >= n, orth <= 2)` returns the sum of `f` over the eigenvalues, for every function `f`. Missing: runs that stop at a residual below the tolerance but not zero, of which the claim is false (`C105_counterexample`, bound in C122). -/
theorem C73_unbiased_partial (K : TriKernels) (hK : EighOk K) (eps : ℝ) (heps : 0 ≤ eps) (qf : ℕ) (B : Matrix (Fin N) (Fin N) ℝ) (hB : B.IsSymm)
    (lam : Fin N → ℝ) (U : Matrix (Fin N) (Fin N) ℝ) (hU : Spec.Eigen B lam U) (f : ℝ → ℝ) (deg orth : ℤ) (hN : 0 < N) (M0 : MF N)
    (h0 : MF.init B.mulVec f deg orth = .ok M0) (ho : M0.orth ≤ 2) (hd : (N : ℤ) ≤ deg) (M : MF N) (h : MF.Reach K eps qf M0 M)
    (hclean : ∀ x : Vec N, (∀ i, x i = 1 ∨ x i = -1) → Spec.Clean K eps qf M0 x) (k : ℕ) (hk : 0 < k)
    (rngs : (Fin k × Fin N → Bool) → Rng) (hu1 : ∀ ω p, 0 ≤ (rngs ω).unif p ∧ (rngs ω).unif p < 1)
    (hu : ∀ ω (t : Fin k) (i : Fin N), ω (t, i) = true ↔ 1/2 ≤ (rngs ω).unif (t * N + i)) (op : Operand N) :
    ∃ est : (Fin k × Fin N → Bool) → ℝ,
      (∀ ω, ∃ M', hutchMF tppf zscore (rngs ω) K eps qf M ⟨op, 32, .name "rademacher", .obj (.count k), false, false, false, []⟩ (k + 1) =
        some (.ok (some (M', .scalar (.val fun _ => est ω), [])))) ∧
      (∑ ω, est ω) / 2 ^ (k * N) = ∑ i, f (lam i) := by
  obtain ⟨est, h1, h2⟩ := C22_unbiased tppf zscore (Spec.matFun lam U f) hN.ne' k hk rngs (by
    intro ω t i
    have h3 := hu ω t i
    have h4 := hu1 ω (t * N + i)
    split_ifs with h5
    · exact ⟨h3.1 h5, h4.2⟩
    · exact ⟨h4.1, not_le.1 fun h6 => h5 (h3.2 h6)⟩)
  refine ⟨est, fun ω => ?_, by rw [h2, matFun_trace B lam U hU]⟩
  have h3 := C73_dense_partial tppf zscore (rngs ω) K hK eps heps qf B hB lam U hU f deg orth hN M0 h0 ho hd M h
    (scalarArgs (Spec.matFun lam U f) (.name "rademacher") k) rfl _ rfl (fun h b j => hclean _ fun i => by
      have h4 := hu1 ω (h.sum * N + j * N + i)
      simp only [IsoDist.fill, rawCols]
      rcases lt_or_ge ((rngs ω).unif (h.sum * N + j * N + i)) (1/2) with h5 | h5
      · exact Or.inr ((rademacherEntry_half _).1 h4.1 h5)
      · exact Or.inl ((rademacherEntry_half _).2 h5 h4.2)) (k + 1)
  rw [h1 ω] at h3
  have h5 : hutchMF tppf zscore (rngs ω) K eps qf M ⟨op, 32, .name "rademacher", .obj (.count k), false, false, false, []⟩ (k + 1) =
    hutchMF tppf zscore (rngs ω) K eps qf M (scalarArgs (Spec.matFun lam U f) (.name "rademacher") k) (k + 1) := rfl
  rw [h5]
  rcases hm : hutchMF tppf zscore (rngs ω) K eps qf M (scalarArgs (Spec.matFun lam U f) (.name "rademacher") k) (k + 1) with _ | r
  · rw [hm] at h3; cases h3
  · rw [hm] at h3
    rcases r with e | r
    · simp [Except.map] at h3
    · rcases r with _ | ⟨M', o⟩
      · simp [Except.map] at h3
      · simp only [Option.map_some, Except.map, Option.some.injEq, Except.ok.injEq] at h3
        exact ⟨M', by rw [h3]⟩

/-! ## The hypotheses in a concrete case: `diag(1, 2)` -/

/-- The example matrix. -/
def Dg2 : Matrix (Fin 2) (Fin 2) ℝ := Matrix.diagonal ![1, 2]

theorem Dg2_symm : Dg2.IsSymm := Matrix.diagonal_transpose _

theorem Dg2_eigen : Spec.Eigen Dg2 ![1, 2] 1 := by
  refine ⟨by simp, fun j => ?_⟩
  funext i
  fin_cases i <;> fin_cases j <;> simp [Dg2, mulVec, dotProduct, Fin.sum_univ_two]

theorem Dg2_b1 (x : Vec 2) (hx : ∀ i, x i = 1 ∨ x i = -1) : lzb Dg2.mulVec x 1 = 1 / 2 := by
  have h2 : ∀ i, x i * x i = 1 := fun i => by rcases hx i with h | h <;> rw [h] <;> norm_num
  have hxx : x ⬝ᵥ x = 2 := by
    simp only [dotProduct, Fin.sum_univ_two, h2]
    norm_num
  have hn : nrm x * nrm x = 2 := by rw [nrm_sq, hxx]
  have hn0 : nrm x ≠ 0 := fun h => by rw [h] at hn; norm_num at hn
  have hq : normalized x = fun i => x i / nrm x := by
    unfold normalized
    rw [if_pos (by rw [hxx]; norm_num)]
  have hw : lzw Dg2.mulVec x 0 = fun i => (![1, 2] : Fin 2 → ℝ) i * (x i / nrm x) := by
    rw [lzw, lzq_zero, lzb_zero, zero_smul, sub_zero, hq]
    funext i
    exact mulVec_diagonal _ _ i
  have ha : lza Dg2.mulVec x 0 = 3 / 2 := by
    rw [lza, lzq_zero, hq, hw]
    simp only [dotProduct, Fin.sum_univ_two, Matrix.cons_val_zero, Matrix.cons_val_one]
    have e0 := h2 0
    have e1 := h2 1
    field_simp
    nlinarith
  rw [lzb_succ, nrm]
  have hr : lzr Dg2.mulVec x 0 ⬝ᵥ lzr Dg2.mulVec x 0 = (1 / 2) ^ 2 := by
    rw [lzr, hw, ha, lzq_zero, hq]
    simp only [dotProduct, Fin.sum_univ_two, Matrix.cons_val_zero, Matrix.cons_val_one, Pi.sub_apply, Pi.smul_apply, smul_eq_mul]
    have e0 := h2 0
    have e1 := h2 1
    field_simp
    nlinarith
  rw [hr, Real.sqrt_sq (by norm_num)]

/-- All sign vectors are clean. -/
theorem Dg2_clean (K : TriKernels) (hK : EighOk K) (qf : ℕ) (f : ℝ → ℝ) (M0 : MF 2) (h0 : MF.init Dg2.mulVec f 20 2 = .ok M0)
    (x : Vec 2) (hx : ∀ i, x i = 1 ∨ x i = -1) : Spec.Clean K 0 qf M0 x := by
  intro M' y h
  obtain ⟨w, a1, a2, a3, a4, -⟩ := init_wf _ _ _ _ M0 (by norm_num) h0
  have hd : M0.deg = 2 := a3
  have hfresh := fresh_reached K 0 qf _ _ _ _ (by norm_num) M0 M0 h0 (.refl M0) (Or.inl rfl)
  obtain ⟨J, s, theta, Y, -, -, -, hF, -, hq⟩ := quadCol_run K hK 0 le_rfl qf M0 w Dg2 Dg2_symm a1 (by rw [a4]; norm_num) hfresh x
  rw [h] at hq
  simp only [Option.some.injEq, Except.ok.injEq, Prod.mk.injEq] at hq
  rw [hq.1]
  intro i hi1 hi2 hi3
  obtain rfl : i = 1 := by omega
  simp only at hi3
  rw [hF.beta_le 1 (by omega), Dg2_b1 x hx] at hi3
  have h5 : Real.sqrt ((2 : ℕ) : ℝ) < 2 := by
    rw [Real.sqrt_lt' (by norm_num)]
    norm_num
  generalize Real.sqrt ((2 : ℕ) : ℝ) = t at *
  norm_num at hi3
  linarith

/-- `C73_unbiased_partial` for `diag(1, 2)`, an arbitrary function and any number of samples. -/
example (K : TriKernels) (hK : EighOk K) (qf : ℕ) (f : ℝ → ℝ) (k : ℕ) (hk : 0 < k) (op : Operand 2)
    (rngs : (Fin k × Fin 2 → Bool) → Rng) (hu1 : ∀ ω p, 0 ≤ (rngs ω).unif p ∧ (rngs ω).unif p < 1)
    (hu : ∀ ω (t : Fin k) (i : Fin 2), ω (t, i) = true ↔ 1/2 ≤ (rngs ω).unif (t * 2 + i)) :
    ∃ (M0 : MF 2) (est : (Fin k × Fin 2 → Bool) → ℝ), MF.init Dg2.mulVec f 20 2 = .ok M0 ∧
      (∀ ω, ∃ M', hutchMF tppf zscore (rngs ω) K 0 qf M0 ⟨op, 32, .name "rademacher", .obj (.count k), false, false, false, []⟩ (k + 1) =
        some (.ok (some (M', .scalar (.val fun _ => est ω), [])))) ∧
      (∑ ω, est ω) / 2 ^ (k * 2) = f 1 + f 2 := by
  obtain ⟨M0, h0, ho⟩ : ∃ M0, MF.init Dg2.mulVec f 20 2 = .ok M0 ∧ M0.orth = 2 := by
    refine ⟨_, if_neg (by norm_num), ?_⟩
    show (if (2 : ℤ) < 0 ∨ (2 : ℤ) > (((min 20 ((2 : ℕ) : ℤ)).toNat : ℕ) : ℤ) then (((min 20 ((2 : ℕ) : ℤ)).toNat : ℕ) : ℤ) else (2 : ℤ)) = 2
    rfl
  obtain ⟨est, h1, h2⟩ := C73_unbiased_partial tppf zscore K hK 0 le_rfl qf Dg2 Dg2_symm _ _ Dg2_eigen f 20 2 (by norm_num) M0 h0 (by rw [ho])
    (by norm_num) M0 (.refl _) (Dg2_clean K hK qf f M0 h0) k hk rngs hu1 hu op
  refine ⟨M0, est, h0, h1, ?_⟩
  rw [h2, Fin.sum_univ_two]
  rfl

/-! ## `orth >= 3` -/

/-- The loop with one batch. -/
theorem hutchMF_one_batch (K : TriKernels) (eps : ℝ) (qf : ℕ) (M M' : MF N) (a : HutchArgs N) (pdf : Pdf N) (hp : a.pdf.resolve rng = .ok pdf)
    (hN : N ≠ 0) (hb : 0 < a.batch) (hc : a.converge = .obj (.count (a.batch : ℤ))) (hf : a.full = true)
    (hq : M.quad K eps qf (List.ofFn (pdf [] a.batch)) = some (.ok (M', (List.ofFn (pdf [] a.batch)).map fun x => some (a.A.quadForm x)))) :
    ∃ r calls, hutchMF tppf zscore rng K eps qf M a 2 = some (.ok (some (M', .pair (.val fun _ =>
      Spec.mean ((List.ofFn (pdf [] a.batch)).map a.A.quadForm)) r, calls))) := by
  have hcols : a.cols = a.batch := by
    unfold HutchArgs.cols
    rw [hf]
    rfl
  have h1 := hutch_count tppf zscore rng a hN (by rw [hcols]; exact hb) pdf hp 1 (by norm_num) (by rw [hc, hcols, one_mul])
  rw [hf, Bool.true_or, if_pos rfl, hcols] at h1
  have hdr : Spec.drawn pdf a.batch 1 = List.ofFn (pdf [] a.batch) := by simp [Spec.drawn]
  rw [hdr] at h1
  have hcrit : hutchCriterion tppf zscore a.converge a.kw = .ok (.count (a.batch : ℤ)) := by rw [hc]; rfl
  have hl : (List.ofFn fun j => a.A.quadForm (pdf [] a.batch j)) = (List.ofFn (pdf [] a.batch)).map a.A.quadForm := by
    rw [List.map_ofFn]; rfl
  unfold hutch at h1
  rw [hp, hcrit] at h1
  simp only [if_neg hN, hf, Bool.true_or, if_true] at h1
  unfold hutchMF
  rw [hp, hcrit]
  simp only [if_neg hN, hf, Bool.true_or, if_true]
  unfold hutchLoop at h1
  unfold hutchMFLoop
  rcases hc0 : (Crit.count (a.batch : ℤ)).eval (MeanEst.init 1 true a.record).view with e | r
  · simp only [hc0] at h1
    cases h1
  · cases r with
    | true =>
      exfalso
      have := count_eval_estAt a.A pdf hb a.record a.batch 0
      have h3 : estAt a.A pdf a.batch a.record 0 = MeanEst.init 1 true a.record := rfl
      rw [h3, hc0, Except.ok.injEq] at this
      have h4 := (truth_eq_true _).1 this.symm
      omega
    | false =>
      simp only [hc0] at h1 ⊢
      unfold hutchBody at h1
      unfold hutchMFBody
      simp only [hq, allSome_map, hl] at h1 ⊢
      rcases hu : (MeanEst.init 1 true a.record).update (.vec ((List.ofFn (pdf [] a.batch)).map a.A.quadForm)) with e | est
      · simp only [hu] at h1
        cases h1
      · simp only [hu] at h1 ⊢
        unfold hutchLoop at h1
        unfold hutchMFLoop
        rcases hc1 : (Crit.count (a.batch : ℤ)).eval est.view with e | r
        · simp only [hc1] at h1
          cases h1
        · cases r with
          | true =>
            simp only [hc1] at h1 ⊢
            simp only [Option.some.injEq, Except.ok.injEq, Prod.mk.injEq, HutchOut.pair.injEq] at h1
            exact ⟨_, _, by rw [h1.1.1]⟩
          | false =>
            simp only [hc1] at h1
            generalize hutchBody a.A pdf a.batch _ = rb at h1
            cases rb <;> simp [hutchLoop] at h1

/-- A sampler returning `e1, e3, e3, ...` -/
def e1e3 : Pdf 3 := fun _ _ j => if (j : ℕ) = 0 then ![1, 0, 0] else ![0, 0, 1]

/-- C73 needs `orth <= 2`: for the path with three vertices, `f(x) = x²` and the default `deg = 20`, `orth = 3`, the samples `e1, e3` in one
batch give `1/2` instead of `1`: the second sample is spoilt by the vectors left over from the first. -/
theorem C73_orth_counterexample (K : TriKernels) (hK : EighOk K) (eps : ℝ) (h0 : 0 ≤ eps) (h1 : eps ≤ 1 / 8) (qf : ℕ) :
    ∃ (M0 M' : MF 3) (pdf : Pdf 3) (r : EstResult) (calls : List (MeanEst 1)), MF.init P3.mulVec (fun x => x ^ 2) 20 3 = .ok M0 ∧
      hutchMF tppf zscore rng K eps qf M0 ⟨.ofMatrix (P3 * P3), 2, .callable pdf, .obj (.count 2), true, false, false, []⟩ 2 =
        some (.ok (some (M', .pair (.val fun _ => 1 / 2) r, calls))) ∧
      ∃ r' calls', hutch tppf zscore rng ⟨.ofMatrix (P3 * P3), 2, .callable pdf, .obj (.count 2), true, false, false, []⟩ 2 =
        some (.ok (.pair (.val fun _ => 1) r', calls')) := by
  obtain ⟨M0, M1, M2, M3, i0, q1, q2, q3, -⟩ := C47_counterexample K hK eps h0 h1 qf
  obtain ⟨pdf, hpdf⟩ : ∃ pdf : Pdf 3, pdf = e1e3 := ⟨e1e3, rfl⟩
  have hl : List.ofFn (pdf [] 2) = [![1, 0, 0], ![0, 0, 1]] := by rw [hpdf]; rfl
  have hq : M0.quad K eps qf [![1, 0, 0], ![0, 0, 1]] = some (.ok (M3, [some 1, some 0])) := by
    unfold MF.quad at q1 ⊢
    rcases hc : M0.quadCol K eps qf ![1, 0, 0] with _ | r
    · rw [hc] at q1; cases q1
    · rw [hc] at q1
      rcases r with e | ⟨M1', y⟩
      · cases q1
      · simp only [MF.quad, Option.some.injEq, Except.ok.injEq, Prod.mk.injEq, List.cons.injEq, and_true] at q1
        obtain ⟨rfl, rfl⟩ := q1
        simp only [q3]
  obtain ⟨r, calls, h3⟩ := hutchMF_one_batch tppf zscore rng K eps qf M0 M3
    ⟨⟨id, some fun x => x 0⟩, 2, .callable pdf, .obj (.count 2), true, false, false, []⟩ pdf rfl (by norm_num) (by norm_num) rfl rfl (by
      show M0.quad K eps qf (List.ofFn (pdf [] 2)) = _
      rw [hl, hq]
      simp [Operand.quadForm])
  have hm : Spec.mean ((List.ofFn (pdf [] 2)).map (Operand.quadForm ⟨id, some fun x => x 0⟩)) = 1 / 2 := by
    rw [hl]
    simp [Operand.quadForm, Spec.mean]
  refine ⟨M0, M3, pdf, r, calls, i0, ?_, ?_⟩
  · have h4 : hutchMF tppf zscore rng K eps qf M0 ⟨.ofMatrix (P3 * P3), 2, .callable pdf, .obj (.count 2), true, false, false, []⟩ 2 =
      hutchMF tppf zscore rng K eps qf M0 ⟨⟨id, some fun x => x 0⟩, 2, .callable pdf, .obj (.count 2), true, false, false, []⟩ 2 := rfl
    rw [h4, h3]
    simp only [hm]
  · have h5 := hutch_count tppf zscore rng ⟨.ofMatrix (P3 * P3), 2, .callable pdf, .obj (.count 2), true, false, false, []⟩
      (by norm_num) (by show 0 < 2; norm_num) pdf rfl 1 (by norm_num) rfl
    have hd : Spec.drawn pdf 2 1 = List.ofFn (pdf [] 2) := by simp [Spec.drawn]
    have hm' : Spec.mean ((Spec.drawn pdf 2 1).map (Operand.quadForm (.ofMatrix (P3 * P3)))) = 1 := by
      have e1 : (![1, 0, 0] : Vec 3) ⬝ᵥ (P3 * P3) *ᵥ ![1, 0, 0] = 1 := by
        rw [← mulVec_mulVec, P3_e1, P3_e2]; simp [dotProduct, Fin.sum_univ_three]
      have e3 : (![0, 0, 1] : Vec 3) ⬝ᵥ (P3 * P3) *ᵥ ![0, 0, 1] = 1 := by
        rw [← mulVec_mulVec, P3_e3, P3_e2]; simp [dotProduct, Fin.sum_univ_three]
      have e1' : Operand.quadForm (.ofMatrix (P3 * P3)) ![1, 0, 0] = 1 := e1
      have e3' : Operand.quadForm (.ofMatrix (P3 * P3)) ![0, 0, 1] = 1 := e3
      rw [hd, hl, List.map_cons, List.map_cons, List.map_nil, e1', e3']
      norm_num [Spec.mean]
    have hcols : HutchArgs.cols ⟨.ofMatrix (P3 * P3), 2, .callable pdf, .obj (.count 2), true, false, false, []⟩ = 2 := rfl
    rw [hcols] at h5
    simp only [hm', Bool.true_or, if_true] at h5
    exact ⟨_, _, h5⟩

end Primate
