import Verif.Props.QuadError
import Verif.Props.Hutchpp

/-!
# C105: stochastic Lanczos quadrature below full degree
-/

noncomputable section

namespace Primate

open Matrix Polynomial

variable {N : ℕ} (tppf : ℝ → ℕ → ℝ) (zscore : ℝ → ℝ)

/-- The scalar call of `hutch` with Rademacher vectors on an operator with a method `quad`. -/
theorem hutch_rademacher_op (op : Operand N) (hN : N ≠ 0) (k : ℕ) (hk : 0 < k) (rng : Rng) (ω : Fin k × Fin N → Bool)
    (hu1 : ∀ p, 0 ≤ rng.unif p ∧ rng.unif p < 1)
    (hu : ∀ (t : Fin k) (i : Fin N), ω (t, i) = true ↔ 1/2 ≤ rng.unif (t * N + i)) :
    hutch tppf zscore rng ⟨op, 32, .name "rademacher", .obj (.count k), false, false, false, []⟩ (k + 1) =
      some (.ok (.scalar (.val fun _ => (∑ t : Fin k, op.quadForm fun i => sgn (ω (t, i))) / k), [])) := by
  obtain ⟨a, ha⟩ : ∃ a : HutchArgs N, a = ⟨op, 32, .name "rademacher", .obj (.count k), false, false, false, []⟩ := ⟨_, rfl⟩
  have hcols : a.cols = 1 := by rw [ha]; rfl
  have h := hutch_count tppf zscore rng a hN (by rw [hcols]; omega) _ (by rw [ha]; rfl) k hk (by rw [hcols, mul_one, ha])
  rw [hcols, drawn_one, List.map_map, mean_range, ← Fin.sum_univ_eq_sum_range (fun t => (a.A.quadForm ∘ _) t)] at h
  rw [← ha, h]
  subst ha
  simp only [Bool.or_false, Bool.false_eq_true, if_false]
  congr 6
  funext _
  congr 1
  refine Finset.sum_congr rfl fun t _ => ?_
  simp only [Function.comp_def]
  congr 1
  funext i
  simp only [IsoDist.fill, rawCols, List.sum_replicate, smul_eq_mul, mul_one, Fin.val_zero,
    zero_mul, add_zero]
  have h1 := hu1 (t * N + i)
  cases hω : ω (t, i) with
  | true => exact (rademacherEntry_half _).2 ((hu t i).1 hω) h1.2
  | false => exact (rademacherEntry_half _).1 h1.1 (not_le.1 fun h6 => by rw [(hu t i).2 h6] at hω; cases hω)

/-- `hutch` on a matrix function with `orth <= 2`: the mean of the values that a new object returns for the sampled vectors. -/
theorem slq_run (K : TriKernels) (hK : EighOk K) (eps : ℝ) (heps : 0 ≤ eps) (qf : ℕ) (B : Matrix (Fin N) (Fin N) ℝ) (hB : B.IsSymm)
    (f : ℝ → ℝ) (deg orth : ℤ) (hN : 0 < N) (M0 : MF N) (h0 : MF.init B.mulVec f deg orth = .ok M0) (ho : M0.orth ≤ 2)
    (M : MF N) (h : MF.Reach K eps qf M0 M)
    (hclean : ∀ x : Vec N, (∀ i, x i = 1 ∨ x i = -1) → Spec.Clean K eps qf M0 x) (k : ℕ) (hk : 0 < k) :
    ∃ (M1 : Vec N → MF N) (q : Vec N → ℝ), (∀ x, M0.quadCol K eps qf x = some (.ok (M1 x, some (q x)))) ∧
      ∀ (rng : Rng) (ω : Fin k × Fin N → Bool) (_ : ∀ p, 0 ≤ rng.unif p ∧ rng.unif p < 1)
        (_ : ∀ (t : Fin k) (i : Fin N), ω (t, i) = true ↔ 1/2 ≤ rng.unif (t * N + i)) (op : Operand N),
        ∃ M', hutchMF tppf zscore rng K eps qf M ⟨op, 32, .name "rademacher", .obj (.count k), false, false, false, []⟩ (k + 1) =
          some (.ok (some (M', .scalar (.val fun _ => (∑ t : Fin k, q fun i => sgn (ω (t, i))) / k), []))) := by
  have hall : ∀ M, MF.Reach K eps qf M0 M → ∀ x, ∃ M0' M' y0 y, M0.quadCol K eps qf x = some (.ok (M0', some y0)) ∧
      M.quadCol K eps qf x = some (.ok (M', some y)) ∧ (Spec.CleanStop (Real.sqrt N * 1e-8) M0.deg M0'.beta.get → y0 = y) :=
    fun M h x => C47_quad_history_partial K hK eps heps qf B hB f deg orth hN M0 M0 M h0 ho (.refl _) h x
  have hex : ∀ x, ∃ r : MF N × ℝ, M0.quadCol K eps qf x = some (.ok (r.1, some r.2)) := fun x => by
    obtain ⟨M', -, y, -, h1, -⟩ := hall M0 (.refl _) x
    exact ⟨(M', y), h1⟩
  choose r hr using hex
  refine ⟨fun x => (r x).1, fun x => (r x).2, hr, fun rng ω hu1 hu op => ?_⟩
  let q : Vec N → ℝ := fun x => (r x).2
  have h3 := hutch_follows tppf zscore rng K eps qf (MF.Reach K eps qf M0) (Spec.Clean K eps qf M0) q (by
      intro M1 hM1 x hx
      obtain ⟨M0', M', y0, y, g1, g2, g3⟩ := hall M1 hM1 x
      have e1 := g3 (hx _ _ g1)
      rw [hr x] at g1
      simp only [Option.some.injEq, Except.ok.injEq, Prod.mk.injEq] at g1
      have e2 : y = q x := by rw [← e1, ← g1.2]
      rw [e2] at g2
      refine ⟨M', g2, MF.Reach.quad [x] [some (q x)] hM1 ?_⟩
      unfold MF.quad
      rw [g2]
      rfl)
    ⟨⟨B.mulVec, some q⟩, 32, .name "rademacher", .obj (.count k), false, false, false, []⟩ (fun _ _ => rfl) _ rfl
    (fun h b j => hclean _ fun i => by
      have h4 := hu1 (h.sum * N + j * N + i)
      simp only [IsoDist.fill, rawCols]
      rcases lt_or_ge (rng.unif (h.sum * N + j * N + i)) (1/2) with h5 | h5
      · exact Or.inr ((rademacherEntry_half _).1 h4.1 h5)
      · exact Or.inl ((rademacherEntry_half _).2 h5 h4.2)) (k + 1) M h
  rw [hutch_rademacher_op tppf zscore _ hN.ne' k hk rng ω hu1 hu] at h3
  have h5 : hutchMF tppf zscore rng K eps qf M ⟨op, 32, .name "rademacher", .obj (.count k), false, false, false, []⟩ (k + 1) =
    hutchMF tppf zscore rng K eps qf M ⟨⟨B.mulVec, some q⟩, 32, .name "rademacher", .obj (.count k), false, false, false, []⟩ (k + 1) := rfl
  rw [h5]
  rcases hm : hutchMF tppf zscore rng K eps qf M ⟨⟨B.mulVec, some q⟩, 32, .name "rademacher", .obj (.count k), false, false, false, []⟩ (k + 1)
    with _ | r'
  · rw [hm] at h3; cases h3
  · rw [hm] at h3
    rcases r' with e | r'
    · simp [Except.map] at h3
    · rcases r' with _ | ⟨M', o⟩
      · simp [Except.map] at h3
      · simp only [Option.map_some, Except.map, Option.some.injEq, Except.ok.injEq] at h3
        exact ⟨M', by rw [h3]; rfl⟩

theorem sgn_cases (b : Bool) : sgn b = 1 ∨ sgn b = -1 := by cases b <;> simp [sgn]

/-- **C105.**  `hutch` with `k` Rademacher vectors on `MatrixFunction(A, f, deg, orth <= 2)`, new or used, averaged over all `2^(kN)` sign patterns.  For
`m = min(deg, N)` and any polynomial `p` of degree at most `2m - 1` the bias is at most `2 N max |f - p|` over the spectral interval; if the `2m`-th
derivative of `f` is not negative there the average is at most the sum of `f` over the eigenvalues, if it is not positive at least.  Both hold unless the
iteration stops at a residual that is small but not zero for some sign vector. Missing: runs that stop at a residual below the tolerance but not zero, of which the claim is false (`C105_counterexample`, bound in C122). -/
theorem C105_slq_bias_partial (K : TriKernels) (hK : EighOk K) (eps : ℝ) (heps : 0 ≤ eps) (qf : ℕ) (B : Matrix (Fin N) (Fin N) ℝ) (hB : B.IsSymm)
    (lam : Fin N → ℝ) (U : Matrix (Fin N) (Fin N) ℝ) (hU : Spec.Eigen B lam U) (f : ℝ → ℝ) (deg orth : ℤ) (hN : 0 < N) (M0 : MF N)
    (h0 : MF.init B.mulVec f deg orth = .ok M0) (ho : M0.orth ≤ 2) (M : MF N) (h : MF.Reach K eps qf M0 M)
    (hclean : ∀ x : Vec N, (∀ i, x i = 1 ∨ x i = -1) → Spec.Clean K eps qf M0 x) (k : ℕ) (hk : 0 < k)
    (rngs : (Fin k × Fin N → Bool) → Rng) (hu1 : ∀ ω p, 0 ≤ (rngs ω).unif p ∧ (rngs ω).unif p < 1)
    (hu : ∀ ω (t : Fin k) (i : Fin N), ω (t, i) = true ↔ 1/2 ≤ (rngs ω).unif (t * N + i)) (op : Operand N) :
    ∃ est : (Fin k × Fin N → Bool) → ℝ,
      (∀ ω, ∃ M', hutchMF tppf zscore (rngs ω) K eps qf M ⟨op, 32, .name "rademacher", .obj (.count k), false, false, false, []⟩ (k + 1) =
        some (.ok (some (M', .scalar (.val fun _ => est ω), [])))) ∧
      (∀ (p : ℝ[X]) (e : ℝ), (p.natDegree : ℤ) ≤ 2 * min deg N - 1 →
        (∀ t, (∃ a, lam a ≤ t) → (∃ b, t ≤ lam b) → |f t - p.eval t| ≤ e) →
        |(∑ ω, est ω) / 2 ^ (k * N) - ∑ i, f (lam i)| ≤ 2 * e * N) ∧
      ∀ (m : ℕ) (F : ℕ → ℝ → ℝ) (lo hi : ℝ), (m : ℤ) = min deg N → F 0 = f → (∀ a, lo ≤ lam a ∧ lam a ≤ hi) →
        (∀ j < 2 * m, ∀ t ∈ Set.Icc lo hi, HasDerivAt (F j) (F (j + 1) t) t) →
        ((∀ t ∈ Set.Icc lo hi, 0 ≤ F (2 * m) t) → (∑ ω, est ω) / 2 ^ (k * N) ≤ ∑ i, f (lam i)) ∧
        ((∀ t ∈ Set.Icc lo hi, F (2 * m) t ≤ 0) → ∑ i, f (lam i) ≤ (∑ ω, est ω) / 2 ^ (k * N)) := by
  obtain ⟨M1, q, hq, hrun⟩ := slq_run tppf zscore K hK eps heps qf B hB f deg orth hN M0 h0 ho M h hclean k hk
  have hk' : (0 : ℝ) < k := by exact_mod_cast hk
  -- the average of the exact quadratic forms
  have hex : (∑ ω : Fin k × Fin N → Bool, (∑ t : Fin k, Spec.quadForm (Spec.matFun lam U f) fun i => sgn (ω (t, i))) / k) / 2 ^ (k * N) =
      ∑ i, f (lam i) := by
    rw [← matFun_trace B lam U hU f, ← Finset.sum_div, Finset.sum_comm]
    have : ∀ t : Fin k, ∑ ω : Fin k × Fin N → Bool, Spec.quadForm (Spec.matFun lam U f) (fun i => sgn (ω (t, i))) =
        2 ^ (k * N) * (Spec.matFun lam U f).trace := by
      intro t
      rw [← sum_quad_signs k (Spec.matFun lam U f) t]
      exact Finset.sum_congr rfl fun ω _ => (quad_eq_dot _ _).symm
    simp only [this, Finset.sum_const, Finset.card_univ, Fintype.card_fin, nsmul_eq_mul]
    field_simp
  -- comparison of averages
  have hcmp : ∀ (q₁ q₂ : Vec N → ℝ), (∀ x : Vec N, (∀ i, x i = 1 ∨ x i = -1) → q₁ x ≤ q₂ x) →
      (∑ ω : Fin k × Fin N → Bool, (∑ t : Fin k, q₁ fun i => sgn (ω (t, i))) / (k : ℝ)) / 2 ^ (k * N) ≤
      (∑ ω : Fin k × Fin N → Bool, (∑ t : Fin k, q₂ fun i => sgn (ω (t, i))) / (k : ℝ)) / 2 ^ (k * N) := by
    intro q₁ q₂ h12
    refine div_le_div_of_nonneg_right (Finset.sum_le_sum fun ω _ => ?_) (by positivity)
    exact div_le_div_of_nonneg_right (Finset.sum_le_sum fun t _ => h12 _ fun i => sgn_cases _) hk'.le
  have hshift : ∀ c : ℝ, (∑ ω : Fin k × Fin N → Bool,
      (∑ t : Fin k, (Spec.quadForm (Spec.matFun lam U f) (fun i => sgn (ω (t, i))) + c)) / (k : ℝ)) / 2 ^ (k * N) =
      ∑ i, f (lam i) + c := by
    intro c
    rw [← hex]
    simp only [Finset.sum_add_distrib, add_div, Finset.sum_const, Finset.card_univ, Fintype.card_fin, nsmul_eq_mul, Fintype.card_pi,
      Finset.prod_const, Fintype.card_bool, Fintype.card_prod]
    push_cast
    field_simp
  refine ⟨fun ω => (∑ t : Fin k, q fun i => sgn (ω (t, i))) / k, fun ω => hrun (rngs ω) ω (hu1 ω) (hu ω) op, ?_, ?_⟩
  · intro p e hp he
    have hb : ∀ x : Vec N, (∀ i, x i = 1 ∨ x i = -1) → |q x - Spec.quadForm (Spec.matFun lam U f) x| ≤ 2 * e * N := by
      intro x hx
      obtain ⟨M', y, g1, g2⟩ := C103_quad_near_optimal_partial K hK eps heps qf B hB lam U hU f deg orth hN M0 M0 h0 (.refl _) (Or.inl rfl) x
      have g3 := g2 (hclean x hx _ _ g1) p e hp he
      rw [hq x] at g1
      simp only [Option.some.injEq, Except.ok.injEq, Prod.mk.injEq] at g1
      have hxx : ∑ i, x i ^ 2 = N := by
        rw [Finset.sum_congr rfl fun i _ => show x i ^ 2 = 1 by rcases hx i with h | h <;> rw [h] <;> norm_num]
        simp
      rw [hxx, ← g1.2] at g3
      exact g3
    have b1 := hcmp q (fun x => Spec.quadForm (Spec.matFun lam U f) x + 2 * e * N) fun x hx => by
      have := (abs_le.1 (hb x hx)).2; linarith
    have b2 := hcmp (fun x => Spec.quadForm (Spec.matFun lam U f) x + -(2 * e * N)) q fun x hx => by
      have := (abs_le.1 (hb x hx)).1; linarith
    rw [hshift] at b1 b2
    rw [abs_le]
    constructor <;> linarith
  · intro m F lo hi hm hF0 hlam hF
    have hb : ∀ x : Vec N, (∀ i, x i = 1 ∨ x i = -1) →
        ((∀ t ∈ Set.Icc lo hi, 0 ≤ F (2 * m) t) → q x ≤ Spec.quadForm (Spec.matFun lam U f) x) ∧
        ((∀ t ∈ Set.Icc lo hi, F (2 * m) t ≤ 0) → Spec.quadForm (Spec.matFun lam U f) x ≤ q x) := by
      intro x hx
      obtain ⟨M', y, g1, g2⟩ := C104_one_sided_partial K hK eps heps qf B hB lam U hU f deg orth hN M0 M0 h0 (.refl _) (Or.inl rfl) x m hm F lo hi
        hF0 hlam hF
      have g3 := g2 (hclean x hx _ _ g1)
      rw [hq x] at g1
      simp only [Option.some.injEq, Except.ok.injEq, Prod.mk.injEq] at g1
      rw [← g1.2] at g3
      exact ⟨g3.1, g3.2.1⟩
    constructor
    · intro hpos
      rw [← hex]
      exact hcmp _ _ fun x hx => (hb x hx).1 hpos
    · intro hneg
      rw [← hex]
      exact hcmp _ _ fun x hx => (hb x hx).2 hneg

/-! ## A concrete case: `diag(-1, 0, 1)`, degree two, the exponential -/

/-- The example matrix. -/
def Dg3 : Matrix (Fin 3) (Fin 3) ℝ := Matrix.diagonal ![-1, 0, 1]

theorem Dg3_symm : Dg3.IsSymm := Matrix.diagonal_transpose _

theorem Dg3_eigen : Spec.Eigen Dg3 ![-1, 0, 1] 1 := by
  refine ⟨by simp, fun j => ?_⟩
  funext i
  fin_cases i <;> fin_cases j <;> simp [Dg3, mulVec, dotProduct, Fin.sum_univ_three]

theorem Dg3_b1 (x : Vec 3) (hx : ∀ i, x i = 1 ∨ x i = -1) : lzb Dg3.mulVec x 1 = Real.sqrt (2 / 3) := by
  have h2 : ∀ i, x i * x i = 1 := fun i => by rcases hx i with h | h <;> rw [h] <;> norm_num
  have hxx : x ⬝ᵥ x = 3 := by
    simp only [dotProduct, Fin.sum_univ_three, h2]
    norm_num
  have hn : nrm x * nrm x = 3 := by rw [nrm_sq, hxx]
  have hn0 : nrm x ≠ 0 := fun h => by rw [h] at hn; norm_num at hn
  have hq : normalized x = fun i => x i / nrm x := by
    unfold normalized
    rw [if_pos (by rw [hxx]; norm_num)]
  have hw : lzw Dg3.mulVec x 0 = fun i => (![-1, 0, 1] : Fin 3 → ℝ) i * (x i / nrm x) := by
    rw [lzw, lzq_zero, lzb_zero, zero_smul, sub_zero, hq]
    funext i
    exact mulVec_diagonal _ _ i
  have e0 := h2 0
  have e2 := h2 2
  have ha : lza Dg3.mulVec x 0 = 0 := by
    rw [lza, lzq_zero, hq, hw]
    simp [dotProduct, Fin.sum_univ_three]
    field_simp
    nlinarith
  rw [lzb_succ, nrm]
  congr 1
  rw [lzr, hw, ha, zero_smul, sub_zero]
  simp [dotProduct, Fin.sum_univ_three]
  field_simp
  nlinarith

/-- `C105_slq_bias_partial` at work: with degree two the average of the estimates of `tr exp(A)` does not exceed the trace. -/
example (K : TriKernels) (hK : EighOk K) (qf : ℕ) (k : ℕ) (hk : 0 < k) (op : Operand 3)
    (rngs : (Fin k × Fin 3 → Bool) → Rng) (hu1 : ∀ ω p, 0 ≤ (rngs ω).unif p ∧ (rngs ω).unif p < 1)
    (hu : ∀ ω (t : Fin k) (i : Fin 3), ω (t, i) = true ↔ 1/2 ≤ (rngs ω).unif (t * 3 + i)) :
    ∃ (M0 : MF 3) (est : (Fin k × Fin 3 → Bool) → ℝ), MF.init Dg3.mulVec Real.exp 2 2 = .ok M0 ∧
      (∀ ω, ∃ M', hutchMF tppf zscore (rngs ω) K 0 qf M0 ⟨op, 32, .name "rademacher", .obj (.count k), false, false, false, []⟩ (k + 1) =
        some (.ok (some (M', .scalar (.val fun _ => est ω), [])))) ∧
      (∑ ω, est ω) / 2 ^ (k * 3) ≤ Real.exp (-1) + 1 + Real.exp 1 := by
  obtain ⟨M0, h0, ho⟩ : ∃ M0, MF.init Dg3.mulVec Real.exp 2 2 = .ok M0 ∧ M0.orth = 2 := by
    refine ⟨_, if_neg (by norm_num), ?_⟩
    show (if (2 : ℤ) < 0 ∨ (2 : ℤ) > (((min 2 ((3 : ℕ) : ℤ)).toNat : ℕ) : ℤ) then (((min 2 ((3 : ℕ) : ℤ)).toNat : ℕ) : ℤ) else (2 : ℤ)) = 2
    rfl
  have hclean : ∀ x : Vec 3, (∀ i, x i = 1 ∨ x i = -1) → Spec.Clean K 0 qf M0 x := by
    intro x hx M' y h
    obtain ⟨w, a1, a2, a3, a4, -⟩ := init_wf _ _ _ _ M0 (by norm_num) h0
    have hd : M0.deg = 2 := a3
    have hfresh := fresh_reached K 0 qf _ _ _ _ (by norm_num) M0 M0 h0 (.refl M0) (Or.inl rfl)
    obtain ⟨J, s, theta, Y, -, -, -, hF, -, hq⟩ := quadCol_run K hK 0 le_rfl qf M0 w Dg3 Dg3_symm a1 (by rw [a4]; norm_num) hfresh x
    rw [h] at hq
    simp only [Option.some.injEq, Except.ok.injEq, Prod.mk.injEq] at hq
    rw [hq.1]
    intro i hi1 hi2 hi3
    obtain rfl : i = 1 := by omega
    simp only at hi3
    rw [hF.beta_le 1 (by omega), Dg3_b1 x hx] at hi3
    have h5 := sqrt3_lt
    have h6 : (1 / 2 : ℝ) ≤ Real.sqrt (2 / 3) := Real.le_sqrt_of_sq_le (by norm_num)
    generalize Real.sqrt (2 / 3) = u at hi3 h6
    generalize Real.sqrt ((3 : ℕ) : ℝ) = t at *
    norm_num at hi3
    linarith
  obtain ⟨est, h1, -, h2⟩ := C105_slq_bias_partial tppf zscore K hK 0 le_rfl qf Dg3 Dg3_symm _ _ Dg3_eigen Real.exp 2 2 (by norm_num) M0 h0 (by rw [ho])
    M0 (.refl _) hclean k hk rngs hu1 hu op
  refine ⟨M0, est, h0, h1, ?_⟩
  have h3 := (h2 2 (fun _ => Real.exp) (-1) 1 (by norm_num) rfl (fun a => by fin_cases a <;> norm_num) fun j _ t _ => Real.hasDerivAt_exp t).1
    fun t _ => (Real.exp_pos t).le
  rw [Fin.sum_univ_three] at h3
  simpa using h3

end Primate
