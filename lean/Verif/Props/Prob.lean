import Verif.Lemmas.Gauss
import Verif.Props.Tail
import Mathlib.Probability.Independence.InfinitePi

/-! # Property C112: `hutch` with ideal random number generators -/

noncomputable section

namespace Primate

open MeasureTheory ProbabilityTheory

variable {N : ℕ} {Ω : Type*} [MeasurableSpace Ω] {P : Measure Ω}

theorem iidNormal_law [IsProbabilityMeasure P] {X : ℕ → Ω → ℝ} (h : Spec.IidNormal P X) : P.map (fun ω q => X q ω) = gaussStream := by
  rw [h.indep.map_fun_eq_infinitePi_map₀' fun q => (h.law q).aemeasurable]
  unfold gaussStream
  congr 1
  funext q
  exact (h.law q).map_eq

theorem iidNormal_aemeasurable {X : ℕ → Ω → ℝ} (h : Spec.IidNormal P X) : AEMeasurable (fun ω q => X q ω) P :=
  aemeasurable_pi_iff.2 fun q => (h.law q).aemeasurable

theorem iidNormal_integral [IsProbabilityMeasure P] {X : ℕ → Ω → ℝ} (h : Spec.IidNormal P X) (F : (ℕ → ℝ) → ℝ) (hF : Measurable F) :
    ∫ ω, F (fun q => X q ω) ∂P = ∫ z, F z ∂gaussStream := by
  rw [← iidNormal_law h, integral_map (iidNormal_aemeasurable h) hF.aestronglyMeasurable]

theorem iidNormal_integrable [IsProbabilityMeasure P] {X : ℕ → Ω → ℝ} (h : Spec.IidNormal P X) (F : (ℕ → ℝ) → ℝ) (hF : Integrable F gaussStream) :
    Integrable (fun ω => F (fun q => X q ω)) P := by
  rw [← iidNormal_law h] at hF
  exact hF.comp_aemeasurable (iidNormal_aemeasurable h)

/-! ## Normal vectors -/

/-- The mean of the `k` quadratic forms of a stream. -/
def streamMean (A : Matrix (Fin N) (Fin N) ℝ) (k : ℕ) (z : ℕ → ℝ) : ℝ := (∑ t : Fin k, Spec.quad A fun i => z (t * N + i)) / k

theorem streamMean_measurable (A : Matrix (Fin N) (Fin N) ℝ) (k : ℕ) : Measurable (streamMean A k) := by
  unfold streamMean Spec.quad
  fun_prop

theorem idx_inj {k : ℕ} (t s : Fin k) (i j : Fin N) : (t : ℕ) * N + i = s * N + j ↔ t = s ∧ i = j := by
  constructor
  · intro h
    have hN : 0 < N := i.pos
    have h1 : ((t : ℕ) * N + i) / N = t := by rw [Nat.add_comm, Nat.add_mul_div_right _ _ hN, Nat.div_eq_of_lt i.2, zero_add]
    have h2 : ((s : ℕ) * N + j) / N = s := by rw [Nat.add_comm, Nat.add_mul_div_right _ _ hN, Nat.div_eq_of_lt j.2, zero_add]
    have h3 : t = s := Fin.ext (by rw [← h1, ← h2, h])
    subst h3
    exact ⟨rfl, Fin.ext (by omega)⟩
  · rintro ⟨rfl, rfl⟩; rfl

/-- The centred products of two numbers of a stream. -/
def cprod (a b : ℕ) (z : ℕ → ℝ) : ℝ := z a * z b - if a = b then 1 else 0

theorem cprod_memLp (a b : ℕ) : MemLp (cprod a b) 2 gaussStream := (gauss_memLp_mul a b).sub (memLp_const _)

theorem cprod_mean (a b : ℕ) : ∫ z, cprod a b z ∂gaussStream = 0 := by
  unfold cprod
  rw [integral_sub (gauss_integrable2 a b) (integrable_const _), gauss_two]
  simp

theorem cprod_cov (a b c d : ℕ) : ∫ z, cprod a b z * cprod c d z ∂gaussStream =
    (if a = c ∧ b = d then 1 else 0) + (if a = d ∧ b = c then 1 else 0) := by
  have e : ∀ z, cprod a b z * cprod c d z = z a * z b * (z c * z d) - (if c = d then 1 else 0) * (z a * z b) -
      (if a = b then 1 else 0) * cprod c d z := fun z => by unfold cprod; ring
  simp only [e]
  have i1 := gauss_integrable4 a b c d
  have i2 := (gauss_integrable2 a b).const_mul (if c = d then 1 else 0)
  have i3 := ((cprod_memLp c d).integrable (by norm_num)).const_mul (if a = b then 1 else 0)
  have i12 : Integrable (fun z : ℕ → ℝ => z a * z b * (z c * z d) - (if c = d then 1 else 0) * (z a * z b)) gaussStream := i1.sub i2
  rw [integral_sub i12 i3, integral_sub i1 i2, integral_const_mul, integral_const_mul, cprod_mean, gauss_two, gauss_four]
  by_cases h1 : a = b <;> by_cases h2 : c = d <;> simp [h1, h2] <;> ring

theorem streamMean_sub (A : Matrix (Fin N) (Fin N) ℝ) (k : ℕ) (hk : 0 < k) (z : ℕ → ℝ) :
    streamMean A k z - A.trace = (∑ p : Fin k × Fin N × Fin N, A p.2.1 p.2.2 * cprod (p.1 * N + p.2.1) (p.1 * N + p.2.2) z) / k := by
  have hk' : (k : ℝ) ≠ 0 := by exact_mod_cast hk.ne'
  have h1 : ∀ t : Fin k, (∑ i : Fin N, ∑ j : Fin N, A i j * cprod (t * N + i) (t * N + j) z) =
      (Spec.quad A fun i => z (t * N + i)) - A.trace := by
    intro t
    unfold Spec.quad cprod
    simp only [mul_sub, Finset.sum_sub_distrib, idx_inj, true_and]
    congr 1
    · exact Finset.sum_congr rfl fun i _ => Finset.sum_congr rfl fun j _ => by ring
    · simp [Matrix.trace]
  simp only [Fintype.sum_prod_type]
  simp only [h1, Finset.sum_sub_distrib, Finset.sum_const, Finset.card_univ, Fintype.card_fin, nsmul_eq_mul]
  unfold streamMean
  field_simp

theorem streamMean_mse (A : Matrix (Fin N) (Fin N) ℝ) (k : ℕ) (hk : 0 < k) :
    Integrable (fun z => (streamMean A k z - A.trace) ^ 2) gaussStream ∧
    ∫ z, (streamMean A k z - A.trace) ^ 2 ∂gaussStream = (∑ i, ∑ j, A i j * (A i j + A j i)) / k := by
  classical
  have hk' : (k : ℝ) ≠ 0 := by exact_mod_cast hk.ne'
  obtain ⟨c, hc⟩ : ∃ c : Fin k × Fin N × Fin N → ℝ, c = fun p => A p.2.1 p.2.2 := ⟨_, rfl⟩
  obtain ⟨Y, hY⟩ : ∃ Y : Fin k × Fin N × Fin N → (ℕ → ℝ) → ℝ, Y = fun p => cprod (p.1 * N + p.2.1) (p.1 * N + p.2.2) := ⟨_, rfl⟩
  have e : ∀ z, (streamMean A k z - A.trace) ^ 2 = (∑ p, ∑ q, c p * c q * (Y p z * Y q z)) / k ^ 2 := by
    intro z
    rw [streamMean_sub A k hk, div_pow, sq (∑ p : Fin k × Fin N × Fin N, _), Finset.sum_mul_sum, hc, hY]
    congr 1
    exact Finset.sum_congr rfl fun p _ => Finset.sum_congr rfl fun q _ => by ring
  have hint : ∀ p q, Integrable (fun z => c p * c q * (Y p z * Y q z)) gaussStream := fun p q => by
    rw [hY]
    exact ((cprod_memLp _ _).integrable_mul (cprod_memLp _ _)).const_mul _
  simp only [e]
  refine ⟨(integrable_finsetSum _ fun p _ => integrable_finsetSum _ fun q _ => hint p q).div_const _, ?_⟩
  rw [integral_div, integral_finsetSum _ fun p _ => integrable_finsetSum _ fun q _ => hint p q]
  have h1 : ∀ p, ∫ z, ∑ q, c p * c q * (Y p z * Y q z) ∂gaussStream = c p * (c p + c (p.1, p.2.2, p.2.1)) := by
    intro p
    rw [integral_finsetSum _ fun q _ => hint p q]
    have h2 : ∀ q : Fin k × Fin N × Fin N, ∫ z, c p * c q * (Y p z * Y q z) ∂gaussStream =
        (if q = p then c p * c q else 0) + (if q = (p.1, p.2.2, p.2.1) then c p * c q else 0) := by
      intro q
      rw [integral_const_mul, hY, cprod_cov]
      obtain ⟨t, i, j⟩ := p
      obtain ⟨s, k', l⟩ := q
      simp only [idx_inj, Prod.mk.injEq]
      have e1 : ((t = s ∧ i = k') ∧ t = s ∧ j = l) ↔ (s = t ∧ k' = i ∧ l = j) := by
        constructor
        · rintro ⟨⟨rfl, rfl⟩, -, rfl⟩; exact ⟨rfl, rfl, rfl⟩
        · rintro ⟨rfl, rfl, rfl⟩; exact ⟨⟨rfl, rfl⟩, rfl, rfl⟩
      have e2 : ((t = s ∧ i = l) ∧ t = s ∧ j = k') ↔ (s = t ∧ k' = j ∧ l = i) := by
        constructor
        · rintro ⟨⟨rfl, rfl⟩, -, rfl⟩; exact ⟨rfl, rfl, rfl⟩
        · rintro ⟨rfl, rfl, rfl⟩; exact ⟨⟨rfl, rfl⟩, rfl, rfl⟩
      simp only [e1, e2]
      split_ifs <;> ring
    simp only [h2, Finset.sum_add_distrib, Finset.sum_ite_eq', Finset.mem_univ, if_true]
    ring
  simp only [h1]
  rw [hc]
  simp only [Fintype.sum_prod_type, Finset.sum_const, Finset.card_univ, Fintype.card_fin, nsmul_eq_mul]
  field_simp

theorem streamMean_mean (A : Matrix (Fin N) (Fin N) ℝ) (k : ℕ) (hk : 0 < k) :
    Integrable (streamMean A k) gaussStream ∧ ∫ z, streamMean A k z ∂gaussStream = A.trace := by
  have e : ∀ z, streamMean A k z = A.trace + (∑ p : Fin k × Fin N × Fin N, A p.2.1 p.2.2 * cprod (p.1 * N + p.2.1) (p.1 * N + p.2.2) z) / k :=
    fun z => by rw [← streamMean_sub A k hk]; ring
  have hint : ∀ p : Fin k × Fin N × Fin N, Integrable (fun z => A p.2.1 p.2.2 * cprod (p.1 * N + p.2.1) (p.1 * N + p.2.2) z) gaussStream :=
    fun p => ((cprod_memLp _ _).integrable (by norm_num)).const_mul _
  have hs : Integrable (fun z => (∑ p : Fin k × Fin N × Fin N, A p.2.1 p.2.2 * cprod (p.1 * N + p.2.1) (p.1 * N + p.2.2) z) / k) gaussStream :=
    (integrable_finsetSum _ fun p _ => hint p).div_const _
  have e' : streamMean A k = fun z => A.trace + (∑ p : Fin k × Fin N × Fin N, A p.2.1 p.2.2 * cprod (p.1 * N + p.2.1) (p.1 * N + p.2.2) z) / k := funext e
  rw [e']
  refine ⟨(integrable_const _).add hs, ?_⟩
  rw [integral_add (integrable_const _) hs, integral_div, integral_finsetSum _ fun p _ => hint p]
  simp [integral_const_mul, cprod_mean]

/-- **C112**: with independent standard normal numbers, `hutch` with `pdf="normal"` and `CountCriterion(k)` has the trace as its expected value, and
its mean squared error is `Σ A_ij (A_ij + A_ji) / k` (for a symmetric matrix `2 ‖A‖²_F / k`). -/
theorem C112_normal [IsProbabilityMeasure P] (tppf : ℝ → ℕ → ℝ) (zscore : ℝ → ℝ) (A : Matrix (Fin N) (Fin N) ℝ) (hN : N ≠ 0) (k : ℕ) (hk : 0 < k)
    (u : ℕ → Ω → ℝ) (X : ℕ → Ω → ℝ) (hX : Spec.IidNormal P X) :
    ∃ est : Ω → ℝ,
      (∀ ω, hutch tppf zscore ⟨fun q => u q ω, fun q => X q ω⟩ (scalarArgs A (.name "normal") k) (k + 1) =
        some (.ok (.scalar (.val fun _ => est ω), []))) ∧
      Integrable est P ∧ ∫ ω, est ω ∂P = A.trace ∧
      Integrable (fun ω => (est ω - A.trace) ^ 2) P ∧ ∫ ω, (est ω - A.trace) ^ 2 ∂P = (∑ i, ∑ j, A i j * (A i j + A j i)) / k := by
  refine ⟨fun ω => streamMean A k fun q => X q ω, fun ω => ?_, ?_, ?_, ?_, ?_⟩
  · rw [hutch_scalar tppf zscore _ A hN (.name "normal") _ rfl k hk]
    rw [← Fin.sum_univ_eq_sum_range (fun t => Spec.quad A _)]
    congr 6
    funext _
    unfold streamMean
    congr 1
    refine Finset.sum_congr rfl fun t _ => ?_
    congr 1
    funext i
    simp only [IsoDist.fill, rawCols, List.sum_replicate, smul_eq_mul, mul_one, Fin.val_zero, zero_mul, add_zero]
  · exact iidNormal_integrable hX _ (streamMean_mean A k hk).1
  · rw [iidNormal_integral hX _ (streamMean_measurable A k)]
    exact (streamMean_mean A k hk).2
  · exact iidNormal_integrable hX (fun z => (streamMean A k z - A.trace) ^ 2) (streamMean_mse A k hk).1
  · rw [iidNormal_integral hX (fun z => (streamMean A k z - A.trace) ^ 2) (((streamMean_measurable A k).sub_const _).pow_const 2)]
    exact (streamMean_mse A k hk).2

/-! ## Vectors on the sphere -/

/-- Column `t` of a stream. -/
def streamCol (N : ℕ) (z : ℕ → ℝ) (t : ℕ) : Vec N := fun i => z (t * N + i)

theorem sphereCol_measurable (t : ℕ) (i : Fin N) : Measurable fun z : ℕ → ℝ => sphereCol (streamCol N z t) i := by
  unfold sphereCol streamCol
  fun_prop

theorem sphereCol_sq (x : Vec N) (i : Fin N) : |sphereCol x i| ≤ Real.sqrt N := by
  unfold sphereCol
  rw [abs_mul, abs_of_nonneg (Real.sqrt_nonneg (N : ℝ))]
  refine mul_le_of_le_one_left (Real.sqrt_nonneg _) ?_
  rw [abs_div, abs_of_nonneg (Real.sqrt_nonneg (∑ i, x i ^ 2))]
  refine div_le_one_of_le₀ ?_ (Real.sqrt_nonneg _)
  rw [← Real.sqrt_sq_eq_abs]
  exact Real.sqrt_le_sqrt (Finset.single_le_sum (f := fun i => x i ^ 2) (fun _ _ => sq_nonneg _) (Finset.mem_univ i))

theorem sphereCol_sum (x : Vec N) (hx : x ≠ 0) : ∑ i, sphereCol x i * sphereCol x i = N := by
  unfold sphereCol
  have h1 : 0 < ∑ i, x i ^ 2 := by
    obtain ⟨i, hi⟩ := Function.ne_iff.1 hx
    exact lt_of_lt_of_le (lt_of_le_of_ne (sq_nonneg _) (Ne.symm (pow_ne_zero 2 hi)))
      (Finset.single_le_sum (f := fun i => x i ^ 2) (fun _ _ => sq_nonneg _) (Finset.mem_univ i))
  have h2 : Real.sqrt (∑ i, x i ^ 2) * Real.sqrt (∑ i, x i ^ 2) = ∑ i, x i ^ 2 := Real.mul_self_sqrt h1.le
  have h3 : Real.sqrt (N : ℝ) * Real.sqrt N = N := Real.mul_self_sqrt (Nat.cast_nonneg _)
  have h4 : Real.sqrt (∑ i, x i ^ 2) ≠ 0 := (Real.sqrt_pos.2 h1).ne'
  obtain ⟨c, hc⟩ : ∃ c, c = Real.sqrt (∑ i, x i ^ 2) := ⟨_, rfl⟩
  rw [← hc] at h2 h4 ⊢
  have h5 : ∀ i, x i / c * Real.sqrt N * (x i / c * Real.sqrt N) = x i ^ 2 * (N / (c * c)) := fun i => by
    rw [show (N : ℝ) / (c * c) = Real.sqrt N * Real.sqrt N / (c * c) by rw [h3]]
    field_simp
  simp only [h5, ← Finset.sum_mul]
  rw [← h2]
  field_simp

theorem gauss_ne_zero (q : ℕ) : ∀ᵐ z ∂gaussStream, z q ≠ 0 := by
  have := nullSingletonClass_gaussianReal (μ := 0) (v := 1) (by norm_num)
  have h1 : gaussianReal 0 1 {(0 : ℝ)} = 0 := measure_singleton 0
  rw [← gauss_eval q, Measure.map_apply (measurable_pi_apply q) (measurableSet_singleton 0)] at h1
  rw [ae_iff]
  simp only [ne_eq, not_not]
  exact h1

theorem sphere_pair (t : ℕ) (i j : Fin N) :
    Integrable (fun z => sphereCol (streamCol N z t) i * sphereCol (streamCol N z t) j) gaussStream ∧
    ∫ z, sphereCol (streamCol N z t) i * sphereCol (streamCol N z t) j ∂gaussStream = if i = j then 1 else 0 := by
  have hm : ∀ i j : Fin N, Measurable fun z : ℕ → ℝ => sphereCol (streamCol N z t) i * sphereCol (streamCol N z t) j :=
    fun i j => (sphereCol_measurable t i).mul (sphereCol_measurable t j)
  have hint : ∀ i j : Fin N, Integrable (fun z => sphereCol (streamCol N z t) i * sphereCol (streamCol N z t) j) gaussStream := fun i j => by
    refine Integrable.of_bound (hm i j).aestronglyMeasurable (Real.sqrt N * Real.sqrt N) (Filter.Eventually.of_forall fun z => ?_)
    rw [Real.norm_eq_abs, abs_mul]
    exact mul_le_mul (sphereCol_sq _ _) (sphereCol_sq _ _) (abs_nonneg _) (Real.sqrt_nonneg _)
  refine ⟨hint i j, ?_⟩
  split_ifs with hij
  · subst hij
    have hswap : ∀ l : Fin N, ∫ z, sphereCol (streamCol N z t) l * sphereCol (streamCol N z t) l ∂gaussStream =
        ∫ z, sphereCol (streamCol N z t) i * sphereCol (streamCol N z t) i ∂gaussStream := by
      intro l
      have h1 := (gauss_swap (t * N + i) (t * N + l)).map_eq
      conv_lhs => rw [← h1]
      rw [integral_map (gauss_swap _ _).measurable.aemeasurable (hm l l).aestronglyMeasurable]
      refine integral_congr_ae (Filter.Eventually.of_forall fun z => ?_)
      have h2 : streamCol N (fun q => z (Equiv.swap (t * N + i) (t * N + l) q)) t = fun m => streamCol N z t (Equiv.swap i l m) := by
        funext m
        unfold streamCol
        by_cases hmi : m = i
        · subst hmi; simp
        · by_cases hml : m = l
          · subst hml; simp
          · show z (Equiv.swap (t * N + i) (t * N + l) (t * N + m)) = _
            rw [Equiv.swap_apply_of_ne_of_ne hmi hml, Equiv.swap_apply_of_ne_of_ne]
            · intro h; exact hmi (Fin.ext (by omega))
            · intro h; exact hml (Fin.ext (by omega))
      have h3 : ∀ x : Vec N, sphereCol (fun m => x (Equiv.swap i l m)) l = sphereCol x i := by
        intro x
        unfold sphereCol
        dsimp only
        rw [Equiv.sum_comp (Equiv.swap i l) fun m => x m ^ 2, Equiv.swap_apply_right]
      show sphereCol (streamCol N (fun q => z (Equiv.swap (t * N + i) (t * N + l) q)) t) l *
        sphereCol (streamCol N (fun q => z (Equiv.swap (t * N + i) (t * N + l) q)) t) l = _
      rw [h2, h3]
    have hsum : ∑ l : Fin N, ∫ z, sphereCol (streamCol N z t) l * sphereCol (streamCol N z t) l ∂gaussStream = N := by
      rw [← integral_finsetSum _ fun l _ => hint l l]
      have hae : ∀ᵐ z ∂gaussStream, ∑ l : Fin N, sphereCol (streamCol N z t) l * sphereCol (streamCol N z t) l = N := by
        filter_upwards [gauss_ne_zero (t * N + i)] with z hz
        exact sphereCol_sum _ fun h => hz (congrFun h i)
      rw [integral_congr_ae hae]
      simp
    simp only [hswap, Finset.sum_const, Finset.card_univ, Fintype.card_fin, nsmul_eq_mul] at hsum
    have hN : (N : ℝ) ≠ 0 := by exact_mod_cast i.pos.ne'
    exact mul_left_cancel₀ hN (by rw [hsum, mul_one])
  · refine gauss_odd (t * N + i) _ (hm i j) fun z => ?_
    have h1 : streamCol N (fun q => if q = t * N + i then -z q else z q) t = fun m => if m = i then -streamCol N z t m else streamCol N z t m := by
      funext m
      unfold streamCol
      by_cases hmi : m = i
      · subst hmi; simp
      · show (if t * N + (m : ℕ) = t * N + i then _ else z (t * N + m)) = _
        rw [if_neg hmi, if_neg fun h => hmi (Fin.ext (by omega))]
    rw [h1]
    generalize streamCol N z t = x
    have h2 : ∑ m, (if m = i then -x m else x m) ^ 2 = ∑ m, x m ^ 2 :=
      Finset.sum_congr rfl fun m _ => by split_ifs <;> ring
    unfold sphereCol
    dsimp only
    rw [h2, if_pos rfl, if_neg (Ne.symm hij)]
    ring

/-- **C112**: with independent standard normal numbers, `hutch` with `pdf="sphere"` and `CountCriterion(k)` has the trace as its expected value, and
with probability one no vector drawn is zero (NumPy would divide by zero). -/
theorem C112_sphere [IsProbabilityMeasure P] (tppf : ℝ → ℕ → ℝ) (zscore : ℝ → ℝ) (A : Matrix (Fin N) (Fin N) ℝ) (hN : N ≠ 0) (k : ℕ) (hk : 0 < k)
    (u : ℕ → Ω → ℝ) (X : ℕ → Ω → ℝ) (hX : Spec.IidNormal P X) :
    (∃ est : Ω → ℝ,
      (∀ ω, hutch tppf zscore ⟨fun q => u q ω, fun q => X q ω⟩ (scalarArgs A (.name "sphere") k) (k + 1) =
        some (.ok (.scalar (.val fun _ => est ω), []))) ∧
      Integrable est P ∧ ∫ ω, est ω ∂P = A.trace) ∧
    ∀ᵐ ω ∂P, ∀ t, (fun i : Fin N => X (t * N + i) ω) ≠ 0 := by
  have hk' : (k : ℝ) ≠ 0 := by exact_mod_cast hk.ne'
  obtain ⟨F, hF⟩ : ∃ F : (ℕ → ℝ) → ℝ, F = fun z => (∑ t : Fin k, Spec.quad A (sphereCol (streamCol N z t))) / k := ⟨_, rfl⟩
  have hFe : F = fun z => (∑ t : Fin k, ∑ i, ∑ j, A i j * (sphereCol (streamCol N z t) i * sphereCol (streamCol N z t) j)) / k := by
    rw [hF]
    funext z
    unfold Spec.quad
    congr 1
    exact Finset.sum_congr rfl fun t _ => Finset.sum_congr rfl fun i _ => Finset.sum_congr rfl fun j _ => by ring
  have hint : ∀ (t : Fin k) (i j : Fin N), Integrable (fun z => A i j * (sphereCol (streamCol N z t) i * sphereCol (streamCol N z t) j)) gaussStream :=
    fun t i j => (sphere_pair t i j).1.const_mul _
  have h1 : Integrable F gaussStream := by
    rw [hFe]
    exact (integrable_finsetSum _ fun t _ => integrable_finsetSum _ fun i _ => integrable_finsetSum _ fun j _ => hint t i j).div_const _
  have h2 : ∫ z, F z ∂gaussStream = A.trace := by
    rw [hFe]
    simp only
    rw [integral_div, integral_finsetSum _ fun t _ => integrable_finsetSum _ fun i _ => integrable_finsetSum _ fun j _ => hint t i j]
    have h3 : ∀ t : Fin k, ∫ z, ∑ i, ∑ j, A i j * (sphereCol (streamCol N z t) i * sphereCol (streamCol N z t) j) ∂gaussStream = A.trace := by
      intro t
      rw [integral_finsetSum _ fun i _ => integrable_finsetSum _ fun j _ => hint t i j]
      have h4 : ∀ i, ∫ z, ∑ j, A i j * (sphereCol (streamCol N z t) i * sphereCol (streamCol N z t) j) ∂gaussStream = A i i := by
        intro i
        rw [integral_finsetSum _ fun j _ => hint t i j]
        simp only [integral_const_mul, (sphere_pair _ _ _).2]
        simp
      simp only [h4]
      rfl
    simp only [h3, Finset.sum_const, Finset.card_univ, Fintype.card_fin, nsmul_eq_mul]
    field_simp
  have hFm : Measurable F := by
    rw [hFe]
    refine Measurable.div_const ?_ _
    refine Finset.measurable_sum _ fun t _ => Finset.measurable_sum _ fun i _ => Finset.measurable_sum _ fun j _ => ?_
    exact ((sphereCol_measurable t i).mul (sphereCol_measurable t j)).const_mul _
  refine ⟨⟨fun ω => F fun q => X q ω, fun ω => ?_, iidNormal_integrable hX F h1, by rw [iidNormal_integral hX F hFm, h2]⟩, ?_⟩
  · rw [hutch_scalar tppf zscore _ A hN (.name "sphere") _ rfl k hk]
    rw [← Fin.sum_univ_eq_sum_range (fun t => Spec.quad A _), hF]
    congr 6
    funext _
    congr 1
    refine Finset.sum_congr rfl fun t _ => ?_
    congr 1
    simp only [IsoDist.fill, List.sum_replicate, smul_eq_mul, mul_one]
    congr 1
    funext i
    simp only [rawCols, streamCol, Fin.val_zero, zero_mul, add_zero]
  · rw [ae_all_iff]
    intro t
    have h5 := gauss_ne_zero (t * N + 0)
    rw [← iidNormal_law hX] at h5
    filter_upwards [ae_of_ae_map (iidNormal_aemeasurable hX) h5] with ω hω h
    exact hω (congrFun h ⟨0, Nat.pos_of_ne_zero hN⟩)

/-! ## Rademacher vectors -/

theorem ofReal_half : ENNReal.ofReal (1/2) = 1/2 := by
  rw [ENNReal.ofReal_div_of_pos (by norm_num)]
  norm_num

/-- The bits of the first `kN` numbers. -/
def bitsOf (k N : ℕ) (u : ℕ → Ω → ℝ) (ω : Ω) : Fin k × Fin N → Bool := fun a => decide (1/2 ≤ u (a.1 * N + a.2) ω)

theorem half_measurable : Measurable fun x : ℝ => decide (1/2 ≤ x) :=
  measurable_to_bool (by
    have : (fun x : ℝ => decide (1/2 ≤ x)) ⁻¹' {true} = Set.Ici (1/2) := by ext x; simp
    rw [this]
    exact measurableSet_Ici)

theorem bitsOf_aemeasurable {u : ℕ → Ω → ℝ} (hu : Spec.IidUniform P u) (k N : ℕ) : AEMeasurable (bitsOf k N u) P :=
  aemeasurable_pi_iff.2 fun a => half_measurable.comp_aemeasurable (hu.law _).aemeasurable

theorem uniform_half {u : ℕ → Ω → ℝ} (hu : Spec.IidUniform P u) (q : ℕ) (b : Bool) : P (u q ⁻¹' {x | decide (1/2 ≤ x) = b}) = 1/2 := by
  have hm : ∀ b, MeasurableSet {x : ℝ | decide (1/2 ≤ x) = b} := fun b => half_measurable (measurableSet_singleton b)
  rw [← Measure.map_apply_of_aemeasurable (hu.law q).aemeasurable (hm b), (hu.law q).map_eq, Measure.restrict_apply (hm b)]
  cases b with
  | true =>
    have : {x : ℝ | decide (1/2 ≤ x) = true} ∩ Set.Ico 0 1 = Set.Ico (1/2) 1 := by
      ext x
      simp only [decide_eq_true_eq, Set.mem_inter_iff, Set.mem_setOf_eq, Set.mem_Ico]
      constructor
      · rintro ⟨h1, -, h3⟩; exact ⟨h1, h3⟩
      · rintro ⟨h1, h3⟩; exact ⟨h1, by linarith, h3⟩
    rw [this, Real.volume_Ico]
    rw [show (1 : ℝ) - 1/2 = 1/2 by norm_num]; exact ofReal_half
  | false =>
    have : {x : ℝ | decide (1/2 ≤ x) = false} ∩ Set.Ico 0 1 = Set.Ico 0 (1/2) := by
      ext x
      simp only [decide_eq_false_iff_not, not_le, Set.mem_inter_iff, Set.mem_setOf_eq, Set.mem_Ico]
      constructor
      · rintro ⟨h1, h2, -⟩; exact ⟨h2, h1⟩
      · rintro ⟨h1, h3⟩; exact ⟨h3, h1, by linarith⟩
    rw [this, Real.volume_Ico]
    rw [show (1 : ℝ)/2 - 0 = 1/2 by norm_num]; exact ofReal_half

/-- All bit patterns have the same probability. -/
theorem bitsOf_prob {u : ℕ → Ω → ℝ} (hu : Spec.IidUniform P u) (k N : ℕ) (b : Fin k × Fin N → Bool) :
    P (bitsOf k N u ⁻¹' {b}) = (1/2) ^ (k * N) := by
  have hinj : Function.Injective fun a : Fin k × Fin N => (a.1 : ℕ) * N + a.2 := by
    rintro ⟨t, i⟩ ⟨s, j⟩ h
    obtain ⟨h1, h2⟩ := (idx_inj t s i j).1 h
    rw [h1, h2]
  have hi := hu.indep.precomp hinj
  have hm : ∀ b, MeasurableSet {x : ℝ | decide (1/2 ≤ x) = b} := fun b => half_measurable (measurableSet_singleton b)
  have h1 : bitsOf k N u ⁻¹' {b} = ⋂ a : Fin k × Fin N, u (a.1 * N + a.2) ⁻¹' {x | decide (1/2 ≤ x) = b a} := by
    ext ω
    simp only [Set.mem_preimage, Set.mem_singleton_iff, Set.mem_iInter, Set.mem_setOf_eq]
    exact ⟨fun h a => congrFun h a, fun h => funext h⟩
  rw [h1, hi.meas_iInter fun a => ⟨_, hm (b a), rfl⟩]
  simp only [uniform_half hu, Finset.prod_const, Finset.card_univ, Fintype.card_prod, Fintype.card_fin]

theorem bitsOf_integral [IsProbabilityMeasure P] {u : ℕ → Ω → ℝ} (hu : Spec.IidUniform P u) (k N : ℕ) (F : (Fin k × Fin N → Bool) → ℝ) :
    Integrable (fun ω => F (bitsOf k N u ω)) P ∧ ∫ ω, F (bitsOf k N u ω) ∂P = (∑ b, F b) / 2 ^ (k * N) := by
  have hF : Measurable F := measurable_of_finite F
  have hb := bitsOf_aemeasurable hu k N
  have : IsProbabilityMeasure (P.map (bitsOf k N u)) := Measure.isProbabilityMeasure_map hb
  have h1 : Integrable F (P.map (bitsOf k N u)) := Integrable.of_finite
  refine ⟨h1.comp_aemeasurable hb, ?_⟩
  rw [← integral_map (f := F) hb hF.aestronglyMeasurable, integral_fintype h1, Finset.sum_div]
  refine Finset.sum_congr rfl fun b _ => ?_
  rw [measureReal_def, Measure.map_apply_of_aemeasurable hb (measurableSet_singleton b), bitsOf_prob hu]
  simp
  ring

theorem bitsOf_share [IsProbabilityMeasure P] {u : ℕ → Ω → ℝ} (hu : Spec.IidUniform P u) (k N : ℕ) (p : (Fin k × Fin N → Bool) → Prop)
    [DecidablePred p] : P.real {ω | p (bitsOf k N u ω)} = ((Finset.univ.filter p).card : ℝ) / 2 ^ (k * N) := by
  have hb := bitsOf_aemeasurable hu k N
  have : IsProbabilityMeasure (P.map (bitsOf k N u)) := Measure.isProbabilityMeasure_map hb
  have h1 : P.real {ω | p (bitsOf k N u ω)} = (P.map (bitsOf k N u)).real (Finset.univ.filter p : Finset _) := by
    rw [measureReal_def, measureReal_def, Measure.map_apply_of_aemeasurable hb (Finset.measurableSet _)]
    congr 2
    ext ω
    simp
  rw [h1, ← sum_measureReal_singleton]
  have h2 : ∀ b, (P.map (bitsOf k N u)).real {b} = 1 / 2 ^ (k * N) := fun b => by
    rw [measureReal_def, Measure.map_apply_of_aemeasurable hb (measurableSet_singleton b), bitsOf_prob hu]
    simp
  simp only [h2, Finset.sum_const, nsmul_eq_mul]
  ring

/-- **C112**: with independent uniform numbers in `[0, 1)`, `hutch` with Rademacher vectors and `CountCriterion(k)` has the trace as its expected value, the mean
squared error of C96 and the tail probabilities of C110. -/
theorem C112_rademacher [IsProbabilityMeasure P] (tppf : ℝ → ℕ → ℝ) (zscore : ℝ → ℝ) (A : Matrix (Fin N) (Fin N) ℝ) (hN : N ≠ 0) (k : ℕ) (hk : 0 < k)
    (u : ℕ → Ω → ℝ) (X : ℕ → Ω → ℝ) (hu : Spec.IidUniform P u) :
    ∃ est : Ω → ℝ,
      (∀ᵐ ω ∂P, hutch tppf zscore ⟨fun q => u q ω, fun q => X q ω⟩ (scalarArgs A (.name "rademacher") k) (k + 1) =
        some (.ok (.scalar (.val fun _ => est ω), []))) ∧
      Integrable est P ∧ ∫ ω, est ω ∂P = A.trace ∧
      Integrable (fun ω => (est ω - A.trace) ^ 2) P ∧
      ∫ ω, (est ω - A.trace) ^ 2 ∂P = (∑ i, ∑ j, if i = j then 0 else A i j * (A i j + A j i)) / k ∧
      ∀ B : ℝ, 0 < B → (∀ x : Vec N, (∀ i, x i = 1 ∨ x i = -1) → |Spec.quad A x - A.trace| ≤ B) → ∀ ε : ℝ, 0 < ε →
        P.real {ω | ε ≤ |est ω - A.trace|} ≤ 2 * Real.exp (-(k * ε ^ 2 / (2 * B ^ 2))) := by
  classical
  have hk' : (k : ℝ) ≠ 0 := by exact_mod_cast hk.ne'
  obtain ⟨G, hG⟩ : ∃ G : (Fin k × Fin N → Bool) → ℝ, G = fun b => (∑ t : Fin k, Spec.quad A fun i => sgn (b (t, i))) / k := ⟨_, rfl⟩
  have hr : ∀ᵐ ω ∂P, ∀ q, u q ω ∈ Set.Ico (0 : ℝ) 1 := by
    rw [ae_all_iff]
    intro q
    have h1 : ∀ᵐ x ∂(volume.restrict (Set.Ico (0 : ℝ) 1)), x ∈ Set.Ico (0 : ℝ) 1 := ae_restrict_mem measurableSet_Ico
    rw [← (hu.law q).map_eq] at h1
    exact ae_of_ae_map (hu.law q).aemeasurable h1
  refine ⟨fun ω => G (bitsOf k N u ω), ?_, (bitsOf_integral hu k N G).1, ?_, (bitsOf_integral hu k N fun b => (G b - A.trace) ^ 2).1, ?_, ?_⟩
  · filter_upwards [hr] with ω hω
    rw [hutch_scalar tppf zscore _ A hN (.name "rademacher") _ rfl k hk]
    rw [← Fin.sum_univ_eq_sum_range (fun t => Spec.quad A _), hG]
    congr 6
    funext _
    congr 1
    refine Finset.sum_congr rfl fun t _ => ?_
    congr 1
    funext i
    simp only [IsoDist.fill, rawCols, List.sum_replicate, smul_eq_mul, mul_one, Fin.val_zero, zero_mul, add_zero]
    obtain ⟨h1, h2⟩ := hω (t * N + i)
    unfold bitsOf
    by_cases h : 1/2 ≤ u (t * N + i) ω
    · rw [decide_eq_true h]; exact (rademacherEntry_half _).2 h h2
    · rw [decide_eq_false h]; exact (rademacherEntry_half _).1 h1 (not_le.1 h)
  · rw [(bitsOf_integral hu k N G).2, hG]
    rw [← Finset.sum_div, Finset.sum_comm]
    simp only [sum_quad_signs, Finset.sum_const, Finset.card_univ, Fintype.card_fin, nsmul_eq_mul]
    field_simp
  · rw [(bitsOf_integral hu k N fun b => (G b - A.trace) ^ 2).2, hG]
    exact mse_signs A k hk
  · intro B hB hdev ε hε
    rw [bitsOf_share hu k N fun b => ε ≤ |G b - A.trace|, hG]
    exact signs_tail A k hk B hB hdev ε hε

/-! ## Such generators exist -/

theorem iidNormal_exists : Spec.IidNormal gaussStream fun q (z : ℕ → ℝ) => z q :=
  ⟨fun q => ⟨(measurable_pi_apply q).aemeasurable, gauss_eval q⟩,
    iIndepFun_infinitePi (P := fun _ : ℕ => gaussianReal 0 1) (X := fun _ x => x) fun _ => measurable_id⟩

theorem iidUniform_exists : ∃ (P : Measure (ℕ → ℝ)) (_ : IsProbabilityMeasure P), Spec.IidUniform P fun q z => z q := by
  have hp : IsProbabilityMeasure (volume.restrict (Set.Ico (0 : ℝ) 1)) := ⟨by simp⟩
  refine ⟨Measure.infinitePi fun _ => volume.restrict (Set.Ico (0 : ℝ) 1), inferInstance,
    fun q => ⟨(measurable_pi_apply q).aemeasurable, Measure.infinitePi_map_eval _ q⟩,
    iIndepFun_infinitePi (P := fun _ : ℕ => volume.restrict (Set.Ico (0 : ℝ) 1)) (X := fun _ x => x) fun _ => measurable_id⟩

/-- `C112_normal` at work: for `[[1, 2], [2, 1]]` and 5 normal vectors the mean squared error is `2 (1 + 4 + 4 + 1) / 5 = 4`, while Rademacher vectors give
`2 (4 + 4) / 5`. -/
example (tppf : ℝ → ℕ → ℝ) (zscore : ℝ → ℝ) :
    (∃ est : (ℕ → ℝ) → ℝ, (∀ z, hutch tppf zscore ⟨fun _ => 0, z⟩ (scalarArgs !![(1 : ℝ), 2; 2, 1] (.name "normal") 5) 6 =
        some (.ok (.scalar (.val fun _ => est z), []))) ∧ ∫ z, est z ∂gaussStream = 2 ∧ ∫ z, (est z - 2) ^ 2 ∂gaussStream = 4) ∧
    ∃ (P : Measure (ℕ → ℝ)) (est : (ℕ → ℝ) → ℝ), IsProbabilityMeasure P ∧
      (∀ᵐ z ∂P, hutch tppf zscore ⟨z, fun _ => 0⟩ (scalarArgs !![(1 : ℝ), 2; 2, 1] (.name "rademacher") 5) 6 =
        some (.ok (.scalar (.val fun _ => est z), []))) ∧ ∫ z, est z ∂P = 2 ∧ ∫ z, (est z - 2) ^ 2 ∂P = 16 / 5 := by
  have htr : Matrix.trace !![(1 : ℝ), 2; 2, 1] = 2 := by simp [Matrix.trace, Fin.sum_univ_two]; norm_num
  constructor
  · obtain ⟨est, h1, -, h2, -, h3⟩ := C112_normal tppf zscore !![(1 : ℝ), 2; 2, 1] (by norm_num) 5 (by norm_num) (fun _ _ => 0) _ iidNormal_exists
    rw [htr] at h2 h3
    refine ⟨est, h1, h2, h3.trans ?_⟩
    simp [Fin.sum_univ_two]
    norm_num
  · obtain ⟨P, hP, hu⟩ := iidUniform_exists
    obtain ⟨est, h1, -, h2, -, h3, -⟩ := C112_rademacher tppf zscore !![(1 : ℝ), 2; 2, 1] (by norm_num) 5 (by norm_num) _ (fun _ _ => 0) hu
    rw [htr] at h2 h3
    refine ⟨P, est, hP, h1, h2, h3.trans ?_⟩
    simp [Fin.sum_univ_two]
    norm_num

end Primate
