import Verif.Props.XtraceProb
import Verif.Props.Diagonal
import Verif.Props.Tail
import Mathlib.Analysis.SpecialFunctions.NonIntegrable

/-!
# Properties C120 and C121: `diag` with ideal random number generators
-/

noncomputable section

namespace Primate

open MeasureTheory ProbabilityTheory Matrix

variable {N : ℕ} {Ω : Type*} [MeasurableSpace Ω] {P : Measure Ω}

/-! ## C120: vectors made of normal numbers -/

/-- The reciprocal of a normal number has no expectation. -/
theorem gauss_inv_not_integrable (q : ℕ) : ¬ Integrable (fun z : ℕ → ℝ => (z q)⁻¹) gaussStream := by
  intro h
  have h1 : Integrable (fun x : ℝ => x⁻¹) (gaussianReal 0 1) := by
    rw [← gauss_eval q]
    exact (integrable_map_measure measurable_inv.aestronglyMeasurable (measurable_pi_apply q).aemeasurable).2 h
  rw [gaussianReal_of_var_ne_zero 0 one_ne_zero, integrable_withDensity_iff_integrable_smul' (measurable_gaussianPDF 0 1)
    (Filter.Eventually.of_forall fun x => gaussianPDF_lt_top)] at h1
  simp only [toReal_gaussianPDF, smul_eq_mul] at h1
  obtain ⟨c, hc⟩ : ∃ c, c = (Real.sqrt (2 * Real.pi))⁻¹ * Real.exp (-(1/2)) := ⟨_, rfl⟩
  have hc0 : 0 < c := by rw [hc]; positivity
  have hpdf : ∀ x ∈ Set.Ioc (0 : ℝ) 1, c ≤ gaussianPDFReal 0 1 x := by
    intro x hx
    rw [gaussianPDFReal_def, hc]
    simp only [NNReal.coe_one, mul_one, sub_zero]
    refine mul_le_mul_of_nonneg_left (Real.exp_le_exp.2 ?_) (by positivity)
    nlinarith [hx.1, hx.2]
  have h2 : IntegrableOn (fun x : ℝ => x⁻¹) (Set.Ioc 0 1) := by
    refine Integrable.mono' ((h1.integrableOn (s := Set.Ioc 0 1)).norm.const_mul c⁻¹) measurable_inv.aestronglyMeasurable ?_
    refine (ae_restrict_iff' measurableSet_Ioc).2 (Filter.Eventually.of_forall fun x hx => ?_)
    rw [Real.norm_eq_abs, Real.norm_eq_abs, abs_mul, abs_of_nonneg (gaussianPDFReal_nonneg 0 1 x), ← mul_assoc]
    refine le_mul_of_one_le_left (abs_nonneg _) ?_
    rw [inv_mul_eq_div, one_le_div hc0]
    exact hpdf x hx
  have h3 : IntervalIntegrable (fun x : ℝ => x⁻¹) volume 0 1 := (intervalIntegrable_iff_integrableOn_Ioc_of_le zero_le_one).2 h2
  rw [intervalIntegrable_inv_iff] at h3
  rcases h3 with h3 | h3
  · norm_num at h3
  · exact h3 Set.left_mem_uIcc

/-- Each sampler based on normal numbers returns a non-zero multiple of the raw vector. -/
theorem gaussVec_scale (d : IsoDist) (x : Vec N) (hx : x ≠ 0) : ∃ s : ℝ, s ≠ 0 ∧ gaussVec d x = s • x := by
  cases d
  · exact ⟨1, one_ne_zero, (one_smul _ _).symm⟩
  · exact ⟨1, one_ne_zero, (one_smul _ _).symm⟩
  · have h1 : 0 < ∑ i, x i ^ 2 := by
      obtain ⟨i, hi⟩ := Function.ne_iff.1 hx
      exact lt_of_lt_of_le (lt_of_le_of_ne (sq_nonneg _) (Ne.symm (pow_ne_zero 2 hi)))
        (Finset.single_le_sum (f := fun i => x i ^ 2) (fun _ _ => sq_nonneg _) (Finset.mem_univ i))
    have hN : N ≠ 0 := by
      rintro rfl
      exact hx (funext fun i => i.elim0)
    refine ⟨Real.sqrt N / Real.sqrt (∑ i, x i ^ 2), ?_, ?_⟩
    · have : (0 : ℝ) < N := by exact_mod_cast Nat.pos_of_ne_zero hN
      positivity
    · funext i
      show x i / Real.sqrt (∑ i, x i ^ 2) * Real.sqrt N = _
      rw [Pi.smul_apply, smul_eq_mul]
      ring

/-- The running mean of ratio estimators of `diag` as a function of the stream of normal numbers. -/
def gaussDiag (d : IsoDist) (A : Matrix (Fin N) (Fin N) ℝ) (k : ℕ) (i : Fin N) (z : ℕ → ℝ) : ℝ :=
  (∑ j ∈ Finset.range k, Spec.bks A.mulVec (fun t => gaussVec d (streamCol N z t)) (j + 1) i) / k

theorem gaussDiag_measurable (d : IsoDist) (A : Matrix (Fin N) (Fin N) ℝ) (k : ℕ) (i : Fin N) : Measurable (gaussDiag d A k i) := by
  unfold gaussDiag Spec.bks Matrix.mulVec dotProduct
  refine Measurable.div_const (Finset.measurable_sum _ fun j _ => Measurable.div (Finset.measurable_sum _ fun t _ => ?_)
    (Finset.measurable_sum _ fun t _ => (gaussVec_measurable d t i).pow_const 2)) _
  exact (Finset.measurable_sum _ fun l _ => (gaussVec_measurable d t l).const_mul _).mul (gaussVec_measurable d t i)

theorem gaussDiag_not_integrable (d : IsoDist) (A : Matrix (Fin N) (Fin N) ℝ) (i l : Fin N) (hl : l ≠ i) (hA : A i l ≠ 0) (k : ℕ) (hk : 0 < k) :
    ¬ Integrable (gaussDiag d A k i) gaussStream := by
  intro h
  have hk' : (k : ℝ) ≠ 0 := by exact_mod_cast hk.ne'
  have hmp := gauss_splice (· = (i : ℕ))
  -- the vectors after the first do not see the number in question
  have hother : ∀ (z w : ℕ → ℝ) (t : ℕ), 0 < t → streamCol N (splice (· = (i : ℕ)) z w) t = streamCol N z t := by
    intro z w t ht
    funext m
    have : t * N + (m : ℕ) ≠ i := by
      have := Nat.le_mul_of_pos_left N ht
      omega
    simp only [streamCol, splice, if_neg this]
  have hfirst : ∀ (z w : ℕ → ℝ) (m : Fin N), streamCol N (splice (· = (i : ℕ)) z w) 0 m = if m = i then w i else z m := by
    intro z w m
    simp only [streamCol, splice, zero_mul, zero_add]
    by_cases hm : m = i
    · subst hm; simp
    · rw [if_neg hm, if_neg fun h => hm (Fin.ext h)]
  have i1 : Integrable (fun p : (ℕ → ℝ) × (ℕ → ℝ) => gaussDiag d A k i (splice (· = (i : ℕ)) p.1 p.2)) (gaussStream.prod gaussStream) :=
    hmp.integrable_comp_of_integrable h
  have i2 : ∀ m, Integrable (fun p : (ℕ → ℝ) × (ℕ → ℝ) => gaussVec d (streamCol N (splice (· = (i : ℕ)) p.1 p.2) 0) m *
      gaussVec d (streamCol N (splice (· = (i : ℕ)) p.1 p.2) 0) i) (gaussStream.prod gaussStream) :=
    fun m => hmp.integrable_comp_of_integrable (gaussVec_pair d 0 m i).1
  have ha : (fun m => if m = i then 0 else A i m) ≠ 0 := by
    intro h0
    have := congrFun h0 l
    simp only [if_neg hl, Pi.zero_apply] at this
    exact hA this
  obtain ⟨z, hz1, hz2, hz3, hz4⟩ := (i1.prod_right_ae.and ((ae_all_iff.2 fun m => (i2 m).prod_right_ae).and
    ((gauss_dot_ne_zero 0 _ ha).and (gauss_ne_zero (1 * N + i))))).exists
  obtain ⟨c, hc⟩ : ∃ c, c = ∑ m, (if m = i then 0 else A i m) * z m := ⟨_, rfl⟩
  have hc0 : c ≠ 0 := by
    have h9 : ∀ m : Fin N, (if m = i then 0 else A i m) * z (0 * N + m) = (if m = i then 0 else A i m) * z m := fun m => by rw [zero_mul, zero_add]
    rw [Finset.sum_congr rfl fun m _ => h9 m] at hz3
    rw [hc]
    exact hz3
  -- the first ratio
  have hR1 : ∀ w : ℕ → ℝ, w i ≠ 0 →
      Spec.bks A.mulVec (fun t => gaussVec d (streamCol N (splice (· = (i : ℕ)) z w) t)) (0 + 1) i = A i i + c * (w i)⁻¹ := by
    intro w hw
    obtain ⟨x, hx⟩ : ∃ x, x = streamCol N (splice (· = (i : ℕ)) z w) 0 := ⟨_, rfl⟩
    have hxi : x i = w i := by rw [hx, hfirst, if_pos rfl]
    obtain ⟨s, hs, hsx⟩ := gaussVec_scale d x fun h0 => hw (by rw [← hxi, h0]; rfl)
    simp only [Spec.bks, zero_add, Finset.range_one, Finset.sum_singleton]
    rw [← hx, hsx, Matrix.mulVec_smul, Pi.smul_apply, Pi.smul_apply, smul_eq_mul, smul_eq_mul, hxi]
    have hdot : (A *ᵥ x) i = A i i * w i + c := by
      have h1 : ∀ m, A i m * x m = (if m = i then A i i * w i else 0) + (if m = i then 0 else A i m) * z m := by
        intro m
        rw [hx, hfirst]
        by_cases hm : m = i
        · subst hm; simp
        · simp [hm]
      show ∑ m, A i m * x m = _
      simp only [h1, Finset.sum_add_distrib, Finset.sum_ite_eq', Finset.mem_univ, if_true, hc]
    rw [hdot]
    field_simp
  -- the later ratios
  have hR2 : ∀ j, 0 < j → Integrable (fun w => Spec.bks A.mulVec (fun t => gaussVec d (streamCol N (splice (· = (i : ℕ)) z w) t)) (j + 1) i) gaussStream := by
    intro j hj
    obtain ⟨e, he⟩ : ∃ e, e = gaussVec d (streamCol N z 1) i := ⟨_, rfl⟩
    have he0 : e ≠ 0 := by
      have hx : streamCol N z 1 i ≠ 0 := hz4
      obtain ⟨s, hs, hsx⟩ := gaussVec_scale d (streamCol N z 1) fun h0 => hx (by rw [h0]; rfl)
      rw [he, hsx]
      exact mul_ne_zero hs hx
    have hnum : ∀ t, Integrable (fun w => (A *ᵥ gaussVec d (streamCol N (splice (· = (i : ℕ)) z w) t)) i *
        gaussVec d (streamCol N (splice (· = (i : ℕ)) z w) t) i) gaussStream := by
      intro t
      rcases Nat.eq_zero_or_pos t with rfl | ht
      · simp only [Matrix.mulVec, dotProduct, Finset.sum_mul, mul_assoc]
        exact integrable_finsetSum _ fun m _ => (hz2 m).const_mul _
      · simp only [hother z _ t ht]
        exact integrable_const _
    have hsplice : Measurable fun w => splice (· = (i : ℕ)) z w := (splice_measurable _).comp measurable_prodMk_left
    have hden : Measurable fun w => ∑ t ∈ Finset.range (j + 1), gaussVec d (streamCol N (splice (· = (i : ℕ)) z w) t) i ^ 2 :=
      Finset.measurable_sum _ fun t _ => ((gaussVec_measurable d t i).comp hsplice).pow_const 2
    have hdiv : ∀ w, Spec.bks A.mulVec (fun t => gaussVec d (streamCol N (splice (· = (i : ℕ)) z w) t)) (j + 1) i =
        (∑ t ∈ Finset.range (j + 1), gaussVec d (streamCol N (splice (· = (i : ℕ)) z w) t) i ^ 2)⁻¹ *
        ∑ t ∈ Finset.range (j + 1), (A *ᵥ gaussVec d (streamCol N (splice (· = (i : ℕ)) z w) t)) i *
          gaussVec d (streamCol N (splice (· = (i : ℕ)) z w) t) i := by
      intro w
      simp only [Spec.bks, div_eq_inv_mul]
    simp only [hdiv]
    refine (integrable_finsetSum _ fun t _ => hnum t).bdd_mul (c := (e ^ 2)⁻¹) hden.inv.aestronglyMeasurable (Filter.Eventually.of_forall fun w => ?_)
    have hge : e ^ 2 ≤ ∑ t ∈ Finset.range (j + 1), gaussVec d (streamCol N (splice (· = (i : ℕ)) z w) t) i ^ 2 := by
      rw [he, ← hother z w 1 one_pos]
      exact Finset.single_le_sum (f := fun t => gaussVec d (streamCol N (splice (· = (i : ℕ)) z w) t) i ^ 2) (fun _ _ => sq_nonneg _)
        (Finset.mem_range.2 (by omega))
    have he2 : 0 < e ^ 2 := by positivity
    rw [Real.norm_eq_abs, abs_inv, abs_of_pos (lt_of_lt_of_le he2 hge)]
    exact inv_anti₀ he2 hge
  obtain ⟨k', rfl⟩ : ∃ k', k = k' + 1 := ⟨k - 1, by omega⟩
  have hsum : Integrable (fun w => ∑ j ∈ Finset.range k', Spec.bks A.mulVec (fun t => gaussVec d (streamCol N (splice (· = (i : ℕ)) z w) t)) (j + 1 + 1) i)
      gaussStream := integrable_finsetSum _ fun j _ => hR2 (j + 1) (by omega)
  refine gauss_inv_not_integrable i ?_
  have i3 : Integrable (fun w => c⁻¹ * (((k' + 1 : ℕ) : ℝ) * gaussDiag d A (k' + 1) i (splice (· = (i : ℕ)) z w) -
      (∑ j ∈ Finset.range k', Spec.bks A.mulVec (fun t => gaussVec d (streamCol N (splice (· = (i : ℕ)) z w) t)) (j + 1 + 1) i) - A i i)) gaussStream :=
    (((hz1.const_mul _).sub hsum).sub (integrable_const _)).const_mul _
  refine i3.congr ?_
  filter_upwards [gauss_ne_zero i] with w hw
  unfold gaussDiag
  rw [Finset.sum_range_succ', hR1 w hw]
  field_simp
  ring

/-- **C120**: with independent standard normal numbers, `diag` with `pdf="normal"` or `pdf="sphere"` and `CountCriterion(k)` almost surely returns a finite vector
(all divisors are different from zero), but entry `i` of this vector has no expectation as soon as row `i` of the matrix has a non-zero entry off the diagonal, for
every number `k` of vectors.  The documented claim that isotropic vectors give an unbiased estimator fails. -/
theorem C120_no_expectation [IsProbabilityMeasure P] (tppf : ℝ → ℕ → ℝ) (zscore : ℝ → ℝ) (A : Matrix (Fin N) (Fin N) ℝ) (hN : N ≠ 0) (k : ℕ) (hk : 0 < k)
    (name : String) (hname : name = "normal" ∨ name = "sphere") (u X : ℕ → Ω → ℝ) (hX : Spec.IidNormal P X) :
    ∃ est : Ω → Fin N → ℝ,
      (∀ᵐ ω ∂P, diag tppf zscore ⟨fun q => u q ω, fun q => X q ω⟩ (diagArgs A name k) (k + 1) = some (.ok (.arr (.val (est ω)), [])) ∧
        ∀ pdf, isotropicPdf name ⟨fun q => u q ω, fun q => X q ω⟩ N = .ok pdf → ∀ t i, Spec.draw1 pdf t i ≠ 0) ∧
      ∀ i l, l ≠ i → A i l ≠ 0 → ¬ Integrable (fun ω => est ω i) P := by
  obtain ⟨d, hd, hd'⟩ : ∃ d : IsoDist, d ≠ .rademacher ∧ ∀ rng : Rng, isotropicPdf name rng N = .ok fun history b => d.fill N b rng (history.sum * N) := by
    rcases hname with rfl | rfl
    · exact ⟨.normal, by simp, fun rng => rfl⟩
    · exact ⟨.sphere, by simp, fun rng => rfl⟩
  have hdraw : ∀ ω t, Spec.draw1 (fun history b => d.fill N b ⟨fun q => u q ω, fun q => X q ω⟩ (history.sum * N)) t = gaussVec d (streamCol N (fun q => X q ω) t) := by
    intro ω t
    cases d with
    | rademacher => exact absurd rfl hd
    | normal =>
      funext i
      simp only [Spec.draw1, IsoDist.fill, rawCols, List.sum_replicate, smul_eq_mul, mul_one, Fin.val_zero, zero_mul, add_zero, gaussVec, streamCol]
    | sphere =>
      simp only [Spec.draw1, IsoDist.fill, List.sum_replicate, smul_eq_mul, mul_one, gaussVec]
      congr 1
      funext i
      simp only [rawCols, Fin.val_zero, zero_mul, add_zero, streamCol]
  refine ⟨fun ω i => gaussDiag d A k i fun q => X q ω, ?_, fun i l hl hA hint => ?_⟩
  · have h1 : ∀ᵐ ω ∂P, ∀ q, X q ω ≠ 0 := by
      rw [ae_all_iff]
      intro q
      have h2 := gauss_ne_zero q
      rw [← iidNormal_law hX] at h2
      exact ae_of_ae_map (iidNormal_aemeasurable hX) h2
    filter_upwards [h1] with ω hω
    constructor
    · rw [diag_count tppf zscore _ (diagArgs A name k) hN name rfl _ (hd' _) k rfl rfl rfl, destAt_estimate, if_neg hk.ne']
      have h3 : Spec.draw1 (fun history b => d.fill N b ⟨fun q => u q ω, fun q => X q ω⟩ (history.sum * N)) =
          fun t => gaussVec d (streamCol N (fun q => X q ω) t) := funext (hdraw ω)
      rw [h3]
      rfl
    · intro pdf hp t i
      obtain rfl := Except.ok.inj ((hd' _).symm.trans hp)
      rw [hdraw]
      have hx : streamCol N (fun q => X q ω) t i ≠ 0 := hω _
      obtain ⟨s, hs, hsx⟩ := gaussVec_scale d (streamCol N (fun q => X q ω) t) fun h0 => hx (by rw [h0]; rfl)
      rw [hsx]
      exact mul_ne_zero hs hx
  · refine gaussDiag_not_integrable d A i l hl hA k hk ?_
    rw [← iidNormal_law hX]
    exact (integrable_map_measure (gaussDiag_measurable d A k i).aestronglyMeasurable (iidNormal_aemeasurable hX)).2 hint

/-- A matrix and a generator meeting the hypotheses of `C120_no_expectation`. -/
example (tppf : ℝ → ℕ → ℝ) (zscore : ℝ → ℝ) : ∃ est : (ℕ → ℝ) → Fin 2 → ℝ,
    (∀ᵐ z ∂gaussStream, diag tppf zscore ⟨fun _ => 0, z⟩ (diagArgs !![2, 1; 1, 3] "normal" 100) 101 = some (.ok (.arr (.val (est z)), []))) ∧
    ¬ Integrable (fun z => est z 0) gaussStream := by
  obtain ⟨est, h1, h2⟩ := C120_no_expectation tppf zscore !![2, 1; 1, 3] (by norm_num) 100 (by norm_num) "normal" (.inl rfl) (fun _ _ => 0) _ iidNormal_exists
  exact ⟨est, h1.mono fun z hz => hz.1, h2 0 1 (by norm_num) (by simp)⟩

/-! ## Rademacher vectors -/

/-- The weight of vector `s` in the running mean of the first `k` ratio estimators. -/
def diagW (k s : ℕ) : ℝ := (∑ t ∈ Finset.range k, if s ≤ t then 1 / ((t : ℝ) + 1) else 0) / k

theorem sum_le_range (k t : ℕ) (ht : t < k) (f : ℕ → ℝ) : ∑ s ∈ Finset.range k, (if s ≤ t then f s else 0) = ∑ s ∈ Finset.range (t + 1), f s := by
  rw [← Finset.sum_filter]
  refine Finset.sum_congr ?_ fun _ _ => rfl
  ext s
  simp only [Finset.mem_range, Finset.mem_filter]
  omega

theorem diagW_sum (k : ℕ) (f : ℕ → ℝ) : ∑ s ∈ Finset.range k, diagW k s * f s =
    (∑ t ∈ Finset.range k, (∑ s ∈ Finset.range (t + 1), f s) / ((t : ℝ) + 1)) / k := by
  unfold diagW
  simp only [div_mul_eq_mul_div, ← Finset.sum_div, Finset.sum_mul]
  rw [Finset.sum_comm]
  congr 1
  refine Finset.sum_congr rfl fun t ht => ?_
  rw [← sum_le_range k t (Finset.mem_range.1 ht) f, Finset.sum_div]
  refine Finset.sum_congr rfl fun s _ => ?_
  split_ifs
  · rw [one_div, inv_mul_eq_div]
  · simp

theorem diagW_one (k : ℕ) (hk : 0 < k) : ∑ s ∈ Finset.range k, diagW k s = 1 := by
  have hk' : (k : ℝ) ≠ 0 := by exact_mod_cast hk.ne'
  have h := diagW_sum k fun _ => 1
  simp only [mul_one, Finset.sum_const, Finset.card_range, nsmul_eq_mul] at h
  rw [h]
  have h2 : ∀ t : ℕ, ((t + 1 : ℕ) : ℝ) / ((t : ℝ) + 1) = 1 := fun t => by
    rw [Nat.cast_succ]
    exact div_self (by positivity)
  simp only [h2, Finset.sum_const, Finset.card_range, nsmul_eq_mul, mul_one]
  exact div_self hk'

theorem sum_min (k : ℕ) : ∑ t ∈ Finset.range k, ∑ r ∈ Finset.range k, ((min t r : ℕ) + 1 : ℝ) / (((t : ℝ) + 1) * ((r : ℝ) + 1)) =
    2 * k - ∑ m ∈ Finset.range k, 1 / ((m : ℝ) + 1) := by
  induction k with
  | zero => simp
  | succ k ih =>
    have h1 : ∀ r ∈ Finset.range k, ((min k r : ℕ) + 1 : ℝ) / (((k : ℝ) + 1) * ((r : ℝ) + 1)) = 1 / ((k : ℝ) + 1) := by
      intro r hr
      rw [min_eq_right (Finset.mem_range.1 hr).le]
      field_simp
    have h2 : ∀ t ∈ Finset.range k, ((min t k : ℕ) + 1 : ℝ) / (((t : ℝ) + 1) * ((k : ℝ) + 1)) = 1 / ((k : ℝ) + 1) := by
      intro t ht
      rw [min_eq_left (Finset.mem_range.1 ht).le]
      field_simp
    rw [Finset.sum_range_succ, Finset.sum_range_succ (f := fun r => ((min k r : ℕ) + 1 : ℝ) / (((k : ℝ) + 1) * ((r : ℝ) + 1))), Finset.sum_congr rfl h1]
    simp only [Finset.sum_range_succ (n := k)]
    rw [Finset.sum_add_distrib, ih, Finset.sum_congr rfl h2, min_self]
    simp only [Finset.sum_const, Finset.card_range, nsmul_eq_mul]
    push_cast
    field_simp
    ring

/-- The sum of the squared weights is `(2 k - (1 + 1/2 + … + 1/k)) / k²`. -/
theorem diagW_sq (k : ℕ) : ∑ s ∈ Finset.range k, diagW k s ^ 2 = (2 * k - ∑ m ∈ Finset.range k, 1 / ((m : ℝ) + 1)) / (k : ℝ) ^ 2 := by
  rw [← sum_min]
  unfold diagW
  simp only [div_pow, ← Finset.sum_div]
  congr 1
  simp only [pow_two, Finset.sum_mul_sum]
  rw [Finset.sum_comm]
  refine Finset.sum_congr rfl fun t ht => ?_
  rw [Finset.sum_comm]
  refine Finset.sum_congr rfl fun r hr => ?_
  have h1 : ∀ s, (if s ≤ t then 1 / ((t : ℝ) + 1) else 0) * (if s ≤ r then 1 / ((r : ℝ) + 1) else 0) =
      if s ≤ min t r then 1 / (((t : ℝ) + 1) * ((r : ℝ) + 1)) else 0 := by
    intro s
    simp only [le_min_iff]
    by_cases a : s ≤ t <;> by_cases b : s ≤ r <;> simp [a, b]
    ring
  simp only [h1]
  rw [sum_le_range k (min t r) (lt_of_le_of_lt (min_le_left _ _) (Finset.mem_range.1 ht)) fun _ => 1 / (((t : ℝ) + 1) * ((r : ℝ) + 1))]
  simp only [Finset.sum_const, Finset.card_range, nsmul_eq_mul]
  push_cast
  ring

/-- The running mean for vectors with entries `±1`. -/
theorem bks_mean_signs (A : Matrix (Fin N) (Fin N) ℝ) (v : ℕ → Vec N) (k : ℕ) (i : Fin N) (hv : ∀ t, t < k → v t i ^ 2 = 1) :
    (∑ j ∈ Finset.range k, Spec.bks A.mulVec v (j + 1) i) / k = ∑ s ∈ Finset.range k, diagW k s * ((A *ᵥ v s) i * v s i) := by
  rw [diagW_sum k fun s => (A *ᵥ v s) i * v s i]
  congr 1
  refine Finset.sum_congr rfl fun t ht => ?_
  unfold Spec.bks
  congr 1
  rw [Finset.sum_congr rfl fun s hs => hv s (by have := Finset.mem_range.1 hs; have := Finset.mem_range.1 ht; omega)]
  simp

/-- What a sign pattern contributes: the product minus the diagonal entry. -/
def rowDev (A : Matrix (Fin N) (Fin N) ℝ) (i : Fin N) (x : Fin N → Bool) : ℝ := (A *ᵥ fun j => sgn (x j)) i * sgn (x i) - A i i

theorem rowDev_eq (A : Matrix (Fin N) (Fin N) ℝ) (i : Fin N) (x : Fin N → Bool) :
    rowDev A i x = ∑ j, if j = i then 0 else A i j * (sgn (x j) * sgn (x i)) := by
  have h1 : ∀ j, (if j = i then 0 else A i j * (sgn (x j) * sgn (x i))) = A i j * sgn (x j) * sgn (x i) - if j = i then A i i else 0 := by
    intro j
    by_cases h : j = i
    · subst h
      simp only [if_true]
      rw [mul_assoc, sgn_mul_self]
      ring
    · simp only [if_neg h]
      ring
  simp only [h1, Finset.sum_sub_distrib, Finset.sum_ite_eq', Finset.mem_univ, if_true, ← Finset.sum_mul]
  rfl

theorem rowDev_abs (A : Matrix (Fin N) (Fin N) ℝ) (i : Fin N) (x : Fin N → Bool) : |rowDev A i x| ≤ ∑ j, if j = i then 0 else |A i j| := by
  rw [rowDev_eq]
  refine (Finset.abs_sum_le_sum_abs _ _).trans (Finset.sum_le_sum fun j _ => ?_)
  split_ifs
  · simp
  · rw [abs_mul]
    refine mul_le_of_le_one_right (abs_nonneg _) ?_
    cases x j <;> cases x i <;> simp [sgn]

theorem rowDev_zero (A : Matrix (Fin N) (Fin N) ℝ) (i : Fin N) : ∑ x, rowDev A i x = 0 := by
  simp only [rowDev_eq]
  rw [Finset.sum_comm]
  refine Finset.sum_eq_zero fun j _ => ?_
  split_ifs with hij
  · simp
  · refine sum_signs_flip i _ fun ω => ?_
    rw [sgn_flip, sgn_flip, if_pos rfl, if_neg hij]
    ring

/-- Two vectors are uncorrelated; one has the variance `Σ_{j ≠ i} A_ij²`. -/
theorem rowDev_cov (A : Matrix (Fin N) (Fin N) ℝ) (i : Fin N) (k : ℕ) (s r : Fin k) :
    ∑ b : Fin k × Fin N → Bool, rowDev A i (fun j => b (s, j)) * rowDev A i (fun j => b (r, j)) =
      if s = r then 2 ^ (k * N) * ∑ j, (if j = i then 0 else A i j ^ 2) else 0 := by
  simp only [rowDev_eq, Finset.sum_mul_sum]
  rw [Finset.sum_comm]
  have h1 : ∀ j, ∑ b : Fin k × Fin N → Bool, ∑ l, (if j = i then 0 else A i j * (sgn (b (s, j)) * sgn (b (s, i)))) *
      (if l = i then 0 else A i l * (sgn (b (r, l)) * sgn (b (r, i)))) =
      if s = r then 2 ^ (k * N) * (if j = i then 0 else A i j ^ 2) else 0 := by
    intro j
    by_cases hj : j = i
    · simp [hj]
    rw [Finset.sum_comm]
    have h2 : ∀ l, ∑ b : Fin k × Fin N → Bool, (if j = i then 0 else A i j * (sgn (b (s, j)) * sgn (b (s, i)))) *
        (if l = i then 0 else A i l * (sgn (b (r, l)) * sgn (b (r, i)))) = if l = j then (if s = r then 2 ^ (k * N) * A i j ^ 2 else 0) else 0 := by
      intro l
      by_cases hl : l = i
      · subst hl
        simp [Ne.symm hj]
      · simp only [if_neg hj, if_neg hl]
        have h3 : ∀ b : Fin k × Fin N → Bool, A i j * (sgn (b (s, j)) * sgn (b (s, i))) * (A i l * (sgn (b (r, l)) * sgn (b (r, i)))) =
            A i j * A i l * (sgn (b (s, j)) * sgn (b (s, i)) * (sgn (b (r, l)) * sgn (b (r, i)))) := fun b => by ring
        simp only [h3, ← Finset.mul_sum]
        rw [sum_signs4 (by simpa using hj) (by simpa using hl)]
        simp only [Prod.mk.injEq, Fintype.card_prod, Fintype.card_fin]
        by_cases hsr : s = r
        · by_cases hlj : l = j
          · subst hlj
            simp [hsr]
            ring
          · simp [hsr, hlj, Ne.symm hlj, hj, Ne.symm hj, hl, Ne.symm hl]
        · simp [hsr]
    rw [Finset.sum_congr rfl fun l _ => h2 l]
    simp [hj]
  simp only [h1]
  split_ifs
  · rw [← Finset.mul_sum]
  · simp

/-- One-sided tail of a weighted sum of independent copies. -/
theorem hoeffding_weighted {ι : Type} [Fintype ι] (X : ι → ℝ) (B : ℝ) (hB : 0 < B) (hX : ∀ i, |X i| ≤ B) (h0 : ∑ i, X i = 0) (k : ℕ) (w : Fin k → ℝ)
    (hw : 0 < ∑ t, w t ^ 2) (ε : ℝ) (hε : 0 < ε) :
    ((Finset.univ.filter fun ω : Fin k → ι => ε ≤ ∑ t, w t * X (ω t)).card : ℝ) ≤
      (Fintype.card ι : ℝ) ^ k * Real.exp (-(ε ^ 2 / (2 * B ^ 2 * ∑ t, w t ^ 2))) := by
  obtain ⟨W, hW⟩ : ∃ W, W = ∑ t, w t ^ 2 := ⟨_, rfl⟩
  rw [← hW] at hw ⊢
  obtain ⟨s, hs⟩ : ∃ s, s = ε / (B ^ 2 * W) := ⟨_, rfl⟩
  have hs0 : 0 < s := by rw [hs]; positivity
  have h1 : ((Finset.univ.filter fun ω : Fin k → ι => ε ≤ ∑ t, w t * X (ω t)).card : ℝ) ≤
      ∑ ω : Fin k → ι, Real.exp (s * (∑ t, w t * X (ω t)) - s * ε) := by
    rw [Finset.card_eq_sum_ones, Nat.cast_sum, Finset.sum_filter]
    refine Finset.sum_le_sum fun ω _ => ?_
    split_ifs with h
    · rw [Nat.cast_one, ← Real.exp_zero]
      refine Real.exp_le_exp.2 ?_
      rw [← mul_sub]
      exact mul_nonneg hs0.le (by linarith)
    · exact (Real.exp_pos _).le
  refine h1.trans ?_
  have h2 : ∀ ω : Fin k → ι, Real.exp (s * (∑ t, w t * X (ω t)) - s * ε) = (∏ t, Real.exp (s * w t * X (ω t))) * Real.exp (-(s * ε)) := by
    intro ω
    rw [← Real.exp_sum, ← Real.exp_add, Finset.mul_sum, sub_eq_add_neg]
    simp only [mul_assoc]
  simp only [h2, ← Finset.sum_mul]
  have h3 : ∑ ω : Fin k → ι, ∏ t, Real.exp (s * w t * X (ω t)) = ∏ t, ∑ i, Real.exp (s * w t * X i) := by
    classical
    exact (Fintype.prod_sum (κ := fun _ : Fin k => ι) fun t i => Real.exp (s * w t * X i)).symm
  rw [h3]
  have h4 : ∏ t, ∑ i, Real.exp (s * w t * X i) ≤ ∏ t : Fin k, (Fintype.card ι : ℝ) * Real.exp ((s * w t) ^ 2 * B ^ 2 / 2) :=
    Finset.prod_le_prod (fun t _ => Finset.sum_nonneg fun i _ => (Real.exp_pos _).le) fun t _ => hoeffding_mgf X B hB hX h0 (s * w t)
  refine (mul_le_mul_of_nonneg_right h4 (Real.exp_pos _).le).trans (le_of_eq ?_)
  rw [Finset.prod_mul_distrib, Finset.prod_const, Finset.card_univ, Fintype.card_fin, ← Real.exp_sum, mul_assoc, ← Real.exp_add]
  congr 2
  have h5 : ∑ t, (s * w t) ^ 2 * B ^ 2 / 2 = s ^ 2 * B ^ 2 / 2 * W := by
    rw [hW, Finset.mul_sum]
    exact Finset.sum_congr rfl fun t _ => by ring
  rw [h5, hs]
  field_simp
  ring

/-- The estimate of entry `i` as a function of the sign pattern. -/
def signDiag (A : Matrix (Fin N) (Fin N) ℝ) (k : ℕ) (b : Fin k × Fin N → Bool) (i : Fin N) : ℝ := A i i + ∑ s : Fin k, diagW k s * rowDev A i fun j => b (s, j)

theorem signDiag_mean (A : Matrix (Fin N) (Fin N) ℝ) (k : ℕ) (i : Fin N) : (∑ b, signDiag A k b i) / 2 ^ (k * N) = A i i := by
  have h1 : ∀ s : Fin k, ∑ b : Fin k × Fin N → Bool, rowDev A i (fun j => b (s, j)) = 0 := by
    intro s
    simp only [rowDev_eq]
    rw [Finset.sum_comm]
    refine Finset.sum_eq_zero fun j _ => ?_
    split_ifs with hij
    · simp
    · refine sum_signs_flip (s, i) _ fun ω => ?_
      rw [sgn_flip, sgn_flip, if_pos rfl, if_neg (by simpa using hij)]
      ring
  unfold signDiag
  rw [Finset.sum_add_distrib, Finset.sum_comm]
  simp only [← Finset.mul_sum, h1, mul_zero, Finset.sum_const_zero, add_zero, Finset.sum_const, Finset.card_univ, Fintype.card_fun, Fintype.card_bool,
    Fintype.card_prod, Fintype.card_fin, nsmul_eq_mul, Nat.cast_pow, Nat.cast_ofNat]
  field_simp

theorem signDiag_mse (A : Matrix (Fin N) (Fin N) ℝ) (k : ℕ) (i : Fin N) :
    (∑ b, (signDiag A k b i - A i i) ^ 2) / 2 ^ (k * N) =
      (∑ j, if j = i then 0 else A i j ^ 2) * (2 * k - ∑ m ∈ Finset.range k, 1 / ((m : ℝ) + 1)) / (k : ℝ) ^ 2 := by
  have h1 : ∀ b : Fin k × Fin N → Bool, (signDiag A k b i - A i i) ^ 2 =
      ∑ s : Fin k, ∑ r : Fin k, diagW k s * diagW k r * (rowDev A i (fun j => b (s, j)) * rowDev A i fun j => b (r, j)) := by
    intro b
    unfold signDiag
    rw [add_sub_cancel_left, pow_two, Finset.sum_mul_sum]
    exact Finset.sum_congr rfl fun s _ => Finset.sum_congr rfl fun r _ => by ring
  simp only [h1]
  rw [Finset.sum_comm]
  have h2 : ∀ s : Fin k, ∑ b : Fin k × Fin N → Bool, ∑ r : Fin k, diagW k s * diagW k r * (rowDev A i (fun j => b (s, j)) * rowDev A i fun j => b (r, j)) =
      diagW k s ^ 2 * (2 ^ (k * N) * ∑ j, if j = i then 0 else A i j ^ 2) := by
    intro s
    rw [Finset.sum_comm]
    simp only [← Finset.mul_sum, rowDev_cov, mul_ite, mul_zero]
    rw [Finset.sum_ite_eq]
    simp only [Finset.mem_univ, if_true]
    ring
  simp only [h2]
  rw [← Finset.sum_mul, Fin.sum_univ_eq_sum_range (fun s => diagW k s ^ 2), diagW_sq]
  field_simp

theorem harmonic_le (k : ℕ) : ∑ m ∈ Finset.range k, 1 / ((m : ℝ) + 1) ≤ k := by
  refine (Finset.sum_le_sum fun m _ => ?_).trans (b := ∑ _m ∈ Finset.range k, (1 : ℝ)) (by simp)
  rw [div_le_one (by positivity)]
  linarith [Nat.cast_nonneg (α := ℝ) m]

theorem signDiag_tail (A : Matrix (Fin N) (Fin N) ℝ) (k : ℕ) (hk : 0 < k) (i : Fin N) (hB : 0 < ∑ j, if j = i then 0 else |A i j|) (ε : ℝ) (hε : 0 < ε)
    [DecidablePred fun b : Fin k × Fin N → Bool => ε ≤ |signDiag A k b i - A i i|] :
    ((Finset.univ.filter fun b : Fin k × Fin N → Bool => ε ≤ |signDiag A k b i - A i i|).card : ℝ) / 2 ^ (k * N) ≤
      2 * Real.exp (-((k : ℝ) ^ 2 * ε ^ 2 / (2 * (∑ j, if j = i then 0 else |A i j|) ^ 2 * (2 * k - ∑ m ∈ Finset.range k, 1 / ((m : ℝ) + 1))))) := by
  classical
  have hk' : (0 : ℝ) < k := by exact_mod_cast hk
  obtain ⟨B, hBe⟩ : ∃ B, B = ∑ j, if j = i then 0 else |A i j| := ⟨_, rfl⟩
  obtain ⟨H, hH⟩ : ∃ H, H = ∑ m ∈ Finset.range k, 1 / ((m : ℝ) + 1) := ⟨_, rfl⟩
  have hH2 : 0 < 2 * k - H := by
    have := harmonic_le k
    rw [← hH] at this
    linarith
  rw [← hBe] at hB ⊢
  rw [← hH]
  have hW : ∑ s : Fin k, diagW k s ^ 2 = (2 * k - H) / (k : ℝ) ^ 2 := by
    rw [Fin.sum_univ_eq_sum_range (fun s => diagW k s ^ 2), diagW_sq, hH]
  have hW' : ∑ s : Fin k, (-diagW k s) ^ 2 = (2 * k - H) / (k : ℝ) ^ 2 := by
    rw [← hW]
    exact Finset.sum_congr rfl fun s _ => neg_sq _
  have hWpos : 0 < (2 * k - H) / (k : ℝ) ^ 2 := by positivity
  have hX : ∀ x, |rowDev A i x| ≤ B := fun x => by rw [hBe]; exact rowDev_abs A i x
  have t1 := hoeffding_weighted (rowDev A i) B hB hX (rowDev_zero A i) k (fun s => diagW k s) (by rw [hW]; exact hWpos) ε hε
  have t2 := hoeffding_weighted (rowDev A i) B hB hX (rowDev_zero A i) k (fun s => -diagW k s) (by rw [hW']; exact hWpos) ε hε
  rw [hW] at t1
  rw [hW'] at t2
  have h2 : (Finset.univ.filter fun b : Fin k × Fin N → Bool => ε ≤ |signDiag A k b i - A i i|).card ≤
      (Finset.univ.filter fun ω : Fin k → Fin N → Bool => ε ≤ ∑ s : Fin k, diagW k s * rowDev A i (ω s)).card +
      (Finset.univ.filter fun ω : Fin k → Fin N → Bool => ε ≤ ∑ s : Fin k, -diagW k s * rowDev A i (ω s)).card := by
    refine le_trans ?_ (Finset.card_union_le _ _)
    refine Finset.card_le_card_of_injOn (fun b s j => b (s, j)) ?_ ?_
    · intro b hb
      simp only [Finset.coe_filter, Finset.mem_univ, true_and, Set.mem_ofPred_eq, Finset.coe_union, Set.mem_union, signDiag, add_sub_cancel_left] at hb ⊢
      rcases le_abs.1 hb with h | h
      · exact .inl h
      · right
        refine h.trans (le_of_eq ?_)
        rw [← Finset.sum_neg_distrib]
        exact Finset.sum_congr rfl fun s _ => by ring
    · intro b _ b' _ h
      funext ⟨s, j⟩
      exact congrFun (congrFun h s) j
  have h3 : ((Finset.univ.filter fun b : Fin k × Fin N → Bool => ε ≤ |signDiag A k b i - A i i|).card : ℝ) ≤
      ((Finset.univ.filter fun ω : Fin k → Fin N → Bool => ε ≤ ∑ s : Fin k, diagW k s * rowDev A i (ω s)).card : ℝ) +
      ((Finset.univ.filter fun ω : Fin k → Fin N → Bool => ε ≤ ∑ s : Fin k, -diagW k s * rowDev A i (ω s)).card : ℝ) := by exact_mod_cast h2
  rw [div_le_iff₀ (by positivity)]
  have hcard : ((Fintype.card (Fin N → Bool) : ℕ) : ℝ) ^ k = 2 ^ (k * N) := by
    simp only [Fintype.card_fun, Fintype.card_bool, Fintype.card_fin, Nat.cast_pow, Nat.cast_ofNat]
    rw [← pow_mul, mul_comm]
  rw [hcard] at t1 t2
  have hexp : ε ^ 2 / (2 * B ^ 2 * ((2 * k - H) / (k : ℝ) ^ 2)) = (k : ℝ) ^ 2 * ε ^ 2 / (2 * B ^ 2 * (2 * k - H)) := by
    field_simp
  rw [hexp] at t1 t2
  linarith

/-- What `diag` returns for a generator with values in `[0, 1)`. -/
theorem diag_signs (tppf : ℝ → ℕ → ℝ) (zscore : ℝ → ℝ) (A : Matrix (Fin N) (Fin N) ℝ) (hN : N ≠ 0) (k : ℕ) (hk : 0 < k) (u X : ℕ → Ω → ℝ) (ω : Ω)
    (hω : ∀ q, u q ω ∈ Set.Ico (0 : ℝ) 1) :
    diag tppf zscore ⟨fun q => u q ω, fun q => X q ω⟩ (diagArgs A "rademacher" k) (k + 1) =
      some (.ok (.arr (.val (signDiag A k (bitsOf k N u ω))), [])) := by
  rw [diag_count tppf zscore _ (diagArgs A "rademacher" k) hN "rademacher" rfl _ rfl k rfl rfl rfl, destAt_estimate, if_neg hk.ne']
  congr 5
  funext i
  set pdf : Pdf N := fun history b => IsoDist.rademacher.fill N b ⟨fun q => u q ω, fun q => X q ω⟩ (history.sum * N) with hpdf
  have hd : ∀ t : Fin k, Spec.draw1 pdf t = fun j => sgn (bitsOf k N u ω (t, j)) := by
    intro t
    funext j
    obtain ⟨h1, h2⟩ := hω (t * N + j)
    simp only [Spec.draw1, hpdf, IsoDist.fill, rawCols, List.sum_replicate, smul_eq_mul, mul_one, Fin.val_zero, zero_mul, add_zero]
    unfold bitsOf
    by_cases h : 1/2 ≤ u (t * N + j) ω
    · rw [decide_eq_true h]; exact (rademacherEntry_half _).2 h h2
    · rw [decide_eq_false h]; exact (rademacherEntry_half _).1 h1 (not_le.1 h)
  have h1 := bks_mean_signs A (Spec.draw1 pdf) k i fun t ht => by
    have := hd ⟨t, ht⟩
    simp only at this
    rw [this, pow_two, sgn_mul_self]
  show (∑ j ∈ Finset.range k, Spec.bks A.mulVec (Spec.draw1 pdf) (j + 1) i) / k = _
  rw [h1, ← Fin.sum_univ_eq_sum_range (fun s => diagW k s * ((A *ᵥ Spec.draw1 pdf s) i * Spec.draw1 pdf s i))]
  unfold signDiag rowDev
  have h2 : A i i = ∑ s : Fin k, diagW k s * A i i := by
    rw [← Finset.sum_mul, Fin.sum_univ_eq_sum_range (fun s => diagW k s), diagW_one k hk, one_mul]
  simp only [mul_sub, Finset.sum_sub_distrib]
  rw [← h2, add_sub_cancel]
  exact Finset.sum_congr rfl fun s _ => by rw [hd s]

private theorem uniform_range {u : ℕ → Ω → ℝ} (hu : Spec.IidUniform P u) : ∀ᵐ ω ∂P, ∀ q, u q ω ∈ Set.Ico (0 : ℝ) 1 := by
  rw [ae_all_iff]
  intro q
  have h1 : ∀ᵐ x ∂(volume.restrict (Set.Ico (0 : ℝ) 1)), x ∈ Set.Ico (0 : ℝ) 1 := ae_restrict_mem measurableSet_Ico
  rw [← (hu.law q).map_eq] at h1
  exact ae_of_ae_map (hu.law q).aemeasurable h1

/-- **C120**, the part that holds: with independent uniform numbers in `[0, 1)` and Rademacher vectors the expectation of `diag` with `CountCriterion(k)` is the
diagonal.  Missing: the samplers based on normal numbers, for which `C120_no_expectation` shows the opposite. -/
theorem C120_unbiased_partial [IsProbabilityMeasure P] (tppf : ℝ → ℕ → ℝ) (zscore : ℝ → ℝ) (A : Matrix (Fin N) (Fin N) ℝ) (hN : N ≠ 0) (k : ℕ) (hk : 0 < k)
    (u X : ℕ → Ω → ℝ) (hu : Spec.IidUniform P u) :
    ∃ est : Ω → Fin N → ℝ,
      (∀ᵐ ω ∂P, diag tppf zscore ⟨fun q => u q ω, fun q => X q ω⟩ (diagArgs A "rademacher" k) (k + 1) = some (.ok (.arr (.val (est ω)), []))) ∧
      ∀ i, Integrable (fun ω => est ω i) P ∧ ∫ ω, est ω i ∂P = A i i := by
  refine ⟨fun ω => signDiag A k (bitsOf k N u ω), ?_, fun i => ⟨(bitsOf_integral hu k N fun b => signDiag A k b i).1, ?_⟩⟩
  · filter_upwards [uniform_range hu] with ω hω
    exact diag_signs tppf zscore A hN k hk u X ω hω
  · rw [(bitsOf_integral hu k N fun b => signDiag A k b i).2, signDiag_mean]

/-- **C121**: mean squared error and tail of each entry of `diag` with Rademacher vectors and `CountCriterion(k)`.  The factor `(2 k - H_k) / k²`, with
`H_k = 1 + 1/2 + … + 1/k`, replaces the factor `1 / k` of the plain average, because the code averages the successive ratio estimators. -/
theorem C121_rademacher [IsProbabilityMeasure P] (tppf : ℝ → ℕ → ℝ) (zscore : ℝ → ℝ) (A : Matrix (Fin N) (Fin N) ℝ) (hN : N ≠ 0) (k : ℕ) (hk : 0 < k)
    (u X : ℕ → Ω → ℝ) (hu : Spec.IidUniform P u) :
    ∃ est : Ω → Fin N → ℝ,
      (∀ᵐ ω ∂P, diag tppf zscore ⟨fun q => u q ω, fun q => X q ω⟩ (diagArgs A "rademacher" k) (k + 1) = some (.ok (.arr (.val (est ω)), []))) ∧
      ∀ i, Integrable (fun ω => (est ω i - A i i) ^ 2) P ∧
        ∫ ω, (est ω i - A i i) ^ 2 ∂P = (∑ j, if j = i then 0 else A i j ^ 2) * (2 * k - ∑ m ∈ Finset.range k, 1 / ((m : ℝ) + 1)) / (k : ℝ) ^ 2 ∧
        ∀ B, B = (∑ j, if j = i then 0 else |A i j|) → 0 < B → ∀ ε : ℝ, 0 < ε →
          P.real {ω | ε ≤ |est ω i - A i i|} ≤ 2 * Real.exp (-((k : ℝ) ^ 2 * ε ^ 2 / (2 * B ^ 2 * (2 * k - ∑ m ∈ Finset.range k, 1 / ((m : ℝ) + 1))))) := by
  classical
  refine ⟨fun ω => signDiag A k (bitsOf k N u ω), ?_, fun i => ⟨(bitsOf_integral hu k N fun b => (signDiag A k b i - A i i) ^ 2).1, ?_, ?_⟩⟩
  · filter_upwards [uniform_range hu] with ω hω
    exact diag_signs tppf zscore A hN k hk u X ω hω
  · rw [(bitsOf_integral hu k N fun b => (signDiag A k b i - A i i) ^ 2).2, signDiag_mse]
  · rintro B rfl hB ε hε
    rw [bitsOf_share hu k N fun b => ε ≤ |signDiag A k b i - A i i|]
    exact signDiag_tail A k hk i hB ε hε

/-- **C121**: from two vectors on the factor is strictly larger than that of the plain average of `k` products, and smaller than that of `k / 2` products. -/
theorem C121_factor (k : ℕ) (hk : 2 ≤ k) :
    1 / (k : ℝ) < (2 * k - ∑ m ∈ Finset.range k, 1 / ((m : ℝ) + 1)) / (k : ℝ) ^ 2 ∧
    (2 * k - ∑ m ∈ Finset.range k, 1 / ((m : ℝ) + 1)) / (k : ℝ) ^ 2 < 2 / k := by
  obtain ⟨k, rfl⟩ : ∃ n, k = n + 2 := ⟨k - 2, by omega⟩
  have h1 : ∑ m ∈ Finset.range (k + 2), 1 / ((m : ℝ) + 1) < ((k + 2 : ℕ) : ℝ) := by
    rw [Finset.sum_range_succ]
    have h := harmonic_le (k + 1)
    have h2 : 1 / (((k + 1 : ℕ) : ℝ) + 1) < 1 := by
      rw [div_lt_one (by positivity)]
      push_cast
      linarith [Nat.cast_nonneg (α := ℝ) k]
    push_cast at *
    linarith
  have h3 : 0 < ∑ m ∈ Finset.range (k + 2), 1 / ((m : ℝ) + 1) := Finset.sum_pos (fun m _ => by positivity) ⟨0, by simp⟩
  have hk' : (0 : ℝ) < ((k + 2 : ℕ) : ℝ) := by positivity
  constructor
  · rw [div_lt_div_iff₀ hk' (by positivity)]
    nlinarith
  · rw [div_lt_div_iff₀ (by positivity) hk']
    nlinarith

/-- `C121_rademacher` at work: four vectors and `[[2, 1], [1, 3]]` give the mean squared error `(8 - 25/12) / 16 = 71 / 192` instead of `1 / 4`. -/
example (tppf : ℝ → ℕ → ℝ) (zscore : ℝ → ℝ) : ∃ (P : Measure (ℕ → ℝ)) (est : (ℕ → ℝ) → Fin 2 → ℝ), IsProbabilityMeasure P ∧
    (∀ᵐ z ∂P, diag tppf zscore ⟨z, fun _ => 0⟩ (diagArgs !![(2 : ℝ), 1; 1, 3] "rademacher" 4) 5 = some (.ok (.arr (.val (est z)), []))) ∧
    ∫ z, (est z 0 - 2) ^ 2 ∂P = 71 / 192 := by
  obtain ⟨P, hP, hu⟩ := iidUniform_exists
  obtain ⟨est, h1, h2⟩ := C121_rademacher tppf zscore !![(2 : ℝ), 1; 1, 3] (by norm_num) 4 (by norm_num) _ (fun _ _ => 0) hu
  refine ⟨P, est, hP, h1, (h2 0).2.1.trans ?_⟩
  simp [Fin.sum_univ_two, Finset.sum_range_succ]
  norm_num

end Primate
