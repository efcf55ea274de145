import Verif.Lemmas.Exists
import Verif.Lemmas.IsoIid
import Mathlib.Probability.Independence.ZeroOne
import Mathlib.MeasureTheory.Integral.Indicator

/-!
# Almost sure behaviour of partial sums, samples without ties
-/

noncomputable section

namespace Primate

open MeasureTheory ProbabilityTheory Filter
open scoped Topology

variable {N : ℕ} {Ω : Type*} [MeasurableSpace Ω] {P : Measure Ω} {Y : ℕ → Ω → ℝ} {μ V : ℝ}

theorem gauss_abs_lt_one (q : ℝ) : (gaussianReal 0 1).real {z | |z| ≤ q} < 1 := by
  have h1 : (gaussianReal 0 1).real {z | |z| ≤ q} ≤ (gaussianReal 0 1).real (Set.Iic q) :=
    measureReal_mono fun z hz => le_trans (le_abs_self z) hz
  have h2 := gauss_cdf_strictMono (show q < q + 1 by linarith)
  have h3 : (gaussianReal 0 1).real (Set.Iic (q + 1)) ≤ 1 := measureReal_le_one
  simp only at h2
  linarith

theorem freq_shift {a b : ℕ → ℝ} {C M M' : ℝ} (hM : M' < M) (hab : ∀ᶠ n in atTop, |a n - b n| ≤ C) (h : ∃ᶠ n : ℕ in atTop, M * √n < |a n|) :
    ∃ᶠ n : ℕ in atTop, M' * √n < |b n| := by
  have h1 : Tendsto (fun n : ℕ => (M - M') * √n) atTop atTop :=
    (Real.tendsto_sqrt_atTop.comp tendsto_natCast_atTop_atTop).const_mul_atTop (by linarith)
  refine ((h.and_eventually hab).and_eventually (h1.eventually_gt_atTop C)).mono ?_
  rintro n ⟨⟨h2, h3⟩, h4⟩
  have h5 := abs_sub_abs_le_abs_sub (a n) (b n)
  nlinarith

theorem freq_measurable {α : Type*} {m : MeasurableSpace α} (F : ℕ → α → ℝ) (hF : ∀ n, Measurable (F n)) (c : ℕ → ℕ → ℝ) :
    MeasurableSet {ω | ∀ j : ℕ, ∃ᶠ n : ℕ in atTop, c j n < |F n ω|} := by
  simp only [frequently_atTop, Set.ofPred_forall, Set.ofPred_exists]
  exact MeasurableSet.iInter fun j => MeasurableSet.iInter fun a => MeasurableSet.iUnion fun b =>
    (MeasurableSet.const _).inter (measurableSet_lt measurable_const (hF b).abs)

omit [MeasurableSpace Ω] in
theorem tail_event (Y : ℕ → Ω → ℝ) (μ M : ℝ) :
    MeasurableSet[limsup (fun n => MeasurableSpace.comap (Y n) inferInstance) atTop]
      {ω | ∀ j : ℕ, ∃ᶠ n : ℕ in atTop, (M - 1 / (j + 1)) * √n < |∑ t ∈ Finset.range n, (Y t ω - μ)|} := by
  rw [limsup_eq_iInf_iSup_of_nat, MeasurableSpace.measurableSet_iInf]
  intro m
  have hset : {ω | ∀ j : ℕ, ∃ᶠ n : ℕ in atTop, (M - 1 / (j + 1)) * √n < |∑ t ∈ Finset.range n, (Y t ω - μ)|} =
      {ω | ∀ j : ℕ, ∃ᶠ n : ℕ in atTop, (M - 1 / (j + 1)) * √n < |∑ t ∈ Finset.Ico m n, (Y t ω - μ)|} := by
    ext ω
    have hd : ∀ᶠ n in atTop, |∑ t ∈ Finset.range n, (Y t ω - μ) - ∑ t ∈ Finset.Ico m n, (Y t ω - μ)| ≤ |∑ t ∈ Finset.range m, (Y t ω - μ)| := by
      filter_upwards [eventually_ge_atTop m] with n hn
      rw [← Finset.sum_range_add_sum_Ico _ hn, add_sub_cancel_right]
    have hd' : ∀ᶠ n in atTop, |∑ t ∈ Finset.Ico m n, (Y t ω - μ) - ∑ t ∈ Finset.range n, (Y t ω - μ)| ≤ |∑ t ∈ Finset.range m, (Y t ω - μ)| := by
      filter_upwards [hd] with n hn
      rwa [abs_sub_comm]
    have hj : ∀ j : ℕ, M - 1 / ((j : ℝ) + 1) < M - 1 / (((j + 1 : ℕ) : ℝ) + 1) := fun j => by
      have : (1 : ℝ) / (((j + 1 : ℕ) : ℝ) + 1) < 1 / ((j : ℝ) + 1) := one_div_lt_one_div_of_lt (by positivity) (by push_cast; linarith)
      linarith
    constructor
    · intro h j
      exact freq_shift (hj j) hd (h (j + 1))
    · intro h j
      exact freq_shift (hj j) hd' (h (j + 1))
  rw [hset]
  have hm : ∀ n, Measurable[⨆ i, ⨆ (_ : i ≥ m), MeasurableSpace.comap (Y i) inferInstance] fun ω => ∑ t ∈ Finset.Ico m n, (Y t ω - μ) := fun n => by
    refine @Finset.measurable_fun_sum ℝ ℕ Ω _ _ _ (⨆ i, ⨆ (_ : i ≥ m), MeasurableSpace.comap (Y i) inferInstance) _ _ fun t ht => ?_
    have h1 : Measurable[MeasurableSpace.comap (Y t) inferInstance] (Y t) := comap_measurable _
    exact (h1.mono (le_iSup₂_of_le t (Finset.mem_Ico.1 ht).1 le_rfl) le_rfl).sub_const μ
  exact freq_measurable _ hm fun j n => (M - 1 / (j + 1)) * √n

theorem unbounded_aux [IsProbabilityMeasure P] (h : IidSamples P Y μ V) (hm : ∀ t, Measurable (Y t)) (hV : 0 < V) (M : ℝ) :
    ∀ᵐ ω ∂P, ∃ᶠ n : ℕ in atTop, M * √n < |∑ t ∈ Finset.range n, (Y t ω - μ)| := by
  have h01 := measure_zero_or_one_of_measurableSet_limsup_atTop (fun n => (hm n).comap_le) h.indep (tail_event Y μ (M + 1))
  have hms : ∀ n, Measurable fun ω => ∑ t ∈ Finset.range n, (Y t ω - μ) := fun n => Finset.measurable_fun_sum _ fun t _ => (hm t).sub_const μ
  have hE := freq_measurable _ hms fun j n => (M + 1 - 1 / ((j : ℝ) + 1)) * √n
  rcases h01 with h0 | h1
  · exfalso
    have hbdd : ∀ᵐ ω ∂P, ∀ᶠ n : ℕ in atTop, |∑ t ∈ Finset.range n, (Y t ω - μ)| ≤ (M + 1) * √n := by
      have h2 := measure_eq_zero_iff_ae_notMem.1 h0
      filter_upwards [h2] with ω hω
      by_contra hc
      refine hω fun j => ?_
      refine (not_eventually.1 hc).mono fun n hn => ?_
      have h3 : (0 : ℝ) < 1 / (j + 1) := by positivity
      have h4 := Real.sqrt_nonneg (n : ℝ)
      have h5 := not_le.1 hn
      nlinarith
    have h2 := tendsto_measure_of_ae_tendsto_indicator_of_isFiniteMeasure (μ := P) atTop (A := Set.univ)
      (As := fun n : ℕ => {ω | |∑ t ∈ Finset.range n, (Y t ω - μ)| ≤ (M + 1) * √n}) MeasurableSet.univ (fun n => measurableSet_le (hms n).abs measurable_const) (by
        filter_upwards [hbdd] with ω hω
        filter_upwards [hω] with n hn
        exact ⟨fun _ => Set.mem_univ _, fun _ => hn⟩)
    have h3 := h.coverage hV ((M + 1) / √V) (fun _ _ => M + 1) (fun _ => aemeasurable_const) (Eventually.of_forall fun ω => by
      rw [div_mul_cancel₀ _ (Real.sqrt_pos.2 hV).ne']
      exact tendsto_const_nhds)
    have h4 : Tendsto (fun n : ℕ => P.real {ω | |∑ t ∈ Finset.range n, (Y t ω - μ)| ≤ (M + 1) * √n}) atTop (𝓝 1) := by
      have := (ENNReal.tendsto_toReal (measure_ne_top P Set.univ)).comp h2
      rwa [measure_univ] at this
    refine absurd (tendsto_nhds_unique h4 (h3.congr' ?_)) (gauss_abs_lt_one _).ne'
    filter_upwards [eventually_gt_atTop 0] with n hn
    congr 1
    ext ω
    have hn' : (0 : ℝ) < n := by exact_mod_cast hn
    have hs : 0 < √(n : ℝ) := Real.sqrt_pos.2 hn'
    have hsn : (n : ℝ) = √n * √n := (Real.mul_self_sqrt hn'.le).symm
    have h5 : √n * |smean (Y · ω) n - μ| = |∑ t ∈ Finset.range n, (Y t ω - μ)| / √n := by
      have h6 : ∑ t ∈ Finset.range n, (Y t ω - μ) = n * (smean (Y · ω) n - μ) := by
        rw [Finset.sum_sub_distrib, Finset.sum_const, Finset.card_range, nsmul_eq_mul]
        unfold smean
        field_simp
      rw [h6, abs_mul, abs_of_pos hn', eq_div_iff hs.ne']
      linear_combination (-|smean (Y · ω) n - μ|) * hsn
    simp only [Set.mem_ofPred_eq]
    rw [h5, div_le_iff₀ hs]
  · have h2 := (prob_compl_eq_zero_iff hE).2 h1
    filter_upwards [measure_eq_zero_iff_ae_notMem.1 h2] with ω hω
    have h3 := (not_not.1 hω) 0
    simpa using h3

/-- The error of the mean exceeds every multiple of `1 / √n` again and again. -/
theorem IidSamples.unbounded [IsProbabilityMeasure P] (h : IidSamples P Y μ V) (hV : 0 < V) (M : ℝ) :
    ∀ᵐ ω ∂P, ∃ᶠ n : ℕ in atTop, M < √n * |smean (Y · ω) n - μ| := by
  obtain ⟨Z, hZ⟩ : ∃ Z : ℕ → Ω → ℝ, Z = fun t => (h.aemeasurable t).mk (Y t) := ⟨_, rfl⟩
  have hYZ : ∀ t, Y t =ᵐ[P] Z t := fun t => by rw [hZ]; exact (h.aemeasurable t).ae_eq_mk
  have hm : ∀ t, Measurable (Z t) := fun t => by rw [hZ]; exact (h.aemeasurable t).measurable_mk
  have hid : ∀ t, IdentDistrib (Y t) (Z t) P P := fun t => IdentDistrib.of_ae_eq (h.aemeasurable t) (hYZ t)
  have hZs : IidSamples P Z μ V := ⟨(iIndepFun_congr hYZ).1 h.indep, fun t => (hid t).symm.trans ((h.ident t).trans (hid 0)),
    (hid 0).memLp_iff.1 h.memLp, by rw [← (hid 0).integral_eq, h.mean], by rw [← (hid 0).variance_eq, h.var]⟩
  filter_upwards [unbounded_aux hZs hm hV M, ae_all_iff.2 hYZ] with ω h1 h2
  refine (h1.and_eventually (eventually_gt_atTop 0)).mono ?_
  rintro n ⟨h3, hn⟩
  have hn' : (0 : ℝ) < n := by exact_mod_cast hn
  have hs : 0 < √(n : ℝ) := Real.sqrt_pos.2 hn'
  have hsn : (n : ℝ) = √n * √n := (Real.mul_self_sqrt hn'.le).symm
  have h6 : ∑ t ∈ Finset.range n, (Z t ω - μ) = n * (smean (Y · ω) n - μ) := by
    rw [Finset.sum_sub_distrib, Finset.sum_const, Finset.card_range, nsmul_eq_mul]
    unfold smean
    simp only [h2]
    field_simp
  rw [h6, abs_mul, abs_of_pos hn'] at h3
  refine lt_of_mul_lt_mul_left ?_ hs.le
  calc √(n : ℝ) * M = M * √n := mul_comm _ _
    _ < n * |smean (Y · ω) n - μ| := h3
    _ = √n * (√n * |smean (Y · ω) n - μ|) := by linear_combination |smean (Y · ω) n - μ| * hsn

/-! ## Samples without ties -/

/-- A function that is quadratic in one of the numbers, with a non-zero leading coefficient, is almost surely non-zero. -/
theorem gauss_quadratic_ne_zero (q : ℕ) (F b c : (ℕ → ℝ) → ℝ) (a : ℝ) (hF : Measurable F)
    (h : ∀ z w, F (splice (· = q) z w) = a * w q ^ 2 + b z * w q + c z) (ha : a ≠ 0) : ∀ᵐ z ∂gaussStream, F z ≠ 0 := by
  have hs : MeasurableSet {z | F z ≠ 0} := (hF (measurableSet_singleton 0)).compl
  have hmp := gauss_splice (· = q)
  rw [← hmp.map_eq]
  rw [ae_map_iff hmp.measurable.aemeasurable hs]
  refine (Measure.ae_prod_iff_ae_ae (hmp.measurable hs)).2 ?_
  refine Eventually.of_forall fun z => ?_
  have hfin : {x : ℝ | a * x ^ 2 + b z * x + c z = 0}.Finite := by
    have hp : (Polynomial.C a * Polynomial.X ^ 2 + Polynomial.C (b z) * Polynomial.X + Polynomial.C (c z)) ≠ 0 := by
      intro h0
      have := congrArg (fun p => Polynomial.coeff p 2) h0
      simp at this
      exact ha this
    refine (Polynomial.finite_setOfPred_isRoot hp).subset fun x hx => ?_
    simpa [Polynomial.IsRoot] using hx
  have := nullSingletonClass_gaussianReal (μ := 0) (v := 1) (by norm_num)
  have h1 : ∀ᵐ w ∂gaussStream, w q ∉ {x : ℝ | a * x ^ 2 + b z * x + c z = 0} := by
    have h2 : ∀ᵐ x ∂gaussianReal 0 1, x ∉ {x : ℝ | a * x ^ 2 + b z * x + c z = 0} := measure_eq_zero_iff_ae_notMem.1 (hfin.measure_zero _)
    rw [← gauss_eval q] at h2
    exact ae_of_ae_map (measurable_pi_apply q).aemeasurable h2
  filter_upwards [h1] with w hw
  show F (splice (· = q) z w) ≠ 0
  rw [h]
  exact hw

theorem quad_split (A : Matrix (Fin N) (Fin N) ℝ) (i0 : Fin N) (x z : Vec N) (hx : ∀ i, i ≠ i0 → x i = z i) :
    Spec.quad A x = A i0 i0 * x i0 ^ 2 + (∑ j ∈ Finset.univ.erase i0, (A i0 j + A j i0) * z j) * x i0 +
      ∑ i ∈ Finset.univ.erase i0, ∑ j ∈ Finset.univ.erase i0, A i j * z i * z j := by
  have hrow : ∀ i, ∑ j, A i j * x i * x j = A i i0 * x i * x i0 + ∑ j ∈ Finset.univ.erase i0, A i j * x i * z j := fun i => by
    rw [← Finset.add_sum_erase _ _ (Finset.mem_univ i0)]
    congr 1
    refine Finset.sum_congr rfl fun j hj => ?_
    rw [hx j (Finset.ne_of_mem_erase hj)]
  unfold Spec.quad
  rw [← Finset.add_sum_erase _ _ (Finset.mem_univ i0), hrow i0]
  have h2 : ∑ i ∈ Finset.univ.erase i0, ∑ j, A i j * x i * x j = ∑ i ∈ Finset.univ.erase i0, A i i0 * z i * x i0 +
      ∑ i ∈ Finset.univ.erase i0, ∑ j ∈ Finset.univ.erase i0, A i j * z i * z j := by
    rw [← Finset.sum_add_distrib]
    refine Finset.sum_congr rfl fun i hi => ?_
    rw [hrow i, hx i (Finset.ne_of_mem_erase hi)]
  have h3 : (∑ j ∈ Finset.univ.erase i0, (A i0 j + A j i0) * z j) * x i0 = ∑ j ∈ Finset.univ.erase i0, A i0 j * x i0 * z j +
      ∑ i ∈ Finset.univ.erase i0, A i i0 * z i * x i0 := by
    rw [Finset.sum_mul, ← Finset.sum_add_distrib]
    exact Finset.sum_congr rfl fun j _ => by ring
  rw [h2, h3]
  ring

/-- A quadratic form of normal numbers takes no value with positive probability. -/
theorem gauss_quad_ne (A : Matrix (Fin N) (Fin N) ℝ) (hA : ∃ i j, A i j + A j i ≠ 0) (r : ℝ) :
    ∀ᵐ z ∂gaussStream, Spec.quad A (fun i => z i) - r ≠ 0 := by
  have hm : Measurable fun z : ℕ → ℝ => Spec.quad A (fun i => z i) - r := by unfold Spec.quad; fun_prop
  have hsp : ∀ (i0 : Fin N) (z w : ℕ → ℝ), Spec.quad A (fun i => splice (· = (i0 : ℕ)) z w i) = A i0 i0 * w i0 ^ 2 +
      (∑ j ∈ Finset.univ.erase i0, (A i0 j + A j i0) * z j) * w i0 + ∑ i ∈ Finset.univ.erase i0, ∑ j ∈ Finset.univ.erase i0, A i j * z i * z j := fun i0 z w => by
    rw [quad_split A i0 _ (fun i => z i) (fun i hi => by simp [splice, Fin.val_inj, hi])]
    simp [splice]
  by_cases hd : ∃ i, A i i ≠ 0
  · obtain ⟨i0, hi⟩ := hd
    refine gauss_quadratic_ne_zero i0 _ (fun z => ∑ j ∈ Finset.univ.erase i0, (A i0 j + A j i0) * z j)
      (fun z => ∑ i ∈ Finset.univ.erase i0, ∑ j ∈ Finset.univ.erase i0, A i j * z i * z j - r) (A i0 i0) hm (fun z w => ?_) hi
    rw [hsp]
    ring
  · push Not at hd
    obtain ⟨i0, j0, hij⟩ := hA
    have hne : j0 ≠ i0 := by
      rintro rfl
      rw [hd] at hij
      simp at hij
    refine gauss_affine_ne_zero i0 _ (fun z => ∑ j ∈ Finset.univ.erase i0, (A i0 j + A j i0) * z j)
      (fun z => ∑ i ∈ Finset.univ.erase i0, ∑ j ∈ Finset.univ.erase i0, A i j * z i * z j - r) hm (fun z w => ?_) ?_
    · rw [hsp, hd]
      ring
    · refine gauss_affine_ne_zero j0 _ (fun _ => A i0 j0 + A j0 i0) (fun z => ∑ j ∈ (Finset.univ.erase i0).erase j0, (A i0 j + A j i0) * z j) (by fun_prop) (fun z w => ?_)
        (Eventually.of_forall fun _ => hij)
      rw [← Finset.add_sum_erase _ _ (Finset.mem_erase.2 ⟨hne, Finset.mem_univ j0⟩)]
      congr 1
      · simp [splice]
      · refine Finset.sum_congr rfl fun j hj => ?_
        simp [splice, Fin.val_inj, Finset.ne_of_mem_erase hj]

theorem sphere_quad_eq (A : Matrix (Fin N) (Fin N) ℝ) (x : Vec N) (hx : ∑ i, x i ^ 2 ≠ 0) (r : ℝ) :
    Spec.quad A (sphereCol x) = r ↔ Spec.quad ((N : ℝ) • A - r • (1 : Matrix (Fin N) (Fin N) ℝ)) x = 0 := by
  have h0 : 0 < ∑ i, x i ^ 2 := lt_of_le_of_ne (Finset.sum_nonneg fun i _ => sq_nonneg _) (Ne.symm hx)
  have h1 : Spec.quad A (sphereCol x) = N * Spec.quad A x / ∑ i, x i ^ 2 := by
    unfold Spec.quad sphereCol
    rw [mul_div_assoc, Finset.sum_div, Finset.mul_sum]
    refine Finset.sum_congr rfl fun i _ => ?_
    rw [Finset.sum_div, Finset.mul_sum]
    refine Finset.sum_congr rfl fun j _ => ?_
    have h2 : √(∑ i, x i ^ 2) * √(∑ i, x i ^ 2) = ∑ i, x i ^ 2 := Real.mul_self_sqrt h0.le
    have h3 : √(N : ℝ) * √(N : ℝ) = N := Real.mul_self_sqrt (Nat.cast_nonneg _)
    have h4 : √(∑ i, x i ^ 2) ≠ 0 := (Real.sqrt_pos.2 h0).ne'
    have h5 : N * (A i j * x i * x j / ∑ i, x i ^ 2) = √(N : ℝ) * √(N : ℝ) * (A i j * x i * x j / (√(∑ i, x i ^ 2) * √(∑ i, x i ^ 2))) := by rw [h2, h3]
    rw [h5]
    generalize √(∑ i, x i ^ 2) = c at h4
    field_simp
  have h2 : Spec.quad ((N : ℝ) • A - r • (1 : Matrix (Fin N) (Fin N) ℝ)) x = N * Spec.quad A x - r * ∑ i, x i ^ 2 := by
    unfold Spec.quad
    simp only [Matrix.sub_apply, Matrix.smul_apply, Matrix.one_apply, sub_mul, Finset.sum_sub_distrib, smul_eq_mul, mul_ite, mul_one, mul_zero, ite_mul, zero_mul,
      Finset.sum_ite_eq, Finset.mem_univ, if_true]
    rw [Finset.mul_sum, Finset.mul_sum]
    congr 1
    · refine Finset.sum_congr rfl fun i _ => ?_
      rw [Finset.mul_sum]
      exact Finset.sum_congr rfl fun j _ => by ring
    · exact Finset.sum_congr rfl fun i _ => by ring
  rw [h1, h2, div_eq_iff hx, sub_eq_zero]

/-- Samples with normal or sphere vectors take no value with positive probability, unless they are constant. -/
theorem isoSample_atomless [IsProbabilityMeasure P] (A : Matrix (Fin N) (Fin N) ℝ) (hN : N ≠ 0) {s : String} (hs : s = "normal" ∨ s = "sphere") (hV : 0 < Spec.isoVar A s)
    (u X : ℕ → Ω → ℝ) (hX : Spec.IidNormal P X) (r : ℝ) : ∀ᵐ ω ∂P, isoSample A s u X 0 ω ≠ r := by
  rcases hs with rfl | rfl
  · have hA : ∃ i j, A i j + A j i ≠ 0 := by
      by_contra hc
      push Not at hc
      simp [Spec.isoVar, hc] at hV
    filter_upwards [stream_ae hX (gauss_quad_ne A hA r)] with ω hω
    simp only [isoSample, isoVec, zero_mul, zero_add]
    exact sub_ne_zero.1 hω
  · have hx : ∀ᵐ z ∂gaussStream, Spec.quad (1 : Matrix (Fin N) (Fin N) ℝ) (fun i => z i) - 0 ≠ 0 :=
      gauss_quad_ne _ ⟨⟨0, Nat.pos_of_ne_zero hN⟩, ⟨0, Nat.pos_of_ne_zero hN⟩, by simp⟩ 0
    have hA : ∃ i j, ((N : ℝ) • A - r • (1 : Matrix (Fin N) (Fin N) ℝ)) i j + ((N : ℝ) • A - r • (1 : Matrix (Fin N) (Fin N) ℝ)) j i ≠ 0 := by
      by_contra hc
      push Not at hc
      have hN' : (0 : ℝ) < N := by exact_mod_cast Nat.pos_of_ne_zero hN
      have h1 : ∀ i j, A i j + A j i = if i = j then 2 * r / N else 0 := fun i j => by
        have := hc i j
        simp only [Matrix.sub_apply, Matrix.smul_apply, Matrix.one_apply, smul_eq_mul] at this
        by_cases h : i = j
        · subst h
          simp only [if_true] at this ⊢
          rw [eq_div_iff hN'.ne']
          linarith
        · rw [if_neg h, if_neg (Ne.symm h)] at this
          rw [if_neg h]
          have h2 : (N : ℝ) * (A i j + A j i) = 0 := by linarith
          exact (mul_eq_zero.1 h2).resolve_left hN'.ne'
      have htr : A.trace = r := by
        have : ∀ i, A i i = r / N := fun i => by
          have := h1 i i
          rw [if_pos rfl] at this
          rw [eq_div_iff hN'.ne'] at this ⊢
          linarith
        simp only [Matrix.trace, Matrix.diag, this, Finset.sum_const, Finset.card_univ, Fintype.card_fin, nsmul_eq_mul]
        field_simp
      have hsum : ∑ i, ∑ j, A i j * (A i j + A j i) = A.trace * (2 * r / N) := by
        simp only [h1, mul_ite, mul_zero, Finset.sum_ite_eq, Finset.mem_univ, if_true]
        rw [← Finset.sum_mul]
        rfl
      have : Spec.isoVar A "sphere" = 0 := by
        simp only [Spec.isoVar, Spec.sphereVar]
        rw [if_neg (by decide), if_neg (by decide), hsum, htr]
        field_simp
        ring
      linarith
    filter_upwards [stream_ae hX (gauss_quad_ne _ hA 0), stream_ae hX hx] with ω hω hω'
    simp only [isoSample, isoVec, zero_mul, zero_add]
    intro he
    refine hω ?_
    rw [sub_zero]
    refine (sphere_quad_eq A _ ?_ r).1 ?_
    · intro h0
      apply hω'
      rw [sub_zero, ← h0]
      unfold Spec.quad
      refine Finset.sum_congr rfl fun i _ => ?_
      simp [Matrix.one_apply, pow_two]
    · exact he

theorem IidSamples.distinct [IsProbabilityMeasure P] (h : IidSamples P Y μ V) (ha : ∀ r, ∀ᵐ ω ∂P, Y 0 ω ≠ r) {i j : ℕ} (hij : i ≠ j) : ∀ᵐ ω ∂P, Y i ω ≠ Y j ω := by
  have h1 := (indepFun_iff_map_prod_eq_prod_map_map (h.aemeasurable i) (h.aemeasurable j)).1 (h.indep.indepFun hij)
  have hp := Measure.isProbabilityMeasure_map (μ := P) (h.aemeasurable i)
  have hp' := Measure.isProbabilityMeasure_map (μ := P) (h.aemeasurable j)
  have hs : MeasurableSet {p : ℝ × ℝ | p.1 ≠ p.2} := (measurableSet_eq_fun measurable_fst measurable_snd).compl
  have h2 : ∀ᵐ p ∂(P.map (Y i)).prod (P.map (Y j)), p.1 ≠ p.2 := by
    refine (Measure.ae_prod_iff_ae_ae hs).2 (Eventually.of_forall fun x => ?_)
    rw [(h.ident j).map_eq]
    refine (ae_map_iff (h.aemeasurable 0) ?_).2 ?_
    · exact (measurableSet_eq_fun measurable_const measurable_id).compl
    · filter_upwards [ha x] with ω hω
      exact hω.symm
  rw [← h1] at h2
  exact ae_of_ae_map ((h.aemeasurable i).prodMk (h.aemeasurable j)) h2

end Primate
