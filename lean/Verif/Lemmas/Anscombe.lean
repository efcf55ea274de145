import Verif.Lemmas.Asymp
import Mathlib.Probability.Martingale.OptionalStopping
import Mathlib.Probability.BorelCantelli

/-!
# Sums of a random number of samples
-/

noncomputable section

namespace Primate

open MeasureTheory ProbabilityTheory Filter
open scoped Topology ENNReal NNReal

variable {Ω : Type*} [MeasurableSpace Ω] {P : Measure Ω} {Y : ℕ → Ω → ℝ} {μ V : ℝ}

/-- The sum of the errors of the first `n` samples. -/
def esum (Y : ℕ → Ω → ℝ) (μ : ℝ) (n : ℕ) (ω : Ω) : ℝ := ∑ t ∈ Finset.range n, (Y t ω - μ)

theorem IidSamples.shift (h : IidSamples P Y μ V) (a : ℕ) : IidSamples P (fun t => Y (a + t)) μ V := by
  have hid : IdentDistrib (Y (a + 0)) (Y 0) P P := h.ident _
  refine ⟨h.indep.precomp (g := fun t => a + t) (add_right_injective a), fun t => (h.ident _).trans (h.ident _).symm, hid.memLp_iff.2 h.memLp, ?_, ?_⟩
  · rw [← h.mean]; exact hid.integral_eq
  · rw [← h.var]; exact hid.variance_eq

theorem IidSamples.memLp_all (h : IidSamples P Y μ V) (t : ℕ) : MemLp (Y t) 2 P := (h.ident t).memLp_iff.2 h.memLp

theorem IidSamples.memLp_esum [IsProbabilityMeasure P] (h : IidSamples P Y μ V) (n : ℕ) : MemLp (esum Y μ n) 2 P :=
  memLp_finsetSum _ fun t _ => (h.memLp_all t).sub (memLp_const μ)

theorem IidSamples.mean_err [IsProbabilityMeasure P] (h : IidSamples P Y μ V) (t : ℕ) : ∫ ω, (Y t ω - μ) ∂P = 0 := by
  rw [integral_sub ((h.memLp_all t).integrable (by norm_num)) (integrable_const μ), (h.ident t).integral_eq, h.mean]
  simp

theorem IidSamples.sq_esum [IsProbabilityMeasure P] (h : IidSamples P Y μ V) (n : ℕ) : ∫ ω, esum Y μ n ω ^ 2 ∂P = n * V := by
  have h0 : ∫ ω, esum Y μ n ω ∂P = 0 := by
    unfold esum
    have hi : ∀ t ∈ Finset.range n, Integrable (fun ω => Y t ω - μ) P := fun t _ => ((h.memLp_all t).integrable (by norm_num)).sub (integrable_const μ)
    rw [integral_finsetSum _ hi]
    exact Finset.sum_eq_zero fun t _ => h.mean_err t
  have h1 : Var[esum Y μ n; P] = n * V := by
    have h2 := IndepFun.variance_sum (μ := P) (X := fun t ω => Y t ω - μ) (s := Finset.range n) (fun t _ => (h.memLp_all t).sub (memLp_const μ))
      (fun i _ j _ hij => (h.indep.indepFun hij).comp (measurable_id.sub_const μ) (measurable_id.sub_const μ))
    have h3 : ∀ t, Var[fun ω => Y t ω - μ; P] = V := fun t => by
      rw [variance_sub_const (h.aemeasurable t).aestronglyMeasurable, (h.ident t).variance_eq, h.var]
    simp only [h3, Finset.sum_const, Finset.card_range, nsmul_eq_mul] at h2
    rw [← h2]
    congr 1
    funext ω
    simp [esum]
  rw [← h1, variance_of_integral_eq_zero (h.memLp_esum n).aemeasurable h0]

/-- Kolmogorov's inequality. -/
theorem kolmogorov_aux [IsProbabilityMeasure P] (h : IidSamples P Y μ V) (hm : ∀ t, Measurable (Y t)) (m : ℕ) {l : ℝ} (hl : 0 < l) :
    P.real {ω | ∃ k ≤ m, l ≤ |esum Y μ (k + 1) ω|} ≤ ((m : ℝ) + 1) * V / l ^ 2 := by
  obtain ⟨Z, hZ⟩ : ∃ Z : ℕ → Ω → ℝ, Z = fun t ω => Y t ω - μ := ⟨_, rfl⟩
  have hZm : ∀ t, StronglyMeasurable (Z t) := fun t => by rw [hZ]; exact ((hm t).sub_const μ).stronglyMeasurable
  have hZi : iIndepFun Z P := by rw [hZ]; exact h.indep.comp (fun _ y => y - μ) fun _ => by fun_prop
  have hadS : ∀ n, StronglyMeasurable[Filtration.natural Z hZm n] (esum Y μ (n + 1)) := fun n => by
    have : esum Y μ (n + 1) = fun ω => ∑ t ∈ Finset.range (n + 1), Z t ω := by rw [hZ]; rfl
    rw [this]
    refine Finset.stronglyMeasurable_fun_sum _ fun t ht => ?_
    exact (Filtration.stronglyAdapted_natural hZm t).mono ((Filtration.natural Z hZm).mono (Nat.lt_succ_iff.1 (Finset.mem_range.1 ht)))
  have hint : ∀ i, Integrable (fun ω => esum Y μ (i + 1) ω ^ 2) P := fun i => (h.memLp_esum (i + 1)).integrable_sq
  have hsub : Submartingale (fun n ω => esum Y μ (n + 1) ω ^ 2) (Filtration.natural Z hZm) P := by
    refine submartingale_of_setIntegral_le_succ (fun n => (hadS n).pow 2) hint fun i s hs => ?_
    have hsm : MeasurableSet s := (Filtration.natural Z hZm).le i s hs
    have hdec : ∀ ω, esum Y μ (i + 1 + 1) ω ^ 2 = esum Y μ (i + 1) ω ^ 2 + 2 * (esum Y μ (i + 1) ω * Z (i + 1) ω) + Z (i + 1) ω ^ 2 := fun ω => by
      have : esum Y μ (i + 1 + 1) ω = esum Y μ (i + 1) ω + Z (i + 1) ω := by
        unfold esum
        rw [Finset.sum_range_succ _ (i + 1), hZ]
      rw [this]
      ring
    have hZL : MemLp (Z (i + 1)) 2 P := by rw [hZ]; exact (h.memLp_all _).sub (memLp_const μ)
    have hprod : Integrable (fun ω => esum Y μ (i + 1) ω * Z (i + 1) ω) P := (h.memLp_esum (i + 1)).integrable_mul hZL
    have hzero : ∫ ω in s, esum Y μ (i + 1) ω * Z (i + 1) ω ∂P = 0 := by
      rw [← integral_indicator hsm]
      have hind : IndepFun (s.indicator (esum Y μ (i + 1))) (Z (i + 1)) P := by
        rw [IndepFun_iff_Indep]
        refine indep_of_indep_of_le_left (hZi.indep_comap_natural_of_lt hZm (Nat.lt_succ_self i)).symm ?_
        exact ((hadS i).indicator hs).measurable.comap_le
      have h1 : ∀ ω, s.indicator (fun ω => esum Y μ (i + 1) ω * Z (i + 1) ω) ω = s.indicator (esum Y μ (i + 1)) ω * Z (i + 1) ω := fun ω => by
        by_cases hω : ω ∈ s <;> simp [hω]
      simp only [h1]
      rw [hind.integral_fun_mul_eq_mul_integral (((hadS i).indicator hs).mono ((Filtration.natural Z hZm).le i)).aestronglyMeasurable (hZm _).aestronglyMeasurable, hZ,
        h.mean_err, mul_zero]
    have hsum : ∫ ω in s, esum Y μ (i + 1 + 1) ω ^ 2 ∂P = ∫ ω in s, esum Y μ (i + 1) ω ^ 2 ∂P + ∫ ω in s, Z (i + 1) ω ^ 2 ∂P := by
      simp only [hdec]
      have h12 : Integrable (fun ω => esum Y μ (i + 1) ω ^ 2 + 2 * (esum Y μ (i + 1) ω * Z (i + 1) ω)) (P.restrict s) :=
        (hint i).integrableOn.add (hprod.const_mul 2).integrableOn
      rw [integral_add h12 hZL.integrable_sq.integrableOn,
        integral_add (hint i).integrableOn (hprod.const_mul 2).integrableOn, integral_const_mul, hzero]
      ring
    rw [hsum]
    have : 0 ≤ ∫ ω in s, Z (i + 1) ω ^ 2 ∂P := integral_nonneg fun ω => sq_nonneg _
    linarith
  obtain ⟨e, he⟩ : ∃ e : ℝ≥0, (e : ℝ) = l ^ 2 := ⟨⟨l ^ 2, sq_nonneg _⟩, rfl⟩
  have hmax := maximal_ineq hsub (fun n ω => sq_nonneg _) (ε := e) m
  have hset : {ω | ∃ k ≤ m, l ≤ |esum Y μ (k + 1) ω|} =
      {ω | (e : ℝ) ≤ (Finset.range (m + 1)).sup' Finset.nonempty_range_add_one fun k => esum Y μ (k + 1) ω ^ 2} := by
    ext ω
    simp only [Set.mem_ofPred_eq, Finset.le_sup'_iff, Finset.mem_range, he]
    constructor
    · rintro ⟨k, hk, h1⟩
      exact ⟨k, by omega, by rw [← sq_abs (esum Y μ (k + 1) ω)]; exact pow_le_pow_left₀ hl.le h1 2⟩
    · rintro ⟨k, hk, h1⟩
      exact ⟨k, by omega, by rw [← sq_abs (esum Y μ (k + 1) ω)] at h1; exact (pow_le_pow_iff_left₀ hl.le (abs_nonneg _) two_ne_zero).1 h1⟩
  rw [← hset] at hmax
  have hbound : ∫ ω in {ω | ∃ k ≤ m, l ≤ |esum Y μ (k + 1) ω|}, esum Y μ (m + 1) ω ^ 2 ∂P ≤ (m + 1) * V := by
    have := setIntegral_le_integral (s := {ω | ∃ k ≤ m, l ≤ |esum Y μ (k + 1) ω|}) (hint m) (Eventually.of_forall fun ω => sq_nonneg _)
    rw [h.sq_esum] at this
    push_cast at this
    exact this
  have h3 := ENNReal.toReal_mono ENNReal.ofReal_ne_top (hmax.trans (ENNReal.ofReal_le_ofReal hbound))
  have hV : 0 ≤ V := by rw [← h.var]; exact variance_nonneg _ _
  rw [ENNReal.toReal_mul, ENNReal.coe_toReal, he, ENNReal.toReal_ofReal (by positivity)] at h3
  rw [le_div_iff₀ (by positivity), mul_comm]
  exact h3

theorem kolmogorov [IsProbabilityMeasure P] (h : IidSamples P Y μ V) (hm : ∀ t, Measurable (Y t)) (a m : ℕ) {l : ℝ} (hl : 0 < l) :
    P.real {ω | ∃ k, a ≤ k ∧ k ≤ a + m ∧ l ≤ |esum Y μ k ω - esum Y μ a ω|} ≤ m * V / l ^ 2 := by
  have hdiff : ∀ k ω, esum Y μ (a + k) ω - esum Y μ a ω = esum (fun t => Y (a + t)) μ k ω := fun k ω => by
    unfold esum
    rw [Finset.sum_range_add, add_sub_cancel_left]
  rcases Nat.eq_zero_or_pos m with rfl | hm0
  · have : {ω | ∃ k, a ≤ k ∧ k ≤ a + 0 ∧ l ≤ |esum Y μ k ω - esum Y μ a ω|} = ∅ := by
      ext ω
      simp only [Set.mem_ofPred_eq, Set.mem_empty_iff_false, iff_false]
      rintro ⟨k, h1, h2, h3⟩
      obtain rfl : k = a := by omega
      simp at h3
      linarith
    rw [this]
    simp
  · have h1 := kolmogorov_aux (h.shift a) (fun t => hm _) (m - 1) hl
    have hc : ((m - 1 : ℕ) : ℝ) + 1 = m := by
      rw [Nat.cast_sub hm0]
      ring
    rw [hc] at h1
    refine le_trans (measureReal_mono fun ω hω => ?_) h1
    obtain ⟨k, h2, h3, h4⟩ := hω
    rcases Nat.eq_or_lt_of_le h2 with rfl | h5
    · simp at h4
      linarith
    · refine ⟨k - a - 1, by omega, ?_⟩
      rw [← hdiff, show a + (k - a - 1 + 1) = k by omega]
      exact h4

/-! ## Anscombe's theorem -/

omit [MeasurableSpace Ω] in
theorem esum_eq (y : ℕ → Ω → ℝ) (μ : ℝ) (n : ℕ) (hn : 0 < n) (ω : Ω) : esum y μ n ω = n * (smean (y · ω) n - μ) := by
  have hn' : (n : ℝ) ≠ 0 := by exact_mod_cast hn.ne'
  unfold esum smean
  rw [Finset.sum_sub_distrib, Finset.sum_const, Finset.card_range, nsmul_eq_mul]
  field_simp

theorem esum_measurable (hm : ∀ t, Measurable (Y t)) (n : ℕ) : Measurable (esum Y μ n) := by
  unfold esum
  fun_prop

theorem esum_random_measurable (hm : ∀ t, Measurable (Y t)) {T : Ω → ℕ} (hT : Measurable T) : Measurable fun ω => esum Y μ (T ω) ω := by
  have h : Measurable fun p : ℕ × Ω => esum Y μ p.1 p.2 := measurable_from_prod_countable_right fun n => esum_measurable hm n
  exact h.comp (hT.prodMk measurable_id)

/-- The sum of a random number of errors, when that number is close to `n`. -/
theorem anscombe [IsProbabilityMeasure P] (h : IidSamples P Y μ V) (hm : ∀ t, Measurable (Y t)) {ι : Type*} {l : Filter ι} [l.IsCountablyGenerated]
    (n : ι → ℕ) (hn : Tendsto n l atTop) (T : ι → Ω → ℕ) (hT : ∀ i, Measurable (T i))
    (hr : TendstoInMeasure P (fun i ω => (T i ω : ℝ) / n i) l fun _ => 1) :
    TendstoInDistribution (fun i ω => esum Y μ (T i ω) ω / √(n i)) l (id : ℝ → ℝ) (fun _ => P) (gaussianReal 0 V.toNNReal) := by
  have hV : 0 ≤ V := by rw [← h.var]; exact variance_nonneg _ _
  have hclt : TendstoInDistribution (fun i ω => √(n i) * (smean (Y · ω) (n i) - μ)) l (id : ℝ → ℝ) (fun _ => P) (gaussianReal 0 V.toNNReal) :=
    ⟨fun i => h.clt.forall_aemeasurable (n i), h.clt.aemeasurable_limit, h.clt.tendsto.comp hn⟩
  refine tendstoInDistribution_of_tendstoInMeasure_sub _ _ hclt ?_ fun i => ((esum_random_measurable hm (hT i)).div_const _).aemeasurable
  rw [tendstoInMeasure_iff_measureReal_norm]
  intro η hη
  rw [tendstoInMeasure_iff_measureReal_norm] at hr
  refine tendsto_order.2 ⟨fun a ha => Eventually.of_forall fun i => lt_of_lt_of_le ha measureReal_nonneg, fun a ha => ?_⟩
  obtain ⟨δ, hδ⟩ : ∃ δ, δ = a * η ^ 2 / (32 * (V + 1)) := ⟨_, rfl⟩
  have hδ0 : 0 < δ := by rw [hδ]; positivity
  filter_upwards [(hr δ hδ0).eventually_lt_const (show (0 : ℝ) < a / 2 by linarith), hn.eventually_ge_atTop 1] with i hi hni
  have hn0 : (0 : ℝ) < n i := by exact_mod_cast hni
  have hs : 0 < √(n i : ℝ) := Real.sqrt_pos.2 hn0
  obtain ⟨m, hmd⟩ : ∃ m, m = ⌊δ * n i⌋₊ := ⟨_, rfl⟩
  have hm1 : (m : ℝ) ≤ δ * n i := by rw [hmd]; exact Nat.floor_le (by positivity)
  have hk := kolmogorov h hm (n i - m) (2 * m) (l := η * √(n i) / 2) (by positivity)
  have hsub : {ω | η ≤ ‖((fun i ω => esum Y μ (T i ω) ω / √(n i)) - fun i ω => √(n i) * (smean (Y · ω) (n i) - μ)) i ω - (0 : Ω → ℝ) ω‖} ⊆
      {ω | δ ≤ ‖(T i ω : ℝ) / n i - 1‖} ∪ {ω | ∃ k, n i - m ≤ k ∧ k ≤ n i - m + 2 * m ∧ η * √(n i) / 2 ≤ |esum Y μ k ω - esum Y μ (n i - m) ω|} := by
    intro ω hω
    simp only [Set.mem_ofPred_eq, Pi.sub_apply, Pi.zero_apply, sub_zero, Real.norm_eq_abs] at hω
    by_cases hd : δ ≤ ‖(T i ω : ℝ) / n i - 1‖
    · exact Or.inl hd
    right
    rw [not_le, Real.norm_eq_abs, div_sub_one hn0.ne', abs_div, abs_of_pos hn0, div_lt_iff₀ hn0] at hd
    have hd2 : |((T i ω : ℤ) - (n i : ℤ))| ≤ m := by
      have : (((|((T i ω : ℤ) - (n i : ℤ))|).toNat : ℕ) : ℝ) = |(T i ω : ℝ) - n i| := by
        have h0 : ((|((T i ω : ℤ) - (n i : ℤ))|).toNat : ℤ) = |((T i ω : ℤ) - (n i : ℤ))| := Int.toNat_of_nonneg (abs_nonneg _)
        have h1 : (((|((T i ω : ℤ) - (n i : ℤ))|).toNat : ℤ) : ℝ) = ((|((T i ω : ℤ) - (n i : ℤ))| : ℤ) : ℝ) := by rw [h0]
        push_cast at h1
        exact h1
      have h2 : (|((T i ω : ℤ) - (n i : ℤ))|).toNat ≤ m := by
        rw [hmd]
        refine Nat.le_floor ?_
        rw [this]
        exact hd.le
      omega
    rw [abs_le] at hd2
    have he : esum Y μ (T i ω) ω / √(n i) - √(n i) * (smean (Y · ω) (n i) - μ) = (esum Y μ (T i ω) ω - esum Y μ (n i) ω) / √(n i) := by
      rw [esum_eq Y μ (n i) hni, sub_div]
      congr 1
      nth_rw 2 [← Real.mul_self_sqrt hn0.le]
      field_simp
    rw [he, abs_div, abs_of_pos hs, le_div_iff₀ hs] at hω
    by_cases hc : η * √(n i) / 2 ≤ |esum Y μ (n i) ω - esum Y μ (n i - m) ω|
    · exact ⟨n i, by omega, by omega, hc⟩
    · refine ⟨T i ω, by omega, by omega, ?_⟩
      rw [not_le] at hc
      have := abs_sub_le (esum Y μ (T i ω) ω) (esum Y μ (n i - m) ω) (esum Y μ (n i) ω)
      rw [abs_sub_comm (esum Y μ (n i - m) ω)] at this
      linarith
  refine lt_of_le_of_lt ((measureReal_mono hsub).trans (measureReal_union_le _ _)) ?_
  have hk2 : ((2 * m : ℕ) : ℝ) * V / (η * √(n i) / 2) ^ 2 ≤ a / 4 := by
    rw [div_le_iff₀ (by positivity), div_pow, mul_pow, Real.sq_sqrt hn0.le]
    push_cast
    have h1 : 2 * (m : ℝ) * V ≤ 2 * (δ * n i) * (V + 1) := by
      refine mul_le_mul (by linarith) (by linarith) hV (by positivity)
    refine h1.trans (le_of_eq ?_)
    rw [hδ]
    field_simp
    ring
  linarith

/-! ## First passage -/

/-- The first `t` from 3 on at which `D t` is at most `ε √t`. -/
def firstPass (D : ℕ → ℝ) (ε : ℝ) : ℕ := sInf {t | 3 ≤ t ∧ D t ≤ ε * √(t : ℝ)}

theorem firstPass_spec {D : ℕ → ℝ} {d : ℝ} (hd : Tendsto D atTop (𝓝 d)) {ε : ℝ} (hε : 0 < ε) :
    3 ≤ firstPass D ε ∧ D (firstPass D ε) ≤ ε * √(firstPass D ε : ℝ) := by
  have h : ({t | 3 ≤ t ∧ D t ≤ ε * √(t : ℝ)} : Set ℕ).Nonempty := by
    have h1 : Tendsto (fun t : ℕ => ε * √(t : ℝ)) atTop atTop := (Real.tendsto_sqrt_atTop.comp tendsto_natCast_atTop_atTop).const_mul_atTop hε
    obtain ⟨t, h2, h3, h4⟩ := ((hd.eventually_le_const (show d < d + 1 by linarith)).and ((h1.eventually_ge_atTop (d + 1)).and (eventually_ge_atTop 3))).exists
    exact ⟨t, h4, h2.trans h3⟩
  exact Nat.sInf_mem h

theorem firstPass_before {D : ℕ → ℝ} {ε : ℝ} {t : ℕ} (h3 : 3 ≤ t) (ht : t < firstPass D ε) : ε * √(t : ℝ) < D t := by
  by_contra hc
  exact Nat.notMem_of_lt_sInf ht ⟨h3, not_lt.1 hc⟩

theorem firstPass_atTop {D : ℕ → ℝ} {d : ℝ} (hd : Tendsto D atTop (𝓝 d)) (hD : ∀ t, 3 ≤ t → 0 < D t) : Tendsto (firstPass D) (𝓝[>] 0) atTop := by
  refine tendsto_atTop.2 fun M => ?_
  have h1 : ∀ᶠ ε in 𝓝[>] (0 : ℝ), ∀ t ∈ Finset.Ico 3 M, ε * √(t : ℝ) < D t := by
    rw [Filter.eventually_all_finset]
    intro t ht
    have h2 : Tendsto (fun ε : ℝ => ε * √(t : ℝ)) (𝓝[>] 0) (𝓝 (0 * √(t : ℝ))) := (tendsto_nhdsWithin_of_tendsto_nhds tendsto_id).mul_const _
    rw [zero_mul] at h2
    exact h2.eventually_lt_const (hD t (Finset.mem_Ico.1 ht).1)
  filter_upwards [h1, self_mem_nhdsWithin] with ε h2 hε
  obtain ⟨h3, h4⟩ := firstPass_spec hd hε
  by_contra hc
  exact absurd h4 (not_le.2 (h2 _ (Finset.mem_Ico.2 ⟨h3, by omega⟩)))

theorem firstPass_limit {D : ℕ → ℝ} {d : ℝ} (hd : Tendsto D atTop (𝓝 d)) (hD : ∀ t, 3 ≤ t → 0 < D t) :
    Tendsto (fun ε => ε * √(firstPass D ε : ℝ)) (𝓝[>] 0) (𝓝 d) := by
  have h1 := firstPass_atTop hd hD
  have hlow : Tendsto (fun ε => D (firstPass D ε)) (𝓝[>] 0) (𝓝 d) := hd.comp h1
  have hup : Tendsto (fun ε => D (firstPass D ε - 1) + ε) (𝓝[>] 0) (𝓝 (d + 0)) :=
    ((hd.comp (tendsto_sub_atTop_nat 1)).comp h1).add (tendsto_nhdsWithin_of_tendsto_nhds tendsto_id)
  rw [add_zero] at hup
  refine tendsto_of_tendsto_of_tendsto_of_le_of_le' hlow hup ?_ ?_
  · filter_upwards [self_mem_nhdsWithin] with ε hε
    exact (firstPass_spec hd hε).2
  · filter_upwards [self_mem_nhdsWithin, h1.eventually_ge_atTop 4] with ε hε h4
    have h5 := firstPass_before (D := D) (ε := ε) (t := firstPass D ε - 1) (by omega) (by omega)
    obtain ⟨k, hk⟩ : ∃ k, firstPass D ε = k + 1 := ⟨firstPass D ε - 1, by omega⟩
    rw [hk, Nat.add_sub_cancel] at h5 ⊢
    have h6 : √((k + 1 : ℕ) : ℝ) ≤ √(k : ℝ) + 1 := by
      refine Real.sqrt_le_iff.2 ⟨by positivity, ?_⟩
      have := Real.sq_sqrt (show (0 : ℝ) ≤ k by positivity)
      push_cast
      nlinarith [Real.sqrt_nonneg (k : ℝ)]
    have := mul_le_mul_of_nonneg_left h6 (le_of_lt hε)
    linarith

theorem firstPass_sq {D : ℕ → ℝ} {d : ℝ} (hd : Tendsto D atTop (𝓝 d)) (hD : ∀ t, 3 ≤ t → 0 < D t) :
    Tendsto (fun ε => ε ^ 2 * (firstPass D ε : ℝ)) (𝓝[>] 0) (𝓝 (d ^ 2)) := by
  refine ((firstPass_limit hd hD).pow 2).congr fun ε => ?_
  rw [mul_pow, Real.sq_sqrt (by positivity)]

theorem firstPass_measurable {D : Ω → ℕ → ℝ} (hD : ∀ t, Measurable fun ω => D ω t) (ε : ℝ) : Measurable fun ω => firstPass (D ω) ε := by
  have hs : ∀ t, MeasurableSet {ω | 3 ≤ t ∧ D ω t ≤ ε * √(t : ℝ)} := fun t =>
    (MeasurableSet.const _).inter (measurableSet_le (hD t) measurable_const)
  refine measurable_to_countable' fun k => ?_
  rcases Nat.eq_zero_or_pos k with rfl | hk
  · have : (fun ω => firstPass (D ω) ε) ⁻¹' {0} = (⋃ t, {ω | 3 ≤ t ∧ D ω t ≤ ε * √(t : ℝ)})ᶜ := by
      ext ω
      simp only [Set.mem_preimage, Set.mem_singleton_iff, Set.mem_compl_iff, Set.mem_iUnion, Set.mem_ofPred_eq]
      unfold firstPass
      rw [Nat.sInf_eq_zero, Set.eq_empty_iff_forall_notMem]
      simp
    rw [this]
    exact (MeasurableSet.iUnion hs).compl
  · have : (fun ω => firstPass (D ω) ε) ⁻¹' {k} = {ω | 3 ≤ k ∧ D ω k ≤ ε * √(k : ℝ)} ∩ ⋂ j ∈ Finset.range k, {ω | 3 ≤ j ∧ D ω j ≤ ε * √(j : ℝ)}ᶜ := by
      ext ω
      simp only [Set.mem_preimage, Set.mem_singleton_iff, Set.mem_inter_iff, Set.mem_iInter, Set.mem_compl_iff, Finset.mem_range]
      constructor
      · rintro rfl
        refine ⟨Nat.sInf_mem (Nat.nonempty_of_pos_sInf hk), fun j hj => Nat.notMem_of_lt_sInf (s := {t | 3 ≤ t ∧ D ω t ≤ ε * √(t : ℝ)}) hj⟩
      · rintro ⟨h1, h2⟩
        refine le_antisymm (Nat.sInf_le h1) ?_
        by_contra hc
        have h4 : sInf {t | 3 ≤ t ∧ D ω t ≤ ε * √(t : ℝ)} ∈ {t | 3 ≤ t ∧ D ω t ≤ ε * √(t : ℝ)} := Nat.sInf_mem ⟨k, h1⟩
        exact h2 _ (not_le.1 hc) h4
    rw [this]
    exact (hs k).inter (Finset.measurableSet_biInter _ fun j _ => (hs j).compl)

/-! ## Coverage at a first passage -/

theorem inMeasure_of_ae [IsProbabilityMeasure P] {f : ℝ → Ω → ℝ} {g : ℝ} (hf : ∀ ε, Measurable (f ε)) (h : ∀ᵐ ω ∂P, Tendsto (fun ε => f ε ω) (𝓝[>] 0) (𝓝 g)) :
    TendstoInMeasure P f (𝓝[>] 0) fun _ => g := by
  intro η hη
  refine tendsto_of_seq_tendsto fun e he => ?_
  refine tendstoInMeasure_of_tendsto_ae (f := fun k => f (e k)) (fun k => (hf _).aestronglyMeasurable) ?_ η hη
  filter_upwards [h] with ω hω
  exact hω.comp he

/-- The probability that the error of the mean at the first passage is at most `a ε`. -/
theorem firstPass_coverage [IsProbabilityMeasure P] (h : IidSamples P Y μ V) (hV : 0 < V) (hm : ∀ t, Measurable (Y t)) (D : Ω → ℕ → ℝ) (hDm : ∀ t, Measurable fun ω => D ω t)
    {d : ℝ} (hd0 : 0 < d) (hD : ∀ᵐ ω ∂P, (∀ t, 3 ≤ t → 0 < D ω t) ∧ Tendsto (D ω) atTop (𝓝 d)) (a : ℝ) :
    Tendsto (fun ε => P.real {ω | |smean (Y · ω) (firstPass (D ω) ε) - μ| ≤ a * ε}) (𝓝[>] 0) (𝓝 ((gaussianReal 0 1).real {z | |z| ≤ a * d / √V})) := by
  obtain ⟨n, hn⟩ : ∃ n : ℝ → ℕ, n = fun ε => ⌈(d / ε) ^ 2⌉₊ := ⟨_, rfl⟩
  have hsq : Tendsto (fun ε : ℝ => ε ^ 2 * (n ε : ℝ)) (𝓝[>] 0) (𝓝 (d ^ 2)) := by
    have hup : Tendsto (fun ε : ℝ => d ^ 2 + ε ^ 2) (𝓝[>] 0) (𝓝 (d ^ 2)) := by
      have : Tendsto (fun ε : ℝ => d ^ 2 + ε ^ 2) (𝓝 0) (𝓝 (d ^ 2 + 0 ^ 2)) := (by fun_prop : Continuous fun ε : ℝ => d ^ 2 + ε ^ 2).tendsto 0
      rw [zero_pow two_ne_zero, add_zero] at this
      exact tendsto_nhdsWithin_of_tendsto_nhds this
    refine tendsto_of_tendsto_of_tendsto_of_le_of_le' tendsto_const_nhds hup ?_ ?_
    · filter_upwards [self_mem_nhdsWithin] with ε hε
      have hε' : (0 : ℝ) < ε := hε
      have h1 : (d / ε) ^ 2 ≤ n ε := by rw [hn]; exact Nat.le_ceil _
      calc d ^ 2 = ε ^ 2 * (d / ε) ^ 2 := by field_simp
        _ ≤ _ := mul_le_mul_of_nonneg_left h1 (sq_nonneg _)
    · filter_upwards [self_mem_nhdsWithin] with ε hε
      have hε' : (0 : ℝ) < ε := hε
      have h1 : (n ε : ℝ) ≤ (d / ε) ^ 2 + 1 := by rw [hn]; exact (Nat.ceil_lt_add_one (sq_nonneg _)).le
      calc ε ^ 2 * (n ε : ℝ) ≤ ε ^ 2 * ((d / ε) ^ 2 + 1) := mul_le_mul_of_nonneg_left h1 (sq_nonneg _)
        _ = _ := by field_simp
  have hd2 : (0 : ℝ) < d ^ 2 := by positivity
  have hntop : Tendsto n (𝓝[>] 0) atTop := by
    rw [← tendsto_natCast_atTop_iff (R := ℝ)]
    have h1 : Tendsto (fun ε : ℝ => (d / ε) ^ 2) (𝓝[>] 0) atTop := by
      refine (tendsto_pow_atTop two_ne_zero).comp ?_
      exact (tendsto_inv_nhdsGT_zero.const_mul_atTop hd0)
    refine tendsto_atTop_mono (fun ε => ?_) h1
    rw [hn]
    exact Nat.le_ceil _
  have hTm : ∀ ε, Measurable fun ω => firstPass (D ω) ε := firstPass_measurable hDm
  have hratio : ∀ᵐ ω ∂P, Tendsto (fun ε => (firstPass (D ω) ε : ℝ) / n ε) (𝓝[>] 0) (𝓝 1) := by
    filter_upwards [hD] with ω hω
    have h1 := (firstPass_sq hω.2 hω.1).div hsq hd2.ne'
    rw [div_self hd2.ne'] at h1
    refine h1.congr' ?_
    filter_upwards [self_mem_nhdsWithin] with ε hε
    have hε' : (0 : ℝ) < ε := hε
    simp only [Pi.div_apply]
    rw [mul_div_mul_left _ _ (by positivity)]
  have hans := anscombe h hm n hntop (fun ε ω => firstPass (D ω) ε) hTm (inMeasure_of_ae (fun ε => by
    have : Measurable fun k : ℕ => (k : ℝ) / n ε := measurable_from_top
    exact this.comp (hTm ε)) hratio)
  have hen : Tendsto (fun ε : ℝ => ε * √(n ε : ℝ)) (𝓝[>] 0) (𝓝 d) := by
    have h1 := (Real.continuous_sqrt.tendsto _).comp hsq
    rw [Real.sqrt_sq hd0.le] at h1
    refine h1.congr' ?_
    filter_upwards [self_mem_nhdsWithin] with ε hε
    rw [Function.comp_apply, Real.sqrt_mul (sq_nonneg _), Real.sqrt_sq (le_of_lt hε)]
  have hσ : √V ≠ 0 := (Real.sqrt_pos.2 hV).ne'
  have hWm : ∀ ε, Measurable fun ω => a * (ε * √(n ε : ℝ)) * ((firstPass (D ω) ε : ℝ) / n ε) := fun ε => by
    have : Measurable fun k : ℕ => a * (ε * √(n ε : ℝ)) * ((k : ℝ) / n ε) := measurable_from_top
    exact this.comp (hTm ε)
  have hcov := normal_coverage hV (a * d / √V) _ hans (fun ε ω => a * (ε * √(n ε : ℝ)) * ((firstPass (D ω) ε : ℝ) / n ε)) (fun ε => (hWm ε).aemeasurable)
    (inMeasure_of_ae hWm (by
      filter_upwards [hratio] with ω hω
      have h1 := (hen.const_mul a).mul hω
      rw [mul_one] at h1
      rw [div_mul_cancel₀ _ hσ]
      exact h1))
  refine hcov.congr' ?_
  filter_upwards [self_mem_nhdsWithin, hntop.eventually_ge_atTop 1] with ε hε hne
  refine measureReal_congr ?_
  filter_upwards [hD] with ω hω
  refine propext ?_
  show |esum Y μ (firstPass (D ω) ε) ω / √(n ε)| ≤ a * (ε * √(n ε : ℝ)) * ((firstPass (D ω) ε : ℝ) / n ε) ↔ |smean (Y · ω) (firstPass (D ω) ε) - μ| ≤ a * ε
  obtain ⟨h3, -⟩ := firstPass_spec hω.2 hε
  have hn0 : (0 : ℝ) < n ε := by exact_mod_cast hne
  have hsn : 0 < √(n ε : ℝ) := Real.sqrt_pos.2 hn0
  have ht0 : (0 : ℝ) < firstPass (D ω) ε := by exact_mod_cast (by omega : 0 < firstPass (D ω) ε)
  rw [esum_eq _ _ _ (by omega), abs_div, abs_of_pos hsn, abs_mul, abs_of_pos ht0, div_le_iff₀ hsn]
  have e1 : a * (ε * √(n ε : ℝ)) * ((firstPass (D ω) ε : ℝ) / n ε) * √(n ε : ℝ) = firstPass (D ω) ε * (a * ε) := by
    have : √(n ε : ℝ) * √(n ε : ℝ) = n ε := Real.mul_self_sqrt hn0.le
    calc _ = a * ε * (firstPass (D ω) ε : ℝ) * (√(n ε : ℝ) * √(n ε : ℝ)) / n ε := by ring
      _ = _ := by rw [this]; field_simp
  rw [e1]
  exact mul_le_mul_iff_right₀ ht0

/-- The same for a margin computed from the samples. -/
theorem IidSamples.first_coverage [IsProbabilityMeasure P] (h : IidSamples P Y μ V) (hV : 0 < V) (F : (ℕ → ℝ) → ℕ → ℝ) (hF : ∀ t, Measurable fun y => F y t)
    {d : ℝ} (hd0 : 0 < d) (hD : ∀ᵐ ω ∂P, (∀ t, 3 ≤ t → 0 < F (Y · ω) t) ∧ Tendsto (F (Y · ω)) atTop (𝓝 d)) (a : ℝ) :
    Tendsto (fun ε => P.real {ω | |smean (Y · ω) (firstPass (F (Y · ω)) ε) - μ| ≤ a * ε}) (𝓝[>] 0) (𝓝 ((gaussianReal 0 1).real {z | |z| ≤ a * d / √V})) := by
  obtain ⟨Z, hZ⟩ : ∃ Z : ℕ → Ω → ℝ, Z = fun t => (h.aemeasurable t).mk (Y t) := ⟨_, rfl⟩
  have hYZ : ∀ t, Y t =ᵐ[P] Z t := fun t => by rw [hZ]; exact (h.aemeasurable t).ae_eq_mk
  have hm : ∀ t, Measurable (Z t) := fun t => by rw [hZ]; exact (h.aemeasurable t).measurable_mk
  have hid : ∀ t, IdentDistrib (Y t) (Z t) P P := fun t => IdentDistrib.of_ae_eq (h.aemeasurable t) (hYZ t)
  have hZs : IidSamples P Z μ V := ⟨(iIndepFun_congr hYZ).1 h.indep, fun t => (hid t).symm.trans ((h.ident t).trans (hid 0)),
    (hid 0).memLp_iff.1 h.memLp, by rw [← (hid 0).integral_eq, h.mean], by rw [← (hid 0).variance_eq, h.var]⟩
  have hall : ∀ᵐ ω ∂P, (Y · ω) = (Z · ω) := by
    filter_upwards [ae_all_iff.2 hYZ] with ω hω
    exact funext hω
  have hmZ : Measurable fun ω t => Z t ω := measurable_pi_iff.2 hm
  refine (firstPass_coverage hZs hV hm (fun ω => F (Z · ω)) (fun t => (hF t).comp hmZ) hd0 (by
    filter_upwards [hD, hall] with ω h1 h2
    rw [← h2]
    exact h1) a).congr fun ε => measureReal_congr ?_
  filter_upwards [hall] with ω hω
  refine propext ?_
  show |smean (Z · ω) (firstPass (F (Z · ω)) ε) - μ| ≤ a * ε ↔ |smean (Y · ω) (firstPass (F (Y · ω)) ε) - μ| ≤ a * ε
  rw [hω]

end Primate
