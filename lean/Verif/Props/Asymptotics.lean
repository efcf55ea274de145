import Verif.Lemmas.HutchRun
import Verif.Lemmas.Term
import Verif.Props.Interval

/-!
# C127, C128, C129: `hutch` with many samples, coverage of confidence intervals, termination of `ConfidenceCriterion`
-/

noncomputable section

namespace Primate

open MeasureTheory ProbabilityTheory Filter
open scoped Topology

variable {N : ℕ} {Ω : Type*} [MeasurableSpace Ω] {P : Measure Ω}

/-! ## C127 -/

theorem IidSamples.const [IsProbabilityMeasure P] {Y : ℕ → Ω → ℝ} {μ : ℝ} (h : IidSamples P Y μ 0) : ∀ᵐ ω ∂P, ∀ t, Y t ω = μ := by
  rw [ae_all_iff]
  intro t
  have h1 := ae_eq_integral_of_variance_eq_zero ((h.ident t).memLp_iff.2 h.memLp) (by rw [(h.ident t).variance_eq, h.var])
  rw [(h.ident t).integral_eq, h.mean] at h1
  exact h1

theorem smean_const {y : ℕ → ℝ} {μ : ℝ} (h : ∀ t, y t = μ) (n : ℕ) (hn : 0 < n) : smean y n = μ := by
  have hn' : (n : ℝ) ≠ 0 := by exact_mod_cast hn.ne'
  unfold smean
  simp only [h, Finset.sum_const, Finset.card_range, nsmul_eq_mul]
  field_simp

theorem svar_const {y : ℕ → ℝ} {μ : ℝ} (h : ∀ t, y t = μ) (n : ℕ) (hn : 0 < n) : svar y n = 0 := by
  have h1 := smean_const h n hn
  unfold smean at h1
  unfold svar
  rw [h1, Finset.sum_eq_zero fun r _ => by rw [h]; simp, zero_div]

/-- **C127**: with independent uniform and normal numbers and Rademacher, normal or sphere vectors, the estimate of `hutch` with `CountCriterion(k)` converges to the
trace almost surely as `k` grows, and `√k` times the error converges in distribution to a normal number with mean zero and the variance of one sample.
When that variance is zero the estimate is the trace for every `k`. -/
theorem C127_hutch [IsProbabilityMeasure P] (tppf : ℝ → ℕ → ℝ) (zscore : ℝ → ℝ) (A : Matrix (Fin N) (Fin N) ℝ) (hN : N ≠ 0) (s : String)
    (hs : s = "rademacher" ∨ s = "normal" ∨ s = "sphere") (u X : ℕ → Ω → ℝ) (hu : Spec.IidUniform P u) (hX : Spec.IidNormal P X) :
    ∃ est : ℕ → Ω → ℝ,
      (∀ k, 0 < k → ∀ ω, hutch tppf zscore ⟨fun q => u q ω, fun q => X q ω⟩ (scalarArgs A (.name s) k) (k + 1) =
        some (.ok (.scalar (.val fun _ => est k ω), []))) ∧
      (∀ᵐ ω ∂P, Tendsto (fun k => est k ω) atTop (𝓝 A.trace)) ∧
      TendstoInDistribution (fun (k : ℕ) ω => √k * (est k ω - A.trace)) atTop (id : ℝ → ℝ) (fun _ => P) (gaussianReal 0 (Spec.isoVar A s).toNNReal) ∧
      (Spec.isoVar A s = 0 → ∀ᵐ ω ∂P, ∀ k, 0 < k → est k ω = A.trace) := by
  have h := isoSample_iid A hN hs hu hX
  refine ⟨fun k ω => smean (isoSample A s u X · ω) k, fun k hk ω => hutch_isoSample tppf zscore A hN hs u X k hk ω, h.smean_tendsto, h.clt, fun h0 => ?_⟩
  rw [h0] at h
  filter_upwards [h.const] with ω hω k hk
  exact smean_const hω k hk

/-! ## C128 -/

/-- The interval covers the value `μ`. -/
def Spec.Covers (r : Py CI) (μ : ℝ) : Prop := ∃ lo hi, r = .ok (.fin lo hi) ∧ lo ≤ μ ∧ μ ≤ hi

theorem npMean_range (y : ℕ → ℝ) (n : ℕ) : npMean ((List.range n).map y) = smean y n := by
  unfold npMean smean
  rw [List.length_map, List.length_range]
  rfl

theorem npStd_range (y : ℕ → ℝ) (n : ℕ) : npStd ((List.range n).map y) = √(svar y n) := by
  unfold npStd
  rw [npMean_range, List.map_map, List.length_map, List.length_range]
  rfl

theorem covers_aux {m q σ n μ : ℝ} (hn : 0 < n) : (m - q * (σ / √n) ≤ μ ∧ μ ≤ m + q * (σ / √n)) ↔ √n * |m - μ| ≤ q * σ := by
  have hs : 0 < √n := Real.sqrt_pos.2 hn
  have h1 : q * (σ / √n) = q * σ / √n := by ring
  rw [h1, mul_comm (√n), ← le_div_iff₀ hs, abs_le]
  constructor
  · rintro ⟨h2, h3⟩; constructor <;> linarith
  · rintro ⟨h2, h3⟩; constructor <;> linarith

theorem covers_t (tppf : ℝ → ℕ → ℝ) (nppf : ℝ → ℝ) (y : ℕ → ℝ) (n : ℕ) (hn : 2 ≤ n) {c : ℝ} (h0 : 0 < c) (h1 : c < 1) (μ : ℝ) :
    Spec.Covers (confidenceInterval tppf nppf ((List.range n).map y) c "t") μ ↔ √n * |smean y n - μ| ≤ tppf ((1 + c) / 2) (n - 1) * √(svar y n) := by
  have hn' : (0 : ℝ) < n := by exact_mod_cast (by omega : 0 < n)
  rw [← covers_aux hn']
  unfold Spec.Covers confidenceInterval
  rw [if_neg (by simp [h0.le, h1.le]), if_pos rfl, if_neg (by rw [List.length_map, List.length_range]; omega)]
  simp only [h1.ne, if_false, npMean_range, npStd_range, List.length_map, List.length_range, Except.ok.injEq, CI.fin.injEq]
  constructor
  · rintro ⟨lo, hi, ⟨rfl, rfl⟩, h⟩; exact h
  · intro h; exact ⟨_, _, ⟨rfl, rfl⟩, h⟩

theorem covers_normal (tppf : ℝ → ℕ → ℝ) {nppf : ℝ → ℝ} (hq : Spec.NormalQuantile nppf) (y : ℕ → ℝ) (n : ℕ) (hn : 2 ≤ n) {c : ℝ} (h0 : 0 < c) (h1 : c < 1) (μ : ℝ) :
    Spec.Covers (confidenceInterval tppf nppf ((List.range n).map y) c "normal") μ ↔ 0 < svar y n ∧ √n * |smean y n - μ| ≤ nppf ((1 + c) / 2) * √(svar y n) := by
  have hn' : (0 : ℝ) < n := by exact_mod_cast (by omega : 0 < n)
  have hsym : nppf ((1 - c) / 2) = -nppf ((1 + c) / 2) := by
    rw [← nppf_symm hq (by linarith) (by linarith)]
    congr 1
    ring
  have hpos : 0 < √(svar y n) / √(n : ℝ) ↔ 0 < svar y n := by
    rw [div_pos_iff_of_pos_right (Real.sqrt_pos.2 hn'), Real.sqrt_pos]
  rw [← covers_aux hn']
  unfold Spec.Covers confidenceInterval
  rw [if_neg (by simp [h0.le, h1.le]), if_neg (by decide), if_pos rfl, if_neg (by rw [List.length_map, List.length_range]; omega)]
  simp only [h1.ne, if_false, npMean_range, npStd_range, List.length_map, List.length_range, hpos, hsym]
  by_cases hv : 0 < svar y n
  · simp only [hv, if_true, Except.ok.injEq, CI.fin.injEq, true_and]
    have e1 : smean y n + √(svar y n) / √n * -nppf ((1 + c) / 2) = smean y n - nppf ((1 + c) / 2) * (√(svar y n) / √n) := by ring
    have e2 : smean y n + √(svar y n) / √n * nppf ((1 + c) / 2) = smean y n + nppf ((1 + c) / 2) * (√(svar y n) / √n) := by ring
    rw [e1, e2]
    constructor
    · rintro ⟨lo, hi, ⟨rfl, rfl⟩, h⟩; exact h
    · intro h; exact ⟨_, _, ⟨rfl, rfl⟩, h⟩
  · simp only [hv, if_false, false_and, iff_false]
    rintro ⟨lo, hi, h, -⟩
    simp at h

/-- **C128**: `confidence_interval(a, confidence=c)` of `n` independent samples with the same law and finite positive variance covers the mean with a probability
that converges to `c` as `n` grows, for both values of `sdist`. -/
theorem C128_interval [IsProbabilityMeasure P] (tppf : ℝ → ℕ → ℝ) (nppf : ℝ → ℝ) (ht : Spec.StudentQuantile tppf) (hq : Spec.NormalQuantile nppf)
    (Y : ℕ → Ω → ℝ) (hind : iIndepFun Y P) (hid : ∀ t, IdentDistrib (Y t) (Y 0) P P) (hL : MemLp (Y 0) 2 P) (hV : 0 < Var[Y 0; P]) (c : ℝ) (h0 : 0 < c) (h1 : c < 1)
    (sdist : String) (hs : sdist = "t" ∨ sdist = "normal") :
    Tendsto (fun n => P.real {ω | Spec.Covers (confidenceInterval tppf nppf ((List.range n).map fun r => Y r ω) c sdist) (∫ ω, Y 0 ω ∂P)}) atTop (𝓝 c) := by
  have h : IidSamples P Y (∫ ω, Y 0 ω ∂P) Var[Y 0; P] := ⟨hind, hid, hL, rfl, rfl⟩
  have hcov := nppf_cover hq h0 h1
  rcases hs with rfl | rfl
  · have h2 := h.coverage hV (nppf ((1 + c) / 2)) (fun n ω => tppf ((1 + c) / 2) (n - 1) * √(svar (Y · ω) n)) (fun n => (h.svar_aemeasurable n).sqrt.const_mul _) (by
      filter_upwards [h.svar_tendsto] with ω hω
      exact ((tppf_tendsto ht hq (by linarith) (by linarith)).comp (tendsto_sub_atTop_nat 1)).mul ((Real.continuous_sqrt.tendsto _).comp hω))
    rw [hcov] at h2
    refine h2.congr' ?_
    filter_upwards [eventually_ge_atTop 2] with n hn
    congr 1
    ext ω
    exact (covers_t tppf nppf (Y · ω) n hn h0 h1 _).symm
  · have h2 := h.coverage hV (nppf ((1 + c) / 2)) (fun n ω => if 0 < svar (Y · ω) n then nppf ((1 + c) / 2) * √(svar (Y · ω) n) else -1)
      (fun n => by
        have h3 : Measurable fun x : ℝ => if 0 < x then nppf ((1 + c) / 2) * √x else -1 :=
          Measurable.ite measurableSet_Ioi (by fun_prop) measurable_const
        exact h3.comp_aemeasurable (h.svar_aemeasurable n)) (by
      filter_upwards [h.svar_tendsto] with ω hω
      refine (tendsto_const_nhds.mul ((Real.continuous_sqrt.tendsto _).comp hω)).congr' ?_
      filter_upwards [hω.eventually_const_lt hV] with n hn
      simp only [Function.comp_apply, hn, if_true])
    rw [hcov] at h2
    refine h2.congr' ?_
    filter_upwards [eventually_ge_atTop 2] with n hn
    congr 1
    ext ω
    refine Iff.trans ?_ (covers_normal tppf hq (Y · ω) n hn h0 h1 _).symm
    show √n * |smean (Y · ω) n - _| ≤ (if 0 < svar (Y · ω) n then nppf ((1 + c) / 2) * √(svar (Y · ω) n) else -1) ↔ _
    by_cases hv : 0 < svar (Y · ω) n
    · simp only [hv, if_true, true_and]
    · simp only [hv, if_false, false_and, iff_false, not_le]
      have : 0 ≤ √(n : ℝ) * |smean (Y · ω) n - ∫ ω, Y 0 ω ∂P| := by positivity
      linarith

theorem smean_affine (m σ : ℝ) (z : ℕ → ℝ) (n : ℕ) (hn : 0 < n) : smean (fun t => m + σ * z t) n = m + σ * smean z n := by
  have hn' : (n : ℝ) ≠ 0 := by exact_mod_cast hn.ne'
  unfold smean
  rw [Finset.sum_add_distrib, ← Finset.mul_sum, Finset.sum_const, Finset.card_range, nsmul_eq_mul]
  field_simp

theorem svar_affine (m σ : ℝ) (z : ℕ → ℝ) (n : ℕ) (hn : 0 < n) : svar (fun t => m + σ * z t) n = σ ^ 2 * svar z n := by
  have h := smean_affine m σ z n hn
  unfold smean at h
  unfold svar
  have h1 : ∑ r ∈ Finset.range n, (m + σ * z r - (m + σ * ((∑ q ∈ Finset.range n, z q) / n))) ^ 2 =
      σ ^ 2 * ∑ r ∈ Finset.range n, (z r - (∑ q ∈ Finset.range n, z q) / n) ^ 2 := by
    rw [Finset.mul_sum]
    exact Finset.sum_congr rfl fun r _ => by ring
  rw [h, h1, mul_div_assoc]

theorem smean_measurable (n : ℕ) : Measurable fun z : ℕ → ℝ => smean z n := by unfold smean; fun_prop

theorem svar_measurable (n : ℕ) : Measurable fun z : ℕ → ℝ => svar z n := by unfold svar; fun_prop

/-- Independent normal numbers are affine images of standard ones. -/
theorem standardize [IsProbabilityMeasure P] {Y : ℕ → Ω → ℝ} {m : ℝ} {v : NNReal} (hv : v ≠ 0) (hind : iIndepFun Y P) (hlaw : ∀ t, HasLaw (Y t) (gaussianReal m v) P) :
    Spec.IidNormal P fun t ω => (Y t ω - m) / √v := by
  have hv' : √(v : ℝ) ≠ 0 := (Real.sqrt_pos.2 (by exact_mod_cast pos_iff_ne_zero.2 hv)).ne'
  refine ⟨fun t => ?_, hind.comp (fun _ y => (y - m) / √v) fun _ => by fun_prop⟩
  have h := gaussianReal_div_const (gaussianReal_sub_const (hlaw t) m) √v
  convert h using 2
  · simp
  · refine NNReal.eq ?_
    rw [NNReal.coe_div]
    simp only [NNReal.coe_one, NNReal.coe_mk]
    rw [show √(v : ℝ) ^ 2 = v from Real.sq_sqrt v.2, div_self (by exact_mod_cast hv)]

/-- The law of the error of the mean relative to the standard deviation, for normal samples. -/
theorem normal_samples [IsProbabilityMeasure P] {Y : ℕ → Ω → ℝ} {m : ℝ} {v : NNReal} (hv : v ≠ 0) (hind : iIndepFun Y P) (hlaw : ∀ t, HasLaw (Y t) (gaussianReal m v) P)
    (n : ℕ) (hn : 2 ≤ n) (q : ℝ) :
    P.real {ω | √n * |smean (Y · ω) n - m| ≤ q * √(svar (Y · ω) n)} = gaussStream.real {z | |tRatio (n - 1) z| ≤ q} := by
  have hσ : 0 < √(v : ℝ) := Real.sqrt_pos.2 (by exact_mod_cast pos_iff_ne_zero.2 hv)
  have hZ := standardize hv hind hlaw
  obtain ⟨k, rfl⟩ : ∃ k, n = k + 1 := ⟨n - 1, by omega⟩
  rw [Nat.add_sub_cancel, ← student_law k (by omega) q, ← stream_real hZ (measurableSet_le ((smean_measurable _).abs.const_mul _) ((svar_measurable _).sqrt.const_mul _))]
  congr 1
  ext ω
  obtain ⟨z, hz⟩ : ∃ z : ℕ → ℝ, z = fun t => (Y t ω - m) / √v := ⟨_, rfl⟩
  have hy : (Y · ω) = fun t => m + √v * z t := by
    funext t
    rw [hz]
    field_simp
    ring
  simp only [Set.mem_ofPred_eq]
  rw [hy, ← hz, smean_affine _ _ _ _ (Nat.succ_pos k), svar_affine _ _ _ _ (Nat.succ_pos k), Real.sqrt_mul (sq_nonneg _), Real.sqrt_sq hσ.le, add_sub_cancel_left,
    abs_mul, abs_of_pos hσ]
  constructor
  · intro h
    refine le_of_mul_le_mul_left ?_ hσ
    linarith
  · intro h
    have := mul_le_mul_of_nonneg_left h hσ.le
    linarith

/-- **C128**: with independent normal samples `confidence_interval(a, confidence=c)` with the default `sdist="t"` covers the mean with probability `c`, for every
number of samples from 2 on. -/
theorem C128_normal [IsProbabilityMeasure P] (tppf : ℝ → ℕ → ℝ) (nppf : ℝ → ℝ) (ht : Spec.StudentQuantile tppf) (Y : ℕ → Ω → ℝ) (m : ℝ) (v : NNReal) (hv : v ≠ 0)
    (hind : iIndepFun Y P) (hlaw : ∀ t, HasLaw (Y t) (gaussianReal m v) P) (c : ℝ) (h0 : 0 < c) (h1 : c < 1) (n : ℕ) (hn : 2 ≤ n) :
    P.real {ω | Spec.Covers (confidenceInterval tppf nppf ((List.range n).map fun r => Y r ω) c "t") m} = c := by
  refine Eq.trans ?_ (tppf_cover ht h0 h1 (n - 1) (by omega)).2
  rw [← normal_samples hv hind hlaw n hn]
  congr 1
  ext ω
  exact covers_t tppf nppf (Y · ω) n hn h0 h1 m

theorem count_stops (k : ℕ) (record : Bool) (y : ℕ → ℝ) : StopsAt (.count k) record y k := by
  have hn : ∀ t, (seqEst record y t).view.len = t := fun t => by
    show (seqEst record y t).nSamples = t
    rw [(seqEst_inv record y t).1.n]; simp
  refine ⟨?_, fun r hr => ?_⟩
  · simp [Crit.eval, hn, truth]
  · simp only [Crit.eval, hn, truth]
    congr 1
    simpa using hr

theorem init_fields {tppf : ℝ → ℕ → ℝ} {zscore : ℝ → ℝ} {c : ℝ} {atol rtol : Option ℝ} {cc : ConfCrit} (h : ConfCrit.init tppf zscore c atol rtol = .ok cc) :
    (0 < c ∧ c < 1) ∧ cc.atol = atol.getD 0 ∧ cc.rtol = rtol.getD 0 ∧ cc.z = zscore c ∧ ∀ i, cc.tScores i = tppf ((1 + c) / 2) (i + 1) := by
  unfold ConfCrit.init at h
  split_ifs at h with hc
  rw [Except.ok.injEq] at h
  rw [← h]
  exact ⟨hc, rfl, rfl, rfl, fun i => by rw [add_comm 1 c]⟩

/-- **C128**: the margin of error computed by `ConfidenceCriterion(c)` from the estimator in the result of `hutch(full=True)` with `CountCriterion(k)`: the error of
the estimate is at most the margin with a probability that converges to `c` as `k` grows, when the samples are not constant. -/
theorem C128_margin [IsProbabilityMeasure P] (tppf : ℝ → ℕ → ℝ) (zscore : ℝ → ℝ) (hz : Spec.TwoSided zscore) (A : Matrix (Fin N) (Fin N) ℝ) (hN : N ≠ 0) (s : String)
    (hs : s = "rademacher" ∨ s = "normal" ∨ s = "sphere") (hV : 0 < Spec.isoVar A s) (u X : ℕ → Ω → ℝ) (hu : Spec.IidUniform P u) (hX : Spec.IidNormal P X)
    (c : ℝ) (cc : ConfCrit) (atol rtol : Option ℝ) (hcc : ConfCrit.init tppf zscore c atol rtol = .ok cc) :
    Tendsto (fun k : ℕ => P.real {ω | ∃ x est crit calls moe rel,
      hutch tppf zscore ⟨fun q => u q ω, fun q => X q ω⟩ ⟨.ofMatrix A, 1, .name s, .obj (.count k), true, false, false, []⟩ (k + 1) =
        some (.ok (.pair (.val fun _ => x) (.mk2 (some est) crit), calls)) ∧
      cc.error est.view = .ok (.fin moe, rel) ∧ |x - A.trace| ≤ moe}) atTop (𝓝 c) := by
  obtain ⟨⟨hc0, hc1⟩, -, -, hcz, -⟩ := init_fields hcc
  have h := isoSample_iid A hN hs hu hX
  have h2 := h.coverage hV cc.z (fun n ω => (if n < 30 then cc.tScores n else cc.z) * √(svar (isoSample A s u X · ω) n))
    (fun n => (h.svar_aemeasurable n).sqrt.const_mul _) (by
      filter_upwards [h.svar_tendsto] with ω hω
      refine (tendsto_const_nhds.mul ((Real.continuous_sqrt.tendsto _).comp hω)).congr' ?_
      filter_upwards [eventually_ge_atTop 30] with n hn
      rw [if_neg (by omega)]
      rfl)
  rw [hcz, hz c hc0 hc1] at h2
  refine h2.congr' ?_
  filter_upwards [eventually_ge_atTop 3] with k hk
  congr 1
  ext ω
  have hk' : (0 : ℝ) < k := by exact_mod_cast (by omega : 0 < k)
  have hsk : 0 < √(k : ℝ) := Real.sqrt_pos.2 hk'
  obtain ⟨out, calls, e1, e2, e3, -⟩ := hutch_stops (tppf := tppf) (zscore := zscore) ⟨.ofMatrix A, 1, .name s, .obj (.count k), true, false, false, []⟩ A rfl hN hs rfl rfl
    (.count k) rfl u X ω k (by omega) (count_stops k false _) (k + 1) (by omega)
  obtain ⟨rel, e4⟩ := conf_error cc false (isoSample A s u X · ω) k hk
  simp only [Set.mem_ofPred_eq]
  rw [← hcz, mul_comm, ← le_div_iff₀ hsk, mul_div_assoc]
  simp only [Bool.true_or, if_true] at e3
  constructor
  · intro h
    cases out with
    | scalar e => simp [HutchOut.result] at e3
    | pair e r =>
      simp only [HutchOut.estimate, HutchOut.result, Option.some.injEq] at e2 e3
      rw [e2, e3] at e1
      exact ⟨_, _, _, _, _, _, e1, e4, h⟩
  · rintro ⟨x, est, crit, calls', moe, rel', f1, f2, f3⟩
    rw [e1, Option.some.injEq, Except.ok.injEq, Prod.mk.injEq] at f1
    obtain ⟨rfl, -⟩ := f1
    simp only [HutchOut.estimate, NumArr.val.injEq] at e2
    have e2' := congrFun e2 0
    simp only [HutchOut.result, Option.some.injEq, EstResult.mk2, EstResult.mk.injEq] at e3
    obtain ⟨rfl, -⟩ := e3
    rw [e4, Except.ok.injEq, Prod.mk.injEq, Fl.fin.injEq] at f2
    rw [← f2.1] at f3
    rw [← e2']
    exact f3

/-! ## C129 -/

theorem svar_pos {y : ℕ → ℝ} {n : ℕ} (hn : 2 ≤ n) (h : y 0 ≠ y 1) : 0 < svar y n := by
  have hn' : (0 : ℝ) < n - 1 := by
    have : (2 : ℝ) ≤ n := by exact_mod_cast hn
    linarith
  refine lt_of_le_of_ne (svar_nonneg y n) fun h0 => h ?_
  unfold svar at h0
  have h1 := (div_eq_zero_iff.1 h0.symm).resolve_right hn'.ne'
  have h2 := (Finset.sum_eq_zero_iff_of_nonneg fun r _ => sq_nonneg _).1 h1
  have h3 := pow_eq_zero_iff (two_ne_zero) |>.1 (h2 0 (Finset.mem_range.2 (by omega)))
  have h4 := pow_eq_zero_iff (two_ne_zero) |>.1 (h2 1 (Finset.mem_range.2 (by omega)))
  linarith

theorem se_tendsto {v : ℕ → ℝ} {V : ℝ} (h : Tendsto v atTop (𝓝 V)) : Tendsto (fun n : ℕ => √(v n) / √(n : ℝ)) atTop (𝓝 0) :=
  ((Real.continuous_sqrt.tendsto _).comp h).div_atTop (Real.tendsto_sqrt_atTop.comp tendsto_natCast_atTop_atTop)

/-- The samples meet one of the two tolerances after sufficiently many samples. -/
theorem conf_meets [IsProbabilityMeasure P] {Y : ℕ → Ω → ℝ} {μ V : ℝ} (h : IidSamples P Y μ V) (cc : ConfCrit) (ha : 0 ≤ cc.atol)
    (hpos : 0 < cc.atol ∨ 0 < cc.rtol ∨ V = 0) : ∀ᵐ ω ∂P, ∃ t, 3 ≤ t ∧ ((if t < 30 then cc.tScores t else cc.z) * (√(svar (Y · ω) t) / √t) ≤ cc.atol ∨
      (smean (Y · ω) t ≠ 0 ∧ √(svar (Y · ω) t) / √t / |smean (Y · ω) t| ≤ cc.rtol)) := by
  have hVn : 0 ≤ V := by rw [← h.var]; exact variance_nonneg _ _
  rcases hVn.eq_or_lt with hV | hV
  · subst hV
    filter_upwards [h.const] with ω hω
    refine ⟨3, le_rfl, Or.inl ?_⟩
    rw [svar_const hω 3 (by norm_num), Real.sqrt_zero, zero_div, mul_zero]
    exact ha
  rcases hpos with hat | hrt | hV0
  · filter_upwards [h.svar_tendsto] with ω hω
    have h1 := (se_tendsto hω).const_mul cc.z
    rw [mul_zero] at h1
    obtain ⟨t, ht, ht'⟩ := ((h1.eventually_le_const hat).and (eventually_ge_atTop 30)).exists
    exact ⟨t, by omega, Or.inl (by rw [if_neg (by omega)]; exact ht)⟩
  · by_cases hμ : μ = 0
    · subst hμ
      filter_upwards [h.svar_tendsto, h.unbounded hV (√(V + 1) / cc.rtol)] with ω hω hω'
      obtain ⟨t, ht, h3, hv⟩ := (hω'.and_eventually ((eventually_ge_atTop 3).and (hω.eventually_le_const (show V < V + 1 by linarith)))).exists
      have hst : 0 < √(t : ℝ) := Real.sqrt_pos.2 (by exact_mod_cast (by omega : 0 < t))
      rw [sub_zero] at ht
      have hne : 0 < |smean (Y · ω) t| := by
        by_contra hc
        have h0 : |smean (Y · ω) t| = 0 := le_antisymm (not_lt.1 hc) (abs_nonneg _)
        rw [h0, mul_zero] at ht
        have : 0 ≤ √(V + 1) / cc.rtol := by positivity
        linarith
      refine ⟨t, h3, Or.inr ⟨abs_pos.1 hne, ?_⟩⟩
      rw [div_le_iff₀ hne, div_le_iff₀ hst]
      rw [div_lt_iff₀ hrt] at ht
      have := Real.sqrt_le_sqrt hv
      linarith
    · filter_upwards [h.svar_tendsto, h.smean_tendsto] with ω hω hω'
      have h1 := (se_tendsto hω).div hω'.abs (abs_ne_zero.2 hμ)
      rw [zero_div] at h1
      obtain ⟨t, ht, ht', h3⟩ := ((h1.eventually_le_const hrt).and ((hω'.eventually_ne hμ).and (eventually_ge_atTop 3))).exists
      exact ⟨t, h3, Or.inr ⟨ht', ht⟩⟩
  · exact absurd hV0 hV.ne'

/-- **C129**: with independent uniform and normal numbers and vectors drawn one at a time, `hutch` with a `ConfidenceCriterion` terminates almost surely, provided
one of the tolerances is positive or the samples are constant. -/
theorem C129_terminates [IsProbabilityMeasure P] (tppf : ℝ → ℕ → ℝ) (zscore : ℝ → ℝ) (a : HutchArgs N) (A : Matrix (Fin N) (Fin N) ℝ) (hA : a.A = .ofMatrix A) (hN : N ≠ 0)
    (s : String) (hs : s = "rademacher" ∨ s = "normal" ∨ s = "sphere") (hpdf : a.pdf = .name s) (hcols : a.batch = 1 ∨ (a.full = false ∧ a.callback = false))
    (cc : ConfCrit) (hc : a.converge = .obj (.conf cc)) (ha : 0 ≤ cc.atol) (hpos : 0 < cc.atol ∨ 0 < cc.rtol ∨ Spec.isoVar A s = 0)
    (u X : ℕ → Ω → ℝ) (hu : Spec.IidUniform P u) (hX : Spec.IidNormal P X) :
    ∀ᵐ ω ∂P, ∃ T x, 3 ≤ T ∧ ∀ fuel, T < fuel → ∃ out calls, hutch tppf zscore ⟨fun q => u q ω, fun q => X q ω⟩ a fuel = some (.ok (out, calls)) ∧
      out.estimate = .val x := by
  filter_upwards [conf_meets (isoSample_iid A hN hs hu hX) cc ha hpos] with ω hω
  obtain ⟨T, h3, hT⟩ := (conf_stops cc a.record (isoSample A s u X · ω)).2 hω
  refine ⟨T, fun _ => smean (isoSample A s u X · ω) T, h3, fun fuel hf => ?_⟩
  obtain ⟨out, calls, h1, h2, -⟩ := hutch_stops (tppf := tppf) (zscore := zscore) a A hA hN hs hpdf (by
    unfold HutchArgs.cols
    rcases hcols with h | ⟨h, h'⟩
    · rw [h]; simp
    · rw [h, h']; rfl) (.conf cc) (by rw [hc]; rfl) u X ω T (by omega) hT fuel hf
  exact ⟨out, calls, h1, h2⟩

/-- **C129**: with both tolerances zero and normal or sphere vectors the loop of `hutch` does not terminate, almost surely, unless the samples are constant. -/
theorem C129_never [IsProbabilityMeasure P] (tppf : ℝ → ℕ → ℝ) (zscore : ℝ → ℝ) (ht : Spec.StudentQuantile tppf) (hz : Spec.TwoSided zscore)
    (a : HutchArgs N) (A : Matrix (Fin N) (Fin N) ℝ) (hA : a.A = .ofMatrix A) (hN : N ≠ 0)
    (s : String) (hs : s = "normal" ∨ s = "sphere") (hpdf : a.pdf = .name s) (hcols : a.batch = 1 ∨ (a.full = false ∧ a.callback = false))
    (c : ℝ) (cc : ConfCrit) (hcc : ConfCrit.init tppf zscore c (some 0) (some 0) = .ok cc) (hc : a.converge = .obj (.conf cc)) (hV : 0 < Spec.isoVar A s)
    (u X : ℕ → Ω → ℝ) (hu : Spec.IidUniform P u) (hX : Spec.IidNormal P X) :
    ∀ᵐ ω ∂P, ∀ fuel, hutch tppf zscore ⟨fun q => u q ω, fun q => X q ω⟩ a fuel = none := by
  obtain ⟨⟨hc0, hc1⟩, hat, hrt, hcz, hct⟩ := init_fields hcc
  simp only [Option.getD_some] at hat hrt
  have hs' : IsIso s := Or.inr hs
  filter_upwards [(isoSample_iid A hN hs' hu hX).distinct (isoSample_atomless A hN hs hV u X hX) (show (0 : ℕ) ≠ 1 by norm_num)] with ω hω fuel
  refine hutch_never (tppf := tppf) (zscore := zscore) a A hA hN hs' hpdf (by
    unfold HutchArgs.cols
    rcases hcols with h | ⟨h, h'⟩
    · rw [h]; simp
    · rw [h, h']; rfl) (.conf cc) (by rw [hc]; rfl) u X ω (fun t => ?_) fuel
  refine conf_never cc a.record _ (fun t ht3 => ?_) t
  have hst : 0 < √(t : ℝ) := Real.sqrt_pos.2 (by exact_mod_cast (by omega : 0 < t))
  have hse : 0 < √(svar (isoSample A s u X · ω) t) / √(t : ℝ) := div_pos (Real.sqrt_pos.2 (svar_pos (by omega) hω)) hst
  have hscore : 0 < (if t < 30 then cc.tScores t else cc.z) := by
    split_ifs
    · rw [hct]; exact (tppf_cover ht hc0 hc1 _ (by omega)).1
    · rw [hcz]; exact zscore_pos hz hc0 hc1
  rw [hat, hrt]
  rintro (h | ⟨h, h'⟩)
  · have := mul_pos hscore hse
    linarith
  · have := div_pos hse (abs_pos.2 h)
    linarith

end Primate
