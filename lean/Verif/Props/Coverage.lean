import Verif.Props.Asymptotics
import Verif.Lemmas.StudentMono
import Mathlib.LinearAlgebra.Matrix.Notation

/-!
# C130: the margins are too small for normal samples, and examples for C127, C128, C129
-/

noncomputable section

namespace Primate

open MeasureTheory ProbabilityTheory Filter
open scoped Topology

variable {N : ℕ} {Ω : Type*} [MeasurableSpace Ω] {P : Measure Ω}

theorem seqEst_vecs (record : Bool) (s : ℕ → ℝ) (t : ℕ) :
    (MeanEst.init 1 true record).updates ((List.range t).map fun r => .vec [s r]) = .ok (seqEst record s t) := by
  unfold MeanEst.updates
  induction t with
  | zero => rfl
  | succ t ih =>
    rw [List.range_succ, List.map_append, List.foldlM_append, ih]
    have h := (seqEst_inv record s t).2
    simp only [List.map_cons, List.map_nil, List.foldlM_cons, List.foldlM_nil, Bind.bind, Except.bind, pure, Except.pure]
    rw [h]

/-- **C130**: the margin of error of `ConfidenceCriterion(c)` for independent normal samples: after any number of samples from 3 on, the distance between the estimate of the
`MeanEstimator` and the mean is at most the margin with a probability smaller than `c`. -/
theorem C130_margin [IsProbabilityMeasure P] (tppf : ℝ → ℕ → ℝ) (zscore : ℝ → ℝ) (ht : Spec.StudentQuantile tppf) (hz : Spec.TwoSided zscore)
    (Y : ℕ → Ω → ℝ) (m : ℝ) (v : NNReal) (hv : v ≠ 0) (hind : iIndepFun Y P) (hlaw : ∀ t, HasLaw (Y t) (gaussianReal m v) P)
    (c : ℝ) (cc : ConfCrit) (atol rtol : Option ℝ) (hcc : ConfCrit.init tppf zscore c atol rtol = .ok cc) (record : Bool) (n : ℕ) (hn : 3 ≤ n) :
    P.real {ω | ∃ est x moe rel, (MeanEst.init 1 true record).updates ((List.range n).map fun r => .vec [Y r ω]) = .ok est ∧
      est.estimate = .val x ∧ cc.error est.view = .ok (.fin moe, rel) ∧ |x 0 - m| ≤ moe} < c := by
  obtain ⟨⟨hc0, hc1⟩, -, -, hcz, hct⟩ := init_fields hcc
  have hn' : (0 : ℝ) < n := by exact_mod_cast (by omega : 0 < n)
  have hsn : 0 < √(n : ℝ) := Real.sqrt_pos.2 hn'
  have hev : P.real {ω | ∃ est x moe rel, (MeanEst.init 1 true record).updates ((List.range n).map fun r => .vec [Y r ω]) = .ok est ∧
      est.estimate = .val x ∧ cc.error est.view = .ok (.fin moe, rel) ∧ |x 0 - m| ≤ moe} =
      P.real {ω | √n * |smean (Y · ω) n - m| ≤ (if n < 30 then cc.tScores n else cc.z) * √(svar (Y · ω) n)} := by
    congr 1
    ext ω
    obtain ⟨rel, hrel⟩ := conf_error cc record (Y · ω) n hn
    have hest := seqEst_estimate record (Y · ω) n (by omega)
    have hup := seqEst_vecs record (Y · ω) n
    simp only [Set.mem_ofPred_eq]
    rw [mul_comm, ← le_div_iff₀ hsn, mul_div_assoc]
    constructor
    · rintro ⟨est, x, moe, rel', h1, h2, h3, h4⟩
      rw [hup, Except.ok.injEq] at h1
      subst h1
      rw [hest, NumArr.val.injEq] at h2
      rw [hrel, Except.ok.injEq, Prod.mk.injEq, Fl.fin.injEq] at h3
      rw [h3.1, smean, congrFun h2 0]
      exact h4
    · intro h
      exact ⟨_, _, _, _, hup, hest, hrel, h⟩
  rw [hev, normal_samples hv hind hlaw n (by omega)]
  split_ifs with h30
  · rw [hct]
    have h1 := tppf_cover ht hc0 hc1 (n + 1) (by omega)
    refine lt_of_lt_of_eq (tRatio_strictMono h1.1 (by omega) (by omega)) h1.2
  · rw [hcz]
    exact lt_of_lt_of_eq (tRatio_lt_gauss (zscore_pos hz hc0 hc1) (by omega)) (hz c hc0 hc1)

/-- **C130**: `confidence_interval(a, confidence=c, sdist="normal")` of independent normal samples covers the mean with a probability smaller than `c`. -/
theorem C130_interval [IsProbabilityMeasure P] (tppf : ℝ → ℕ → ℝ) (nppf : ℝ → ℝ) (hq : Spec.NormalQuantile nppf)
    (Y : ℕ → Ω → ℝ) (m : ℝ) (v : NNReal) (hv : v ≠ 0) (hind : iIndepFun Y P) (hlaw : ∀ t, HasLaw (Y t) (gaussianReal m v) P)
    (c : ℝ) (h0 : 0 < c) (h1 : c < 1) (n : ℕ) (hn : 2 ≤ n) :
    P.real {ω | Spec.Covers (confidenceInterval tppf nppf ((List.range n).map fun r => Y r ω) c "normal") m} < c := by
  have h2 : P.real {ω | Spec.Covers (confidenceInterval tppf nppf ((List.range n).map fun r => Y r ω) c "normal") m} ≤
      P.real {ω | √n * |smean (Y · ω) n - m| ≤ nppf ((1 + c) / 2) * √(svar (Y · ω) n)} :=
    measureReal_mono fun ω hω => ((covers_normal tppf hq (Y · ω) n hn h0 h1 m).1 hω).2
  rw [normal_samples hv hind hlaw n hn] at h2
  have h3 := tRatio_lt_gauss (nppf_pos hq (show 1 / 2 < (1 + c) / 2 by linarith) (by linarith)) (show 1 ≤ n - 1 by omega)
  rw [nppf_cover hq h0 h1] at h3
  exact h2.trans_lt h3

/-! ## Examples -/

/-- The hypotheses of `C127_hutch` for `[[1, 2], [2, 1]]`: with Rademacher vectors the error times `√k` tends to a normal number with variance 16. -/
example (tppf : ℝ → ℕ → ℝ) (zscore : ℝ → ℝ) : ∃ (P : Measure ((ℕ → ℝ) × (ℕ → ℝ))) (_ : IsProbabilityMeasure P) (est : ℕ → (ℕ → ℝ) × (ℕ → ℝ) → ℝ),
    (∀ k, 0 < k → ∀ ω, hutch tppf zscore ⟨ω.1, ω.2⟩ (scalarArgs !![(1 : ℝ), 2; 2, 1] (.name "rademacher") k) (k + 1) =
        some (.ok (.scalar (.val fun _ => est k ω), []))) ∧
    (∀ᵐ ω ∂P, Tendsto (fun k => est k ω) atTop (𝓝 2)) ∧
    TendstoInDistribution (fun (k : ℕ) ω => √k * (est k ω - 2)) atTop (id : ℝ → ℝ) (fun _ => P) (gaussianReal 0 16) := by
  obtain ⟨P, hP, hu, hX⟩ := iid_both_exist
  obtain ⟨est, h1, h2, h3, -⟩ := C127_hutch tppf zscore !![(1 : ℝ), 2; 2, 1] (by norm_num) "rademacher" (Or.inl rfl) _ _ hu hX
  have htr : Matrix.trace !![(1 : ℝ), 2; 2, 1] = 2 := by simp [Matrix.trace, Fin.sum_univ_two]; norm_num
  have hv : (Spec.isoVar !![(1 : ℝ), 2; 2, 1] "rademacher").toNNReal = 16 := by
    have : Spec.isoVar !![(1 : ℝ), 2; 2, 1] "rademacher" = 16 := by
      simp [Spec.isoVar, Fin.sum_univ_two]
      norm_num
    rw [this]
    norm_num
  rw [htr] at h2 h3
  rw [hv] at h3
  exact ⟨P, hP, est, h1, h2, h3⟩

/-- Quantile functions and samples as assumed in `C128_normal` and `C130_interval` exist: of 4 normal samples the `t` interval has exactly the nominal coverage, the `normal`
interval less. -/
example : ∃ tppf nppf, gaussStream.real {z | Spec.Covers (confidenceInterval tppf nppf ((List.range 4).map fun r => z r) 0.95 "t") 0} = 0.95 ∧
    gaussStream.real {z | Spec.Covers (confidenceInterval tppf nppf ((List.range 4).map fun r => z r) 0.95 "normal") 0} < 0.95 := by
  obtain ⟨tppf, ht⟩ := studentQuantile_exists
  obtain ⟨nppf, hq⟩ := normalQuantile_exists
  exact ⟨tppf, nppf, C128_normal tppf nppf ht _ 0 1 one_ne_zero iidNormal_exists.indep iidNormal_exists.law 0.95 (by norm_num) (by norm_num) 4 (by norm_num),
    C130_interval tppf nppf hq _ 0 1 one_ne_zero iidNormal_exists.indep iidNormal_exists.law 0.95 (by norm_num) (by norm_num) 4 (by norm_num)⟩

/-- The same for the margin of `ConfidenceCriterion(0.95)` after 10 samples. -/
example : ∃ tppf zscore cc, ConfCrit.init tppf zscore 0.95 none none = .ok cc ∧
    gaussStream.real {z | ∃ est x moe rel, (MeanEst.init 1 true false).updates ((List.range 10).map fun r => .vec [z r]) = .ok est ∧
      est.estimate = .val x ∧ cc.error est.view = .ok (.fin moe, rel) ∧ |x 0 - 0| ≤ moe} < 0.95 := by
  obtain ⟨tppf, ht⟩ := studentQuantile_exists
  obtain ⟨zscore, hz⟩ := twoSided_exists
  obtain ⟨cc, hcc⟩ : ∃ cc, ConfCrit.init tppf zscore 0.95 none none = .ok cc := ⟨_, by rw [ConfCrit.init, if_pos (by norm_num)]⟩
  exact ⟨tppf, zscore, cc, hcc, C130_margin tppf zscore ht hz _ 0 1 one_ne_zero iidNormal_exists.indep iidNormal_exists.law 0.95 cc none none hcc false 10 (by norm_num)⟩

/-- `C128_interval` and `C128_margin` for normal vectors and `[[1, 0], [0, 2]]`, a sample of variance 10. -/
example : ∃ (P : Measure ((ℕ → ℝ) × (ℕ → ℝ))) (tppf : ℝ → ℕ → ℝ) (zscore : ℝ → ℝ) (cc : ConfCrit), ConfCrit.init tppf zscore 0.95 none none = .ok cc ∧
    Tendsto (fun k : ℕ => P.real {ω | ∃ x est crit calls moe rel,
      hutch tppf zscore ⟨ω.1, ω.2⟩ ⟨.ofMatrix !![(1 : ℝ), 0; 0, 2], 1, .name "normal", .obj (.count k), true, false, false, []⟩ (k + 1) =
        some (.ok (.pair (.val fun _ => x) (.mk2 (some est) crit), calls)) ∧
      cc.error est.view = .ok (.fin moe, rel) ∧ |x - Matrix.trace !![(1 : ℝ), 0; 0, 2]| ≤ moe}) atTop (𝓝 0.95) := by
  obtain ⟨P, hP, hu, hX⟩ := iid_both_exist
  obtain ⟨zscore, hz⟩ := twoSided_exists
  obtain ⟨cc, hcc⟩ : ∃ cc, ConfCrit.init (fun _ _ => 2) zscore 0.95 none none = .ok cc := ⟨_, by rw [ConfCrit.init, if_pos (by norm_num)]⟩
  exact ⟨P, fun _ _ => 2, zscore, cc, hcc, C128_margin _ zscore hz _ (by norm_num) "normal" (Or.inr (Or.inl rfl))
    (by simp [Spec.isoVar, Fin.sum_univ_two]; norm_num) _ _ hu hX 0.95 cc none none hcc⟩

/-- `C129_terminates` and `C129_never` for the same matrix: the default tolerances of `ConfidenceCriterion` make the loop terminate, `atol=0, rtol=0` does not. -/
example : ∃ (P : Measure ((ℕ → ℝ) × (ℕ → ℝ))) (tppf : ℝ → ℕ → ℝ) (zscore : ℝ → ℝ) (c1 c2 : ConfCrit), ConfCrit.init tppf zscore 0.95 (some 0) (some 0.01) = .ok c1 ∧
    ConfCrit.init tppf zscore 0.95 (some 0) (some 0) = .ok c2 ∧
    (∀ᵐ ω ∂P, ∃ T x, 3 ≤ T ∧ ∀ fuel, T < fuel → ∃ out calls,
      hutch tppf zscore ⟨ω.1, ω.2⟩ ⟨.ofMatrix !![(1 : ℝ), 0; 0, 2], 32, .name "normal", .obj (.conf c1), false, false, false, []⟩ fuel = some (.ok (out, calls)) ∧
      out.estimate = .val x) ∧
    ∀ᵐ ω ∂P, ∀ fuel, hutch tppf zscore ⟨ω.1, ω.2⟩ ⟨.ofMatrix !![(1 : ℝ), 0; 0, 2], 32, .name "normal", .obj (.conf c2), false, false, false, []⟩ fuel = none := by
  obtain ⟨P, hP, hu, hX⟩ := iid_both_exist
  obtain ⟨tppf, ht⟩ := studentQuantile_exists
  obtain ⟨zscore, hz⟩ := twoSided_exists
  obtain ⟨c1, hc1⟩ : ∃ cc, ConfCrit.init tppf zscore 0.95 (some 0) (some 0.01) = .ok cc := ⟨_, by rw [ConfCrit.init, if_pos (by norm_num)]⟩
  obtain ⟨c2, hc2⟩ : ∃ cc, ConfCrit.init tppf zscore 0.95 (some 0) (some 0) = .ok cc := ⟨_, by rw [ConfCrit.init, if_pos (by norm_num)]⟩
  obtain ⟨-, ha, hr, -⟩ := init_fields hc1
  simp only [Option.getD_some] at ha hr
  refine ⟨P, tppf, zscore, c1, c2, hc1, hc2, ?_, ?_⟩
  · exact C129_terminates tppf zscore ⟨.ofMatrix !![(1 : ℝ), 0; 0, 2], 32, .name "normal", .obj (.conf c1), false, false, false, []⟩ _ rfl (by norm_num) "normal"
      (Or.inr (Or.inl rfl)) rfl (Or.inr ⟨rfl, rfl⟩) c1 rfl (by rw [ha]) (Or.inr (Or.inl (by rw [hr]; norm_num))) _ _ hu hX
  · exact C129_never tppf zscore ht hz ⟨.ofMatrix !![(1 : ℝ), 0; 0, 2], 32, .name "normal", .obj (.conf c2), false, false, false, []⟩ _ rfl (by norm_num) "normal"
      (Or.inl rfl) rfl (Or.inr ⟨rfl, rfl⟩) 0.95 c2 hc2 rfl (by simp [Spec.isoVar, Fin.sum_univ_two]; norm_num) _ _ hu hX

end Primate
