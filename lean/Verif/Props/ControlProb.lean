import Verif.Lemmas.IidRows
import Verif.Lemmas.Anscombe
import Verif.Props.ControlLs
import Verif.Props.Prob
import Verif.Lemmas.GaussIndep

/-!
# C156: control variates with independent observations
-/

noncomputable section

namespace Primate

open MeasureTheory ProbabilityTheory Filter
open scoped Topology

variable {k : ℕ} {Ω : Type*} [MeasurableSpace Ω] {P : Measure Ω}

/-! ## Fixed coefficients -/

theorem IidSamples.smean_integral [IsProbabilityMeasure P] {Y : ℕ → Ω → ℝ} {μ V : ℝ} (h : IidSamples P Y μ V) (n : ℕ) (hn : 0 < n) : ∫ ω, smean (Y · ω) n ∂P = μ := by
  have hn' : (n : ℝ) ≠ 0 := by exact_mod_cast hn.ne'
  unfold smean
  rw [integral_div, integral_finsetSum _ fun r _ => (h.memLp_all r).integrable (by norm_num)]
  simp only [(h.ident _).integral_eq, h.mean, Finset.sum_const, Finset.card_range, nsmul_eq_mul]
  field_simp

theorem IidSamples.smean_variance [IsProbabilityMeasure P] {Y : ℕ → Ω → ℝ} {μ V : ℝ} (h : IidSamples P Y μ V) (n : ℕ) (hn : 0 < n) :
    Var[fun ω => smean (Y · ω) n; P] = V / n := by
  have hn' : (n : ℝ) ≠ 0 := by exact_mod_cast hn.ne'
  rw [variance_eq_integral (h.smean_aemeasurable n), h.smean_integral n hn]
  have e : ∀ ω, (smean (Y · ω) n - μ) ^ 2 = esum Y μ n ω ^ 2 / n ^ 2 := fun ω => by
    rw [esum_eq Y μ n hn]
    field_simp
  simp only [e]
  rw [integral_div, h.sq_esum]
  field_simp

/-- **C156**: with fixed coefficients and independent observations, the estimate after `n` observations in any batches has the mean of `y` as its expectation (the control variates must
have the means `ecv`), its variance is that of `y - α . c` divided by `n`, it converges almost surely, and `√n` times its error is asymptotically normal. -/
theorem C156_fixed [IsProbabilityMeasure P] (ecv a : List ℝ) (hl : ecv.length = a.length) (record : Bool) {Z : ℕ → Ω → Fin (ecv.length + 1) → ℝ} (h : Spec.IidRows P Z)
    (he : ∀ i, ∫ ω, Z 0 ω (Fin.succ i) ∂P = ecv.get i) (Xs : ℕ → Ω → List (List (Fin (ecv.length + 1) → ℝ))) (hne : ∀ n ω, ∀ X ∈ Xs n ω, X ≠ [])
    (hXs : ∀ n ω, (Xs n ω).flatten = (List.range n).map (Z · ω)) :
    ∃ s, CVEst.init ecv (some a) record = .ok s ∧ ∃ est : ℕ → Ω → ℝ,
      (∀ n, 0 < n → ∀ ω, (s.runCatching ((Xs n ω).map fun X => .mat ⟨_, X⟩)).estimate = .ok (.val (est n ω))) ∧
      (∀ n, 0 < n → ∫ ω, est n ω ∂P = ∫ ω, Z 0 ω 0 ∂P) ∧
      (∀ n, 0 < n → Var[est n; P] = Spec.residVar P Z (fun i => a.get (i.cast hl)) / n) ∧
      (∀ᵐ ω ∂P, Tendsto (fun n => est n ω) atTop (𝓝 (∫ ω, Z 0 ω 0 ∂P))) ∧
      TendstoInDistribution (fun (n : ℕ) ω => √n * (est n ω - ∫ ω, Z 0 ω 0 ∂P)) atTop (id : ℝ → ℝ) (fun _ => P)
        (gaussianReal 0 (Spec.residVar P Z fun i => a.get (i.cast hl)).toNNReal) := by
  have hr := h.resid (fun i => a.get (i.cast hl)) ecv.get he
  have hex : ∃ s, CVEst.init ecv (some a) record = .ok s := by simp [CVEst.init, hl]
  obtain ⟨s, hs⟩ := hex
  refine ⟨s, hs, fun n ω => smean (fun t => Z t ω 0 - ∑ i, a.get (i.cast hl) * (Z t ω (Fin.succ i) - ecv.get i)) n, fun n hn ω => ?_, hr.smean_integral, hr.smean_variance,
    hr.smean_tendsto, hr.clt⟩
  have hX : Xs n ω ≠ [] := by
    intro h0
    have := congrArg List.length (hXs n ω)
    rw [h0] at this
    simp at this
    omega
  obtain ⟨s', hs', -, -, h2⟩ := C17_fixed_alpha ecv a hl record (Xs n ω) (hne n ω) hX
  rw [hs] at hs'
  obtain rfl := Except.ok.inj hs'
  rw [h2, hXs]
  simp only [List.map_map, List.length_map, List.length_range]
  rfl

/-- **C156**: the coefficients that solve `cov(c) α = cov(c, y)` give the smallest variance, and any others cost the variance of the difference; in particular control variates with these
coefficients are never worse than the mean of `y`. -/
theorem C156_best [IsProbabilityMeasure P] {Z : ℕ → Ω → Fin (k + 1) → ℝ} (h : Spec.IidRows P Z) (hdet : (Spec.rowCov P Z).det ≠ 0) :
    ∃! α : Fin k → ℝ, (∀ β, Spec.residVar P Z α ≤ Spec.residVar P Z β) ∧ Spec.residVar P Z α ≤ Var[fun ω => Z 0 ω 0; P] ∧
      (Spec.rowCov P Z).mulVec α = Spec.rowCross P Z ∧
      ∀ β, Spec.residVar P Z β = Spec.residVar P Z α + Var[fun ω => ∑ i, (β i - α i) * Z 0 ω i.succ; P] := by
  have hu : IsUnit (Spec.rowCov P Z).det := isUnit_iff_ne_zero.mpr hdet
  have hα : (Spec.rowCov P Z).mulVec ((Spec.rowCov P Z)⁻¹.mulVec (Spec.rowCross P Z)) = Spec.rowCross P Z := by
    rw [Matrix.mulVec_mulVec, Matrix.mul_nonsing_inv _ hu, Matrix.one_mulVec]
  have hmin : ∀ β, Spec.residVar P Z ((Spec.rowCov P Z)⁻¹.mulVec (Spec.rowCross P Z)) ≤ Spec.residVar P Z β := fun β => by
    rw [h.residVar_eq hα β]
    linarith [variance_nonneg (fun ω => ∑ i, (β i - ((Spec.rowCov P Z)⁻¹.mulVec (Spec.rowCross P Z)) i) * Z 0 ω i.succ) P]
  refine ⟨(Spec.rowCov P Z)⁻¹.mulVec (Spec.rowCross P Z), ⟨hmin, ?_, hα, h.residVar_eq hα⟩, ?_⟩
  · have := hmin 0
    simpa [Spec.residVar] using this
  · rintro β ⟨-, -, hβ, -⟩
    rw [← hβ, Matrix.mulVec_mulVec, Matrix.nonsing_inv_mul _ hu, Matrix.one_mulVec]

/-! ## Estimated coefficients -/

/-- The coefficients that `ControlVariableEstimator` computes from the rows. -/
def cvCoef (xs : List (Fin (k + 1) → ℝ)) : Fin k → ℝ := (Spec.controlCov xs)⁻¹.mulVec fun i => Spec.sampleCov 1 xs i.succ 0

theorem cv_run (ecv : List ℝ) (hk : ecv ≠ []) (record : Bool) (Xs : List (List (Fin (ecv.length + 1) → ℝ))) (hne : ∀ Y ∈ Xs, Y ≠ []) (hn : 2 ≤ Xs.flatten.length)
    (hdet : (Spec.controlCov Xs.flatten).det ≠ 0) :
    ∃ s, CVEst.init ecv none record = .ok s ∧ (s.runCatching (Xs.map fun X => .mat ⟨_, X⟩)).alpha = .val (cvCoef Xs.flatten) ∧
      (s.runCatching (Xs.map fun X => .mat ⟨_, X⟩)).estimate =
        .ok (.val (Spec.sampleMean Xs.flatten 0 - ∑ i, cvCoef Xs.flatten i * (Spec.sampleMean Xs.flatten i.succ - ecv.get i))) := by
  rcases List.eq_nil_or_concat Xs with rfl | ⟨L, X, rfl⟩
  · simp at hn
  have hfl : (L ++ [X]).flatten = L.flatten ++ X := by simp
  simp only [List.concat_eq_append, hfl] at *
  obtain ⟨s, hs, h1, a, b, hb, hest, -, huniq⟩ := C150_least_squares ecv hk record L X (fun Y hY => hne Y (by simp [hY])) (hne X (by simp)) hn hdet
  set xs := L.flatten ++ X with hxs
  have hnorm : ∀ i, ∑ j, Spec.controlCov xs i j * cvCoef xs j = Spec.sampleCov 1 xs i.succ 0 := fun i => by
    have : (Spec.controlCov xs).mulVec (cvCoef xs) = fun i => Spec.sampleCov 1 xs i.succ 0 := by
      unfold cvCoef
      rw [Matrix.mulVec_mulVec, Matrix.mul_nonsing_inv _ (isUnit_iff_ne_zero.mpr hdet), Matrix.one_mulVec]
    exact congrFun this i
  obtain ⟨ha, hb'⟩ := huniq (Spec.sampleMean xs 0 - ∑ j, cvCoef xs j * Spec.sampleMean xs j.succ) (cvCoef xs) (by
    rw [rss_eq xs hn (cvCoef xs) hnorm a b]
    exact le_add_of_nonneg_right (Finset.sum_nonneg fun t _ => sq_nonneg _))
  have hrun : s.runCatching ((L ++ [X]).map fun X => .mat ⟨_, X⟩) = ((s.runCatching (L.map fun X => .mat ⟨_, X⟩)).update (.mat ⟨_, X⟩)).2 := by
    simp [CVEst.runCatching]
  refine ⟨s, hs, ?_, ?_⟩
  · rw [hrun, hb, hb']
  · rw [hrun, hest, ← ha, ← hb']
    congr 2
    simp only [mul_sub, Finset.sum_sub_distrib]
    ring

theorem controlCov_eq (xs : List (Fin (k + 1) → ℝ)) : Spec.controlCov xs = fun i j => Spec.sampleCov 1 xs i.succ j.succ := rfl

namespace Spec.IidRows

variable {Z : ℕ → Ω → Fin (k + 1) → ℝ}

theorem controlCov_tendsto [IsProbabilityMeasure P] (h : Spec.IidRows P Z) :
    ∀ᵐ ω ∂P, Tendsto (fun n => Spec.controlCov (firstRows (Z · ω) n)) atTop (𝓝 (Spec.rowCov P Z)) := by
  have h1 : ∀ᵐ ω ∂P, ∀ i j : Fin k, Tendsto (fun n => Spec.sampleCov 1 (firstRows (Z · ω) n) i.succ j.succ) atTop (𝓝 (Spec.rowCov P Z i j)) := by
    rw [ae_all_iff]
    intro i
    rw [ae_all_iff]
    exact fun j => h.cov_tendsto i.succ j.succ
  filter_upwards [h1] with ω hω
  exact tendsto_pi_nhds.2 fun i => tendsto_pi_nhds.2 fun j => hω i j

theorem coef_tendsto [IsProbabilityMeasure P] (h : Spec.IidRows P Z) (hdet : (Spec.rowCov P Z).det ≠ 0) :
    ∀ᵐ ω ∂P, Tendsto (fun n => cvCoef (firstRows (Z · ω) n)) atTop (𝓝 ((Spec.rowCov P Z)⁻¹.mulVec (Spec.rowCross P Z))) := by
  have h1 : ∀ᵐ ω ∂P, ∀ i : Fin k, Tendsto (fun n => Spec.sampleCov 1 (firstRows (Z · ω) n) i.succ 0) atTop (𝓝 (Spec.rowCross P Z i)) := by
    rw [ae_all_iff]
    exact fun i => h.cov_tendsto i.succ 0
  filter_upwards [h1, h.controlCov_tendsto] with ω hω hc
  have h2 := inv_tendsto hc hdet
  have h3 : Tendsto (fun n => fun i : Fin k => Spec.sampleCov 1 (firstRows (Z · ω) n) i.succ 0) atTop (𝓝 (Spec.rowCross P Z)) := tendsto_pi_nhds.2 hω
  refine tendsto_pi_nhds.2 fun i => ?_
  unfold cvCoef Matrix.mulVec dotProduct
  exact tendsto_finsetSum _ fun j _ => ((tendsto_pi_nhds.1 (tendsto_pi_nhds.1 h2 i) j)).mul (tendsto_pi_nhds.1 h3 j)

theorem coef_aemeasurable [IsProbabilityMeasure P] (h : Spec.IidRows P Z) (n : ℕ) (i : Fin k) : AEMeasurable (fun ω => cvCoef (firstRows (Z · ω) n) i) P := by
  unfold cvCoef Matrix.mulVec dotProduct
  exact Finset.aemeasurable_fun_sum _ fun j _ => (inv_aemeasurable (fun p q => h.cov_aemeasurable n p.succ q.succ) i j).mul (h.cov_aemeasurable n _ _)

end Spec.IidRows

/-- What the estimator with estimated coefficients returns after the first `n` rows. -/
def cvEst (e : Fin k → ℝ) (z : ℕ → Fin (k + 1) → ℝ) (n : ℕ) : ℝ :=
  smean (z · 0) n - ∑ i, cvCoef (firstRows z n) i * (smean (z · i.succ) n - e i)

theorem cvEst_clt [IsProbabilityMeasure P] {Z : ℕ → Ω → Fin (k + 1) → ℝ} (h : Spec.IidRows P Z) (hdet : (Spec.rowCov P Z).det ≠ 0) (e : Fin k → ℝ)
    (he : ∀ i, ∫ ω, Z 0 ω i.succ ∂P = e i) :
    TendstoInDistribution (fun (n : ℕ) ω => √n * (cvEst e (Z · ω) n - ∫ ω, Z 0 ω 0 ∂P)) atTop (id : ℝ → ℝ) (fun _ => P)
        (gaussianReal 0 (Spec.residVar P Z ((Spec.rowCov P Z)⁻¹.mulVec (Spec.rowCross P Z))).toNNReal) := by
  obtain ⟨α, hα⟩ : ∃ α, α = (Spec.rowCov P Z)⁻¹.mulVec (Spec.rowCross P Z) := ⟨_, rfl⟩
  rw [← hα]
  have hr := h.resid α e he
  have hcoef := h.coef_tendsto hdet
  rw [← hα] at hcoef
  -- the scaled errors of the means of the control variates
  have hR : ∀ (i : Fin k) (n : ℕ), Integrable (fun ω => 1 + (√n * (smean (Z · ω i.succ) n - e i)) ^ 2) P ∧
      ∫ ω, (1 + (√n * (smean (Z · ω i.succ) n - e i)) ^ 2) ∂P ≤ 1 + Var[fun ω => Z 0 ω i.succ; P] := fun i n => by
    have hi := h.entry i.succ
    rw [he] at hi
    rcases Nat.eq_zero_or_pos n with rfl | hn
    · simp [variance_nonneg]
    · have hn' : (0 : ℝ) < n := by exact_mod_cast hn
      have e1 : ∀ ω, (√n * (smean (Z · ω i.succ) n - e i)) ^ 2 = esum (fun t ω => Z t ω i.succ) (e i) n ω ^ 2 / n := fun ω => by
        rw [esum_eq _ _ n hn, mul_pow, Real.sq_sqrt hn'.le]
        field_simp
      have hint : Integrable (fun ω => esum (fun t ω => Z t ω i.succ) (e i) n ω ^ 2 / n) P := (hi.memLp_esum n).integrable_sq.div_const _
      simp only [e1]
      refine ⟨(integrable_const _).add hint, ?_⟩
      rw [integral_add (integrable_const _) hint, integral_div, hi.sq_esum]
      simp only [integral_const, probReal_univ, smul_eq_mul, mul_one]
      rw [mul_div_assoc, mul_comm, div_mul_cancel₀ _ hn'.ne']
  have hdiff : TendstoInMeasure P (fun (n : ℕ) ω => -∑ i, (cvCoef (firstRows (Z · ω) n) i - α i) * (√n * (smean (Z · ω i.succ) n - e i))) atTop fun _ => (0 : ℝ) := by
    refine inMeasure_zero (S := fun n ω => ∑ i, |cvCoef (firstRows (Z · ω) n) i - α i|) (Q := fun n ω => ∑ i, (1 + (√n * (smean (Z · ω (Fin.succ i)) n - e i)) ^ 2))
      (C := ∑ i, (1 + Var[fun ω => Z 0 ω (Fin.succ i); P])) (fun n ω => Finset.sum_nonneg fun i _ => by positivity)
      (fun n => integrable_finsetSum _ fun i _ => (hR i n).1) (fun n => ?_)
      (fun n => Finset.aemeasurable_fun_sum _ fun i _ => ((h.coef_aemeasurable n i).sub_const _).abs) ?_ fun n ω => ?_
    · rw [integral_finsetSum _ fun i _ => (hR i n).1]
      exact Finset.sum_le_sum fun i _ => (hR i n).2
    · filter_upwards [hcoef] with ω hω
      have : Tendsto (fun n => ∑ i, |cvCoef (firstRows (Z · ω) n) i - α i|) atTop (𝓝 (∑ i, |α i - α i|)) :=
        tendsto_finsetSum _ fun i _ => ((tendsto_pi_nhds.1 hω i).sub_const _).abs
      simpa using this
    · have hS : abs (∑ i, |cvCoef (firstRows (Z · ω) n) i - α i|) = ∑ i, |cvCoef (firstRows (Z · ω) n) i - α i| := abs_of_nonneg (Finset.sum_nonneg fun i _ => abs_nonneg _)
      rw [abs_neg, hS, Finset.sum_mul]
      refine (Finset.abs_sum_le_sum_abs _ _).trans (Finset.sum_le_sum fun i _ => ?_)
      rw [abs_mul]
      refine mul_le_mul_of_nonneg_left ?_ (abs_nonneg _)
      refine le_trans ?_ (Finset.single_le_sum (f := fun i => 1 + (√n * (smean (Z · ω (Fin.succ i)) n - e i)) ^ 2) (fun i _ => by positivity) (Finset.mem_univ i))
      generalize √(n : ℝ) * (smean (Z · ω i.succ) n - e i) = r
      show |r| ≤ 1 + r ^ 2
      nlinarith [sq_abs r, sq_nonneg (|r| - 1), abs_nonneg r]
  have hmeas : ∀ n : ℕ, AEMeasurable (fun ω => -∑ i, (cvCoef (firstRows (Z · ω) n) i - α i) * (√n * (smean (Z · ω (Fin.succ i)) n - e i))) P := fun n =>
    (Finset.aemeasurable_fun_sum _ fun i _ => ((h.coef_aemeasurable n i).sub_const _).mul ((((h.entry i.succ).smean_aemeasurable n).sub_const _).const_mul _)).neg
  refine (hr.clt.add_of_tendstoInMeasure_const hdiff hmeas).congr (fun n => Eventually.of_forall fun ω => ?_) (Eventually.of_forall fun x => by simp)
  show √(n : ℝ) * (smean (fun t => Z t ω 0 - ∑ i, α i * (Z t ω (Fin.succ i) - e i)) n - ∫ ω, Z 0 ω 0 ∂P) +
    -∑ i, (cvCoef (firstRows (Z · ω) n) i - α i) * (√n * (smean (Z · ω i.succ) n - e i)) = √n * (cvEst e (Z · ω) n - ∫ ω, Z 0 ω 0 ∂P)
  rcases Nat.eq_zero_or_pos n with rfl | hn
  · simp
  have hn' : (n : ℝ) ≠ 0 := by exact_mod_cast hn.ne'
  have e1 : smean (fun t => Z t ω 0 - ∑ i, α i * (Z t ω (Fin.succ i) - e i)) n = smean (Z · ω 0) n - ∑ i, α i * (smean (Z · ω (Fin.succ i)) n - e i) := by
    unfold smean
    rw [Finset.sum_sub_distrib, Finset.sum_comm, sub_div]
    congr 1
    rw [Finset.sum_div]
    refine Finset.sum_congr rfl fun i _ => ?_
    rw [← Finset.mul_sum, Finset.sum_sub_distrib, Finset.sum_const, Finset.card_range, nsmul_eq_mul]
    field_simp
  rw [e1]
  unfold cvEst
  have e2 : ∑ i, (cvCoef (firstRows (Z · ω) n) i - α i) * (√n * (smean (Z · ω (Fin.succ i)) n - e i)) =
      √n * (∑ i, cvCoef (firstRows (Z · ω) n) i * (smean (Z · ω (Fin.succ i)) n - e i) - ∑ i, α i * (smean (Z · ω (Fin.succ i)) n - e i)) := by
    rw [← Finset.sum_sub_distrib, Finset.mul_sum]
    exact Finset.sum_congr rfl fun i _ => by ring
  rw [e2]
  ring

/-- **C156**: with estimated coefficients, independent observations and a nonsingular covariance matrix of the control variates: almost surely the estimate and the coefficients are numbers from some
number of observations on, the coefficients converge to those with the smallest variance, the estimate converges to the mean of `y`, and `√n` times its error is asymptotically normal with the
smallest variance that any fixed coefficients give. -/
theorem C156_estimated [IsProbabilityMeasure P] (ecv : List ℝ) (hk : ecv ≠ []) (record : Bool) {Z : ℕ → Ω → Fin (ecv.length + 1) → ℝ} (h : Spec.IidRows P Z)
    (hdet : (Spec.rowCov P Z).det ≠ 0) (he : ∀ i, ∫ ω, Z 0 ω (Fin.succ i) ∂P = ecv.get i) (Xs : ℕ → Ω → List (List (Fin (ecv.length + 1) → ℝ)))
    (hne : ∀ n ω, ∀ X ∈ Xs n ω, X ≠ []) (hXs : ∀ n ω, (Xs n ω).flatten = (List.range n).map (Z · ω)) :
    ∃ s, CVEst.init ecv none record = .ok s ∧ ∃ (est : ℕ → Ω → ℝ) (coef : ℕ → Ω → Fin ecv.length → ℝ) (α : Fin ecv.length → ℝ),
      (∀ β, Spec.residVar P Z α ≤ Spec.residVar P Z β) ∧
      (∀ n ω, 2 ≤ n → (Spec.controlCov ((List.range n).map (Z · ω))).det ≠ 0 →
        (s.runCatching ((Xs n ω).map fun X => .mat ⟨_, X⟩)).estimate = .ok (.val (est n ω)) ∧ (s.runCatching ((Xs n ω).map fun X => .mat ⟨_, X⟩)).alpha = .val (coef n ω)) ∧
      (∀ᵐ ω ∂P, ∀ᶠ n in atTop, (s.runCatching ((Xs n ω).map fun X => .mat ⟨_, X⟩)).estimate = .ok (.val (est n ω)) ∧
        (s.runCatching ((Xs n ω).map fun X => .mat ⟨_, X⟩)).alpha = .val (coef n ω)) ∧
      (∀ᵐ ω ∂P, Tendsto (fun n => coef n ω) atTop (𝓝 α)) ∧
      (∀ᵐ ω ∂P, Tendsto (fun n => est n ω) atTop (𝓝 (∫ ω, Z 0 ω 0 ∂P))) ∧
      TendstoInDistribution (fun (n : ℕ) ω => √n * (est n ω - ∫ ω, Z 0 ω 0 ∂P)) atTop (id : ℝ → ℝ) (fun _ => P) (gaussianReal 0 (Spec.residVar P Z α).toNNReal) := by
  have hu : IsUnit (Spec.rowCov P Z).det := isUnit_iff_ne_zero.mpr hdet
  have hα : (Spec.rowCov P Z).mulVec ((Spec.rowCov P Z)⁻¹.mulVec (Spec.rowCross P Z)) = Spec.rowCross P Z := by
    rw [Matrix.mulVec_mulVec, Matrix.mul_nonsing_inv _ hu, Matrix.one_mulVec]
  obtain ⟨s, hs⟩ : ∃ s, CVEst.init ecv none record = .ok s := ⟨_, rfl⟩
  have hrun : ∀ n ω, 2 ≤ n → (Spec.controlCov ((List.range n).map (Z · ω))).det ≠ 0 →
        (s.runCatching ((Xs n ω).map fun X => .mat ⟨_, X⟩)).estimate = .ok (.val (cvEst ecv.get (Z · ω) n)) ∧
        (s.runCatching ((Xs n ω).map fun X => .mat ⟨_, X⟩)).alpha = .val (cvCoef (firstRows (Z · ω) n)) := by
    intro n ω hn hd
    obtain ⟨s', hs', h1, h2⟩ := cv_run ecv hk record (Xs n ω) (hne n ω) (by rw [hXs]; simpa using hn) (by rw [hXs]; exact hd)
    rw [hs] at hs'
    obtain rfl := Except.ok.inj hs'
    have hfr : (Xs n ω).flatten = firstRows (Z · ω) n := hXs n ω
    rw [hfr] at h1 h2
    refine ⟨?_, h1⟩
    rw [h2]
    simp only [firstRows_mean]
    rfl
  refine ⟨s, hs, fun n ω => cvEst ecv.get (Z · ω) n, fun n ω => cvCoef (firstRows (Z · ω) n), (Spec.rowCov P Z)⁻¹.mulVec (Spec.rowCross P Z), fun β => ?_, hrun, ?_,
    h.coef_tendsto hdet, ?_, cvEst_clt h hdet ecv.get he⟩
  · rw [h.residVar_eq hα β]
    linarith [variance_nonneg (fun ω => ∑ i, (β i - ((Spec.rowCov P Z)⁻¹.mulVec (Spec.rowCross P Z)) i) * Z 0 ω (Fin.succ i)) P]
  · filter_upwards [h.controlCov_tendsto] with ω hω
    have hd : Tendsto (fun n => (Spec.controlCov (firstRows (Z · ω) n)).det) atTop (𝓝 (Spec.rowCov P Z).det) := (continuous_id.matrix_det.tendsto _).comp hω
    filter_upwards [hd.eventually_ne hdet, eventually_ge_atTop 2] with n h1 h2
    exact hrun n ω h2 h1
  · have hall : ∀ᵐ ω ∂P, ∀ i : Fin ecv.length, Tendsto (fun n => smean (Z · ω i.succ) n) atTop (𝓝 (ecv.get i)) := by
      rw [ae_all_iff]
      intro i
      have := (h.entry i.succ).smean_tendsto
      rwa [he] at this
    filter_upwards [h.coef_tendsto hdet, (h.entry 0).smean_tendsto, hall] with ω h1 h2 h3
    have h4 : Tendsto (fun n => ∑ i, cvCoef (firstRows (Z · ω) n) i * (smean (Z · ω (Fin.succ i)) n - ecv.get i)) atTop
        (𝓝 (∑ i, ((Spec.rowCov P Z)⁻¹.mulVec (Spec.rowCross P Z)) i * (ecv.get i - ecv.get i))) :=
      tendsto_finsetSum _ fun i _ => (tendsto_pi_nhds.1 h1 i).mul ((h3 i).sub_const _)
    have h5 := h2.sub h4
    rw [Finset.sum_eq_zero fun i _ => by rw [sub_self, mul_zero], sub_zero] at h5
    exact h5

/-! ## Estimated coefficients are biased -/

/-- The observations `y = x^2` with the control variate `x`, for independent standard normal numbers `x`. -/
def sqRow (t : ℕ) (z : ℕ → ℝ) : Fin ([0] : List ℝ).length.succ → ℝ := Fin.cons (z t * z t) fun _ => z t

theorem sqRow_iid : Spec.IidRows (k := 1) gaussStream sqRow := by
  have hm : Measurable fun x : ℝ => (Fin.cons (x * x) (fun _ => x) : Fin 2 → ℝ) := by
    refine measurable_pi_iff.2 fun i => ?_
    refine Fin.cases ?_ (fun j => ?_) i
    · exact measurable_id.mul measurable_id
    · exact measurable_id
  have hid : ∀ t, IdentDistrib (fun z : ℕ → ℝ => z t) (fun z => z 0) gaussStream gaussStream := fun t =>
    ⟨(measurable_pi_apply t).aemeasurable, (measurable_pi_apply 0).aemeasurable, by rw [gauss_eval, gauss_eval]⟩
  refine ⟨iidNormal_exists.indep.comp (fun _ x => (Fin.cons (x * x) (fun _ => x) : Fin 2 → ℝ)) fun _ => hm, fun t => (hid t).comp hm, fun i => ?_⟩
  refine Fin.cases ?_ (fun j => ?_) i
  · exact gauss_memLp_mul 0 0
  · exact (gauss_memLp 0).mono_exponent (by norm_num)

theorem gauss_mean (q : ℕ) : ∫ z : ℕ → ℝ, z q ∂gaussStream = 0 := by
  have hm : Measurable fun z : ℕ → ℝ => z q := measurable_pi_apply q
  have h1 : ∫ z : ℕ → ℝ, z q ∂gaussStream = ∫ x : ℝ, id x ∂gaussStream.map (fun z => z q) := (integral_map hm.aemeasurable aestronglyMeasurable_id).symm
  rw [h1, gauss_eval]
  exact integral_id_gaussianReal

theorem sqRow_cov : Spec.rowCov (k := 1) gaussStream sqRow = 1 := by
  ext i j
  rw [Subsingleton.elim j i, Matrix.one_apply_eq]
  show cov[fun z : ℕ → ℝ => z 0, fun z => z 0; gaussStream] = 1
  rw [covariance_eq_sub ((gauss_memLp 0).mono_exponent (by norm_num)) ((gauss_memLp 0).mono_exponent (by norm_num)), gauss_mean, mul_zero, sub_zero]
  exact gauss_sq 0

/-- **C156**: estimated coefficients can make the estimate biased: for independent standard normal `x` and `y = x^2` the hypotheses of `C156_estimated` hold and the mean of `y` is 1, but after two
observations the estimate is `-x_0 x_1`, with expectation 0. -/
theorem C156_biased : Spec.IidRows (k := 1) gaussStream sqRow ∧ (∀ i : Fin 1, ∫ z, sqRow 0 z i.succ ∂gaussStream = 0) ∧ (Spec.rowCov (k := 1) gaussStream sqRow).det ≠ 0 ∧
    ∫ z, sqRow 0 z 0 ∂gaussStream = 1 ∧
    ∃ s, CVEst.init [0] none false = .ok s ∧
      (∀ᵐ z ∂gaussStream, (s.update (.mat ⟨_, [sqRow 0 z, sqRow 1 z]⟩)).1 = .ok () ∧
        (s.update (.mat ⟨_, [sqRow 0 z, sqRow 1 z]⟩)).2.estimate = .ok (.val (-(z 0 * z 1)))) ∧
      ∫ z : ℕ → ℝ, -(z 0 * z 1) ∂gaussStream = 0 := by
  refine ⟨sqRow_iid, fun _ => gauss_mean 0, by rw [sqRow_cov, Matrix.det_one]; norm_num, gauss_sq 0, ?_⟩
  obtain ⟨s, hs⟩ : ∃ s, CVEst.init [0] none false = .ok s := ⟨_, rfl⟩
  refine ⟨s, hs, ?_, by rw [integral_neg, gauss_two]; norm_num⟩
  have hne := gauss_dot_ne_zero (N := 2) 0 ![1, -1] (fun h => by simpa using congrFun h 0)
  filter_upwards [hne] with z hz
  have hz' : z 0 - z 1 ≠ 0 := by
    intro h0
    apply hz
    simp [Fin.sum_univ_two]
    linarith
  have hdet : (Spec.controlCov (k := 1) ([].flatten ++ [sqRow 0 z, sqRow 1 z])).det ≠ 0 := by
    rw [Matrix.det_fin_one]
    have e : Spec.controlCov (k := 1) ([].flatten ++ [sqRow 0 z, sqRow 1 z]) 0 0 = (z 0 - z 1) ^ 2 / 2 := by
      simp [Spec.controlCov, Spec.sampleCov, Spec.sampleMean, sqRow]
      ring
    rw [e]
    positivity
  obtain ⟨s', hs', h1, a, b, -, hest, -, huniq⟩ := C150_least_squares [0] (by simp) false [] [sqRow 0 z, sqRow 1 z] (by simp) (by simp) (by simp) hdet
  rw [hs] at hs'
  obtain rfl := Except.ok.inj hs'
  obtain ⟨ha, -⟩ := huniq (-(z 0 * z 1)) (fun _ => z 0 + z 1) (by
    have e : Spec.rss (k := 1) ([].flatten ++ [sqRow 0 z, sqRow 1 z]) (-(z 0 * z 1)) (fun _ => z 0 + z 1) = 0 := by
      simp [Spec.rss, sqRow]
      ring
    refine e.le.trans ?_
    unfold Spec.rss
    exact List.sum_nonneg fun x hx => by
      obtain ⟨r, -, rfl⟩ := List.mem_map.1 hx
      exact sq_nonneg _)
  refine ⟨h1, hest.trans ?_⟩
  rw [← ha]
  simp

/-- The rows in one batch. -/
example : ∃ s, CVEst.init [0] none false = .ok s ∧ ∃ est : ℕ → (ℕ → ℝ) → ℝ,
    ∀ᵐ z ∂gaussStream, (∀ᶠ n in atTop, (s.runCatching ((if n = 0 then [] else [(List.range n).map (sqRow · z)]).map fun X => .mat ⟨_, X⟩)).estimate = .ok (.val (est n z))) ∧
      Tendsto (fun n => est n z) atTop (𝓝 1) := by
  obtain ⟨h1, h2, h3, h4, -⟩ := C156_biased
  obtain ⟨s, hs, est, _, _, -, -, h5, -, h6, -⟩ := C156_estimated [0] (by simp) false h1 h3 (fun i => (h2 i).trans (by simp)) (fun n z => if n = 0 then [] else [(List.range n).map (sqRow · z)])
    (fun n z X hX => by by_cases hn : n = 0 <;> simp [hn] at hX; subst hX; simpa using hn) (fun n z => by by_cases hn : n = 0 <;> simp [hn])
  refine ⟨s, hs, est, ?_⟩
  filter_upwards [h5, h6] with z h7 h8
  rw [h4] at h8
  exact ⟨h7.mono fun n hn => hn.1, h8⟩

end Primate
