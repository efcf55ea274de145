import Verif.Lemmas.Asymp
import Verif.Spec.Sample
import Mathlib.Probability.Moments.Covariance
import Mathlib.LinearAlgebra.Matrix.NonsingularInverse
import Mathlib.Topology.Instances.Matrix

/-!
# Independent rows: sample means and sample covariances with many samples
-/

noncomputable section

namespace Primate

open MeasureTheory ProbabilityTheory Filter
open scoped Topology

variable {k : ℕ} {Ω : Type*} [MeasurableSpace Ω] {P : Measure Ω}

/-- Independent rows `(y, c_1, ..., c_k)` with the same law and finite second moments. -/
structure Spec.IidRows (P : Measure Ω) (Z : ℕ → Ω → Fin (k + 1) → ℝ) : Prop where
  indep : iIndepFun Z P
  ident : ∀ t, IdentDistrib (Z t) (Z 0) P P
  memLp : ∀ i, MemLp (fun ω => Z 0 ω i) 2 P

/-- The covariance matrix of the control variates. -/
def Spec.rowCov (P : Measure Ω) (Z : ℕ → Ω → Fin (k + 1) → ℝ) : Matrix (Fin k) (Fin k) ℝ :=
  fun i j => cov[fun ω => Z 0 ω i.succ, fun ω => Z 0 ω j.succ; P]

/-- The covariances of the control variates with `y`. -/
def Spec.rowCross (P : Measure Ω) (Z : ℕ → Ω → Fin (k + 1) → ℝ) : Fin k → ℝ :=
  fun i => cov[fun ω => Z 0 ω i.succ, fun ω => Z 0 ω 0; P]

/-- The variance of `y - α . c`. -/
def Spec.residVar (P : Measure Ω) (Z : ℕ → Ω → Fin (k + 1) → ℝ) (α : Fin k → ℝ) : ℝ :=
  Var[fun ω => Z 0 ω 0 - ∑ i, α i * Z 0 ω i.succ; P]

namespace Spec.IidRows

variable {Z : ℕ → Ω → Fin (k + 1) → ℝ}

/-- The adjusted observations. -/
theorem resid [IsProbabilityMeasure P] (h : Spec.IidRows P Z) (α e : Fin k → ℝ) (he : ∀ i, ∫ ω, Z 0 ω i.succ ∂P = e i) :
    IidSamples P (fun t ω => Z t ω 0 - ∑ i, α i * (Z t ω i.succ - e i)) (∫ ω, Z 0 ω 0 ∂P) (Spec.residVar P Z α) := by
  have hm : Measurable fun z : Fin (k + 1) → ℝ => z 0 - ∑ i, α i * (z i.succ - e i) := by fun_prop
  have h1 : ∀ i : Fin k, MemLp (fun ω => α i * (Z 0 ω i.succ - e i)) 2 P := fun i => ((h.memLp _).sub (memLp_const _)).const_mul _
  have h2 : MemLp (fun ω => ∑ i, α i * (Z 0 ω (Fin.succ i) - e i)) 2 P := memLp_finsetSum _ fun i _ => h1 i
  refine ⟨h.indep.comp (fun _ z => z 0 - ∑ i, α i * (z i.succ - e i)) fun _ => hm, fun t => (h.ident t).comp hm, (h.memLp 0).sub h2, ?_, ?_⟩
  · rw [integral_sub ((h.memLp 0).integrable (by norm_num)) (h2.integrable (by norm_num)), integral_finsetSum _ fun i _ => (h1 i).integrable (by norm_num)]
    rw [Finset.sum_eq_zero, sub_zero]
    intro i _
    rw [integral_const_mul, integral_sub ((h.memLp _).integrable (by norm_num)) (integrable_const _), he]
    simp
  · unfold Spec.residVar
    have h3 : MemLp (fun ω => Z 0 ω 0 - ∑ i, α i * Z 0 ω (Fin.succ i)) 2 P := (h.memLp 0).sub (memLp_finsetSum _ fun i _ => (h.memLp _).const_mul _)
    rw [← variance_add_const h3.aestronglyMeasurable (∑ i, α i * e i)]
    congr 1
    funext ω
    simp only [mul_sub, Finset.sum_sub_distrib]
    ring

/-- One entry of the rows. -/
theorem entry [IsProbabilityMeasure P] (h : Spec.IidRows P Z) (i : Fin (k + 1)) :
    IidSamples P (fun t ω => Z t ω i) (∫ ω, Z 0 ω i ∂P) Var[fun ω => Z 0 ω i; P] :=
  ⟨h.indep.comp (fun _ z => z i) fun _ => measurable_pi_apply i, fun t => (h.ident t).comp (measurable_pi_apply i), h.memLp i, rfl, rfl⟩

/-- The sum of two entries. -/
theorem pair [IsProbabilityMeasure P] (h : Spec.IidRows P Z) (i j : Fin (k + 1)) :
    IidSamples P (fun t ω => Z t ω i + Z t ω j) (∫ ω, (Z 0 ω i + Z 0 ω j) ∂P) Var[fun ω => Z 0 ω i + Z 0 ω j; P] := by
  have hm : Measurable fun z : Fin (k + 1) → ℝ => z i + z j := by fun_prop
  exact ⟨h.indep.comp (fun _ z => z i + z j) fun _ => hm, fun t => (h.ident t).comp hm, (h.memLp i).add (h.memLp j), rfl, rfl⟩

end Spec.IidRows

/-- The first `n` rows as a list. -/
def firstRows (z : ℕ → Fin (k + 1) → ℝ) (n : ℕ) : List (Fin (k + 1) → ℝ) := (List.range n).map z

theorem sum_map_range' (f : ℕ → ℝ) (n : ℕ) : ((List.range n).map f).sum = ∑ r ∈ Finset.range n, f r := rfl

theorem firstRows_mean (z : ℕ → Fin (k + 1) → ℝ) (n : ℕ) (i : Fin (k + 1)) : Spec.sampleMean (firstRows z n) i = smean (z · i) n := by
  simp only [Spec.sampleMean, firstRows, List.map_map, List.length_map, List.length_range, smean, sum_map_range']
  rfl

theorem firstRows_cov (z : ℕ → Fin (k + 1) → ℝ) (n : ℕ) (i j : Fin (k + 1)) :
    Spec.sampleCov 1 (firstRows z n) i j = (svar (fun t => z t i + z t j) n - svar (z · i) n - svar (z · j) n) / 2 := by
  have hm := firstRows_mean z n
  unfold Spec.sampleCov
  simp only [hm]
  have h1 : ((firstRows z n).map fun x => (x i - smean (z · i) n) * (x j - smean (z · j) n)).sum =
      ∑ r ∈ Finset.range n, (z r i - smean (z · i) n) * (z r j - smean (z · j) n) := by
    simp only [firstRows, List.map_map]
    rw [sum_map_range']
    rfl
  have h2 : (((firstRows z n).length : ℤ) - 1 : ℤ) = ((n : ℤ) - 1) := by simp [firstRows]
  rw [h1, h2]
  unfold svar
  rw [← sub_div, ← sub_div, ← Finset.sum_sub_distrib, ← Finset.sum_sub_distrib, div_right_comm]
  push_cast
  congr 1
  rw [Finset.sum_div]
  refine Finset.sum_congr rfl fun r _ => ?_
  rw [Finset.sum_add_distrib]
  unfold smean
  ring

namespace Spec.IidRows

variable {Z : ℕ → Ω → Fin (k + 1) → ℝ}

/-- The sample covariances converge to the covariances almost surely. -/
theorem cov_tendsto [IsProbabilityMeasure P] (h : Spec.IidRows P Z) (i j : Fin (k + 1)) :
    ∀ᵐ ω ∂P, Tendsto (fun n => Spec.sampleCov 1 (firstRows (Z · ω) n) i j) atTop (𝓝 cov[fun ω => Z 0 ω i, fun ω => Z 0 ω j; P]) := by
  have hv : (Var[fun ω => Z 0 ω i + Z 0 ω j; P] - Var[fun ω => Z 0 ω i; P] - Var[fun ω => Z 0 ω j; P]) / 2 = cov[fun ω => Z 0 ω i, fun ω => Z 0 ω j; P] := by
    have := variance_add (h.memLp i) (h.memLp j)
    have e : ((fun ω => Z 0 ω i) + fun ω => Z 0 ω j) = fun ω => Z 0 ω i + Z 0 ω j := rfl
    rw [e] at this
    rw [this]
    ring
  filter_upwards [(h.pair i j).svar_tendsto, (h.entry i).svar_tendsto, (h.entry j).svar_tendsto] with ω h1 h2 h3
  rw [← hv]
  simp only [firstRows_cov]
  exact ((h1.sub h2).sub h3).div_const 2

theorem cov_aemeasurable [IsProbabilityMeasure P] (h : Spec.IidRows P Z) (n : ℕ) (i j : Fin (k + 1)) :
    AEMeasurable (fun ω => Spec.sampleCov 1 (firstRows (Z · ω) n) i j) P := by
  simp only [firstRows_cov]
  exact ((((h.pair i j).svar_aemeasurable n).sub ((h.entry i).svar_aemeasurable n)).sub ((h.entry j).svar_aemeasurable n)).div_const 2

end Spec.IidRows

/-! ## Products of a bounded and a vanishing sequence -/

theorem inMeasure_zero [IsProbabilityMeasure P] {S Q D : ℕ → Ω → ℝ} {C : ℝ} (hQ0 : ∀ n ω, 0 ≤ Q n ω) (hQi : ∀ n, Integrable (Q n) P) (hQ : ∀ n, ∫ ω, Q n ω ∂P ≤ C)
    (hSm : ∀ n, AEMeasurable (S n) P) (hS : ∀ᵐ ω ∂P, Tendsto (fun n => S n ω) atTop (𝓝 0)) (hD : ∀ n ω, |D n ω| ≤ |S n ω| * Q n ω) :
    TendstoInMeasure P D atTop fun _ => (0 : ℝ) := by
  have hSP := tendstoInMeasure_of_tendsto_ae (fun n => (hSm n).aestronglyMeasurable) hS
  rw [tendstoInMeasure_iff_measureReal_norm] at hSP ⊢
  intro ε hε
  rw [Metric.tendsto_atTop]
  intro δ hδ
  have hC : 0 ≤ C := le_trans (integral_nonneg (hQ0 0)) (hQ 0)
  obtain ⟨M, hM⟩ : ∃ M, M = 2 * (C + 1) / δ := ⟨_, rfl⟩
  have hM0 : 0 < M := by rw [hM]; positivity
  have hCM : C / M < δ / 2 := by
    rw [div_lt_iff₀ hM0, hM]
    have : δ / 2 * (2 * (C + 1) / δ) = C + 1 := by field_simp
    linarith
  obtain ⟨n0, hn0⟩ := (Metric.tendsto_atTop.1 (hSP (ε / M) (by positivity))) (δ / 2) (by linarith)
  refine ⟨n0, fun n hn => ?_⟩
  have h1 := hn0 n hn
  rw [Real.dist_eq, sub_zero, abs_of_nonneg measureReal_nonneg] at h1 ⊢
  have hmk : P.real {ω | M ≤ Q n ω} ≤ C / M := by
    rw [le_div_iff₀ hM0, mul_comm]
    exact (mul_meas_ge_le_integral_of_nonneg (Eventually.of_forall (hQ0 n)) (hQi n) M).trans (hQ n)
  have hsub : {ω | ε ≤ ‖D n ω - 0‖} ⊆ {ω | ε / M ≤ ‖S n ω - 0‖} ∪ {ω | M ≤ Q n ω} := by
    intro ω hω
    simp only [Set.mem_setOf_eq, sub_zero, Real.norm_eq_abs, Set.mem_union] at hω ⊢
    by_contra hc
    push Not at hc
    have h2 : |S n ω| * Q n ω ≤ |S n ω| * M := mul_le_mul_of_nonneg_left hc.2.le (abs_nonneg _)
    have h3 : |S n ω| * M < ε := by
      have := mul_lt_mul_of_pos_right hc.1 hM0
      rwa [div_mul_cancel₀ _ hM0.ne'] at this
    linarith [hD n ω]
  calc P.real {ω | ε ≤ ‖D n ω - 0‖} ≤ P.real ({ω | ε / M ≤ ‖S n ω - 0‖} ∪ {ω | M ≤ Q n ω}) := measureReal_mono hsub
    _ ≤ P.real {ω | ε / M ≤ ‖S n ω - 0‖} + P.real {ω | M ≤ Q n ω} := measureReal_union_le _ _
    _ < δ := by linarith

/-! ## Matrices with random entries -/

theorem det_aemeasurable {m : ℕ} {M : Ω → Matrix (Fin m) (Fin m) ℝ} (h : ∀ i j, AEMeasurable (fun ω => M ω i j) P) : AEMeasurable (fun ω => (M ω).det) P := by
  simp only [Matrix.det_apply']
  exact Finset.aemeasurable_fun_sum _ fun σ _ => (Finset.aemeasurable_fun_prod _ fun i _ => h _ _).const_mul _

theorem inv_aemeasurable {m : ℕ} {M : Ω → Matrix (Fin m) (Fin m) ℝ} (h : ∀ i j, AEMeasurable (fun ω => M ω i j) P) (i j : Fin m) :
    AEMeasurable (fun ω => (M ω)⁻¹ i j) P := by
  simp only [Matrix.inv_def, Ring.inverse_eq_inv', Matrix.smul_apply, smul_eq_mul, Matrix.adjugate_apply]
  refine (det_aemeasurable h).inv.mul (det_aemeasurable fun p q => ?_)
  by_cases hp : p = j
  · subst hp
    simp only [Matrix.updateRow_self]
    exact aemeasurable_const
  · simp only [Matrix.updateRow_ne hp]
    exact h p q

theorem inv_tendsto {m : ℕ} {M : ℕ → Matrix (Fin m) (Fin m) ℝ} {M' : Matrix (Fin m) (Fin m) ℝ} (h : Tendsto M atTop (𝓝 M')) (hd : M'.det ≠ 0) :
    Tendsto (fun n => (M n)⁻¹) atTop (𝓝 M'⁻¹) := by
  simp only [Matrix.inv_def, Ring.inverse_eq_inv']
  have h1 : Tendsto (fun n => (M n).det) atTop (𝓝 M'.det) := (continuous_id.matrix_det.tendsto M').comp h
  have h2 : Tendsto (fun n => (M n).adjugate) atTop (𝓝 M'.adjugate) := (continuous_id.matrix_adjugate.tendsto M').comp h
  exact (h1.inv₀ hd).smul h2

/-! ## The best coefficients -/

namespace Spec.IidRows

variable {Z : ℕ → Ω → Fin (k + 1) → ℝ}

/-- The residual of the best coefficients is uncorrelated with the control variates: the variance of the residual grows by that of the difference. -/
theorem residVar_eq [IsProbabilityMeasure P] (h : Spec.IidRows P Z) {α : Fin k → ℝ} (hα : (Spec.rowCov P Z).mulVec α = Spec.rowCross P Z) (β : Fin k → ℝ) :
    Spec.residVar P Z β = Spec.residVar P Z α + Var[fun ω => ∑ i, (β i - α i) * Z 0 ω i.succ; P] := by
  have hX : ∀ i, MemLp (fun ω => Z 0 ω i) 2 P := h.memLp
  have hs : ∀ γ : Fin k → ℝ, MemLp (fun ω => ∑ i, γ i * Z 0 ω (Fin.succ i)) 2 P := fun γ => memLp_finsetSum _ fun i _ => (hX _).const_mul _
  have hW : MemLp (fun ω => Z 0 ω 0 - ∑ i, α i * Z 0 ω (Fin.succ i)) 2 P := (hX 0).sub (hs α)
  have hcov : ∀ j : Fin k, cov[fun ω => Z 0 ω 0 - ∑ i, α i * Z 0 ω (Fin.succ i), fun ω => Z 0 ω j.succ; P] = 0 := fun j => by
    rw [covariance_fun_sub_left (hX 0) (hs α) (hX _), covariance_fun_sum_left (fun i => (hX _).const_mul _) (hX _)]
    simp only [covariance_const_mul_left]
    have h1 := congrFun hα j
    rw [covariance_comm]
    have h2 : cov[fun ω => Z 0 ω j.succ, fun ω => Z 0 ω 0; P] = Spec.rowCross P Z j := rfl
    rw [h2, ← h1, Matrix.mulVec, dotProduct, sub_eq_zero]
    refine Finset.sum_congr rfl fun i _ => ?_
    rw [mul_comm, covariance_comm]
    rfl
  have e : (fun ω => Z 0 ω 0 - ∑ i, β i * Z 0 ω i.succ) = (fun ω => Z 0 ω 0 - ∑ i, α i * Z 0 ω (Fin.succ i)) - fun ω => ∑ i, (β i - α i) * Z 0 ω i.succ := by
    funext ω
    simp only [Pi.sub_apply, sub_mul, Finset.sum_sub_distrib]
    ring
  unfold Spec.residVar
  rw [e, variance_sub hW (hs _), covariance_fun_sum_right (fun i => (hX _).const_mul _) hW]
  simp only [covariance_const_mul_right, hcov]
  simp

end Spec.IidRows

end Primate
