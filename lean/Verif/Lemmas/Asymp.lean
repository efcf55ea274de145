import Mathlib.Probability.CentralLimitTheorem
import Mathlib.Probability.StrongLaw
import Mathlib.Probability.Independence.InfinitePi
import Mathlib.MeasureTheory.Measure.Portmanteau

/-!
# Independent samples: blocks of a stream, laws of large numbers, coverage of intervals

Facts about a sequence of independent identically distributed real samples with finite variance.
-/

noncomputable section

namespace Primate

open MeasureTheory ProbabilityTheory Filter
open scoped Topology

variable {Ω : Type*} [MeasurableSpace Ω] {P : Measure Ω}

/-! ## Blocks of a stream -/

section blocks

variable {N : ℕ} {X : ℕ → Ω → ℝ}

theorem block_inj : Function.Injective fun p : (_ : ℕ) × Fin N => p.1 * N + (p.2 : ℕ) := by
  rintro ⟨t, i⟩ ⟨s, j⟩ h
  simp only at h
  have hN : 0 < N := i.pos
  have h1 : (t * N + i) / N = t := by rw [Nat.add_comm, Nat.add_mul_div_right _ _ hN, Nat.div_eq_of_lt i.2, zero_add]
  have h2 : (s * N + j) / N = s := by rw [Nat.add_comm, Nat.add_mul_div_right _ _ hN, Nat.div_eq_of_lt j.2, zero_add]
  have h3 : t = s := by rw [← h1, ← h2, h]
  subst h3
  have : i = j := Fin.ext (by omega)
  rw [this]

/-- Disjoint blocks of independent numbers are independent. -/
theorem blocks_indep [IsProbabilityMeasure P] (hX : iIndepFun X P) (hm : ∀ q, AEMeasurable (X q) P) :
    iIndepFun (fun (t : ℕ) ω (i : Fin N) => X (t * N + i) ω) P := by
  have hi : iIndepFun (fun (p : (_ : ℕ) × Fin N) ω => X (p.1 * N + p.2) ω) P := hX.precomp block_inj
  have hbm : ∀ t : ℕ, AEMeasurable (fun ω (i : Fin N) => X (t * N + i) ω) P := fun t => aemeasurable_pi_iff.2 fun i => hm _
  have : ∀ (t : ℕ) (i : Fin N), IsProbabilityMeasure (P.map (X (t * N + i))) := fun t i => Measure.isProbabilityMeasure_map (hm _)
  rw [iIndepFun_iff_map_fun_eq_infinitePi_map₀' hbm]
  have h1 := hi.map_fun_eq_infinitePi_map₀' fun p => hm _
  have h2 := congrArg (Measure.map (MeasurableEquiv.piCurry fun (_ : ℕ) (_ : Fin N) => ℝ)) h1
  rw [Measure.infinitePi_map_piCurry (fun (t : ℕ) (i : Fin N) => P.map (X (t * N + i))),
    AEMeasurable.map_map_of_aemeasurable (by fun_prop) (aemeasurable_pi_iff.2 fun p => hm _)] at h2
  have h3 : ∀ t : ℕ, P.map (fun ω (i : Fin N) => X (t * N + i) ω) = Measure.infinitePi fun i : Fin N => P.map (X (t * N + i)) := fun t =>
    (hX.precomp (g := fun i : Fin N => t * N + (i : ℕ)) fun i j h => Fin.ext (by simpa using h)).map_fun_eq_infinitePi_map₀' fun i => hm _
  simp only [h3]
  rw [← h2]
  rfl

/-- Blocks of numbers with the same law have the same law. -/
theorem blocks_ident [IsProbabilityMeasure P] (hX : iIndepFun X P) (hid : ∀ q, IdentDistrib (X q) (X 0) P P) (t : ℕ) :
    IdentDistrib (fun ω (i : Fin N) => X (t * N + i) ω) (fun ω (i : Fin N) => X (0 * N + i) ω) P P := by
  have hm : ∀ q, AEMeasurable (X q) P := fun q => (hid q).aemeasurable_fst
  have h3 : ∀ t : ℕ, P.map (fun ω (i : Fin N) => X (t * N + i) ω) = Measure.infinitePi fun i : Fin N => P.map (X (t * N + i)) := fun t =>
    (hX.precomp (g := fun i : Fin N => t * N + (i : ℕ)) fun i j h => Fin.ext (by simpa using h)).map_fun_eq_infinitePi_map₀' fun i => hm _
  refine ⟨aemeasurable_pi_iff.2 fun i => hm _, aemeasurable_pi_iff.2 fun i => hm _, ?_⟩
  rw [h3, h3]
  congr 1
  funext i
  rw [(hid _).map_eq, (hid (0 * N + i)).map_eq]

end blocks

/-! ## Independent samples -/

/-- Independent samples with the same law, mean `μ` and variance `V`. -/
structure IidSamples (P : Measure Ω) (Y : ℕ → Ω → ℝ) (μ V : ℝ) : Prop where
  indep : iIndepFun Y P
  ident : ∀ t, IdentDistrib (Y t) (Y 0) P P
  memLp : MemLp (Y 0) 2 P
  mean : ∫ ω, Y 0 ω ∂P = μ
  var : Var[Y 0; P] = V

/-- The mean of the first `n` samples. -/
def smean (y : ℕ → ℝ) (n : ℕ) : ℝ := (∑ r ∈ Finset.range n, y r) / n

/-- The variance of the first `n` samples. -/
def svar (y : ℕ → ℝ) (n : ℕ) : ℝ := (∑ r ∈ Finset.range n, (y r - (∑ q ∈ Finset.range n, y q) / n) ^ 2) / (n - 1)

theorem svar_nonneg (y : ℕ → ℝ) (n : ℕ) : 0 ≤ svar y n := by
  unfold svar
  rcases Nat.eq_zero_or_pos n with rfl | hn
  · simp
  · exact div_nonneg (Finset.sum_nonneg fun _ _ => sq_nonneg _) (by have : (1 : ℝ) ≤ n := by exact_mod_cast hn
                                                                    linarith)

theorem svar_eq (y : ℕ → ℝ) (n : ℕ) (hn : 0 < n) :
    svar y n = (n / (n - 1)) * ((∑ r ∈ Finset.range n, y r ^ 2) / n - smean y n ^ 2) := by
  have hn' : (n : ℝ) ≠ 0 := by exact_mod_cast hn.ne'
  unfold svar smean
  obtain ⟨S, hS⟩ : ∃ S, S = ∑ q ∈ Finset.range n, y q := ⟨_, rfl⟩
  rw [← hS]
  have h1 : ∀ r, (y r - S / n) ^ 2 = y r ^ 2 - 2 * (S / n) * y r + (S / n) ^ 2 := fun r => by ring
  simp only [h1, Finset.sum_add_distrib, Finset.sum_sub_distrib, ← Finset.mul_sum, ← hS, Finset.sum_const, Finset.card_range, nsmul_eq_mul]
  rw [div_mul_eq_mul_div]
  congr 1
  field_simp
  ring

theorem tendsto_n_div : Tendsto (fun n : ℕ => (n : ℝ) / (n - 1)) atTop (𝓝 1) := by
  have h1 : Tendsto (fun n : ℕ => (1 - ((n : ℝ))⁻¹)⁻¹) atTop (𝓝 (1 - 0)⁻¹) :=
    (tendsto_const_nhds.sub tendsto_inv_atTop_nhds_zero_nat).inv₀ (by norm_num)
  rw [sub_zero, inv_one] at h1
  refine h1.congr' ?_
  filter_upwards [eventually_gt_atTop 1] with n hn
  have hn' : (n : ℝ) ≠ 0 := by exact_mod_cast (by omega : n ≠ 0)
  have hn1 : (n : ℝ) - 1 ≠ 0 := by
    have : (1 : ℝ) < n := by exact_mod_cast hn
    linarith
  field_simp

/-- A statistic that is asymptotically normal, compared with a margin that converges in probability. -/
theorem normal_coverage [IsProbabilityMeasure P] {ι : Type*} {l : Filter ι} [l.IsCountablyGenerated] {V : ℝ} (hV : 0 < V) (q : ℝ) (T : ι → Ω → ℝ)
    (hT : TendstoInDistribution T l (id : ℝ → ℝ) (fun _ => P) (gaussianReal 0 V.toNNReal)) (W : ι → Ω → ℝ) (hW : ∀ n, AEMeasurable (W n) P)
    (hlim : TendstoInMeasure P W l fun _ => q * √V) :
    Tendsto (fun n => P.real {ω | |T n ω| ≤ W n ω}) l (𝓝 ((gaussianReal 0 1).real {z | |z| ≤ q})) := by
  have hσ : 0 < √V := Real.sqrt_pos.2 hV
  have h1 := hT.continuous_comp_prodMk_of_tendstoInMeasure_const (g := fun p : ℝ × ℝ => |p.1| - p.2) (by fun_prop) hlim hW
  have hna : NullSingletonClass (gaussianReal 0 V.toNNReal) := nullSingletonClass_gaussianReal (by simpa using hV)
  have h2 := ProbabilityMeasure.tendsto_measure_of_null_frontier_of_tendsto' h1.tendsto (E := Set.Iic 0) (by
    rw [frontier_Iic]
    show (Measure.map (fun x : ℝ => |x| - q * √V) (gaussianReal 0 V.toNNReal)) {0} = 0
    rw [Measure.map_apply (by fun_prop) (measurableSet_singleton 0)]
    refine measure_mono_null (t := {q * √V, -(q * √V)}) (fun x hx => ?_) ?_
    · have hx' : |x| - q * √V = 0 := hx
      rcases abs_choice x with hc | hc <;> rw [hc] at hx'
      · left; linarith
      · right; show x = _; linarith
    · exact (Set.toFinite _).measure_zero _)
  have h4 : (Measure.map (fun x : ℝ => |x| - q * √V) (gaussianReal 0 V.toNNReal)) (Set.Iic 0) = gaussianReal 0 1 {z | |z| ≤ q} := by
    have h5 : gaussianReal 0 V.toNNReal = (gaussianReal 0 1).map (√V * ·) := by
      rw [gaussianReal_map_const_mul]
      congr 1
      · simp
      · ext
        simp [Real.sq_sqrt hV.le, hV.le]
    rw [h5, Measure.map_map (by fun_prop) (by fun_prop), Measure.map_apply (by fun_prop) measurableSet_Iic]
    congr 1
    ext z
    simp only [Set.mem_preimage, Function.comp_apply, Set.mem_Iic, sub_nonpos, abs_mul, abs_of_pos hσ]
    rw [mul_comm q]
    exact mul_le_mul_iff_right₀ hσ
  have h6 : Tendsto (fun n => P {ω | |T n ω| ≤ W n ω}) l (𝓝 (gaussianReal 0 1 {z | |z| ≤ q})) := by
    rw [← h4]
    refine h2.congr fun n => ?_
    show Measure.map (fun ω => |T n ω| - W n ω) P (Set.Iic 0) = _
    have hm : AEMeasurable (fun ω => |T n ω| - W n ω) P := (hT.forall_aemeasurable n).abs.sub (hW n)
    rw [Measure.map_apply_of_aemeasurable hm measurableSet_Iic]
    congr 1
    ext ω
    simp only [Set.mem_preimage, Set.mem_Iic, sub_nonpos]
    rfl
  exact (ENNReal.tendsto_toReal (measure_ne_top _ _)).comp h6

namespace IidSamples

variable {Y : ℕ → Ω → ℝ} {μ V : ℝ}

theorem aemeasurable (h : IidSamples P Y μ V) (t : ℕ) : AEMeasurable (Y t) P := (h.ident t).aemeasurable_fst

/-- The sample mean converges to the mean almost surely. -/
theorem smean_tendsto [IsProbabilityMeasure P] (h : IidSamples P Y μ V) : ∀ᵐ ω ∂P, Tendsto (fun n => smean (Y · ω) n) atTop (𝓝 μ) := by
  rw [← h.mean]
  exact strong_law_ae_real Y (h.memLp.integrable (by norm_num)) (fun i j hij => h.indep.indepFun hij) h.ident

/-- The sample variance converges to the variance almost surely. -/
theorem svar_tendsto [IsProbabilityMeasure P] (h : IidSamples P Y μ V) : ∀ᵐ ω ∂P, Tendsto (fun n => svar (Y · ω) n) atTop (𝓝 V) := by
  have hsq := strong_law_ae_real (fun t ω => Y t ω ^ 2) h.memLp.integrable_sq
    (fun i j hij => (h.indep.indepFun hij).comp (measurable_id.pow_const 2) (measurable_id.pow_const 2))
    fun t => (h.ident t).comp (measurable_id.pow_const 2)
  have hV : V = ∫ ω, Y 0 ω ^ 2 ∂P - μ ^ 2 := by
    rw [← h.var, variance_eq_sub h.memLp, ← h.mean]
    rfl
  filter_upwards [h.smean_tendsto, hsq] with ω h1 h2
  have h3 := tendsto_n_div.mul (h2.sub (h1.pow 2))
  rw [one_mul, ← hV] at h3
  refine h3.congr' ?_
  filter_upwards [eventually_gt_atTop 0] with n hn
  rw [svar_eq _ _ hn]

theorem smean_aemeasurable (h : IidSamples P Y μ V) (n : ℕ) : AEMeasurable (fun ω => smean (Y · ω) n) P := by
  unfold smean
  exact (Finset.aemeasurable_fun_sum _ fun r _ => h.aemeasurable r).div_const _

theorem svar_aemeasurable (h : IidSamples P Y μ V) (n : ℕ) : AEMeasurable (fun ω => svar (Y · ω) n) P := by
  unfold svar
  exact (Finset.aemeasurable_fun_sum _ fun r _ => ((h.aemeasurable r).sub (h.smean_aemeasurable n)).pow_const 2).div_const _

/-- The central limit theorem for the sample mean. -/
theorem clt [IsProbabilityMeasure P] (h : IidSamples P Y μ V) :
    TendstoInDistribution (fun (n : ℕ) ω => √n * (smean (Y · ω) n - μ)) atTop (id : ℝ → ℝ) (fun _ => P) (gaussianReal 0 V.toNNReal) := by
  have hl : HasLaw (id : ℝ → ℝ) (gaussianReal 0 Var[Y 0; P].toNNReal) (gaussianReal 0 V.toNNReal) := by
    rw [h.var]
    exact HasLaw.id
  have h1 := tendstoInDistribution_inv_sqrt_mul_sum_sub hl h.memLp h.indep h.ident
  refine h1.congr (fun n => ?_) (by rfl)
  rw [h.mean]
  refine Eventually.of_forall fun ω => ?_
  show (√n)⁻¹ * (∑ k ∈ Finset.range n, Y k ω - n * μ) = √n * (smean (Y · ω) n - μ)
  unfold smean
  rcases Nat.eq_zero_or_pos n with rfl | hn
  · simp
  · have hn' : (0 : ℝ) < n := by exact_mod_cast hn
    have h2 : √(n : ℝ) ≠ 0 := (Real.sqrt_pos.2 hn').ne'
    have h3 : (n : ℝ) = √n * √n := (Real.mul_self_sqrt hn'.le).symm
    generalize (∑ k ∈ Finset.range n, Y k ω) = S
    generalize √(n : ℝ) = c at h2 h3
    rw [h3]
    field_simp

/-- A random margin that behaves like `q σ / √n` covers the mean with the probability that a standard normal number is at most `q` in modulus. -/
theorem coverage [IsProbabilityMeasure P] (h : IidSamples P Y μ V) (hV : 0 < V) (q : ℝ) (W : ℕ → Ω → ℝ) (hW : ∀ n, AEMeasurable (W n) P)
    (hlim : ∀ᵐ ω ∂P, Tendsto (fun n => W n ω) atTop (𝓝 (q * √V))) :
    Tendsto (fun n : ℕ => P.real {ω | √n * |smean (Y · ω) n - μ| ≤ W n ω}) atTop (𝓝 ((gaussianReal 0 1).real {z | |z| ≤ q})) := by
  refine (normal_coverage hV q _ h.clt W hW (tendstoInMeasure_of_tendsto_ae (fun n => (hW n).aestronglyMeasurable) hlim)).congr fun n => ?_
  simp only [abs_mul, abs_of_nonneg (Real.sqrt_nonneg (n : ℝ))]

end IidSamples

end Primate
