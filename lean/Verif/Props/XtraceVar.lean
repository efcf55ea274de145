import Verif.Lemmas.LooVar

/-!
# C157: the mean squared errors of `xtrace` and `xdiag` with normal or sphere vectors

`xtrace` (`src/primate/trace.py`), `xdiag` (`src/primate/diagonal.py`).
-/

noncomputable section

namespace Primate

open MeasureTheory ProbabilityTheory Matrix

variable {n : ℕ} {Ω : Type*} [MeasurableSpace Ω] {P : Measure Ω}

/-- The square of an average is at most the average of the squares. -/
theorem sq_avg_le {ι : Type*} [Fintype ι] (f : ι → ℝ) {m : ℝ} (hm : m = Fintype.card ι) (hpos : 0 < m) : ((∑ i, f i) / m) ^ 2 ≤ (∑ i, f i ^ 2) / m := by
  have h1 : (∑ i, f i) ^ 2 ≤ m * ∑ i, f i ^ 2 := by
    have := Finset.sum_mul_sq_le_sq_mul_sq Finset.univ (fun _ : ι => (1 : ℝ)) f
    simp only [one_mul, one_pow, Finset.sum_const, Finset.card_univ, nsmul_eq_mul, mul_one] at this
    rw [hm]
    exact this
  rw [div_pow, div_le_div_iff₀ (by positivity) hpos]
  nlinarith

/-- The mean of the leave-one-out values that `xtrace` returns. -/
def xtraceStream (d : IsoDist) (M : Matrix (Fin n) (Fin n) ℝ) (z : ℕ → ℝ) : ℝ :=
  (∑ i : Fin n, Spec.looValue M (colProj (M * gaussMat d n n z) fun j => j ≠ i) (gaussVec d (streamCol n z i)) 1) / n

theorem xtrace_gauss [IsProbabilityMeasure P] (tppf : ℝ → ℕ → ℝ) (zscore : ℝ → ℝ) (hn : 0 < n) (batch : ℕ) (hb : 1 ≤ batch) (converge : CritArg)
    (full record : Bool) (kw : Kwargs) (M : Matrix (Fin n) (Fin n) ℝ) (hM : M.det ≠ 0) (qrInsert : QRInsert n) (hq : QRInsertOk qrInsert) (name : String) (d : IsoDist)
    (hd : ISO_DISTRIBUTIONS.lookup name = some d) (hr : d ≠ .rademacher) (u X : ℕ → Ω → ℝ) (hX : Spec.IidNormal P X) (fuel : ℕ) (hf : n < fuel) :
    ∀ᵐ ω ∂P, ∃ res s, xtrace tppf zscore qrInsert ⟨fun q => u q ω, fun q => X q ω⟩ (.ofMatrix M) batch (.name name) converge full record kw fuel =
      some (.ok (.val fun _ => xtraceStream d M fun q => X q ω, res, s)) := by
  have h3 := gaussMat_indep d M n (rank_of_det_ne_zero hM)
  rw [← iidNormal_law hX] at h3
  filter_upwards [ae_of_ae_map (iidNormal_aemeasurable hX) h3] with ω hω
  obtain ⟨hne, hind⟩ := hω
  obtain ⟨z, hz⟩ : ∃ z : ℕ → ℝ, z = fun q => X q ω := ⟨_, rfl⟩
  rw [← hz] at hind ⊢
  obtain ⟨pd, hpd, hcol⟩ := gauss_pdf (n := n) name d hd hr (fun q => u q ω) z
  have hdraw := xdrawn_all pd (fun t => gaussVec d (streamCol n z t)) hcol batch hb
  have hWl : ∀ i j : Fin n, gaussMat d n n z i j = (Spec.xdrawn pd batch ((n + batch - 1) / batch)).getD j 0 i := by
    intro i j
    rw [hdraw, List.getD_eq_getElem _ _ (by simp)]
    simp [gaussMat]
  have hdet : (M * gaussMat d n n z).det ≠ 0 := by
    intro h0
    obtain ⟨c, hc0, hc⟩ := exists_mulVec_eq_zero_iff.2 h0
    exact hc0 (hind c hc)
  have hxd : XData M (gaussMat d n n z) 1 (M * gaussMat d n n z) (M * gaussMat d n n z)⁻¹ :=
    ⟨by simp, by simp, nonsing_inv_mul _ hdet.isUnit⟩
  have hnd := noDependent_of_xdata hxd _ (by rw [hdraw]; simp) hWl
  obtain ⟨est, res, s, h4, -, -, h5⟩ := (xtrace_estimate tppf zscore ⟨fun q => u q ω, z⟩ batch (.name name) converge full record kw M qrInsert hq hb pd hpd fuel hf
    (gaussMat d n n z) hWl).resolve_right fun h => h.2 hnd
  refine ⟨res, s, ?_⟩
  rw [h4, h5 hn (fun i => colProj (M * gaussMat d n n z) fun j => j ≠ i) fun i => colProj_spec _ _]
  rfl

/-- The error of one leave-one-out value. -/
theorem looValue_error (M Q : Matrix (Fin n) (Fin n) ℝ) (hs : Qᵀ = Q) (hi : Q * Q = Q) (x : Vec n) :
    Spec.looValue M Q x 1 - M.trace = Spec.quad ((1 - Q) * M * (1 - Q)) x - ((1 - Q) * M * (1 - Q)).trace := by
  rw [looValue_expand M Q hs, ← quad_expand]
  have h : (Q * M * Q).trace + ((1 - Q) * M * (1 - Q)).trace = M.trace := by
    rw [trace_mul_comm (Q * M), trace_mul_comm ((1 - Q) * M), ← Matrix.mul_assoc, ← Matrix.mul_assoc, hi, (compl_proj hs hi).2, Matrix.sub_mul, Matrix.one_mul, trace_sub]
    ring
  linarith

theorem looValue_mse (d : IsoDist) (hd : d ≠ .rademacher) (hn : 0 < n) (M : Matrix (Fin n) (Fin n) ℝ) (b : ℕ) (i : Fin (b + 1)) :
    Integrable (fun z => (Spec.looValue M (colProj (M * gaussMat d n (b + 1) z) fun j => j ≠ i) (gaussVec d (streamCol n z i)) 1 - M.trace) ^ 2) gaussStream ∧
    ∀ (k : ℕ) (B : Matrix (Fin n) (Fin n) ℝ), B.rank ≤ k → k + 2 ≤ b →
      ∫ z, (Spec.looValue M (colProj (M * gaussMat d n (b + 1) z) fun j => j ≠ i) (gaussVec d (streamCol n z i)) 1 - M.trace) ^ 2 ∂gaussStream ≤
        2 * ((1 + k / (b - k - 1)) * ∑ p, ∑ q, (M p q - B p q) ^ 2) := by
  have hm := colProj_gauss_measurable d M (b + 1) fun j => j ≠ i
  have hm1 : ∀ p q, Measurable fun z => (1 - colProj (M * gaussMat d n (b + 1) z) fun j => j ≠ i) p q := fun p q => by
    simp only [Matrix.sub_apply]; exact measurable_const.sub (hm p q)
  have h := loo_quad_var d hd M (b + 1) i (fun Q => (1 - Q) * M * (1 - Q)) (absSum M) (fun p q => mul_entry_measurable (mul_const_measurable hm1 M) hm1 p q)
    fun Q p q hs hi => by
      obtain ⟨h1, h2⟩ := compl_proj hs hi
      exact sandwich_le M _ _ (proj_entry_le h1 h2) (proj_entry_le h1 h2) p q
  simp only [looValue_error M _ (colProj_spec _ _).symm (colProj_spec _ _).idem]
  refine ⟨h.1, fun k B hB hk => h.2.2.trans (mul_le_mul_of_nonneg_left ?_ zero_le_two)⟩
  refine le_trans ?_ (loo_rangeFinder d hd hn M B k b hB hk i)
  refine integral_mono h.2.1 ?_ fun z => ?_
  · refine integrable_finsetSum _ fun p _ => integrable_finsetSum _ fun q _ => ?_
    refine Integrable.of_bound ((mul_const_measurable hm1 M p q).pow_const 2).aestronglyMeasurable (absSum M ^ 2) (Filter.Eventually.of_forall fun z => ?_)
    obtain ⟨h1, h2⟩ := compl_proj (colProj_spec (M * gaussMat d n (b + 1) z) fun j => j ≠ i).symm (colProj_spec (M * gaussMat d n (b + 1) z) fun j => j ≠ i).idem
    rw [Real.norm_eq_abs, abs_pow]
    have h3 := sandwich_le M _ 1 (proj_entry_le h1 h2) (proj_entry_le (by simp) (by simp)) p q
    rw [Matrix.mul_one] at h3
    exact pow_le_pow_left₀ (abs_nonneg _) h3 2
  · have hp := colProj_spec (M * gaussMat d n (b + 1) z) fun j => j ≠ i
    exact residual_frob_le hp.symm hp.idem _

theorem xtraceStream_mse (d : IsoDist) (hd : d ≠ .rademacher) (M : Matrix (Fin (n + 1)) (Fin (n + 1)) ℝ) :
    Measurable (xtraceStream d M) ∧ Integrable (fun z => (xtraceStream d M z - M.trace) ^ 2) gaussStream ∧
    ∀ (k : ℕ) (B : Matrix (Fin (n + 1)) (Fin (n + 1)) ℝ), B.rank ≤ k → k + 2 ≤ n →
      ∫ z, (xtraceStream d M z - M.trace) ^ 2 ∂gaussStream ≤ 2 * ((1 + k / (n - k - 1)) * ∑ p, ∑ q, (M p q - B p q) ^ 2) := by
  have hpos : (0 : ℝ) < ((n + 1 : ℕ) : ℝ) := by positivity
  obtain ⟨g, hg⟩ : ∃ g : Fin (n + 1) → (ℕ → ℝ) → ℝ, g = fun i z =>
    Spec.looValue M (colProj (M * gaussMat d (n + 1) (n + 1) z) fun j => j ≠ i) (gaussVec d (streamCol (n + 1) z i)) 1 - M.trace := ⟨_, rfl⟩
  have hi : ∀ i, Integrable (fun z => g i z ^ 2) gaussStream := fun i => by
    rw [hg]
    exact (looValue_mse d hd n.succ_pos M n i).1
  have hgm : ∀ i, Measurable (g i) := fun i => by
    have hm := colProj_gauss_measurable d M (n + 1) fun j => j ≠ i
    have hm1 : ∀ p q, Measurable fun z => (1 - colProj (M * gaussMat d (n + 1) (n + 1) z) fun j => j ≠ i) p q := fun p q => by
      simp only [Matrix.sub_apply]; exact measurable_const.sub (hm p q)
    have hxm : ∀ p, Measurable fun z => gaussVec d (streamCol (n + 1) z i) p := fun p => gaussVec_measurable d i p
    have hR : ∀ p q, Measurable fun z => ((1 - colProj (M * gaussMat d (n + 1) (n + 1) z) fun j => j ≠ i) * M * (1 - colProj (M * gaussMat d (n + 1) (n + 1) z) fun j => j ≠ i)) p q :=
      fun p q => mul_entry_measurable (mul_const_measurable hm1 M) hm1 p q
    have e1 : g i = fun z => ∑ p, ∑ q, ((1 - colProj (M * gaussMat d (n + 1) (n + 1) z) fun j => j ≠ i) * M * (1 - colProj (M * gaussMat d (n + 1) (n + 1) z) fun j => j ≠ i)) p q *
        (gaussVec d (streamCol (n + 1) z i) p * gaussVec d (streamCol (n + 1) z i) q) -
        ∑ p, ((1 - colProj (M * gaussMat d (n + 1) (n + 1) z) fun j => j ≠ i) * M * (1 - colProj (M * gaussMat d (n + 1) (n + 1) z) fun j => j ≠ i)) p p := by
      rw [hg]
      funext z
      beta_reduce
      rw [looValue_error M _ (colProj_spec _ _).symm (colProj_spec _ _).idem, quad_expand]
      rfl
    rw [e1]
    exact (Finset.measurable_sum _ fun p _ => Finset.measurable_sum _ fun q _ => (hR p q).mul ((hxm p).mul (hxm q))).sub (Finset.measurable_sum _ fun p _ => hR p p)
  have e : ∀ z, xtraceStream d M z - M.trace = (∑ i, g i z) / ((n + 1 : ℕ) : ℝ) := fun z => by
    rw [hg]
    unfold xtraceStream
    simp only [Finset.sum_sub_distrib, Finset.sum_const, Finset.card_univ, Fintype.card_fin, nsmul_eq_mul]
    field_simp
  have hmeas : Measurable (xtraceStream d M) := by
    have : xtraceStream d M = fun z => (∑ i, g i z) / ((n + 1 : ℕ) : ℝ) + M.trace := by
      funext z
      rw [← e, sub_add_cancel]
    rw [this]
    exact ((Finset.measurable_sum _ fun i _ => hgm i).div_const _).add_const _
  have hle : ∀ z, (xtraceStream d M z - M.trace) ^ 2 ≤ (∑ i, g i z ^ 2) / ((n + 1 : ℕ) : ℝ) := fun z => by
    rw [e]
    exact sq_avg_le _ (by simp) hpos
  have hsum : Integrable (fun z => (∑ i, g i z ^ 2) / ((n + 1 : ℕ) : ℝ)) gaussStream := (integrable_finsetSum _ fun i _ => hi i).div_const _
  have hint : Integrable (fun z => (xtraceStream d M z - M.trace) ^ 2) gaussStream := by
    refine hsum.mono' ((hmeas.sub_const _).pow_const 2).aestronglyMeasurable (Filter.Eventually.of_forall fun z => ?_)
    rw [Real.norm_eq_abs, abs_of_nonneg (sq_nonneg _)]
    exact hle z
  refine ⟨hmeas, hint, fun k B hB hk => (integral_mono hint hsum hle).trans ?_⟩
  rw [integral_div, integral_finsetSum _ fun i _ => hi i, div_le_iff₀ hpos]
  have h1 : ∀ i ∈ Finset.univ, ∫ z, g i z ^ 2 ∂gaussStream ≤ 2 * ((1 + k / (n - k - 1)) * ∑ p, ∑ q, (M p q - B p q) ^ 2) := fun i _ => by
    rw [hg]
    exact (looValue_mse d hd n.succ_pos M n i).2 k B hB hk
  refine (Finset.sum_le_sum h1).trans (le_of_eq ?_)
  simp only [Finset.sum_const, Finset.card_univ, Fintype.card_fin, nsmul_eq_mul]
  ring

/-- **C157**: the mean squared error of `xtrace`. -/
theorem C157_xtrace [IsProbabilityMeasure P] (tppf : ℝ → ℕ → ℝ) (zscore : ℝ → ℝ) (hn : 4 ≤ n) (batch : ℕ) (hb : 1 ≤ batch) (converge : CritArg)
    (full record : Bool) (kw : Kwargs) (M : Matrix (Fin n) (Fin n) ℝ) (hM : M.det ≠ 0) (qrInsert : QRInsert n) (hq : QRInsertOk qrInsert) (name : String)
    (hname : name = "normal" ∨ name = "gaussian" ∨ name = "sphere") (u X : ℕ → Ω → ℝ) (hX : Spec.IidNormal P X) (fuel : ℕ) (hf : n < fuel) :
    ∃ est : Ω → ℝ,
      (∀ᵐ ω ∂P, ∃ res s, xtrace tppf zscore qrInsert ⟨fun q => u q ω, fun q => X q ω⟩ (.ofMatrix M) batch (.name name) converge full record kw fuel =
        some (.ok (.val fun _ => est ω, res, s))) ∧
      Integrable (fun ω => (est ω - M.trace) ^ 2) P ∧
      (∀ (k : ℕ) (B : Matrix (Fin n) (Fin n) ℝ), k + 3 ≤ n → B.rank ≤ k →
        ∫ ω, (est ω - M.trace) ^ 2 ∂P ≤ 2 * (1 + k / (n - k - 2)) * ∑ i, ∑ j, (M i j - B i j) ^ 2) ∧
      (M.PosSemidef → ∫ ω, (est ω - M.trace) ^ 2 ∂P ≤ 2 * M.trace ^ 2 / (n - 3) ∧
        ∀ ε : ℝ, 0 < ε → P.real {ω | ε * M.trace < |est ω - M.trace|} ≤ 2 / ((n - 3) * ε ^ 2)) := by
  obtain ⟨d, hd, hr⟩ := gauss_name hname
  obtain ⟨n, rfl⟩ : ∃ m, n = m + 1 := ⟨n - 1, by omega⟩
  obtain ⟨hmeas, hint, hrate⟩ := xtraceStream_mse d hr M
  have hn3 : (3 : ℝ) ≤ n := by exact_mod_cast (show 3 ≤ n by omega)
  have hrate' : ∀ (k : ℕ) (B : Matrix (Fin (n + 1)) (Fin (n + 1)) ℝ), k + 3 ≤ n + 1 → B.rank ≤ k →
      ∫ ω, (xtraceStream d M (fun q => X q ω) - M.trace) ^ 2 ∂P ≤ 2 * (1 + k / (((n + 1 : ℕ) : ℝ) - k - 2)) * ∑ i, ∑ j, (M i j - B i j) ^ 2 := by
    intro k B hk hB
    rw [iidNormal_integral hX (fun z => (xtraceStream d M z - M.trace) ^ 2) ((hmeas.sub_const _).pow_const 2)]
    refine (hrate k B hB (by omega)).trans (le_of_eq ?_)
    push_cast
    rw [show (n : ℝ) + 1 - k - 2 = n - k - 1 by ring]
    ring
  have hpsd : M.PosSemidef → ∫ ω, (xtraceStream d M (fun q => X q ω) - M.trace) ^ 2 ∂P ≤ 2 * M.trace ^ 2 / (((n + 1 : ℕ) : ℝ) - 3) := by
    intro hA
    obtain ⟨k, hk⟩ : ∃ k, k = (n - 1) / 2 := ⟨_, rfl⟩
    have hk0 : 0 < k := by omega
    obtain ⟨B, hB, hAB⟩ := exists_lowRank M hA k hk0
    refine (hrate' k B (by omega) hB).trans ?_
    push_cast
    have hk1 : (0 : ℝ) < k := by exact_mod_cast hk0
    have hk2 : ((k : ℝ)) ≤ n + 1 - k - 2 := by
      have : 2 * k + 1 ≤ n := by omega
      have : ((2 * k + 1 : ℕ) : ℝ) ≤ n := by exact_mod_cast this
      push_cast at this
      linarith
    have hk3 : ((n : ℝ) - 2) ≤ 2 * k := by
      have : n ≤ 2 * k + 2 := by omega
      have : (n : ℝ) ≤ ((2 * k + 2 : ℕ) : ℝ) := by exact_mod_cast this
      push_cast at this
      linarith
    have h1 : 1 + (k : ℝ) / (n + 1 - k - 2) ≤ 2 := by
      have : (k : ℝ) / (n + 1 - k - 2) ≤ 1 := by rw [div_le_one (by linarith)]; exact hk2
      linarith
    have h0 : 0 ≤ ∑ i, ∑ j, (M - B) i j ^ 2 := Finset.sum_nonneg fun i _ => Finset.sum_nonneg fun j _ => sq_nonneg _
    have h2 : 2 * (1 + (k : ℝ) / (n + 1 - k - 2)) * (∑ i, ∑ j, (M i j - B i j) ^ 2) ≤ 4 * (M.trace ^ 2 / (4 * k)) := by
      calc 2 * (1 + (k : ℝ) / (n + 1 - k - 2)) * (∑ i, ∑ j, (M i j - B i j) ^ 2) ≤ 4 * ∑ i, ∑ j, (M - B) i j ^ 2 :=
            mul_le_mul_of_nonneg_right (by linarith) h0
        _ ≤ _ := mul_le_mul_of_nonneg_left hAB (by norm_num)
    refine h2.trans ?_
    have h3 : 4 * (M.trace ^ 2 / (4 * k)) = M.trace ^ 2 / k := by field_simp
    rw [h3, div_le_div_iff₀ hk1 (by linarith)]
    nlinarith [sq_nonneg M.trace]
  have hintP := iidNormal_integrable hX _ hint
  refine ⟨fun ω => xtraceStream d M fun q => X q ω, xtrace_gauss tppf zscore (by omega) batch hb converge full record kw M hM qrInsert hq name d hd hr u X hX fuel hf, hintP,
    hrate', fun hA => ⟨hpsd hA, fun ε hε => ?_⟩⟩
  have hpos : 0 < M.trace := by
    have h0 := hA.trace_nonneg
    rcases h0.eq_or_lt with h | h
    · exfalso
      have h1 : M = 0 := hA.trace_eq_zero_iff.1 h.symm
      rw [h1, det_zero] at hM
      exact hM rfl
    · exact h
  have hden : (0 : ℝ) < (((n + 1 : ℕ) : ℝ) - 3) * ε ^ 2 := by
    push_cast
    exact mul_pos (by linarith) (by positivity)
  have hmk := mul_meas_ge_le_integral_of_nonneg (μ := P) (f := fun ω => (xtraceStream d M (fun q => X q ω) - M.trace) ^ 2) (Filter.Eventually.of_forall fun ω => sq_nonneg _) hintP
    ((ε * M.trace) ^ 2)
  have hsub : P.real {ω | ε * M.trace < |xtraceStream d M (fun q => X q ω) - M.trace|} ≤
      P.real {ω | (ε * M.trace) ^ 2 ≤ (xtraceStream d M (fun q => X q ω) - M.trace) ^ 2} := by
    refine measureReal_mono (fun ω hω => ?_) (measure_ne_top P _)
    rw [Set.mem_ofPred_eq] at hω ⊢
    rw [← sq_abs (xtraceStream d M (fun q => X q ω) - M.trace)]
    exact pow_le_pow_left₀ (by positivity) hω.le 2
  rw [le_div_iff₀ hden]
  have h5 := hmk.trans (hpsd hA)
  have hn0 : (0 : ℝ) < ((n + 1 : ℕ) : ℝ) - 3 := by push_cast; linarith
  rw [le_div_iff₀ hn0] at h5
  have h6 := mul_le_mul_of_nonneg_right hsub (show 0 ≤ (((n + 1 : ℕ) : ℝ) - 3) * ε ^ 2 from hden.le)
  refine h6.trans ?_
  have h7 : 0 < M.trace ^ 2 := by positivity
  have h8 : P.real {ω | (ε * M.trace) ^ 2 ≤ (xtraceStream d M (fun q => X q ω) - M.trace) ^ 2} * ((((n + 1 : ℕ) : ℝ) - 3) * ε ^ 2) * M.trace ^ 2 ≤ 2 * M.trace ^ 2 := by
    refine le_trans (le_of_eq ?_) h5
    unfold Measure.real
    ring
  exact le_of_mul_le_mul_right h8 h7

/-- The mean of the leave-one-out values that `xdiag` returns. -/
def xdiagStream (d : IsoDist) (A : Matrix (Fin n) (Fin n) ℝ) (b : ℕ) (z : ℕ → ℝ) : Vec n := fun k =>
  (∑ i : Fin b, (((colProj (A * gaussMat d n b z) fun j => j ≠ i) * A) k k + gaussVec d (streamCol n z i) k *
    ((1 - colProj (A * gaussMat d n b z) fun j => j ≠ i) *ᵥ (A *ᵥ gaussVec d (streamCol n z i))) k)) / b

theorem xdiag_gauss [IsProbabilityMeasure P] (hn : 1 ≤ n) (A : Matrix (Fin n) (Fin n) ℝ) (qr : QRKernel n) (hq : QRKernelOk qr) (m : Option ℤ)
    (hm : ∀ z, m = some z → 1 ≤ z) (b : ℕ) (hb : xdiagBudget n m = b) (hA : b ≤ A.rank) (name : String) (d : IsoDist)
    (hd : ISO_DISTRIBUTIONS.lookup name = some d) (hr : d ≠ .rademacher) (u X : ℕ → Ω → ℝ) (hX : Spec.IidNormal P X) :
    ∀ᵐ ω ∂P, xdiag qr ⟨fun q => u q ω, fun q => X q ω⟩ A m (.name name) = .ok (.val (xdiagStream d A b fun q => X q ω)) := by
  have hb1 : 1 ≤ b ∧ b ≤ n := by
    obtain ⟨pd, hpd, -⟩ := gauss_pdf (n := n) name d hd hr (fun _ => 0) (fun _ => 0)
    obtain ⟨b', h1, h2, h3, -⟩ := C37_call ⟨fun _ => 0, fun _ => 0⟩ hn qr A name pd hpd m hm
    obtain rfl : b' = b := by omega
    exact ⟨h1, h2⟩
  have h3 := gaussMat_indep d A b hA
  rw [← iidNormal_law hX] at h3
  filter_upwards [ae_of_ae_map (iidNormal_aemeasurable hX) h3] with ω hω
  obtain ⟨hne, hind⟩ := hω
  obtain ⟨z, hz⟩ : ∃ z : ℕ → ℝ, z = fun q => X q ω := ⟨_, rfl⟩
  rw [← hz] at hind ⊢
  obtain ⟨pd, hpd, hcol⟩ := gauss_pdf (n := n) name d hd hr (fun q => u q ω) z
  obtain ⟨b', -, -, h4, h5⟩ := C37_call ⟨fun q => u q ω, z⟩ hn qr A name pd hpd m hm
  obtain rfl : b' = b := by omega
  have hW : (Matrix.of fun i (j : Fin b') => pd [] b' j i) = gaussMat d n b' z := by
    ext i j
    simp only [of_apply, gaussMat, hcol, List.sum_nil, zero_add]
  obtain ⟨⟨est, hest⟩, -⟩ := xdiagCore_ok qr hq hb1.2 A (gaussMat d n b' z) hind
  rw [h5, hW, hest]
  have hv : est = xdiagStream d A b' z := by
    funext k
    exact C37_leave_one_out qr hq (by omega) hb1.2 A (gaussMat d n b' z) est hest (fun i => colProj (A * gaussMat d n b' z) fun j => j ≠ i)
      (fun i => colProj_spec _ _) k
  rw [hv]
  rfl

/-- The coefficients of the quadratic form in the `k`th entry. -/
def diagForm (A : Matrix (Fin n) (Fin n) ℝ) (k : Fin n) (Q : Matrix (Fin n) (Fin n) ℝ) : Matrix (Fin n) (Fin n) ℝ := Matrix.of fun p q => if p = k then ((1 - Q) * A) k q else 0

theorem looDiag_error (A Q : Matrix (Fin n) (Fin n) ℝ) (x : Vec n) (k : Fin n) :
    (Q * A) k k + x k * ((1 - Q) *ᵥ (A *ᵥ x)) k - A k k = Spec.quad (diagForm A k Q) x - (diagForm A k Q).trace := by
  have h1 : x k * ((1 - Q) *ᵥ (A *ᵥ x)) k = Spec.quad (diagForm A k Q) x := by
    rw [mulVec_mulVec, quad_expand, Finset.sum_eq_single k]
    · simp only [diagForm, of_apply, if_true, mulVec, dotProduct, Finset.mul_sum]
      exact Finset.sum_congr rfl fun q _ => by ring
    · intro p _ hp
      simp [diagForm, hp]
    · simp
  have h2 : (diagForm A k Q).trace = A k k - (Q * A) k k := by
    simp only [Matrix.trace, Matrix.diag, diagForm, of_apply, Finset.sum_ite_eq', Finset.mem_univ, if_true]
    rw [Matrix.sub_mul, Matrix.one_mul, Matrix.sub_apply]
  rw [h1, h2]
  ring

theorem looDiag_mse (d : IsoDist) (hd : d ≠ .rademacher) (A : Matrix (Fin n) (Fin n) ℝ) (b : ℕ) (i : Fin b) (k : Fin n) :
    Measurable (fun z => Spec.quad (diagForm A k (colProj (A * gaussMat d n b z) fun j => j ≠ i)) (gaussVec d (streamCol n z i)) -
      (diagForm A k (colProj (A * gaussMat d n b z) fun j => j ≠ i)).trace) ∧
    Integrable (fun z => (Spec.quad (diagForm A k (colProj (A * gaussMat d n b z) fun j => j ≠ i)) (gaussVec d (streamCol n z i)) -
      (diagForm A k (colProj (A * gaussMat d n b z) fun j => j ≠ i)).trace) ^ 2) gaussStream ∧
    Integrable (fun z => ∑ q, ((1 - colProj (A * gaussMat d n b z) fun j => j ≠ i) * A) k q ^ 2) gaussStream ∧
    ∫ z, (Spec.quad (diagForm A k (colProj (A * gaussMat d n b z) fun j => j ≠ i)) (gaussVec d (streamCol n z i)) -
      (diagForm A k (colProj (A * gaussMat d n b z) fun j => j ≠ i)).trace) ^ 2 ∂gaussStream ≤
        2 * ∫ z, ∑ q, ((1 - colProj (A * gaussMat d n b z) fun j => j ≠ i) * A) k q ^ 2 ∂gaussStream := by
  have hm := colProj_gauss_measurable d A b fun j => j ≠ i
  have hm1 : ∀ p q, Measurable fun z => (1 - colProj (A * gaussMat d n b z) fun j => j ≠ i) p q := fun p q => by
    simp only [Matrix.sub_apply]; exact measurable_const.sub (hm p q)
  have hR : ∀ p q, Measurable fun z => diagForm A k (colProj (A * gaussMat d n b z) fun j => j ≠ i) p q := fun p q => by
    simp only [diagForm, of_apply]
    split_ifs
    · exact mul_const_measurable hm1 A k q
    · exact measurable_const
  have hxm : ∀ p, Measurable fun z => gaussVec d (streamCol n z i) p := fun p => gaussVec_measurable d i p
  have h := loo_quad_var d hd A b i (diagForm A k) (absSum A) hR fun Q p q hs hi => by
    obtain ⟨h1, h2⟩ := compl_proj hs hi
    simp only [diagForm, of_apply]
    split_ifs
    · have := sandwich_le A (1 - Q) 1 (proj_entry_le h1 h2) (proj_entry_le (by simp) (by simp)) k q
      rwa [Matrix.mul_one] at this
    · rw [abs_zero]; exact absSum_nonneg A
  have e : ∀ Q, ∑ p, ∑ q, diagForm A k Q p q ^ 2 = ∑ q, ((1 - Q) * A) k q ^ 2 := fun Q => by
    rw [Finset.sum_eq_single k]
    · simp [diagForm]
    · intro p _ hp
      simp [diagForm, hp]
    · simp
  simp only [e] at h
  refine ⟨?_, h⟩
  simp only [quad_expand, Matrix.trace, Matrix.diag]
  exact (Finset.measurable_sum _ fun p _ => Finset.measurable_sum _ fun q _ => (hR p q).mul ((hxm p).mul (hxm q))).sub (Finset.measurable_sum _ fun p _ => hR p p)

theorem xdiagStream_mse (d : IsoDist) (hd : d ≠ .rademacher) (hn : 0 < n) (A : Matrix (Fin n) (Fin n) ℝ) (b : ℕ) :
    (∀ k, Measurable fun z => xdiagStream d A (b + 1) z k) ∧ Integrable (fun z => ∑ k, (xdiagStream d A (b + 1) z k - A k k) ^ 2) gaussStream ∧
    ∀ (r : ℕ) (B : Matrix (Fin n) (Fin n) ℝ), B.rank ≤ r → r + 2 ≤ b →
      ∫ z, ∑ k, (xdiagStream d A (b + 1) z k - A k k) ^ 2 ∂gaussStream ≤ 2 * ((1 + r / (b - r - 1)) * ∑ p, ∑ q, (A p q - B p q) ^ 2) := by
  have hpos : (0 : ℝ) < ((b + 1 : ℕ) : ℝ) := by positivity
  obtain ⟨g, hg⟩ : ∃ g : Fin n → Fin (b + 1) → (ℕ → ℝ) → ℝ, g = fun k i z => Spec.quad (diagForm A k (colProj (A * gaussMat d n (b + 1) z) fun j => j ≠ i)) (gaussVec d (streamCol n z i)) -
      (diagForm A k (colProj (A * gaussMat d n (b + 1) z) fun j => j ≠ i)).trace := ⟨_, rfl⟩
  have hgm : ∀ k i, Measurable (g k i) := fun k i => by
    rw [hg]
    exact (looDiag_mse d hd A (b + 1) i k).1
  have hi : ∀ k i, Integrable (fun z => g k i z ^ 2) gaussStream := fun k i => by
    rw [hg]
    exact (looDiag_mse d hd A (b + 1) i k).2.1
  have e : ∀ z k, xdiagStream d A (b + 1) z k - A k k = (∑ i, g k i z) / ((b + 1 : ℕ) : ℝ) := fun z k => by
    rw [hg]
    unfold xdiagStream
    simp only [← looDiag_error]
    simp only [Finset.sum_sub_distrib, Finset.sum_const, Finset.card_univ, Fintype.card_fin, nsmul_eq_mul]
    field_simp
  have hmeas : ∀ k, Measurable fun z => xdiagStream d A (b + 1) z k := fun k => by
    have : (fun z => xdiagStream d A (b + 1) z k) = fun z => (∑ i, g k i z) / ((b + 1 : ℕ) : ℝ) + A k k := by
      funext z
      rw [← e, sub_add_cancel]
    rw [this]
    exact ((Finset.measurable_sum _ fun i _ => hgm k i).div_const _).add_const _
  have hle : ∀ z, ∑ k, (xdiagStream d A (b + 1) z k - A k k) ^ 2 ≤ ∑ k, (∑ i, g k i z ^ 2) / ((b + 1 : ℕ) : ℝ) := fun z => Finset.sum_le_sum fun k _ => by
    rw [e]
    exact sq_avg_le _ (by simp) hpos
  have hsum : Integrable (fun z => ∑ k, (∑ i, g k i z ^ 2) / ((b + 1 : ℕ) : ℝ)) gaussStream :=
    integrable_finsetSum _ fun k _ => (integrable_finsetSum _ fun i _ => hi k i).div_const _
  have hint : Integrable (fun z => ∑ k, (xdiagStream d A (b + 1) z k - A k k) ^ 2) gaussStream := by
    refine hsum.mono' (Finset.measurable_sum _ fun k _ => ((hmeas k).sub_const _).pow_const 2).aestronglyMeasurable (Filter.Eventually.of_forall fun z => ?_)
    rw [Real.norm_eq_abs, abs_of_nonneg (Finset.sum_nonneg fun k _ => sq_nonneg _)]
    exact hle z
  refine ⟨hmeas, hint, fun r B hB hk => (integral_mono hint hsum hle).trans ?_⟩
  rw [integral_finsetSum _ fun k _ => (integrable_finsetSum _ fun i _ => hi k i).div_const _]
  simp only [integral_div, fun k => integral_finsetSum (μ := gaussStream) Finset.univ fun i _ => hi k i]
  rw [← Finset.sum_div, div_le_iff₀ hpos, Finset.sum_comm]
  have h1 : ∀ i ∈ Finset.univ, ∑ k, ∫ z, g k i z ^ 2 ∂gaussStream ≤ 2 * ((1 + r / (b - r - 1)) * ∑ p, ∑ q, (A p q - B p q) ^ 2) := fun i _ => by
    refine (Finset.sum_le_sum fun k _ => show _ ≤ 2 * ∫ z, ∑ q, ((1 - colProj (A * gaussMat d n (b + 1) z) fun j => j ≠ i) * A) k q ^ 2 ∂gaussStream from ?_).trans ?_
    · rw [hg]
      exact (looDiag_mse d hd A (b + 1) i k).2.2.2
    · rw [← Finset.mul_sum, ← integral_finsetSum _ fun k _ => (looDiag_mse d hd A (b + 1) i k).2.2.1]
      exact mul_le_mul_of_nonneg_left (loo_rangeFinder d hd hn A B r b hB hk i) zero_le_two
  refine (Finset.sum_le_sum h1).trans (le_of_eq ?_)
  simp only [Finset.sum_const, Finset.card_univ, Fintype.card_fin, nsmul_eq_mul]
  ring

/-- **C157**: the mean squared error of `xdiag`. -/
theorem C157_xdiag [IsProbabilityMeasure P] (hn : 1 ≤ n) (A : Matrix (Fin n) (Fin n) ℝ) (qr : QRKernel n) (hq : QRKernelOk qr) (m : Option ℤ)
    (hm : ∀ z, m = some z → 1 ≤ z) (b : ℕ) (hb : xdiagBudget n m = b) (hA : b ≤ A.rank) (name : String)
    (hname : name = "normal" ∨ name = "gaussian" ∨ name = "sphere") (u X : ℕ → Ω → ℝ) (hX : Spec.IidNormal P X) :
    ∃ est : Ω → Vec n,
      (∀ᵐ ω ∂P, xdiag qr ⟨fun q => u q ω, fun q => X q ω⟩ A m (.name name) = .ok (.val (est ω))) ∧
      Integrable (fun ω => ∑ k, (est ω k - A k k) ^ 2) P ∧
      ∀ (r : ℕ) (B : Matrix (Fin n) (Fin n) ℝ), r + 3 ≤ b → B.rank ≤ r →
        ∫ ω, ∑ k, (est ω k - A k k) ^ 2 ∂P ≤ 2 * (1 + r / (b - r - 2)) * ∑ i, ∑ j, (A i j - B i j) ^ 2 := by
  obtain ⟨d, hd, hr⟩ := gauss_name hname
  have hb1 : 1 ≤ b := by
    obtain ⟨pd, hpd, -⟩ := gauss_pdf (n := n) name d hd hr (fun _ => 0) (fun _ => 0)
    obtain ⟨b', h1, h2, h3, -⟩ := C37_call ⟨fun _ => 0, fun _ => 0⟩ hn qr A name pd hpd m hm
    obtain rfl : b' = b := by omega
    exact h1
  have hae := xdiag_gauss hn A qr hq m hm b hb hA name d hd hr u X hX
  obtain ⟨b, rfl⟩ : ∃ c, b = c + 1 := ⟨b - 1, by omega⟩
  obtain ⟨hmeas, hint, hrate⟩ := xdiagStream_mse d hr hn A b
  refine ⟨_, hae, iidNormal_integrable hX _ hint, fun r B hk hB => ?_⟩
  rw [iidNormal_integral hX (fun z => ∑ k, (xdiagStream d A (b + 1) z k - A k k) ^ 2) (Finset.measurable_sum _ fun k _ => ((hmeas k).sub_const _).pow_const 2)]
  refine (hrate r B hB (by omega)).trans (le_of_eq ?_)
  push_cast
  rw [show (b : ℝ) + 1 - r - 2 = b - r - 1 by ring]
  ring

/-- One large eigenvalue does not matter: for diag(1000, 1, …, 1) of size 103 the mean squared errors are at most 207 (`xtrace`) and 216 (`xdiag` with 20 vectors). -/
example (tppf : ℝ → ℕ → ℝ) (zscore : ℝ → ℝ) : ∃ (A : Matrix (Fin 103) (Fin 103) ℝ) (qrInsert : QRInsert 103) (qr : QRKernel 103) (t : (ℕ → ℝ) → ℝ) (v : (ℕ → ℝ) → Vec 103),
    A.trace = 1102 ∧
    (∀ᵐ z ∂gaussStream, ∃ res s, xtrace tppf zscore qrInsert ⟨fun _ => 0, z⟩ (.ofMatrix A) 10 (.name "sphere") (.str "count") false false {} 104 = some (.ok (.val fun _ => t z, res, s))) ∧
    ∫ z, (t z - 1102) ^ 2 ∂gaussStream ≤ 207 ∧
    (∀ᵐ z ∂gaussStream, xdiag qr ⟨fun _ => 0, z⟩ A (some 40) (.name "normal") = .ok (.val (v z))) ∧ ∫ z, ∑ k, (v z k - A k k) ^ 2 ∂gaussStream ≤ 216 := by
  obtain ⟨qi, hqi⟩ := exists_qrInsertOk 103
  obtain ⟨qr, hqr⟩ := exists_qrKernelOk 103
  obtain ⟨A, hA⟩ : ∃ A : Matrix (Fin 103) (Fin 103) ℝ, A = diagonal fun i => if i = 0 then 1000 else 1 := ⟨_, rfl⟩
  obtain ⟨B, hB⟩ : ∃ B : Matrix (Fin 103) (Fin 103) ℝ, B = vecMulVec (Pi.single 0 1000) (Pi.single 0 1) := ⟨_, rfl⟩
  have hdet : A.det ≠ 0 := by
    rw [hA, det_diagonal]
    exact Finset.prod_ne_zero_iff.2 fun i _ => by split_ifs <;> norm_num
  have hBr : B.rank ≤ 1 := by rw [hB]; exact rank_vecMulVec_le _ _
  have htr : A.trace = 1102 := by
    rw [hA, trace_diagonal, Finset.sum_ite, Finset.sum_const, Finset.sum_const, Finset.filter_eq', if_pos (Finset.mem_univ _), Finset.card_singleton, Finset.filter_ne',
      Finset.card_erase_of_mem (Finset.mem_univ _)]
    simp
    norm_num
  have hfro : ∑ i, ∑ j, (A i j - B i j) ^ 2 ≤ 102 := by
    have h1 : ∀ i, ∑ j, (A i j - B i j) ^ 2 = if i = 0 then 0 else 1 := fun i => by
      rw [Finset.sum_eq_single i]
      · rw [hA, hB, diagonal_apply_eq, vecMulVec_apply]
        by_cases h : i = 0
        · subst h; simp
        · simp [h]
      · intro j _ hj
        rw [hA, hB, diagonal_apply_ne _ hj.symm, vecMulVec_apply]
        by_cases h : i = 0
        · subst h; simp [hj]
        · simp [h]
      · simp
    simp only [h1]
    rw [Finset.sum_ite, Finset.sum_const_zero, Finset.sum_const, Finset.filter_ne', Finset.card_erase_of_mem (Finset.mem_univ _)]
    simp
  obtain ⟨t, h1, -, h2, -⟩ := C157_xtrace tppf zscore (by norm_num) 10 (by norm_num) (.str "count") false false {} A hdet qi hqi "sphere" (by simp) (fun _ _ => 0) _ iidNormal_exists 104
    (by norm_num)
  obtain ⟨v, h3, -, h4⟩ := C157_xdiag (by norm_num) A qr hqr (some 40) (by intro z hz; cases hz; norm_num) 20 (by rfl) (le_trans (by norm_num) (rank_of_det_ne_zero hdet)) "normal" (by simp) (fun _ _ => 0) _
    iidNormal_exists
  refine ⟨A, qi, qr, t, v, htr, h1, ?_, h3, ?_⟩
  · have := h2 1 B (by norm_num) hBr
    rw [htr] at this
    refine this.trans ?_
    push_cast
    norm_num
    linarith
  · refine (h4 1 B (by norm_num) hBr).trans ?_
    push_cast
    norm_num
    linarith

end Primate
