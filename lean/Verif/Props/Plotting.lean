import Verif.Model.Plotting
import Verif.Lemmas.Estimators
import Verif.Spec.Criteria

/-!
# C88, C89, C95: the data shown by the figures
-/

noncomputable section

namespace Primate

/-- Mean of a list of numbers. -/
def Spec.listMean (xs : List ℝ) : ℝ := xs.sum / xs.length

/-- Sample standard deviation with divisor `n - 1`. -/
def Spec.listStd (xs : List ℝ) : ℝ := Real.sqrt ((xs.map fun x => (x - Spec.listMean xs) ^ 2).sum / ((xs.length : ℝ) - 1))

/-! ## C89: `figure_sequence` -/

theorem cumsum_length (acc : ℝ) (xs : List ℝ) : (cumsum acc xs).length = xs.length := by
  induction xs generalizing acc with
  | nil => rfl
  | cons x xs ih => simp [cumsum, ih]

theorem cumsum_get (acc : ℝ) (xs : List ℝ) (k : ℕ) (hk : k < xs.length) :
    (cumsum acc xs)[k]? = some (acc + (xs.take (k + 1)).sum) := by
  induction xs generalizing acc k with
  | nil => simp at hk
  | cons x xs ih =>
    cases k with
    | zero => simp [cumsum]
    | succ k =>
      simp only [cumsum, List.getElem?_cons_succ]
      rw [ih _ k (by simpa using hk)]
      simp [add_assoc]

/-- C89: whatever the samples, the line drawn by `figure_sequence` has one point per valid sample; point `k` (from 0) is at `k + 1` and
its height is the mean of the first `k + 1` valid samples. -/
theorem C89_line (estimator : PlotArg) (mu : Option ℝ) (vals : List (Option ℝ)) (hv : estimator.sampleVals = .ok vals) :
    ∃ f, figureSequence estimator mu = .ok f ∧ f.span = mu ∧
      f.lineX.length = (vals.filterMap id).length ∧ f.lineY.length = (vals.filterMap id).length ∧
      ∀ k < (vals.filterMap id).length, f.lineX[k]? = some (k + 1) ∧
        f.lineY[k]? = some (Spec.listMean ((vals.filterMap id).take (k + 1))) := by
  refine ⟨_, by simp only [figureSequence, hv, bind, Except.bind, pure, Except.pure]; rfl, rfl, ?_, ?_, ?_⟩
  · simp [sampleIndex, validSamples]
  · simp [sampleAvgs, sampleIndex, validSamples, cumsum_length]
  · intro k hk
    have hx : (sampleIndex (validSamples vals).length)[k]? = some (k + 1) := by
      unfold sampleIndex validSamples
      rw [List.getElem?_map, List.getElem?_range hk]
      rfl
    refine ⟨hx, ?_⟩
    show (sampleAvgs (validSamples vals))[k]? = _
    unfold sampleAvgs
    rw [List.getElem?_zipWith, cumsum_get 0 (validSamples vals) k hk, hx]
    simp only [zero_add, Spec.listMean, validSamples]
    rw [List.length_take, min_eq_left (by omega)]

/-- C89 (partial): without NaN among the samples, marker `k` shows sample `k`.  Missing: with NaN samples this is false of the code. -/
theorem C89_markers_partial (xs : List ℝ) (mu : Option ℝ) :
    ∃ f, figureSequence (.sequence (xs.map some)) mu = .ok f ∧ f.markers = (sampleIndex xs.length).zip xs := by
  refine ⟨_, by simp only [figureSequence, PlotArg.sampleVals, bind, Except.bind, pure, Except.pure]; rfl, ?_⟩
  unfold SeqFigure.markers
  have h : validSamples (xs.map some) = xs := by simp [validSamples, List.filterMap_map]
  simp only [h]
  clear h
  generalize sampleIndex xs.length = l
  induction xs generalizing l with
  | nil => simp
  | cons x xs ih =>
    cases l with
    | nil => simp
    | cons a l =>
      simp only [List.map_cons, List.zip_cons_cons, List.filterMap_cons, Option.map_some]
      rw [ih l]

/-- C89 is false of the code when samples are NaN: the marker columns have different lengths, and markers are shown at the wrong place
or not at all.  For the samples NaN, 5, 7 the averages 5 and 6 are drawn at 1 and 2, but the only marker is 5 at position 2. -/
theorem C89_counterexample :
    ∃ f, figureSequence (.sequence [none, some 5, some 7]) none = .ok f ∧ f.lineX = [1, 2] ∧ f.lineY = [5, 6] ∧
      f.scatterX.length ≠ f.scatterY.length ∧ f.markers = [(2, 5)] := by
  refine ⟨_, by simp only [figureSequence, PlotArg.sampleVals, bind, Except.bind, pure, Except.pure]; rfl, ?_, ?_, ?_, ?_⟩
  · simp [validSamples, sampleIndex, List.range_succ]
  · simp [validSamples, sampleIndex, sampleAvgs, cumsum, List.range_succ]
    norm_num
  · simp [validSamples, sampleIndex]
  · simp [validSamples, sampleIndex, SeqFigure.markers, List.range_succ]

/-- C89: an estimator that did not record its samples is rejected with TypeError (not with the intended assertion). -/
theorem C89_not_recorded (d : ℕ) (covariance : Bool) (mu : Option ℝ) :
    figureSequence (MeanEst.init d covariance false).plotArg mu = .error .type := rfl

/-- C89: for a recording `MeanEstimator` that was updated with the scalars `xs`, the figure shows the sequence `xs`. -/
theorem C89_estimator (covariance : Bool) (xs : List ℝ) (mu : Option ℝ) :
    ∃ e, (MeanEst.init 1 covariance true).updates ((xs.map fun x => [fun _ : Fin 1 => x]).map fun X => .mat ⟨1, X⟩) = .ok e ∧
      figureSequence e.plotArg mu = figureSequence (.sequence (xs.map some)) mu := by
  obtain ⟨e, h, i⟩ := (MeanEstInv.init (d := 1) covariance true).steps (xs.map fun x => [fun _ : Fin 1 => x]) (by simp)
  refine ⟨e, h, ?_⟩
  have hv : e.values = some (xs.map fun x => (fun _ : Fin 1 => x)) := by
    rw [i.values]
    simp only [if_true, List.nil_append, Option.some.injEq]
    clear h i
    induction xs with
    | nil => rfl
    | cons x xs ih => simpa using ih
  have : e.plotArg.sampleVals = .ok (xs.map some) := by
    unfold MeanEst.plotArg
    rw [hv]
    simp only [Option.map_some, PlotArg.sampleVals, List.map_map]
    congr 1
    clear h i hv
    induction xs with
    | nil => rfl
    | cons x xs ih => simpa using ih
  unfold figureSequence
  rw [this]
  rfl

/-! ## C88: `figure_error` -/

/-- C88 is false of the code: with a true value `mu`, `figure_error` raises UnboundLocalError, for every sequence of samples and all
other options. -/
theorem C88_counterexample (tppf : ℝ → ℕ → ℝ) (zscore : ℝ → ℝ) (estimator : PlotArg) (vals : List (Option ℝ))
    (hv : estimator.sampleVals = .ok vals) (mu : ℝ) (threshold : Option ℝ) (absolute : Bool) :
    figureError tppf zscore estimator (some mu) threshold absolute = .error .name := by
  simp only [figureError, hv, cumError, bind, Except.bind]

/-- C88: an estimator that does not record its samples is rejected with TypeError, whatever the other arguments. -/
theorem C88_not_recorded (tppf : ℝ → ℕ → ℝ) (zscore : ℝ → ℝ) (mu threshold : Option ℝ) (absolute : Bool) :
    figureError tppf zscore (.estimator none) mu threshold absolute = .error .type := rfl

/-- The height of the curve without a true value after the samples `xs`: infinite below three samples, then the margin of error
`score * s / sqrt n` or the relative standard error.  The score is that of `ConfidenceCriterion`: the quantile with `n + 1` degrees of
freedom below 30 samples (see C12) and the normal quantile from there on. -/
def Spec.errorHeight (tppf : ℝ → ℕ → ℝ) (zscore : ℝ → ℝ) (absolute : Bool) (xs : List ℝ) : Fl :=
  if xs.length < 3 then .pinf
  else
    let SE := Spec.listStd xs / Real.sqrt xs.length
    if absolute then .fin ((if xs.length < 30 then tppf 0.975 (xs.length + 1) else zscore 0.95) * SE)
    else if Spec.listMean xs = 0 then (if SE = 0 then .nan else .pinf)
    else .fin (SE / |Spec.listMean xs|)

theorem sampleMean_list (xs : List ℝ) : Spec.sampleMean (xs.map fun x => (fun _ : Fin 1 => x)) 0 = Spec.listMean xs := by
  simp [Spec.sampleMean, Spec.listMean, Function.comp_def]

theorem sampleStd_list (xs : List ℝ) : Spec.sampleStd (xs.map fun x => (fun _ : Fin 1 => x)) = Spec.listStd xs := by
  unfold Spec.sampleStd Spec.listStd Spec.sampleCov
  simp only [sampleMean_list, List.map_map, Function.comp_def, List.length_map, pow_two]
  congr 2
  push_cast
  rfl

theorem error_height (tppf : ℝ → ℕ → ℝ) (zscore : ℝ → ℝ) (cc : ConfCrit)
    (hcc : ConfCrit.init tppf zscore 0.95 (some 0) (some 0.01) = .ok cc) (e : MeanEst 1) (xs : List ℝ)
    (i : MeanEstInv true false e (xs.map fun x => (fun _ : Fin 1 => x))) :
    ∃ p, cc.error e.view = .ok p ∧ (p.1 = Spec.errorHeight tppf zscore true xs) ∧
      (p.2 = Spec.errorHeight tppf zscore false xs) := by
  have hns : e.view.nSamples = xs.length := by simpa [MeanEst.view] using i.n
  by_cases hn : xs.length < 3
  · exact ⟨_, by unfold ConfCrit.error; rw [hns, if_pos hn], by simp [Spec.errorHeight, hn], by simp [Spec.errorHeight, hn]⟩
  · obtain ⟨cv, hcv, ic⟩ := i.cov_view
    have hcov := ic.cov_eq 1 (by simp; omega)
    have hne : xs.map (fun x => (fun _ : Fin 1 => x)) ≠ [] := by
      intro h0
      have := congrArg List.length h0
      simp at this
      rw [this] at hn
      simp at hn
    have hestv : e.view.estimate = .ok (.val (Spec.sampleMean (xs.map fun x => (fun _ : Fin 1 => x)))) := by
      simp [MeanEst.view, i.estimate_eq hne]
    have herr : cc.error e.view = .ok
        (.fin ((if xs.length < 30 then cc.tScores xs.length else cc.z) * (Spec.listStd xs / Real.sqrt xs.length)),
         (Fl.divFin (Spec.listStd xs / Real.sqrt xs.length) (Spec.listMean xs)).abs) := by
      unfold ConfCrit.error
      rw [hns, if_neg hn, hcv]
      simp only [hcov, hestv, bind, Except.bind, dite_true, pure, Except.pure]
      rw [← sampleStd_list, ← sampleMean_list]
      rfl
    have hSE : 0 ≤ Spec.listStd xs / Real.sqrt xs.length := div_nonneg (Real.sqrt_nonneg _) (Real.sqrt_nonneg _)
    have ht : cc.tScores = (fun i => tppf ((0.95 + 1) / 2) (i + 1)) ∧ cc.z = zscore 0.95 := by
      unfold ConfCrit.init at hcc
      rw [if_pos (by norm_num)] at hcc
      have := Except.ok.inj hcc
      rw [← this]
      exact ⟨rfl, rfl⟩
    refine ⟨_, herr, ?_, ?_⟩
    · simp only [Spec.errorHeight, hn, if_false, if_true, ht.1, ht.2]
      norm_num
    · simp only [Spec.errorHeight, hn, if_false, Bool.false_eq_true]
      set SE := Spec.listStd xs / Real.sqrt xs.length
      unfold Fl.divFin
      split_ifs with h1 h2 h3
      · rfl
      · rfl
      · exact absurd (lt_of_le_of_ne hSE (Ne.symm h2)) h3
      · simp only [Fl.abs, abs_div, abs_of_nonneg hSE]

theorem errorLoop_run (tppf : ℝ → ℕ → ℝ) (zscore : ℝ → ℝ) (cc : ConfCrit)
    (hcc : ConfCrit.init tppf zscore 0.95 (some 0) (some 0.01) = .ok cc) (absolute : Bool) (rest : List ℝ) :
    ∀ (xs : List ℝ) (e : MeanEst 1) (acc : List Fl), MeanEstInv true false e (xs.map fun x => (fun _ : Fin 1 => x)) →
      errorLoop cc absolute e acc rest = .ok (acc ++ (List.range rest.length).map fun k =>
        Spec.errorHeight tppf zscore absolute (xs ++ rest.take (k + 1))) := by
  induction rest with
  | nil => intro xs e acc _; simp [errorLoop]
  | cons x rest ih =>
    intro xs e acc i
    obtain ⟨e', he', i', -⟩ := i.step [fun _ => x] (by simp)
    have hu : e.update (.scalar x) = .ok e' := by rw [← he']; rfl
    have i'' : MeanEstInv true false e' ((xs ++ [x]).map fun x => (fun _ : Fin 1 => x)) := by simpa using i'
    obtain ⟨p, hp, hp1, hp2⟩ := error_height tppf zscore cc hcc e' (xs ++ [x]) i''
    simp only [errorLoop, hu, hp, bind, Except.bind]
    rw [ih (xs ++ [x]) e' _ i'']
    congr 1
    rw [List.append_assoc]
    congr 1
    rw [List.length_cons, List.range_succ_eq_map, List.map_cons, List.map_map]
    have h0 : (if absolute = true then p.1 else p.2) = Spec.errorHeight tppf zscore absolute (xs ++ (x :: rest).take (0 + 1)) := by
      cases absolute
      · simpa using hp2
      · simpa using hp1
    rw [h0]
    simp [Function.comp_def]

/-- C88 (partial): without a true value the curve has one point per valid sample; point `k` is at `k + 1` and has the height
prescribed for the first `k + 1` valid samples.  With a threshold a line from 0 to the number of samples is added (IndexError without
samples).  Missing: the variant with a true value (see `C88_counterexample`). -/
theorem C88_bound_partial (tppf : ℝ → ℕ → ℝ) (zscore : ℝ → ℝ) (estimator : PlotArg) (vals : List (Option ℝ))
    (hv : estimator.sampleVals = .ok vals) (threshold : Option ℝ) (absolute : Bool) :
    (vals.filterMap id = [] ∧ threshold ≠ none →
      figureError tppf zscore estimator none threshold absolute = .error .index) ∧
    (¬ (vals.filterMap id = [] ∧ threshold ≠ none) →
      ∃ f, figureError tppf zscore estimator none threshold absolute = .ok f ∧
        f.x = (List.range (vals.filterMap id).length).map (fun k => k + 1) ∧
        f.y = (List.range (vals.filterMap id).length).map (fun k =>
          Spec.errorHeight tppf zscore absolute ((vals.filterMap id).take (k + 1))) ∧
        f.thresholdLine = threshold.map fun t => ([0, (vals.filterMap id).length], [t, t])) := by
  obtain ⟨cc, hcc⟩ : ∃ cc, ConfCrit.init tppf zscore 0.95 (some 0) (some 0.01) = .ok cc := by
    unfold ConfCrit.init
    rw [if_pos (by norm_num)]
    exact ⟨_, rfl⟩
  have hl := errorLoop_run tppf zscore cc hcc absolute (vals.filterMap id) [] (MeanEst.init 1 true false) []
    (MeanEstInv.init (d := 1) true false)
  simp only [List.nil_append] at hl
  simp only [figureError, hv, cumError, hcc, validSamples, hl, bind, Except.bind, pure, Except.pure]
  set xs := vals.filterMap id
  constructor
  · rintro ⟨h0, h1⟩
    obtain ⟨t, rfl⟩ := Option.ne_none_iff_exists'.mp h1
    simp [h0, sampleIndex]
  · intro h
    cases threshold with
    | none => exact ⟨_, rfl, rfl, rfl, rfl⟩
    | some t =>
      have hx : xs ≠ [] := fun h0 => h ⟨h0, by simp⟩
      obtain ⟨m, hm⟩ : ∃ m, xs.length = m + 1 := ⟨xs.length - 1, by have := List.length_pos_iff.mpr hx; omega⟩
      have hlast : (sampleIndex xs.length).getLast? = some xs.length := by
        rw [hm]; simp [sampleIndex, List.range_succ]
      simp only [hlast]
      exact ⟨_, rfl, rfl, rfl, rfl⟩

/-- The hypotheses are met: three samples 1, 2, 3 and a NaN; the third point is the margin of error of the mean 2. -/
example (tppf : ℝ → ℕ → ℝ) (zscore : ℝ → ℝ) :
    ∃ f, figureError tppf zscore (.sequence [some 1, none, some 2, some 3]) none none true = .ok f ∧ f.x = [1, 2, 3] ∧
      f.y = [.pinf, .pinf, .fin (tppf 0.975 4 * (1 / Real.sqrt 3))] := by
  obtain ⟨f, h1, h2, h3, -⟩ := (C88_bound_partial tppf zscore (.sequence [some 1, none, some 2, some 3]) _ rfl none true).2 (by simp)
  refine ⟨f, h1, ?_, ?_⟩
  · rw [h2]; simp [List.range_succ]
  · rw [h3]
    simp [List.range_succ, Spec.errorHeight, Spec.listStd, Spec.listMean]
    norm_num

/-! ## C95: `figure_csm` -/

theorem getD_lt (l : List ℝ) (x : ℝ) {i : ℕ} (h : i < l.length) : l.getD i x = l[i] := by
  simp [List.getD_eq_getElem?_getD, h]

theorem searchLoop_spec (a : ℕ → ℝ) (x : ℝ) (n : ℕ) (hs : ∀ i j, i ≤ j → j < n → a i ≤ a j) (fuel : ℕ) :
    ∀ lo hi, hi ≤ n → lo ≤ hi → hi - lo ≤ fuel → (∀ i < lo, a i < x) → (∀ i, hi ≤ i → i < n → x ≤ a i) →
      (∀ i < searchLoop a x fuel lo hi, a i < x) ∧ (∀ i, searchLoop a x fuel lo hi ≤ i → i < n → x ≤ a i) ∧
        searchLoop a x fuel lo hi ≤ n := by
  induction fuel with
  | zero =>
    intro lo hi h1 h2 h3 h4 h5
    obtain rfl : lo = hi := by omega
    exact ⟨h4, h5, h1⟩
  | succ fuel ih =>
    intro lo hi h1 h2 h3 h4 h5
    unfold searchLoop
    by_cases h : lo < hi
    · rw [if_pos h]
      dsimp only
      have hm : lo + (hi - lo) / 2 < hi := by omega
      generalize hmid : lo + (hi - lo) / 2 = mid at hm
      split_ifs with hx
      · refine ih _ _ h1 (by omega) (by omega) (fun i hi' => ?_) h5
        exact lt_of_le_of_lt (hs i mid (by omega) (by omega)) hx
      · refine ih _ _ (by omega) (by omega) (by omega) h4 (fun i hi1 hi2 => ?_)
        exact (not_lt.mp hx).trans (hs mid i hi1 hi2)
    · rw [if_neg h]
      obtain rfl : lo = hi := by omega
      exact ⟨h4, h5, h1⟩

/-- The empirical cumulative distribution: the fraction of the values that are at most `x`. -/
def Spec.cdf (values : List ℝ) (x : ℝ) : ℝ := open Classical in (values.countP fun v => v ≤ x : ℕ) / values.length

theorem countP_prefix (values : List ℝ) (x : ℝ) (k : ℕ) (h1 : ∀ i (hi : i < values.length), i < k → values[i] ≤ x)
    (h2 : ∀ i (hi : i < values.length), k ≤ i → x < values[i]) (hk : k ≤ values.length) :
    (open Classical in values.countP fun v => v ≤ x) = k := by
  classical
  induction values generalizing k with
  | nil => simp at hk; simp [hk]
  | cons v vs ih =>
    cases k with
    | zero =>
      rw [List.countP_eq_zero]
      intro w hw
      obtain ⟨i, hi, rfl⟩ := List.getElem_of_mem hw
      simpa using h2 i hi (by omega)
    | succ k =>
      have hv : v ≤ x := h1 0 (by simp) (by omega)
      rw [List.countP_cons_of_pos (by simpa using hv)]
      congr 1
      refine ih k (fun i hi hik => h1 (i + 1) (by simpa using hi) (by omega)) (fun i hi hik => h2 (i + 1) (by simpa using hi) (by omega)) (by simpa using hk)

/-- C95: for sorted eigenvalues, the step function of `figure_csm` (the step with index `i` lies between the abscissae `i - 1` and
`i`, Bokeh's default) is the cumulative spectral density: to the left of eigenvalue `i` and to the right of eigenvalue `i - 1` its
height is the fraction of the eigenvalues that are at most `x`; the last step has height 1. -/
theorem C95_csm (values : List ℝ) (hne : values ≠ []) (hs : values.Pairwise (· ≤ ·)) :
    ∃ f, figureCsm values = .ok f ∧ f.x.length = f.y2.length ∧ f.y1.length = f.y2.length ∧
      (∀ i (hi : i < values.length), f.x[i]? = some values[i] ∧
        ∀ x, (∀ j (hj : j < i), values[j] < x) → x < values[i] → f.y2[i]? = some (Spec.cdf values x)) ∧
      (∀ x, (∀ v ∈ values, v ≤ x) → f.x[values.length]? = some 1 ∧ f.y2[values.length]? = some (Spec.cdf values x)) ∧
      (∀ y ∈ f.y1, y = 0) := by
  have hlen : values.length ≠ 0 := by simpa using hne
  have hpos : (0 : ℝ) < values.length := by exact_mod_cast Nat.pos_of_ne_zero hlen
  refine ⟨_, by simp only [figureCsm, hlen, if_false]; rfl, by simp, by simp, ?_, ?_, by simp⟩
  · intro i hi
    refine ⟨by simp [List.getElem?_append_left hi], fun x h1 h2 => ?_⟩
    simp only
    rw [List.getElem?_append_left (by simpa using hi), List.getElem?_map, List.getElem?_eq_getElem hi]
    simp only [Option.map_some, Option.some.injEq]
    have hsort : ∀ a b, a ≤ b → b < values.length → values.getD a 0 ≤ values.getD b 0 := by
      intro a b hab hb
      rw [getD_lt _ _ (by omega), getD_lt _ _ hb]
      rcases Nat.lt_or_ge a b with h | h
      · exact List.pairwise_iff_getElem.mp hs a b (by omega) hb h
      · obtain rfl : a = b := by omega
        exact le_refl _
    obtain ⟨s1, s2, s3⟩ := searchLoop_spec (fun i => values.getD i 0) values[i] values.length hsort values.length 0 values.length
      le_rfl (by omega) (by omega) (fun j hj => by omega) (fun j h1 h2 => by omega)
    have hc := countP_prefix values x (searchsorted values values[i]) (fun j hj hjk => ?_) (fun j hj hjk => ?_) s3
    · unfold Spec.cdf
      rw [hc]
      ring
    · have hlt := s1 j hjk
      simp only [getD_lt _ _ hj] at hlt
      have hji : j < i := by
        by_contra hc
        have := hsort i j (by omega) hj
        rw [getD_lt _ _ hi, getD_lt _ _ hj] at this
        linarith
      exact (h1 j hji).le
    · have := s2 j hjk hj
      simp only [getD_lt _ _ hj] at this
      linarith
  · intro x hx
    refine ⟨by simp, ?_⟩
    have : (open Classical in values.countP fun v => v ≤ x) = values.length := by
      classical
      rw [List.countP_eq_length]
      intro v hv
      simpa using hx v hv
    unfold Spec.cdf
    rw [this, div_self hpos.ne']
    simp

/-- C95: an empty array raises ZeroDivisionError. -/
theorem C95_empty : figureCsm [] = .error .zeroDivision := rfl

/-- The hypotheses are met: eigenvalues 0, 1/2, 1/2; between 0 and 1/2 the height is 1/3. -/
example : ∃ f, figureCsm [0, 1/2, 1/2] = .ok f ∧ f.y2[1]? = some (1/3) := by
  obtain ⟨f, hf, -, -, h, -⟩ := C95_csm [0, 1/2, 1/2] (by simp) (by norm_num)
  refine ⟨f, hf, ?_⟩
  rw [(h 1 (by simp)).2 (1/4) (fun j hj => by
    have : j = 0 := by omega
    subst this
    norm_num) (by norm_num)]
  unfold Spec.cdf
  norm_num [List.countP_cons]

/-! ## C102: `figure_jacobi` -/

/-- The curves the claim asks for: `deg` of them, the `d`-th through 1500 increasing points of `[-1, 1]`, with both ends, on the graph of the Jacobi
polynomial of degree `d`. -/
structure Spec.JacobiCurves (P : ℕ → ℝ → ℝ) (deg : ℕ) (curves : List (List ℝ × List ℝ)) : Prop where
  count : curves.length = deg
  graph : ∀ d (h : d < curves.length), curves[d].2 = curves[d].1.map (P d)
  points : ∀ c ∈ curves, c.1.length = 1500 ∧ c.1.Pairwise (· < ·) ∧ c.1.head? = some (-1) ∧ c.1.getLast? = some 1

theorem linspace_spec (lo hi : ℝ) (h : lo < hi) (m : ℕ) (hm : 0 < m) : (linspace lo hi m).length = m + 1 ∧
    (linspace lo hi m).Pairwise (· < ·) ∧ (linspace lo hi m).head? = some lo ∧ (linspace lo hi m).getLast? = some hi := by
  have hm' : (0 : ℝ) < m := by exact_mod_cast hm
  refine ⟨by simp [linspace], ?_, ?_, ?_⟩
  · unfold linspace
    rw [List.pairwise_map]
    refine List.pairwise_lt_range.imp fun {i j} hij => ?_
    have h1 : (i : ℝ) < j := by exact_mod_cast hij
    have h2 : 0 < (hi - lo) / m := div_pos (by linarith) hm'
    nlinarith
  · simp [linspace, List.range_succ_eq_map]
  · unfold linspace
    rw [List.range_succ, List.map_append, List.map_singleton, List.getLast?_concat, mul_div_cancel₀ _ hm'.ne']
    simp

theorem jacobiDomain_spec : jacobiDomain.length = 1500 ∧ jacobiDomain.Pairwise (· < ·) ∧ jacobiDomain.head? = some (-1) ∧
    jacobiDomain.getLast? = some 1 := by
  unfold jacobiDomain
  generalize hm : 1499 = m
  have h := linspace_spec (-1) 1 (by norm_num) m (by omega)
  rw [← hm] at h ⊢
  exact h

/-- For degrees 3 to 10 `figure_jacobi` draws the first `deg` Jacobi polynomials.  Missing: degrees 1 and 2, see `C102_counterexample`. -/
theorem C102_jacobi_partial (P : ℕ → ℝ → ℝ → ℝ → ℝ) (deg : ℕ) (h3 : 3 ≤ deg) (h10 : deg ≤ 10) (a b : ℝ) :
    ∃ curves, figureJacobi P deg a b = .ok curves ∧ Spec.JacobiCurves (fun d => P d a b) deg curves := by
  refine ⟨_, by unfold figureJacobi; rw [if_neg (by push Not; exact_mod_cast h10), if_neg (by omega)], ?_, ?_, ?_⟩
  · simp
  · intro d h
    simp
  · intro c hc
    have hc1 : c.1 = jacobiDomain := by
      obtain ⟨d, -, hd⟩ := List.mem_map.1 hc
      rw [← hd]
    rw [hc1]
    exact jacobiDomain_spec

/-- More than ten polynomials are rejected. -/
theorem C102_rejects (P : ℕ → ℝ → ℝ → ℝ → ℝ) (deg : ℤ) (h : 10 < deg) (a b : ℝ) : figureJacobi P deg a b = .error .assertion := by
  unfold figureJacobi
  rw [if_pos (by omega)]

/-- The claim is false of the code for degrees 1 and 2 (and below), which the assertion admits: there is no such palette. -/
theorem C102_counterexample (P : ℕ → ℝ → ℝ → ℝ → ℝ) (deg : ℤ) (h : deg ≤ 2) (a b : ℝ) : figureJacobi P deg a b = .error .key := by
  unfold figureJacobi
  rw [if_neg (by omega), if_pos (by omega)]

end Primate
