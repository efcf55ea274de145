import Verif.Lemmas.Estimators
import Verif.Spec.Criteria

/-! # Properties C07-C14: estimators and stopping criteria -/

namespace Primate

variable {d : ℕ}

/-! ## C07 -/

/-- **C07**.  After any history of non-empty batches: the number of observations, the
estimate, the change caused by the last update, and the record. -/
theorem C07_bookkeeping (covariance record : Bool) (Xs : List (List (Fin d → ℝ)))
    (X : List (Fin d → ℝ)) (hne : ∀ Y ∈ Xs, Y ≠ []) (hX : X ≠ []) :
    ∃ e, (MeanEst.init d covariance record).updates
        ((Xs ++ [X]).map fun X => .mat ⟨d, X⟩) = .ok e ∧
      e.view.len = (Xs ++ [X]).flatten.length ∧
      e.estimate = .val (Spec.sampleMean (Xs ++ [X]).flatten) ∧
      e.delta = .val (fun i => Spec.sampleMean (Xs ++ [X]).flatten i -
        (if Xs.flatten = [] then 0 else Spec.sampleMean Xs.flatten i)) ∧
      e.values = if record then some (Xs ++ [X]).flatten else none := by
  obtain ⟨e, h, i, hd⟩ := MeanEst.history covariance record Xs X hne hX
  refine ⟨e, h, i.n, i.estimate_eq ?_, hd, i.values⟩
  simp [hX]

/-- **C07**: before the first update. -/
theorem C07_initial (covariance record : Bool) :
    (MeanEst.init d covariance record).view.len = 0 ∧
    (MeanEst.init d covariance record).estimate = .nan ∧
    (MeanEst.init d covariance record).delta = .inf ∧
    (MeanEst.init d covariance record).values = (if record then some [] else none) := by
  refine ⟨rfl, (MeanEstInv.init covariance record).estimate_nil, rfl, ?_⟩
  cases record <;> rfl

/-- **C07**: an update fails exactly when the accumulator's does, i.e. on a wrong width
(AssertionError) or on an empty batch supplied to a fresh estimator (ZeroDivisionError). -/
theorem C07_errors (e : MeanEst d) (x : ArrayLike ℝ) (err : PyErr) :
    e.update x = .error err ↔ e.acc.update x = .error err := by
  have h : e.acc.update (.mat x.promote) = e.acc.update x := by
    unfold Acc.update Covariance.update Mean.update
    cases e.acc <;> rfl
  unfold MeanEst.update
  simp only [h]
  cases e.acc.update x <;> simp

example : ∃ e, (MeanEst.init 1 true true).updates [.mat ⟨1, [![2], ![4]]⟩, .mat ⟨1, [![9]]⟩] = .ok e ∧
    e.estimate = .val ![5] ∧ e.delta = .val ![2] ∧ e.values = some [![2], ![4], ![9]] := by
  obtain ⟨e, h, -, h2, h3, h4⟩ := C07_bookkeeping (d := 1) true true [[![2], ![4]]] [![9]]
    (by simp) (by simp)
  refine ⟨e, h, ?_, ?_, h4⟩
  · rw [h2]; congr 1; funext i; fin_cases i; norm_num [Spec.sampleMean]
  · rw [h3]; congr 1; funext i; fin_cases i; rw [if_neg (by simp)]; norm_num [Spec.sampleMean]

/-! ## C08 -/

/-- **C08**: values of composites when both operands return. -/
theorem C08_values (est : EstView d) (a b : Crit) (x y : Bool)
    (ha : a.eval est = .ok x) (hb : b.eval est = .ok y) :
    (Crit.or a b).eval est = .ok (x || y) ∧ (Crit.and a b).eval est = .ok (x && y) ∧
    (Crit.not a).eval est = .ok (!x) := by
  simp [Crit.eval, ha, hb, bind, Except.bind, pure, Except.pure]

/-- **C08**: a composite raises what its first raising operand raises; both operands are
always consulted (no short circuit). -/
theorem C08_raises (est : EstView d) (a b : Crit) (err : PyErr) :
    (a.eval est = .error err →
      (Crit.or a b).eval est = .error err ∧ (Crit.and a b).eval est = .error err ∧
      (Crit.not a).eval est = .error err) ∧
    (∀ x, a.eval est = .ok x → b.eval est = .error err →
      (Crit.or a b).eval est = .error err ∧ (Crit.and a b).eval est = .error err) := by
  constructor
  · intro h; simp [Crit.eval, h, bind, Except.bind]
  · intro x h h2; simp [Crit.eval, h, h2, bind, Except.bind]

/-- **C08**: the laws of Boolean algebra, including in the presence of exceptions. -/
theorem C08_laws (est : EstView d) (a b c : Crit) :
    (Crit.not (.or a b)).eval est = (Crit.and (.not a) (.not b)).eval est ∧
    (Crit.not (.and a b)).eval est = (Crit.or (.not a) (.not b)).eval est ∧
    (Crit.not (.not a)).eval est = a.eval est ∧
    (Crit.and a (.or b c)).eval est = (Crit.or (.and a b) (.and a c)).eval est ∧
    (Crit.or a (.and b c)).eval est = (Crit.and (.or a b) (.or a c)).eval est ∧
    (Crit.or (.or a b) c).eval est = (Crit.or a (.or b c)).eval est ∧
    (Crit.and (.and a b) c).eval est = (Crit.and a (.and b c)).eval est := by
  simp only [Crit.eval, bind, Except.bind, pure, Except.pure]
  rcases a.eval est with ea | x <;> rcases b.eval est with eb | y <;>
    rcases c.eval est with ec | z <;> (simp; try cases x <;> simp)

example (est : EstView d) : (Crit.or (.count 0) (.not (.count 0))).eval est = .ok true := by
  simp [Crit.eval, bind, Except.bind, pure, Except.pure]

/-! ## C09 -/

/-- **C09**: `CountCriterion(c)` holds exactly when at least `c` observations have been
supplied, for every history of a `MeanEstimator`. -/
theorem C09_count_exact (covariance record : Bool) (c : ℤ) (Xs : List (List (Fin d → ℝ)))
    (hne : ∀ Y ∈ Xs, Y ≠ []) :
    ∃ e, (MeanEst.init d covariance record).updates (Xs.map fun X => .mat ⟨d, X⟩) = .ok e ∧
      ∃ b, (Crit.count c).eval e.view = .ok b ∧ (b = true ↔ c ≤ (Xs.flatten.length : ℤ)) := by
  obtain ⟨e, h, i⟩ := (MeanEstInv.init (d := d) covariance record).steps Xs hne
  refine ⟨e, h, _, rfl, ?_⟩
  simp [MeanEst.view, i.n]

theorem eval_count (c : ℤ) (est : EstView d) :
    (Crit.count c).eval est = .ok true ↔ c ≤ (est.len : ℤ) := by
  simp [Crit.eval]

/-- **C09**: once it holds it holds after any further successful update. -/
theorem C09_count_monotone (c : ℤ) (e e' : MeanEst d) (x : ArrayLike ℝ)
    (hu : e.update x = .ok e') (h : (Crit.count c).eval e.view = .ok true) :
    (Crit.count c).eval e'.view = .ok true := by
  have hn : e.nSamples ≤ e'.nSamples := by
    unfold MeanEst.update at hu
    dsimp only at hu
    split at hu
    · simp at hu
    · simp only [Except.ok.injEq] at hu
      subst hu
      simp
  have h' : c ≤ (e.nSamples : ℤ) := (eval_count _ _).mp h
  exact (eval_count _ _).mpr (show c ≤ (e'.nSamples : ℤ) by omega)

/-! ## C10 -/

/-- The norm selected by `ord`. -/
noncomputable def specNorm (ord : NormOrd) (x : Fin d → ℝ) : ℝ :=
  match ord with
  | .none => Spec.norm2 x
  | .two => Spec.norm2 x
  | .one => Spec.norm1 x
  | .inf => Spec.normInf x
  | .str => 0

theorem vecNorm_eq (ord : NormOrd) (hs : ord ≠ .str) (hd : 0 < d) (x : Fin d → ℝ) :
    vecNorm ord x = .ok (specNorm ord x) := by
  have h2 : Real.sqrt (∑ i, x i ^ 2) = Spec.norm2 x := by
    simp [Spec.norm2, EuclideanSpace.norm_eq]
  cases ord with
  | none => simp [vecNorm, specNorm, h2]
  | two => simp [vecNorm, specNorm, h2]
  | one => rfl
  | inf =>
    have hne : (Finset.univ : Finset (Fin d)).Nonempty := ⟨⟨0, hd⟩, Finset.mem_univ _⟩
    simp only [vecNorm, hne, dite_true, specNorm, Spec.normInf, Except.ok.injEq]
    apply le_antisymm
    · exact Finset.sup'_le _ _ fun i _ => by
        simpa using norm_le_pi_norm x i
    · have : Nonempty (Fin d) := ⟨⟨0, hd⟩⟩
      rw [pi_norm_le_iff_of_nonempty]
      intro i
      exact Finset.le_sup' (fun i => |x i|) (Finset.mem_univ i)
  | str => exact absurd rfl hs

theorem specNorm_nonneg (ord : NormOrd) (x : Fin d → ℝ) : 0 ≤ specNorm ord x := by
  cases ord with
  | none => exact norm_nonneg _
  | two => exact norm_nonneg _
  | one => exact Finset.sum_nonneg (s := Finset.univ) fun i _ => abs_nonneg (x i)
  | inf => exact norm_nonneg _
  | str => exact le_refl (0 : ℝ)

theorem toleranceCall_val {rtol atol : ℝ} {ord : NormOrd} (hs : ord ≠ .str) (hd : 0 < d)
    {est : EstView d} {mu delta : Fin d → ℝ} (h1 : est.estimate = .ok (.val mu))
    (h2 : est.delta = .arr (.val delta)) :
    ∃ b, toleranceCall rtol atol ord est = .ok b ∧
      (b = true ↔ specNorm ord delta < atol ∨ specNorm ord delta < rtol * specNorm ord mu) := by
  unfold toleranceCall
  simp only [h1, h2, deltaNorm, arrNorm, vecNorm_eq ord hs hd, Except.map, bind, Except.bind,
    Fl.lt, Fl.scale, pure, Except.pure]
  by_cases h : specNorm ord delta < atol
  · exact ⟨true, by simp [h], by simp [h]⟩
  · exact ⟨truth (specNorm ord delta < rtol * specNorm ord mu), by simp [h], by simp [h]⟩

/-- **C10**: the decision after any history, for every supported norm. -/
theorem C10_decision (covariance record : Bool) (rtol atol : ℝ) (ord : NormOrd)
    (hs : ord ≠ .str) (hd : 0 < d) (Xs : List (List (Fin d → ℝ))) (X : List (Fin d → ℝ))
    (hne : ∀ Y ∈ Xs, Y ≠ []) (hX : X ≠ []) :
    ∃ e b, (MeanEst.init d covariance record).updates
        ((Xs ++ [X]).map fun X => .mat ⟨d, X⟩) = .ok e ∧
      (Crit.tol rtol atol ord).eval e.view = .ok b ∧
      (b = true ↔
        let mean := Spec.sampleMean (Xs ++ [X]).flatten
        let old := if Xs.flatten = [] then 0 else Spec.sampleMean Xs.flatten
        specNorm ord (mean - old) < atol ∨
          specNorm ord (mean - old) < rtol * specNorm ord mean) := by
  obtain ⟨e, h, i, hdel⟩ := MeanEst.history covariance record Xs X hne hX
  have hest := i.estimate_eq (by simp [hX])
  have hdel' : e.delta = .val (Spec.sampleMean (Xs ++ [X]).flatten -
      (if Xs.flatten = [] then 0 else Spec.sampleMean Xs.flatten)) := by
    rw [hdel]; congr 1; funext k; split_ifs <;> rfl
  have key := toleranceCall_val (rtol := rtol) (atol := atol) hs hd (est := e.view)
    (mu := Spec.sampleMean (Xs ++ [X]).flatten) (by simp [MeanEst.view, hest])
    (congrArg DeltaVal.arr hdel')
  exact ⟨e, _, h, key.choose_spec.1, key.choose_spec.2⟩

/-- **C10**: false before the first observation. -/
theorem C10_initial (covariance record : Bool) (rtol atol : ℝ) (ord : NormOrd)
    (hs : ord ≠ .str) (hd : 0 < d) :
    (Crit.tol rtol atol ord).eval (MeanEst.init d covariance record).view = .ok false := by
  have hest := (MeanEstInv.init (d := d) covariance record).estimate_nil
  simp only [Crit.eval, toleranceCall, MeanEst.view, hest, deltaNorm, arrNorm, bind, Except.bind,
    vecNorm_eq ord hs hd, Except.map]
  simp [MeanEst.init, Fl.lt, pure, Except.pure]

/-- **C10**: with non-positive tolerances it never holds. -/
theorem C10_never (covariance record : Bool) (rtol atol : ℝ) (ord : NormOrd)
    (hs : ord ≠ .str) (hd : 0 < d) (hr : rtol ≤ 0) (ha : atol ≤ 0)
    (Xs : List (List (Fin d → ℝ))) (hne : ∀ Y ∈ Xs, Y ≠ []) :
    ∃ e, (MeanEst.init d covariance record).updates (Xs.map fun X => .mat ⟨d, X⟩) = .ok e ∧
      (Crit.tol rtol atol ord).eval e.view = .ok false := by
  rcases List.eq_nil_or_concat Xs with rfl | ⟨Ys, X, rfl⟩
  · exact ⟨_, rfl, C10_initial covariance record rtol atol ord hs hd⟩
  · obtain ⟨e, b, h, hb, hiff⟩ := C10_decision covariance record rtol atol ord hs hd Ys X
      (fun Y hY => hne Y (by simp [hY])) (hne X (by simp))
    refine ⟨e, by simpa using h, ?_⟩
    cases b with
    | false => exact hb
    | true =>
      exfalso
      have hiff := hiff.mp rfl
      dsimp only at hiff
      have h1 := specNorm_nonneg ord (Spec.sampleMean (Ys ++ [X]).flatten -
        (if Ys.flatten = [] then 0 else Spec.sampleMean Ys.flatten))
      have h2 := specNorm_nonneg ord (Spec.sampleMean (Ys ++ [X]).flatten)
      rcases hiff with h3 | h3
      · linarith
      · nlinarith

/-- **C10**: a single update is never accepted when `rtol <= 1` and `atol <= 0`. -/
theorem C10_first_update (covariance record : Bool) (rtol atol : ℝ) (ord : NormOrd)
    (hs : ord ≠ .str) (hd : 0 < d) (hr : rtol ≤ 1) (ha : atol ≤ 0)
    (X : List (Fin d → ℝ)) (hX : X ≠ []) :
    ∃ e, (MeanEst.init d covariance record).updates [.mat ⟨d, X⟩] = .ok e ∧
      (Crit.tol rtol atol ord).eval e.view = .ok false := by
  obtain ⟨e, b, h, hb, hiff⟩ := C10_decision covariance record rtol atol ord hs hd [] X
    (by simp) hX
  refine ⟨e, by simpa using h, ?_⟩
  cases b with
  | false => exact hb
  | true =>
    exfalso
    have hiff := hiff.mp rfl
    simp only [List.nil_append, List.flatten_nil, if_true, sub_zero] at hiff
    have h2 := specNorm_nonneg ord (Spec.sampleMean ([X] : List (List (Fin d → ℝ))).flatten)
    rcases hiff with h3 | h3
    · linarith
    · nlinarith

/-- **C10**: a matrix norm name is rejected with ValueError. -/
theorem C10_string_ord (rtol atol : ℝ) (e : MeanEst d) :
    (Crit.tol rtol atol .str).eval e.view = .error .value := by
  simp only [Crit.eval, toleranceCall, MeanEst.view, bind, Except.bind]
  cases e.delta <;> simp [deltaNorm, arrNorm, vecNorm, Except.map]

/-- Non-vacuity: the means 2, then 2.5: the change 0.5 is below `rtol * 2.5` for `rtol = 1/2`. -/
example : ∃ e, (MeanEst.init 1 false false).updates [.mat ⟨1, [![2]]⟩, .mat ⟨1, [![3]]⟩] = .ok e ∧
    (Crit.tol (1/2) 0 .two).eval e.view = .ok true := by
  obtain ⟨e, b, h, hb, hiff⟩ := C10_decision (d := 1) false false (1/2) 0 .two (by simp)
    (by simp) [[![2]]] [![3]] (by simp) (by simp)
  refine ⟨e, h, ?_⟩
  rw [hb, hiff.mpr]
  right
  have h1 : Spec.sampleMean ([[![2]]] ++ [[![3]]] : List (List (Fin 1 → ℝ))).flatten 0 = 5 / 2 := by
    norm_num [Spec.sampleMean]
  have h2 : Spec.sampleMean ([[![2]]] : List (List (Fin 1 → ℝ))).flatten 0 = 2 := by
    norm_num [Spec.sampleMean]
  rw [if_neg (by simp)]
  simp only [specNorm, Spec.norm2, EuclideanSpace.norm_eq, Fin.sum_univ_one, Pi.sub_apply, h1, h2,
    Real.sqrt_sq_eq_abs, Real.norm_eq_abs, abs_abs]
  norm_num

/-! ## C11 and C12 -/

/-- **C11**: with fewer than three observations the criterion is false. -/
theorem C11_few (c : ConfCrit) (covariance record : Bool) (Xs : List (List (Fin d → ℝ)))
    (hne : ∀ Y ∈ Xs, Y ≠ []) (hn : Xs.flatten.length < 3) :
    ∃ e, (MeanEst.init d covariance record).updates (Xs.map fun X => .mat ⟨d, X⟩) = .ok e ∧
      (Crit.conf c).eval e.view = .ok false := by
  obtain ⟨e, h, i⟩ := (MeanEstInv.init (d := d) covariance record).steps Xs hne
  refine ⟨e, h, ?_⟩
  have : e.view.nSamples < 3 := by simpa [MeanEst.view, i.n] using hn
  have herr : c.error e.view = .ok (.pinf, .pinf) := by simp [ConfCrit.error, this]
  have hm : e.view.isMean = true := rfl
  simp [Crit.eval, ConfCrit.call, herr, hm, bind, Except.bind, Fl.le, pure, Except.pure]

/-- **C11**: the decision on scalar observations. -/
theorem C11_decision (c : ConfCrit) (record : Bool) (Xs : List (List (Fin 1 → ℝ)))
    (hne : ∀ Y ∈ Xs, Y ≠ []) (hn : 3 ≤ Xs.flatten.length) :
    ∃ e b, (MeanEst.init 1 true record).updates (Xs.map fun X => .mat ⟨1, X⟩) = .ok e ∧
      (Crit.conf c).eval e.view = .ok b ∧
      (b = true ↔
        let n := Xs.flatten.length
        let mean := Spec.sampleMean Xs.flatten 0
        let SE := Spec.sampleStd Xs.flatten / Real.sqrt n
        (if n < 30 then c.tScores n else c.z) * SE ≤ c.atol ∨
          (mean ≠ 0 ∧ SE / |mean| ≤ c.rtol)) := by
  obtain ⟨e, h, i⟩ := (MeanEstInv.init (d := 1) true record).steps Xs hne
  simp only [List.nil_append] at i
  have hx : Xs.flatten ≠ [] := by intro h0; rw [h0] at hn; simp at hn
  obtain ⟨cv, hcv, ic⟩ := i.cov_view
  have hcov := ic.cov_eq 1 (by omega)
  have hest := i.estimate_eq hx
  have hns : e.view.nSamples = Xs.flatten.length := i.n
  have hestv : e.view.estimate = .ok (.val (Spec.sampleMean Xs.flatten)) := by
    simp [MeanEst.view, hest]
  have herr : c.error e.view = .ok
      (.fin ((if Xs.flatten.length < 30 then c.tScores Xs.flatten.length else c.z) *
        (Spec.sampleStd Xs.flatten / Real.sqrt Xs.flatten.length)),
       (Fl.divFin (Spec.sampleStd Xs.flatten / Real.sqrt Xs.flatten.length)
        (Spec.sampleMean Xs.flatten 0)).abs) := by
    unfold ConfCrit.error
    rw [hns, if_neg (by omega), hcv]
    simp only [hcov, hestv, bind, Except.bind, dite_true, pure, Except.pure]
    rfl
  set SE := Spec.sampleStd Xs.flatten / Real.sqrt Xs.flatten.length
  set score := if Xs.flatten.length < 30 then c.tScores Xs.flatten.length else c.z
  have hSE : 0 ≤ SE := div_nonneg (Real.sqrt_nonneg _) (Real.sqrt_nonneg _)
  have hcall : (Crit.conf c).eval e.view =
      .ok (truth (score * SE ≤ c.atol ∨
        ((Fl.divFin SE (Spec.sampleMean Xs.flatten 0)).abs).le (.fin c.rtol))) := by
    simp only [Crit.eval, ConfCrit.call, herr, bind, Except.bind, pure, Except.pure]
    rfl
  refine ⟨e, _, h, hcall, ?_⟩
  rw [truth_eq_true]
  dsimp only
  refine or_congr Iff.rfl ?_
  by_cases hm : Spec.sampleMean Xs.flatten 0 = 0
  · simp only [hm, Fl.divFin, if_true, ne_eq, not_true, false_and, iff_false]
    split_ifs <;> simp [Fl.abs, Fl.le]
  · simp only [Fl.divFin, hm, if_false, Fl.abs, Fl.le, abs_div, abs_of_nonneg hSE, ne_eq,
      not_false_eq_true, true_and]
    rfl

/-- **C11**: on a vector-valued estimator (`dim != 1`) with three or more observations the
criterion raises ValueError, and without covariance tracking AttributeError. -/
theorem C11_unsupported (c : ConfCrit) (e : MeanEst d) (hn : 3 ≤ e.nSamples) :
    (e.acc.isCov = false → (Crit.conf c).eval e.view = .error .attribute) ∧
    (e.acc.isCov = true → 2 ≤ d → (Crit.conf c).eval e.view = .error .value) := by
  have hm : e.view.isMean = true := rfl
  have hns : ¬ e.view.nSamples < 3 := by simpa [MeanEst.view] using hn
  have key : ∀ err, c.error e.view = .error err → (Crit.conf c).eval e.view = .error err := by
    intro err h
    simp [Crit.eval, ConfCrit.call, h, hm, bind, Except.bind]
  constructor
  · intro h
    apply key
    have : e.view.cov = none := by
      unfold MeanEst.view; revert h; cases e.acc <;> simp [Acc.isCov]
    simp [ConfCrit.error, hns, this]
  · intro h hd
    apply key
    have : ∃ cv, e.view.cov = some cv := by
      unfold MeanEst.view; revert h; cases e.acc <;> simp [Acc.isCov]
    obtain ⟨cv, hcv⟩ := this
    have hc : ∃ C, cv.covariance 1 = .ok C := by
      unfold Covariance.covariance
      split_ifs <;> first | omega | exact ⟨_, rfl⟩
    obtain ⟨C, hC⟩ := hc
    have h1 : ¬ d = 1 := by omega
    have hest : e.view.estimate = .ok e.estimate := rfl
    unfold ConfCrit.error
    rw [if_neg hns, hcv]
    simp [hC, hest, h1, bind, Except.bind]

/-- **C11**: the constructor rejects a confidence outside (0,1) and replaces `None`
tolerances by zero. -/
theorem C11_constructor (tppf : ℝ → ℕ → ℝ) (zscore : ℝ → ℝ) (confidence : ℝ)
    (atol rtol : Option ℝ) :
    (¬ (0 < confidence ∧ confidence < 1) →
      ConfCrit.init tppf zscore confidence atol rtol = .error .assertion) ∧
    (0 < confidence ∧ confidence < 1 → ∃ c, ConfCrit.init tppf zscore confidence atol rtol = .ok c ∧
      c.atol = atol.getD 0 ∧ c.rtol = rtol.getD 0 ∧ c.z = zscore confidence ∧
      c.confidence = confidence) := by
  constructor
  · intro h; simp [ConfCrit.init, h]
  · intro h
    unfold ConfCrit.init
    rw [if_pos h]
    exact ⟨_, rfl, rfl, rfl, rfl, rfl⟩

/-- The decision that a margin of error based on the Student-t quantile with `n - 1` degrees
of freedom (below 30 observations; the normal quantile from there on) would give. -/
def Spec.confStop (tppf : ℝ → ℕ → ℝ) (zscore : ℝ → ℝ) (confidence atol rtol : ℝ)
    (xs : List (Fin 1 → ℝ)) : Prop :=
  let n := xs.length
  let SE := Spec.sampleStd xs / Real.sqrt n
  (if n < 30 then tppf ((1 + confidence) / 2) (n - 1) else zscore confidence) * SE ≤ atol ∨
    (Spec.sampleMean xs 0 ≠ 0 ∧ SE / |Spec.sampleMean xs 0| ≤ rtol)

/-- **C12 is false of the code.**  For every quantile function that is non-negative and
strictly smaller at 4 than at 2 degrees of freedom (as Student's is) there are a tolerance
and three observations on which the criterion stops although the margin with `n - 1 = 2`
degrees of freedom exceeds the tolerance. -/
theorem C12_counterexample (tppf : ℝ → ℕ → ℝ) (zscore : ℝ → ℝ) (confidence : ℝ)
    (hc : 0 < confidence ∧ confidence < 1)
    (hq : tppf ((1 + confidence) / 2) 4 < tppf ((1 + confidence) / 2) 2) :
    ∃ atol c e, ConfCrit.init tppf zscore confidence (some atol) (some 0) = .ok c ∧
      (MeanEst.init 1 true false).updates
        ([[![-1]], [![0]], [![1]]].map fun X => .mat ⟨1, X⟩) = .ok e ∧
      (Crit.conf c).eval e.view = .ok true ∧
      ¬ Spec.confStop tppf zscore confidence atol 0 [![-1], ![0], ![1]] := by
  set q4 := tppf ((1 + confidence) / 2) 4
  set xs : List (Fin 1 → ℝ) := [![-1], ![0], ![1]]
  set SE := Spec.sampleStd xs / Real.sqrt xs.length with hSE
  have hmean : Spec.sampleMean xs 0 = 0 := by norm_num [xs, Spec.sampleMean]
  have hcov : Spec.sampleCov 1 xs 0 0 = 1 := by
    simp only [Spec.sampleCov, hmean]; norm_num [xs]
  have hpos : 0 < SE := by
    rw [hSE, Spec.sampleStd, hcov]
    have : (0:ℝ) < Real.sqrt xs.length := Real.sqrt_pos.mpr (by norm_num [xs])
    simpa using this
  obtain ⟨c, h1, ha, hr, -, -⟩ := (C11_constructor tppf zscore confidence (some (q4 * SE)) (some 0)).2 hc
  obtain ⟨e, b, h2, hb, hiff⟩ := C11_decision c false [[![-1]], [![0]], [![1]]] (by simp) (by simp)
  refine ⟨q4 * SE, c, e, h1, h2, ?_, ?_⟩
  · rw [hb, hiff.mpr]
    left
    have ht : c.tScores 3 = q4 := by
      simp only [ConfCrit.init, hc, and_self, if_true, Except.ok.injEq] at h1
      rw [← h1]
      simp only [q4, add_comm confidence 1]
    show (if (3:ℕ) < 30 then c.tScores 3 else c.z) * SE ≤ c.atol
    rw [if_pos (by norm_num), ht, ha]
    simp
  · rintro (h | ⟨h, -⟩)
    · have h' : tppf ((1 + confidence) / 2) 2 * SE ≤ q4 * SE := h
      have := (mul_le_mul_iff_left₀ hpos).mp h'
      linarith
    · exact h hmean

/-- **C12**, what holds instead: the score used with `3 <= n < 30` observations is the
quantile with `n + 1` degrees of freedom, and with `n >= 30` the normal one.  Missing: the
claim with `n - 1`, which is false (`C12_counterexample`). -/
theorem C12_degrees_partial (tppf : ℝ → ℕ → ℝ) (zscore : ℝ → ℝ) (confidence : ℝ)
    (hc : 0 < confidence ∧ confidence < 1) (atol rtol : ℝ) (record : Bool)
    (Xs : List (List (Fin 1 → ℝ))) (hne : ∀ Y ∈ Xs, Y ≠ []) (hn : 3 ≤ Xs.flatten.length) :
    ∃ c e b, ConfCrit.init tppf zscore confidence (some atol) (some rtol) = .ok c ∧
      (MeanEst.init 1 true record).updates (Xs.map fun X => .mat ⟨1, X⟩) = .ok e ∧
      (Crit.conf c).eval e.view = .ok b ∧
      (b = true ↔ Spec.confStop (fun p df => tppf p (df + 2)) zscore confidence atol rtol
        Xs.flatten) := by
  obtain ⟨c, h1, ha, hr, hz, -⟩ := (C11_constructor tppf zscore confidence (some atol) (some rtol)).2 hc
  obtain ⟨e, b, h2, hb, hiff⟩ := C11_decision c record Xs hne hn
  refine ⟨c, e, b, h1, h2, hb, ?_⟩
  have ht : ∀ n, c.tScores n = tppf ((1 + confidence) / 2) (n + 1) := by
    intro n
    simp only [ConfCrit.init, hc, and_self, if_true, Except.ok.injEq] at h1
    rw [← h1]
    simp only [add_comm confidence 1]
  rw [hiff]
  simp only [Spec.confStop, ht, hz, ha, hr, Option.getD_some]
  rw [show Xs.flatten.length - 1 + 2 = Xs.flatten.length + 1 by omega]

/-- **C12**, consequence: when the quantile decreases with the degrees of freedom (as
Student's does) the code stops whenever the criterion with `n - 1` degrees of freedom
would, so it never takes more samples, and its margin is at most the intended one. -/
theorem C12_never_later_partial (tppf : ℝ → ℕ → ℝ) (zscore : ℝ → ℝ) (confidence : ℝ)
    (hc : 0 < confidence ∧ confidence < 1) (atol rtol : ℝ) (record : Bool)
    (hq : ∀ p a b, a ≤ b → tppf p b ≤ tppf p a)
    (Xs : List (List (Fin 1 → ℝ))) (hne : ∀ Y ∈ Xs, Y ≠ []) (hn : 3 ≤ Xs.flatten.length)
    (hstop : Spec.confStop tppf zscore confidence atol rtol Xs.flatten) :
    ∃ c e, ConfCrit.init tppf zscore confidence (some atol) (some rtol) = .ok c ∧
      (MeanEst.init 1 true record).updates (Xs.map fun X => .mat ⟨1, X⟩) = .ok e ∧
      (Crit.conf c).eval e.view = .ok true := by
  obtain ⟨c, e, b, h1, h2, h3, h4⟩ :=
    C12_degrees_partial tppf zscore confidence hc atol rtol record Xs hne hn
  refine ⟨c, e, h1, h2, ?_⟩
  rw [h3, h4.mpr]
  have hSE : 0 ≤ Spec.sampleStd Xs.flatten / Real.sqrt Xs.flatten.length :=
    div_nonneg (Real.sqrt_nonneg _) (Real.sqrt_nonneg _)
  rcases hstop with h | h
  · left
    refine le_trans (mul_le_mul_of_nonneg_right ?_ hSE) h
    split_ifs
    · exact hq _ _ _ (by omega)
    · exact le_refl _
  · right; exact h

/-- Non-vacuity: a strictly decreasing positive quantile function exists. -/
example : ∃ tppf : ℝ → ℕ → ℝ, (∀ p a b, a ≤ b → tppf p b ≤ tppf p a) ∧
    ∀ p, tppf p 4 < tppf p 2 := by
  refine ⟨fun _ n => 1 / ((n : ℝ) + 1), fun p a b h => ?_, fun p => by norm_num⟩
  apply one_div_le_one_div_of_le (by positivity)
  have : (a : ℝ) ≤ b := by exact_mod_cast h
  linarith

/-! ## C13 and C14 -/

theorem kneeY_eq (c : ℕ → ℝ) (k : ℕ) : kneeY c k = Spec.variation c k := by
  unfold kneeY Spec.variation
  generalize k + 1 = m
  induction m with
  | zero => simp
  | succ m ih => rw [List.range_succ, Finset.sum_range_succ, List.map_append, List.sum_append, ih]; simp

theorem variation_mono (c : ℕ → ℝ) {a b : ℕ} (h : a ≤ b) :
    Spec.variation c a ≤ Spec.variation c b := by
  unfold Spec.variation
  apply Finset.sum_le_sum_of_subset_of_nonneg
  · intro x hx; simp only [Finset.mem_range] at hx ⊢; omega
  · intro i _ _; exact abs_nonneg _

/-- The decision of the code for any curve with at least three points. -/
theorem kneeDecide_iff (S : ℝ) (c : ℕ → ℝ) (N : ℕ) (hN : 3 ≤ N) :
    ∃ b, kneeDecide S c N = .ok b ∧ (b = true ↔ Spec.knee S c N) := by
  have hL : 0 < N - 1 := by omega
  have hy : kneeY c = Spec.variation c := funext (kneeY_eq c)
  have hmax : arrMax (Spec.variation c) (N - 1) hL = Spec.variation c (N - 2) := by
    apply le_antisymm
    · exact Finset.sup'_le _ _ fun k hk => variation_mono c (by simp at hk; omega)
    · exact Finset.le_sup' _ (by simp; omega)
  have hmin : arrMin (Spec.variation c) (N - 1) hL = Spec.variation c 0 := by
    apply le_antisymm
    · exact Finset.inf'_le _ (by simp; omega)
    · exact Finset.le_inf' _ _ fun k _ => variation_mono c (Nat.zero_le k)
  have hcast : ((N - 1 : ℕ) : ℝ) - 1 = (N : ℝ) - 2 := by
    rw [Nat.cast_sub (by omega)]; push_cast; ring
  have hpos : (0 : ℝ) < (N : ℝ) - 2 := by
    have : (3 : ℝ) ≤ N := by exact_mod_cast hN
    linarith
  have hmono := variation_mono c (Nat.zero_le (N - 2))
  unfold kneeDecide
  simp only [hy, hL, dite_true, hmax, hmin, hcast]
  by_cases h0 : Spec.variation c (N - 2) - Spec.variation c 0 = 0
  · refine ⟨false, by simp [h0], ?_⟩
    simp only [Bool.false_eq_true, false_iff]
    rintro ⟨-, h, -⟩
    linarith
  · have hlt : 0 < Spec.variation c (N - 2) - Spec.variation c 0 :=
      lt_of_le_of_ne (by linarith) (Ne.symm h0)
    rw [if_neg h0]
    refine ⟨_, rfl, ?_⟩
    rw [truth_eq_true]
    set dc : ℕ → ℝ := fun k => (Spec.variation c k - Spec.variation c 0) /
      (Spec.variation c (N - 2) - Spec.variation c 0) - (k : ℝ) / ((N : ℝ) - 2) with hdc
    have hlast : dc (N - 1 - 1) = 0 := by
      have : ((N - 1 - 1 : ℕ) : ℝ) = (N : ℝ) - 2 := by
        rw [show N - 1 - 1 = N - 2 by omega, Nat.cast_sub (by omega)]; norm_num
      simp only [hdc, this]
      rw [show N - 1 - 1 = N - 2 by omega, div_self hlt.ne', div_self hpos.ne']; ring
    have hM : ∀ t, t < arrMax dc (N - 1) hL ↔ ∃ k, k < N - 1 ∧ t < dc k := by
      intro t
      rw [arrMax, Finset.lt_sup'_iff]
      simp
    show (arrMax dc (N - 1) hL > arrMax dc (N - 1) hL - S / ((N : ℝ) - 2) ∧
      dc (N - 1 - 1) < arrMax dc (N - 1) hL - S / ((N : ℝ) - 2)) ↔ _
    rw [hlast]
    unfold Spec.knee
    constructor
    · rintro ⟨h1, h2⟩
      have hS : 0 < S / ((N : ℝ) - 2) := by linarith
      refine ⟨?_, by linarith, (hM _).mp (by linarith)⟩
      by_contra hneg
      have : S / ((N : ℝ) - 2) ≤ 0 := div_nonpos_of_nonpos_of_nonneg (by linarith) hpos.le
      linarith
    · rintro ⟨h1, h2, h3⟩
      have hS : 0 < S / ((N : ℝ) - 2) := div_pos h1 hpos
      have := (hM _).mpr h3
      constructor <;> linarith

/-- **C13**: nothing recorded, or fewer than three recorded values: false. -/
theorem C13_false (S : ℝ) (est : EstView d)
    (h : ∀ v, est.values = some v → v.length < 3) : (Crit.knee S).eval est = .ok false := by
  simp only [Crit.eval, kneeCall]
  split
  · rfl
  · rename_i v hv
    simp [h v hv]

/-- The recorded values divided by their (one-based) position. -/
noncomputable def Spec.scaledValues (v : List ℝ) (i : ℕ) : ℝ := v.getD i 0 / ((i : ℝ) + 1)

/-- **C13**: the decision after any recorded history of three or more scalar observations. -/
theorem C13_decision (covariance : Bool) (S : ℝ) (Xs : List (List (Fin 1 → ℝ)))
    (hne : ∀ Y ∈ Xs, Y ≠ []) (hn : 3 ≤ Xs.flatten.length) :
    ∃ e b, (MeanEst.init 1 covariance true).updates (Xs.map fun X => .mat ⟨1, X⟩) = .ok e ∧
      (Crit.knee S).eval e.view = .ok b ∧
      (b = true ↔ Spec.knee S (Spec.scaledValues (Xs.flatten.map fun x => x 0))
        Xs.flatten.length) := by
  obtain ⟨e, h, i⟩ := (MeanEstInv.init (d := 1) covariance true).steps Xs hne
  simp only [List.nil_append] at i
  have hv : e.view.values = some Xs.flatten := by simpa [MeanEst.view] using i.values
  have hfm : (Xs.flatten.flatMap fun row => List.ofFn row) = Xs.flatten.map fun x => x 0 := by
    induction Xs.flatten with
    | nil => rfl
    | cons x l ih => rw [List.flatMap_cons, List.map_cons, ih]; simp
  obtain ⟨b, hb, hiff⟩ := kneeDecide_iff S (kneeCurve (Xs.flatten.map fun x => x 0))
    Xs.flatten.length hn
  refine ⟨e, b, h, ?_, hiff⟩
  simp only [Crit.eval, kneeCall, hv, hfm, List.length_map]
  rw [if_neg (by omega)]
  exact hb

/-- **C13**: a curve with constant increments has no knee. -/
theorem C13_linear (S δ : ℝ) (c : ℕ → ℝ) (N : ℕ) (hN : 3 ≤ N)
    (hδ : ∀ i, i < N - 1 → |c (i + 1) - c i| = δ) : kneeDecide S c N = .ok false := by
  obtain ⟨b, hb, hiff⟩ := kneeDecide_iff S c N hN
  cases b with
  | false => exact hb
  | true =>
    exfalso
    obtain ⟨hS, hlt, k, hk, h⟩ := hiff.mp rfl
    have hvar : ∀ k, k < N - 1 → Spec.variation c k = ((k : ℝ) + 1) * δ := by
      intro k hk
      unfold Spec.variation
      rw [Finset.sum_congr rfl (g := fun _ => δ) fun i hi => hδ i (by simp at hi; omega)]
      simp
    have hpos : (0 : ℝ) < (N : ℝ) - 2 := by
      have : (3 : ℝ) ≤ N := by exact_mod_cast hN
      linarith
    rw [hvar k hk, hvar (N - 2) (by omega), hvar 0 (by omega)] at h
    rw [hvar (N - 2) (by omega), hvar 0 (by omega)] at hlt
    have hc : ((N - 2 : ℕ) : ℝ) = (N : ℝ) - 2 := by rw [Nat.cast_sub (by omega)]; norm_num
    rw [hc] at h hlt
    have hd : δ ≠ 0 := by rintro rfl; simp at hlt
    have : (((k : ℝ) + 1) * δ - ((0 : ℕ) + 1 : ℝ) * δ) / (((N : ℝ) - 2 + 1) * δ - ((0 : ℕ) + 1 : ℝ) * δ)
        = (k : ℝ) / ((N : ℝ) - 2) := by
      rw [div_eq_div_iff _ hpos.ne']
      · push_cast; ring
      · push_cast
        have : ((N : ℝ) - 2 + 1) * δ - (0 + 1) * δ = ((N : ℝ) - 2) * δ := by ring
        rw [this]; exact mul_ne_zero hpos.ne' hd
    rw [this] at h
    have := div_pos hS hpos
    linarith

/-- **C14 is false of the code.**  After recording 0, 2, 4, 2 the curve of running means
0, 1, 2, 2 has a knee for `S = 1/10`, but the criterion does not fire. -/
theorem C14_counterexample :
    ∃ e, (MeanEst.init 1 false true).updates
        ([[![0], ![2], ![4], ![2]]].map fun X => .mat ⟨1, X⟩) = .ok e ∧
      (Crit.knee (1/10)).eval e.view = .ok false ∧
      Spec.knee (1/10) (Spec.runningMean fun i => [0, 2, 4, 2].getD i 0) 4 := by
  obtain ⟨e, b, h, hb, hiff⟩ := C13_decision false (1/10) [[![0], ![2], ![4], ![2]]] (by simp)
    (by simp)
  refine ⟨e, h, ?_, ?_⟩
  · cases b with
    | false => exact hb
    | true =>
      exfalso
      obtain ⟨-, -, k, hk, hlt⟩ := hiff.mp rfl
      have hk' : k < 3 := by simpa using hk
      have hN : (([[![0], ![2], ![4], ![2]]] : List (List (Fin 1 → ℝ))).flatten.length : ℝ) = 4 := by
        norm_num
      have hN' : ([[![0], ![2], ![4], ![2]]] : List (List (Fin 1 → ℝ))).flatten.length - 2 = 2 := by
        simp
      rw [hN, hN'] at hlt
      interval_cases k <;>
        norm_num [Spec.variation, Finset.sum_range_succ, Spec.scaledValues, abs_of_pos,
          abs_of_neg] at hlt
  · refine ⟨by norm_num, ?_, 1, by norm_num, ?_⟩ <;>
      norm_num [Spec.variation, Finset.sum_range_succ, Spec.runningMean, abs_of_pos]

/-- **C14**, what holds instead: when the recorded values are the partial sums of `x`, the
curve is that of the running means of `x`.  Missing: the claim for the recorded values
themselves, which is false (`C14_counterexample`): the code never forms cumulative sums. -/
theorem C14_partial_sums_partial (covariance : Bool) (S : ℝ) (x : ℕ → ℝ) (N : ℕ) (hN : 3 ≤ N) :
    ∃ e b, (MeanEst.init 1 covariance true).updates
        ((List.range N).map fun i => .mat ⟨1, [fun _ => ∑ j ∈ Finset.range (i + 1), x j]⟩) = .ok e ∧
      (Crit.knee S).eval e.view = .ok b ∧ (b = true ↔ Spec.knee S (Spec.runningMean x) N) := by
  have hfl : ((List.range N).map fun i => [fun _ : Fin 1 => ∑ j ∈ Finset.range (i + 1), x j]).flatten
      = (List.range N).map fun i => fun _ : Fin 1 => ∑ j ∈ Finset.range (i + 1), x j := by
    induction (List.range N) with
    | nil => rfl
    | cons a l ih => simp [ih]
  obtain ⟨e, b, h, hb, hiff⟩ := C13_decision covariance S
    ((List.range N).map fun i => [fun _ => ∑ j ∈ Finset.range (i + 1), x j]) (by simp)
    (by rw [hfl]; simpa using hN)
  refine ⟨e, b, ?_, hb, ?_⟩
  · rw [← h, List.map_map]; rfl
  · rw [hiff, hfl]
    simp only [List.map_map, List.length_map, List.length_range]
    have hv : ∀ k, k < N - 1 → Spec.variation (Spec.scaledValues (List.map ((fun x : Fin 1 → ℝ => x 0) ∘
        fun i => fun _ : Fin 1 => ∑ j ∈ Finset.range (i + 1), x j) (List.range N))) k =
        Spec.variation (Spec.runningMean x) k := by
      intro k hk
      unfold Spec.variation
      refine Finset.sum_congr rfl fun i hi => ?_
      simp only [Finset.mem_range] at hi
      have hs : ∀ i, i < N → Spec.scaledValues (List.map ((fun x : Fin 1 → ℝ => x 0) ∘
          fun i => fun _ : Fin 1 => ∑ j ∈ Finset.range (i + 1), x j) (List.range N)) i =
          Spec.runningMean x i := by
        intro i hi
        simp [Spec.scaledValues, Spec.runningMean, List.getD_eq_getElem?_getD, hi]
      rw [hs i (by omega), hs (i + 1) (by omega)]
    unfold Spec.knee
    rw [hv 0 (by omega), hv (N - 2) (by omega)]
    constructor
    · rintro ⟨h1, h2, k, hk, h3⟩
      rw [hv k hk] at h3
      exact ⟨h1, h2, k, hk, h3⟩
    · rintro ⟨h1, h2, k, hk, h3⟩
      refine ⟨h1, h2, k, hk, ?_⟩
      rw [hv k hk]
      exact h3

end Primate
