import Verif.Lemmas.Estimators
import Mathlib.LinearAlgebra.Matrix.NonsingularInverse

/-! # Properties C17-C19 and C76: ControlVariableEstimator -/

namespace Primate

variable {k : ℕ}

/-- What every update preserves, whether or not it raises. -/
theorem CVEst.update_inv (s : CVEst k) (xs X : List (Fin (k + 1) → ℝ)) (hX : X ≠ [])
    (h : CovInv s.cov xs) :
    CovInv (s.update (.mat ⟨k + 1, X⟩)).2.cov (xs ++ X) ∧
    (s.update (.mat ⟨k + 1, X⟩)).2.nSamples = (xs ++ X).length ∧
    (s.update (.mat ⟨k + 1, X⟩)).2.ecv = s.ecv ∧
    (s.update (.mat ⟨k + 1, X⟩)).2.estimateCor = s.estimateCor ∧
    (s.estimateCor = false → (s.update (.mat ⟨k + 1, X⟩)).1 = .ok () ∧
      (s.update (.mat ⟨k + 1, X⟩)).2.alpha = s.alpha) := by
  obtain ⟨c, hc, ic⟩ := h.step X hX
  have hu : s.cov.update (.mat ⟨k + 1, X⟩) = .ok c := by
    simp [Covariance.update, ArrayLike.promote, hc]
  have hcov : ∃ C, c.covariance 1 = .ok C := by
    unfold Covariance.covariance
    rw [if_neg (show ¬ k + 1 = 0 by omega)]
    split_ifs <;> exact ⟨_, rfl⟩
  obtain ⟨C, hC⟩ := hcov
  unfold CVEst.update
  simp only [hu, hC]
  cases he : s.estimateCor
  · simp [ic, ic.n]
  · simp only [if_true]
    cases cvAlpha C <;> simp [ic, ic.n]

/-- The state after any history of non-empty batches. -/
theorem CVEst.run_inv (s : CVEst k) (xs : List (Fin (k + 1) → ℝ))
    (Xs : List (List (Fin (k + 1) → ℝ))) (hne : ∀ X ∈ Xs, X ≠ [])
    (h : CovInv s.cov xs) (hn : s.nSamples = xs.length) :
    let s' := s.runCatching (Xs.map fun X => .mat ⟨k + 1, X⟩)
    CovInv s'.cov (xs ++ Xs.flatten) ∧ s'.nSamples = (xs ++ Xs.flatten).length ∧
    s'.ecv = s.ecv ∧ s'.estimateCor = s.estimateCor ∧
    (s.estimateCor = false → s'.alpha = s.alpha) := by
  induction Xs generalizing s xs with
  | nil => simpa [CVEst.runCatching] using ⟨h, hn⟩
  | cons X Xs ih =>
    obtain ⟨h1, h2, h3, h4, h5⟩ := s.update_inv xs X (hne X (by simp)) h
    have := ih (s.update (.mat ⟨k + 1, X⟩)).2 (xs ++ X) (fun Y hY => hne Y (by simp [hY])) h1 h2
    simp only [h3, h4, List.append_assoc] at this
    simp only [CVEst.runCatching, List.map_cons, List.foldl_cons, List.flatten_cons] at this ⊢
    refine ⟨this.1, this.2.1, this.2.2.1, this.2.2.2.1, fun he => ?_⟩
    rw [this.2.2.2.2 he, (h5 he).2]

/-- **C17**: with fixed coefficients no update fails, and the estimate is the sample mean of
`y - alpha . (c - E[c])` over all observations, whatever the batching. -/
theorem C17_fixed_alpha (ecv a : List ℝ) (hl : ecv.length = a.length) (record : Bool)
    (Xs : List (List (Fin (ecv.length + 1) → ℝ))) (hne : ∀ X ∈ Xs, X ≠ []) (hX : Xs ≠ []) :
    ∃ s, CVEst.init ecv (some a) record = .ok s ∧
      (∀ Ys Y Zs, Xs = Ys ++ Y :: Zs →
        ((s.runCatching (Ys.map fun X => .mat ⟨_, X⟩)).update (.mat ⟨_, Y⟩)).1 = .ok ()) ∧
      (s.runCatching (Xs.map fun X => .mat ⟨_, X⟩)).nSamples = Xs.flatten.length ∧
      (s.runCatching (Xs.map fun X => .mat ⟨_, X⟩)).estimate =
        .ok (.val ((Xs.flatten.map fun x =>
          x 0 - ∑ i, a.get (i.cast hl) * (x i.succ - ecv.get i)).sum / Xs.flatten.length)) := by
  have hf : Xs.flatten ≠ [] := by
    obtain ⟨X, Xs', rfl⟩ := List.exists_cons_of_ne_nil hX
    have := hne X (by simp)
    simp [this]
  have hlen : (Xs.flatten.length : ℝ) ≠ 0 := by
    exact_mod_cast (List.length_pos_iff.mpr hf).ne'
  set s : CVEst ecv.length :=
    ⟨ecv.get, .val fun i => a.get (hl ▸ i), false, Covariance.init ℝ _, 0, record⟩ with hs
  have hcast : ∀ i : Fin ecv.length, (hl ▸ i : Fin a.length) = i.cast hl := by
    have key : ∀ (m n : ℕ) (h : m = n) (i : Fin m), (h ▸ i : Fin n) = i.cast h := by
      intro m n h i; subst h; rfl
    exact fun i => key _ _ hl i
  refine ⟨s, by simp [CVEst.init, hl, hs], ?_, ?_, ?_⟩
  · intro Ys Y Zs hXs
    have := s.run_inv [] Ys (fun Y' hY' => hne Y' (by rw [hXs]; simp [hY'])) CovInv.init rfl
    obtain ⟨h1, h2, h3, h4, h5⟩ := this
    exact ((s.runCatching _).update_inv _ Y (hne Y (by rw [hXs]; simp)) h1).2.2.2.2 h4 |>.1
  · exact (s.run_inv [] Xs hne CovInv.init rfl).2.1
  · obtain ⟨h1, h2, h3, h4, h5⟩ := s.run_inv [] Xs hne CovInv.init rfl
    simp only [List.nil_append] at h1 h2
    have h5 : (s.runCatching (Xs.map fun X => .mat ⟨_, X⟩)).alpha =
      .val fun i => a.get (hl ▸ i) := h5 rfl
    have h3 : (s.runCatching (Xs.map fun X => .mat ⟨_, X⟩)).ecv = ecv.get := h3
    have h2' : (s.runCatching (Xs.map fun X => .mat ⟨_, X⟩)).nSamples ≠ 0 := by
      rw [h2]; exact (List.length_pos_iff.mpr hf).ne'
    have hmu := h1.mean_eq hf
    unfold CVEst.estimate
    rw [if_neg h2', h5]
    simp only [h1.nan, Bool.false_eq_true, if_false]
    congr 2
    rw [h3, hmu]
    simp only [Spec.sampleMean, hcast]
    have key : ∀ l : List (Fin (ecv.length + 1) → ℝ), (l.map fun x =>
        x 0 - ∑ i, a.get (i.cast hl) * (x i.succ - ecv.get i)).sum =
        (l.map fun x => x 0).sum - ∑ i : Fin ecv.length, a.get (i.cast hl) *
          ((l.map fun x => x i.succ).sum - l.length * ecv.get i) := by
      intro l
      induction l with
      | nil => simp
      | cons x l ih =>
        simp only [List.map_cons, List.sum_cons, ih, List.length_cons]
        have : ∀ i : Fin ecv.length, a.get (i.cast hl) * (x i.succ + (l.map fun x => x i.succ).sum -
            ((l.length + 1 : ℕ) : ℝ) * ecv.get i) = a.get (i.cast hl) * (x i.succ - ecv.get i) +
            a.get (i.cast hl) * ((l.map fun x => x i.succ).sum - l.length * ecv.get i) := by
          intro i; push_cast; ring
        rw [Finset.sum_congr rfl fun i _ => this i, Finset.sum_add_distrib]
        ring
    rw [key, sub_div, Finset.sum_div]
    congr 1
    refine Finset.sum_congr rfl fun i _ => ?_
    field_simp

/-- **C17**: mismatched lengths of coefficients and control variates are rejected. -/
theorem C17_length_mismatch (ecv a : List ℝ) (hl : ecv.length ≠ a.length) (record : Bool) :
    CVEst.init ecv (some a) record = .error .assertion := by
  simp [CVEst.init, hl]

example : ∃ s, CVEst.init [1] (some [2]) false = .ok s ∧
    (s.runCatching [.mat ⟨2, [![3, 1], ![5, 3]]⟩]).estimate = .ok (.val 2) := by
  obtain ⟨s, h, -, -, h2⟩ := C17_fixed_alpha [1] [2] rfl false [[![3, 1], ![5, 3]]] (by simp)
    (by simp)
  refine ⟨s, h, ?_⟩
  refine h2.trans ?_
  norm_num [Fin.sum_univ_succ]

/-- The sample covariance of the control variates. -/
noncomputable def Spec.controlCov (xs : List (Fin (k + 1) → ℝ)) : Matrix (Fin k) (Fin k) ℝ :=
  fun i j => Spec.sampleCov 1 xs i.succ j.succ

theorem affine_mean (a : ℝ) (b : Fin k → ℝ) (xs : List (Fin (k + 1) → ℝ)) (hx : xs ≠ [])
    (h : ∀ x ∈ xs, x 0 = a + ∑ i, b i * x i.succ) :
    Spec.sampleMean xs 0 = a + ∑ i, b i * Spec.sampleMean xs i.succ := by
  have hlen : (xs.length : ℝ) ≠ 0 := by exact_mod_cast (List.length_pos_iff.mpr hx).ne'
  have key : ∀ l : List (Fin (k + 1) → ℝ), (∀ x ∈ l, x 0 = a + ∑ i, b i * x i.succ) →
      (l.map fun x => x 0).sum = l.length * a + ∑ i, b i * (l.map fun x => x i.succ).sum := by
    intro l
    induction l with
    | nil => intro _; simp
    | cons x l ih =>
      intro hl
      simp only [List.map_cons, List.sum_cons, ih fun y hy => hl y (by simp [hy]),
        hl x (by simp), List.length_cons, mul_add, Finset.sum_add_distrib]
      push_cast; ring
  unfold Spec.sampleMean
  rw [key xs h, add_div, Finset.sum_div]
  congr 1
  · field_simp
  · exact Finset.sum_congr rfl fun i _ => mul_div_assoc _ _ _

theorem affine_cov (a : ℝ) (b : Fin k → ℝ) (xs : List (Fin (k + 1) → ℝ)) (hx : xs ≠ [])
    (h : ∀ x ∈ xs, x 0 = a + ∑ i, b i * x i.succ) (i : Fin k) :
    Spec.sampleCov 1 xs i.succ 0 = ∑ j, Spec.controlCov xs i j * b j := by
  have hm := affine_mean a b xs hx h
  have key : ∀ l : List (Fin (k + 1) → ℝ), (∀ x ∈ l, x 0 = a + ∑ i, b i * x i.succ) →
      (l.map fun x => (x i.succ - Spec.sampleMean xs i.succ) * (x 0 - Spec.sampleMean xs 0)).sum =
      ∑ j, (l.map fun x => (x i.succ - Spec.sampleMean xs i.succ) *
        (x (Fin.succ j) - Spec.sampleMean xs (Fin.succ j))).sum * b j := by
    intro l
    induction l with
    | nil => intro _; simp
    | cons x l ih =>
      intro hl
      simp only [List.map_cons, List.sum_cons, ih fun y hy => hl y (by simp [hy]), add_mul,
        Finset.sum_add_distrib]
      congr 1
      rw [hl x (by simp), hm]
      have : (a + ∑ i, b i * x i.succ - (a + ∑ i, b i * Spec.sampleMean xs i.succ)) =
          ∑ j, b j * (x (Fin.succ j) - Spec.sampleMean xs (Fin.succ j)) := by
        simp only [mul_sub, Finset.sum_sub_distrib]; ring
      rw [this, Finset.mul_sum]
      exact Finset.sum_congr rfl fun j _ => by ring
  unfold Spec.controlCov Spec.sampleCov
  rw [key xs h, Finset.sum_div]
  exact Finset.sum_congr rfl fun j _ => by ring

/-- **C18**: when `y = a + b . c` holds on every observation and the control variates have an
invertible sample covariance, the last update succeeds and the estimate is `a + b . E[c]`,
whatever happened in between (earlier updates may have raised and been caught). -/
theorem C18_affine_exact (ecv : List ℝ) (hk : ecv ≠ []) (record : Bool)
    (Xs : List (List (Fin (ecv.length + 1) → ℝ))) (X : List (Fin (ecv.length + 1) → ℝ))
    (hne : ∀ Y ∈ Xs, Y ≠ []) (hX : X ≠ []) (a : ℝ) (b : Fin ecv.length → ℝ)
    (haff : ∀ x ∈ Xs.flatten ++ X, x 0 = a + ∑ i, b i * x i.succ)
    (hn : 2 ≤ (Xs.flatten ++ X).length)
    (hdet : (Spec.controlCov (Xs.flatten ++ X)).det ≠ 0) :
    ∃ s, CVEst.init ecv none record = .ok s ∧
      let s' := (s.runCatching (Xs.map fun X => .mat ⟨_, X⟩)).update (.mat ⟨_, X⟩)
      s'.1 = .ok () ∧ s'.2.estimate = .ok (.val (a + ∑ i, b i * ecv.get i)) := by
  set s : CVEst ecv.length :=
    ⟨ecv.get, .unset, true, Covariance.init ℝ _, 0, record⟩ with hs
  refine ⟨s, rfl, ?_⟩
  have hx : Xs.flatten ++ X ≠ [] := by simp [hX]
  obtain ⟨h1, h2, h3, h4, -⟩ := s.run_inv [] Xs hne CovInv.init rfl
  simp only [List.nil_append] at h1 h2
  set t := s.runCatching (Xs.map fun X => .mat ⟨_, X⟩) with ht
  obtain ⟨c, hc, ic⟩ := h1.step X hX
  have hu : t.cov.update (.mat ⟨_, X⟩) = .ok c := by
    simp [Covariance.update, ArrayLike.promote, hc]
  have hC := ic.cov_eq 1 (by omega)
  have hk0 : ecv.length ≠ 0 := by simpa using hk
  have hal : cvAlpha (.val (Spec.sampleCov 1 (Xs.flatten ++ X))) = .ok (.val b) := by
    unfold cvAlpha
    rw [if_neg hk0]
    have hd : (Matrix.det fun i j : Fin ecv.length =>
        Spec.sampleCov 1 (Xs.flatten ++ X) i.succ j.succ) ≠ 0 := hdet
    by_cases h2 : ecv.length + 1 = 2
    · simp only [h2, if_true, hd, if_false]
      congr 2
      funext i
      have hone : ∀ j : Fin ecv.length, j = i := by
        intro j; apply Fin.ext; have := j.2; have := i.2; omega
      have hcov := affine_cov a b _ hx haff i
      have hsum : ∑ j, Spec.controlCov (Xs.flatten ++ X) i j * b j =
          Spec.controlCov (Xs.flatten ++ X) i i * b i := by
        rw [Finset.sum_eq_single i (fun j _ hj => absurd (hone j) hj) (by simp)]
      have hsym : Spec.sampleCov 1 (Xs.flatten ++ X) 0 i.succ =
          Spec.sampleCov 1 (Xs.flatten ++ X) i.succ 0 := by
        simp only [Spec.sampleCov, mul_comm]
      have hii : Spec.controlCov (Xs.flatten ++ X) i i ≠ 0 := by
        intro h0
        apply hdet
        apply Matrix.det_eq_zero_of_row_eq_zero i
        intro j; rw [hone j]; exact h0
      rw [hsym, hcov, hsum]
      show _ / Spec.controlCov (Xs.flatten ++ X) i i = _
      field_simp
    · simp only [h2, if_false, hd]
      congr 2
      have hv : (fun i : Fin ecv.length => Spec.sampleCov 1 (Xs.flatten ++ X) i.succ 0) =
          (Spec.controlCov (Xs.flatten ++ X)).mulVec b := by
        funext i; exact affine_cov a b _ hx haff i
      rw [hv]
      show (Spec.controlCov (Xs.flatten ++ X))⁻¹.mulVec _ = b
      rw [Matrix.mulVec_mulVec, Matrix.nonsing_inv_mul _ (isUnit_iff_ne_zero.mpr hdet),
        Matrix.one_mulVec]
  have hupd : t.update (.mat ⟨_, X⟩) =
      (.ok (), { t with cov := c, nSamples := c.n, alpha := .val b }) := by
    unfold CVEst.update
    simp only [hu, hC]
    simp only [h4, hs, if_true, hal]
  rw [hupd]
  refine ⟨rfl, ?_⟩
  have hcn : c.n ≠ 0 := by rw [ic.n]; omega
  simp only [CVEst.estimate, hcn, if_false, ic.nan, Bool.false_eq_true, ic.mean_eq hx, h3]
  congr 2
  rw [affine_mean a b _ hx haff]
  simp only [mul_sub, Finset.sum_sub_distrib, hs]
  ring

/-- Non-vacuity: `y = 1 + 2c` observed at `c = 0, 1`, with `E[c] = 5`. -/
example : ∃ s, CVEst.init [5] none false = .ok s ∧
    (s.update (.mat ⟨2, [![1, 0], ![3, 1]]⟩)).2.estimate = .ok (.val 11) := by
  obtain ⟨s, h, -, h2⟩ := C18_affine_exact [5] (by simp) false [] [![1, 0], ![3, 1]] (by simp)
    (by simp) 1 (fun _ => 2) (by simp; norm_num) (by simp)
    (by
      rw [Matrix.det_fin_one (A := Spec.controlCov (k := 1) _)]
      norm_num [Spec.controlCov, Spec.sampleCov, Spec.sampleMean])
  refine ⟨s, h, h2.trans ?_⟩
  norm_num [Fin.sum_univ_succ]

/-- **C19 is false of the code.**  With estimated coefficients, the first update raises
TypeError for every single first observation; the observation has been absorbed, and reading
the estimate raises TypeError too. -/
theorem C19_counterexample (ecv : List ℝ) (record : Bool) (x : Fin (ecv.length + 1) → ℝ) :
    ∃ s, CVEst.init ecv none record = .ok s ∧
      (s.update (.mat ⟨_, [x]⟩)).1 = .error .type ∧
      (s.update (.mat ⟨_, [x]⟩)).2.nSamples = 1 ∧
      (s.update (.mat ⟨_, [x]⟩)).2.estimate = .error .type := by
  set s : CVEst ecv.length :=
    ⟨ecv.get, .unset, true, Covariance.init ℝ _, 0, record⟩ with hs
  refine ⟨s, rfl, ?_⟩
  obtain ⟨c, hc, ic⟩ := (CovInv.init (K := ℝ) (d := ecv.length + 1)).step [x] (by simp)
  have hu : s.cov.update (.mat ⟨_, [x]⟩) = .ok c := by
    simp [hs, Covariance.update, ArrayLike.promote, hc]
  have hn : c.n = 1 := by simpa using ic.n
  have hC : c.covariance 1 = .ok .inf := by
    unfold Covariance.covariance
    rw [if_pos (by rw [hn]; simp), if_neg (by omega)]
  have hal : cvAlpha (k := ecv.length) .inf = .error .type := by
    unfold cvAlpha; split_ifs <;> rfl
  have hupd : s.update (.mat ⟨_, [x]⟩) = (.error .type, { s with cov := c, nSamples := c.n }) := by
    unfold CVEst.update
    simp only [hu, hC]
    simp only [hs, if_true, hal]
  rw [hupd]
  refine ⟨rfl, hn, ?_⟩
  simp [CVEst.estimate, hn, hs]

/-- **C19**, what holds: a first batch of two or more observations never raises TypeError
when there is at least one control variate.  Missing: single first observations, which do
(`C19_counterexample`). -/
theorem C19_two_or_more_partial (ecv : List ℝ) (hk : ecv ≠ []) (record : Bool)
    (X : List (Fin (ecv.length + 1) → ℝ)) (hX : 2 ≤ X.length) :
    ∃ s, CVEst.init ecv none record = .ok s ∧
      (s.update (.mat ⟨_, X⟩)).1 ≠ .error .type ∧
      ((s.update (.mat ⟨_, X⟩)).1 = .ok () ∨ (s.update (.mat ⟨_, X⟩)).1 = .error .linAlg ∧
        2 ≤ ecv.length ∧ (Spec.controlCov X).det = 0) := by
  set s : CVEst ecv.length :=
    ⟨ecv.get, .unset, true, Covariance.init ℝ _, 0, record⟩ with hs
  refine ⟨s, rfl, ?_⟩
  have hne : X ≠ [] := by intro h; rw [h] at hX; simp at hX
  have hk0 : ecv.length ≠ 0 := by simpa using hk
  obtain ⟨c, hc, ic⟩ := (CovInv.init (K := ℝ) (d := ecv.length + 1)).step X hne
  simp only [List.nil_append] at ic
  have hu : s.cov.update (.mat ⟨_, X⟩) = .ok c := by
    simp [hs, Covariance.update, ArrayLike.promote, hc]
  have hC := ic.cov_eq 1 (by omega)
  have hal : (∃ a, cvAlpha (.val (Spec.sampleCov 1 X)) = .ok a) ∨
      (cvAlpha (.val (Spec.sampleCov 1 X)) = .error .linAlg ∧ 2 ≤ ecv.length ∧
        (Spec.controlCov X).det = 0) := by
    unfold cvAlpha
    rw [if_neg hk0]
    dsimp only
    by_cases h2 : ecv.length + 1 = 2
    · left
      rw [if_pos h2]
      split_ifs <;> exact ⟨_, rfl⟩
    · rw [if_neg h2]
      by_cases hd : (Spec.controlCov X).det = 0
      · right
        exact ⟨if_pos hd, by omega, hd⟩
      · left
        exact ⟨_, if_neg hd⟩
  unfold CVEst.update
  simp only [hu, hC]
  simp only [hs, if_true]
  rcases hal with ⟨a, ha⟩ | ⟨ha, h2, h3⟩
  · simp [ha]
  · simp [ha, h2, h3]

/-- **C76**: which stopping criteria work with a `ControlVariableEstimator`, for every state.
Only counting does: the knee criterion never fires, the tolerance criterion raises ValueError
for every norm order except `None` and never fires for `None`, and the confidence criterion is
false below three observations and raises AttributeError from then on. -/
theorem C76_criteria (s : CVEst k) (n : ℤ) (S rtol atol : ℝ) (ord : NormOrd) (c : ConfCrit)
    (e : NumArr ℝ) (he : s.estimate = .ok e) :
    ((Crit.count n).eval s.view = .ok true ↔ n ≤ (s.nSamples : ℤ)) ∧
    (Crit.knee S).eval s.view = .ok false ∧
    (ord ≠ .none → (Crit.tol rtol atol ord).eval s.view = .error .value) ∧
    (Crit.tol rtol atol .none).eval s.view = .ok false ∧
    (s.nSamples < 3 → (Crit.conf c).eval s.view = .ok false) ∧
    (3 ≤ s.nSamples → (Crit.conf c).eval s.view = .error .attribute) := by
  refine ⟨by simp [Crit.eval, CVEst.view], ?_, ?_, ?_, ?_, ?_⟩
  · simp only [Crit.eval, kneeCall, CVEst.view]
    cases s.record <;> simp
  · intro ho
    simp [Crit.eval, toleranceCall, CVEst.view, he, deltaNorm, ho, bind, Except.bind, Except.map]
  · simp only [Crit.eval, toleranceCall, CVEst.view, he, deltaNorm, bind, Except.bind, Except.map]
    cases e <;> simp [Fl.lt, arrNorm, vecNorm, Except.map, pure, Except.pure]
  · intro h
    have h' : s.view.nSamples < 3 := h
    have hm : s.view.isMean = true := rfl
    simp [Crit.eval, ConfCrit.call, ConfCrit.error, h', hm, bind, Except.bind, pure, Except.pure,
      Fl.le]
  · intro h
    have h' : ¬ s.view.nSamples < 3 := by show ¬ s.nSamples < 3; omega
    have hm : s.view.isMean = true := rfl
    have hc : s.view.cov = none := rfl
    simp [Crit.eval, ConfCrit.call, ConfCrit.error, h', hm, hc, bind, Except.bind]

end Primate
