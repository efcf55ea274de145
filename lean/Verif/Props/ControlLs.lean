import Verif.Props.ControlVariates
import Mathlib.Algebra.BigOperators.Fin
import Mathlib.LinearAlgebra.Matrix.ToLinearEquiv

/-! # C150: control variates with estimated coefficients are least squares -/

namespace Primate

variable {k : ℕ}

/-- The sum of the squared residuals of the affine function `a + b . c` at the observations `(y, c)`. -/
noncomputable def Spec.rss (xs : List (Fin (k + 1) → ℝ)) (a : ℝ) (b : Fin k → ℝ) : ℝ := (xs.map fun x => (x 0 - (a + ∑ i, b i * x i.succ)) ^ 2).sum

theorem list_sum_fin {α : Type} (xs : List α) (f : α → ℝ) : (xs.map f).sum = ∑ t : Fin xs.length, f xs[t] := (Fin.sum_univ_fun_getElem xs f).symm

theorem centred (xs : List (Fin (k + 1) → ℝ)) (hn : 1 ≤ xs.length) (i : Fin (k + 1)) : ∑ t : Fin xs.length, (xs[t] i - Spec.sampleMean xs i) = 0 := by
  have hlen : (xs.length : ℝ) ≠ 0 := by exact_mod_cast (by omega : xs.length ≠ 0)
  rw [Finset.sum_sub_distrib, Finset.sum_const, Finset.card_univ, Fintype.card_fin, nsmul_eq_mul, ← list_sum_fin xs fun x => x i, Spec.sampleMean]
  field_simp
  ring

theorem centred_cov (xs : List (Fin (k + 1) → ℝ)) (hn : 2 ≤ xs.length) (p q : Fin (k + 1)) :
    ∑ t : Fin xs.length, (xs[t] p - Spec.sampleMean xs p) * (xs[t] q - Spec.sampleMean xs q) = Spec.sampleCov 1 xs p q * ((xs.length : ℝ) - 1) := by
  have hlen1 : (xs.length : ℝ) - 1 ≠ 0 := by
    have : (2 : ℝ) ≤ xs.length := by exact_mod_cast hn
    linarith
  have e : (((xs.length : ℤ) - 1 : ℤ) : ℝ) = (xs.length : ℝ) - 1 := by push_cast; ring
  rw [← list_sum_fin xs fun x => (x p - Spec.sampleMean xs p) * (x q - Spec.sampleMean xs q)]
  unfold Spec.sampleCov
  rw [e, div_mul_cancel₀ _ hlen1]

/-- Normal equations. -/
theorem normal_eq (xs : List (Fin (k + 1) → ℝ)) (hn : 2 ≤ xs.length) (b : Fin k → ℝ) (hb : ∀ i, ∑ j, Spec.controlCov xs i j * b j = Spec.sampleCov 1 xs i.succ 0) :
    (∑ t : Fin xs.length, (xs[t] 0 - (Spec.sampleMean xs 0 - ∑ j, b j * Spec.sampleMean xs j.succ + ∑ j, b j * xs[t] j.succ)) = 0) ∧
    ∀ i : Fin k, ∑ t : Fin xs.length, (xs[t] 0 - (Spec.sampleMean xs 0 - ∑ j, b j * Spec.sampleMean xs j.succ + ∑ j, b j * xs[t] j.succ)) * xs[t] i.succ = 0 := by
  set m := Spec.sampleMean xs with hm
  have hlen : (xs.length : ℝ) ≠ 0 := by exact_mod_cast (by omega : xs.length ≠ 0)
  have hlen1 : (xs.length : ℝ) - 1 ≠ 0 := by
    have : (2 : ℝ) ≤ xs.length := by exact_mod_cast hn
    linarith
  have hres : ∀ x : Fin (k + 1) → ℝ, x 0 - (m 0 - ∑ j, b j * m j.succ + ∑ j, b j * x j.succ) = (x 0 - m 0) - ∑ j, b j * (x j.succ - m j.succ) := by
    intro x
    simp only [mul_sub, Finset.sum_sub_distrib]
    ring
  have hcen : ∀ i, ∑ t : Fin xs.length, (xs[t] i - m i) = 0 := centred xs (by omega)
  have h1 : ∑ t : Fin xs.length, (xs[t] 0 - (m 0 - ∑ j, b j * m j.succ + ∑ j, b j * xs[t] j.succ)) = 0 := by
    simp only [hres]
    rw [Finset.sum_sub_distrib, hcen, Finset.sum_comm]
    simp only [← Finset.mul_sum, hcen, mul_zero, Finset.sum_const_zero, sub_zero]
  refine ⟨h1, fun i => ?_⟩
  have hcov : ∀ p q, ∑ t : Fin xs.length, (xs[t] p - m p) * (xs[t] q - m q) = Spec.sampleCov 1 xs p q * ((xs.length : ℝ) - 1) := centred_cov xs hn
  have h2 : ∑ t : Fin xs.length, (xs[t] 0 - (m 0 - ∑ j, b j * m j.succ + ∑ j, b j * xs[t] j.succ)) * (xs[t] i.succ - m i.succ) = 0 := by
    simp only [hres]
    have e0 : ∀ t : Fin xs.length, (xs[t] 0 - m 0 - ∑ j, b j * (xs[t] (Fin.succ j) - m j.succ)) * (xs[t] i.succ - m i.succ) =
        (xs[t] 0 - m 0) * (xs[t] i.succ - m i.succ) - ∑ j, b j * (xs[t] (Fin.succ j) - m j.succ) * (xs[t] i.succ - m i.succ) := fun t => by
      rw [sub_mul, Finset.sum_mul]
    rw [Finset.sum_congr rfl fun t _ => e0 t, Finset.sum_sub_distrib, Finset.sum_comm]
    have e : ∀ j, ∑ t : Fin xs.length, b j * (xs[t] (Fin.succ j) - m j.succ) * (xs[t] i.succ - m i.succ) = (Spec.controlCov xs i j * b j) * (xs.length - 1) := by
      intro j
      have : ∀ t : Fin xs.length, b j * (xs[t] (Fin.succ j) - m j.succ) * (xs[t] i.succ - m i.succ) = b j * ((xs[t] i.succ - m i.succ) * (xs[t] (Fin.succ j) - m j.succ)) := fun t => by ring
      simp only [this]
      rw [← Finset.mul_sum, hcov, Spec.controlCov]
      ring
    simp only [e]
    rw [← Finset.sum_mul, hb]
    have : ∑ t : Fin xs.length, (xs[t] 0 - m 0) * (xs[t] i.succ - m i.succ) = ∑ t : Fin xs.length, (xs[t] i.succ - m i.succ) * (xs[t] 0 - m 0) :=
      Finset.sum_congr rfl fun t _ => mul_comm _ _
    rw [this, hcov, sub_self]
  have h3 : ∑ t : Fin xs.length, (xs[t] 0 - (m 0 - ∑ j, b j * m j.succ + ∑ j, b j * xs[t] j.succ)) * xs[t] i.succ =
      ∑ t : Fin xs.length, (xs[t] 0 - (m 0 - ∑ j, b j * m j.succ + ∑ j, b j * xs[t] j.succ)) * (xs[t] i.succ - m i.succ) +
        (∑ t : Fin xs.length, (xs[t] 0 - (m 0 - ∑ j, b j * m j.succ + ∑ j, b j * xs[t] j.succ))) * m i.succ := by
    rw [Finset.sum_mul, ← Finset.sum_add_distrib]
    exact Finset.sum_congr rfl fun t _ => by ring
  rw [h3, h2, h1, zero_mul, add_zero]

/-- The sum of squares at another function. -/
theorem rss_eq (xs : List (Fin (k + 1) → ℝ)) (hn : 2 ≤ xs.length) (b : Fin k → ℝ) (hb : ∀ i, ∑ j, Spec.controlCov xs i j * b j = Spec.sampleCov 1 xs i.succ 0) (a' : ℝ) (b' : Fin k → ℝ) :
    Spec.rss xs a' b' = Spec.rss xs (Spec.sampleMean xs 0 - ∑ j, b j * Spec.sampleMean xs j.succ) b +
      ∑ t : Fin xs.length, ((Spec.sampleMean xs 0 - ∑ j, b j * Spec.sampleMean xs j.succ - a') + ∑ i, (b i - b' i) * xs[t] i.succ) ^ 2 := by
  obtain ⟨h1, h2⟩ := normal_eq xs hn b hb
  set a := Spec.sampleMean xs 0 - ∑ j, b j * Spec.sampleMean xs j.succ with ha
  unfold Spec.rss
  rw [list_sum_fin, list_sum_fin]
  have hx : ∑ t : Fin xs.length, (xs[t] 0 - (a + ∑ j, b j * xs[t] j.succ)) * ((a - a') + ∑ i, (b i - b' i) * xs[t] i.succ) = 0 := by
    simp only [mul_add, Finset.mul_sum]
    rw [Finset.sum_add_distrib, ← Finset.sum_mul, h1, zero_mul, zero_add, Finset.sum_comm]
    refine Finset.sum_eq_zero fun i _ => ?_
    have : ∀ t : Fin xs.length, (xs[t] 0 - (a + ∑ j, b j * xs[t] j.succ)) * ((b i - b' i) * xs[t] i.succ) = (b i - b' i) * ((xs[t] 0 - (a + ∑ j, b j * xs[t] j.succ)) * xs[t] i.succ) :=
      fun t => by ring
    simp only [this]
    rw [← Finset.mul_sum, h2, mul_zero]
  have e : ∀ t : Fin xs.length, (xs[t] 0 - (a' + ∑ j, b' j * xs[t] j.succ)) ^ 2 = (xs[t] 0 - (a + ∑ j, b j * xs[t] j.succ)) ^ 2 +
      (2 * ((xs[t] 0 - (a + ∑ j, b j * xs[t] j.succ)) * ((a - a') + ∑ i, (b i - b' i) * xs[t] i.succ)) + ((a - a') + ∑ i, (b i - b' i) * xs[t] i.succ) ^ 2) := by
    intro t
    have : ∑ i, (b i - b' i) * xs[t] i.succ = ∑ i, b i * xs[t] i.succ - ∑ i, b' i * xs[t] i.succ := by
      simp only [sub_mul, Finset.sum_sub_distrib]
    rw [this]
    ring
  simp only [e]
  rw [Finset.sum_add_distrib, Finset.sum_add_distrib, ← Finset.mul_sum, hx, mul_zero, zero_add]

/-- **C150**: with estimated coefficients the estimate is the value at `E[c]` of the affine function `a + b . c` that fits the observations best in the sense of least squares; there is only
one such function.  Earlier updates may have raised and been caught. -/
theorem C150_least_squares (ecv : List ℝ) (hk : ecv ≠ []) (record : Bool) (Xs : List (List (Fin (ecv.length + 1) → ℝ))) (X : List (Fin (ecv.length + 1) → ℝ))
    (hne : ∀ Y ∈ Xs, Y ≠ []) (hX : X ≠ []) (hn : 2 ≤ (Xs.flatten ++ X).length) (hdet : (Spec.controlCov (Xs.flatten ++ X)).det ≠ 0) :
    ∃ s, CVEst.init ecv none record = .ok s ∧
      let s' := (s.runCatching (Xs.map fun X => .mat ⟨_, X⟩)).update (.mat ⟨_, X⟩)
      s'.1 = .ok () ∧ ∃ a b, s'.2.alpha = .val b ∧ s'.2.estimate = .ok (.val (a + ∑ i, b i * ecv.get i)) ∧
        (∀ a' b', Spec.rss (Xs.flatten ++ X) a b ≤ Spec.rss (Xs.flatten ++ X) a' b') ∧
        ∀ a' b', Spec.rss (Xs.flatten ++ X) a' b' ≤ Spec.rss (Xs.flatten ++ X) a b → a' = a ∧ b' = b := by
  set s : CVEst ecv.length :=
    ⟨ecv.get, .unset, true, Covariance.init ℝ _, 0, record⟩ with hs
  refine ⟨s, rfl, ?_⟩
  have hx : Xs.flatten ++ X ≠ [] := by simp [hX]
  obtain ⟨h1, h2, h3, h4, -⟩ := s.run_inv [] Xs hne CovInv.init rfl
  simp only [List.nil_append] at h1 h2
  set t := s.runCatching (Xs.map fun X => .mat ⟨_, X⟩) with ht
  obtain ⟨c, hc, ic⟩ := h1.step X hX
  have hu : t.cov.update (.mat ⟨_, X⟩) = .ok c := by
    simp [Covariance.update, ArrayLike.promote, hc]
  have hC := ic.cov_eq 1 (by omega)
  have hk0 : ecv.length ≠ 0 := by simpa using hk
  set xs := Xs.flatten ++ X with hxs
  obtain ⟨b, hal, hb⟩ : ∃ b, cvAlpha (.val (Spec.sampleCov 1 xs)) = .ok (.val b) ∧ ∀ i, ∑ j, Spec.controlCov xs i j * b j = Spec.sampleCov 1 xs i.succ 0 := by
    unfold cvAlpha
    rw [if_neg hk0]
    have hd : (Matrix.det fun i j : Fin ecv.length => Spec.sampleCov 1 xs i.succ j.succ) ≠ 0 := hdet
    by_cases h2 : ecv.length + 1 = 2
    · simp only [h2, if_true, hd, if_false]
      refine ⟨_, rfl, fun i => ?_⟩
      have hone : ∀ j : Fin ecv.length, j = i := by
        intro j; apply Fin.ext; have := j.2; have := i.2; omega
      have hii : Spec.controlCov xs i i ≠ 0 := by
        intro h0
        apply hdet
        apply Matrix.det_eq_zero_of_row_eq_zero i
        intro j; rw [hone j]; exact h0
      rw [Finset.sum_eq_single i (fun j _ hj => absurd (hone j) hj) (by simp)]
      have hsym : Spec.sampleCov 1 xs 0 i.succ = Spec.sampleCov 1 xs i.succ 0 := by
        simp only [Spec.sampleCov, mul_comm]
      rw [hsym]
      show Spec.controlCov xs i i * (_ / Spec.controlCov xs i i) = _
      field_simp
    · simp only [h2, if_false, hd]
      refine ⟨_, rfl, fun i => ?_⟩
      show ((Spec.controlCov xs).mulVec ((Spec.controlCov xs)⁻¹.mulVec fun i => Spec.sampleCov 1 xs i.succ 0)) i = _
      rw [Matrix.mulVec_mulVec, Matrix.mul_nonsing_inv _ (isUnit_iff_ne_zero.mpr hdet), Matrix.one_mulVec]
  have hupd : t.update (.mat ⟨_, X⟩) =
      (.ok (), { t with cov := c, nSamples := c.n, alpha := .val b }) := by
    unfold CVEst.update
    simp only [hu, hC]
    simp only [h4, hs, if_true, hal]
  rw [hupd]
  refine ⟨rfl, Spec.sampleMean xs 0 - ∑ j, b j * Spec.sampleMean xs j.succ, b, rfl, ?_, ?_, ?_⟩
  · have hcn : c.n ≠ 0 := by rw [ic.n]; omega
    simp only [CVEst.estimate, hcn, if_false, ic.nan, Bool.false_eq_true, ic.mean_eq hx, h3]
    congr 2
    simp only [mul_sub, Finset.sum_sub_distrib, hs]
    ring
  · intro a' b'
    rw [rss_eq xs hn b hb a' b']
    exact le_add_of_nonneg_right (Finset.sum_nonneg fun t _ => sq_nonneg _)
  · intro a' b' hle
    rw [rss_eq xs hn b hb a' b'] at hle
    have h0 : ∑ t : Fin xs.length, ((Spec.sampleMean xs 0 - ∑ j, b j * Spec.sampleMean xs j.succ - a') + ∑ i, (b i - b' i) * xs[t] i.succ) ^ 2 = 0 :=
      le_antisymm (by linarith) (Finset.sum_nonneg fun t _ => sq_nonneg _)
    rw [Finset.sum_eq_zero_iff_of_nonneg fun t _ => sq_nonneg _] at h0
    set m := Spec.sampleMean xs with hm
    have h5 : ∀ t : Fin xs.length, (m 0 - ∑ j, b j * m j.succ - a') + ∑ i, (b i - b' i) * xs[t] i.succ = 0 := fun t => by
      have := h0 t (Finset.mem_univ t)
      exact pow_eq_zero_iff (by norm_num) |>.1 this
    have hlen1 : (xs.length : ℝ) - 1 ≠ 0 := by
      have : (2 : ℝ) ≤ xs.length := by exact_mod_cast hn
      linarith
    have hlen : (xs.length : ℝ) ≠ 0 := by exact_mod_cast (by omega : xs.length ≠ 0)
    have h6 : (m 0 - ∑ j, b j * m j.succ - a') + ∑ i, (b i - b' i) * m i.succ = 0 := by
      have e : ∑ t : Fin xs.length, ((m 0 - ∑ j, b j * m j.succ - a') + ∑ i, (b i - b' i) * xs[t] i.succ) =
          xs.length * ((m 0 - ∑ j, b j * m j.succ - a') + ∑ i, (b i - b' i) * m i.succ) + ∑ i, (b i - b' i) * ∑ t : Fin xs.length, (xs[t] (Fin.succ i) - m i.succ) := by
        simp only [Finset.mul_sum]
        rw [Finset.sum_comm, mul_add, Finset.sum_add_distrib, Finset.sum_const, Finset.card_univ, Fintype.card_fin, nsmul_eq_mul, add_assoc]
        congr 1
        have : (xs.length : ℝ) * ∑ i, (b i - b' i) * m i.succ = ∑ t : Fin xs.length, ∑ i, (b i - b' i) * m i.succ := by
          rw [Finset.sum_const, Finset.card_univ, Fintype.card_fin, nsmul_eq_mul]
        rw [this, ← Finset.sum_add_distrib]
        refine Finset.sum_congr rfl fun t _ => ?_
        rw [← Finset.sum_add_distrib]
        exact Finset.sum_congr rfl fun i _ => by ring
      have e2 : ∑ i, (b i - b' i) * ∑ t : Fin xs.length, (xs[t] (Fin.succ i) - m i.succ) = 0 := Finset.sum_eq_zero fun i _ => by
        rw [centred xs (by omega), mul_zero]
      rw [Finset.sum_eq_zero fun t _ => h5 t, e2, add_zero] at e
      exact (mul_eq_zero.1 e.symm).resolve_left hlen
    have h7 : ∀ t : Fin xs.length, ∑ i, (b i - b' i) * (xs[t] (Fin.succ i) - m i.succ) = 0 := fun t => by
      have := h5 t
      simp only [mul_sub, Finset.sum_sub_distrib] at this h6 ⊢
      linarith
    have h8 : (Spec.controlCov xs).mulVec (fun i => b i - b' i) = 0 := by
      funext i
      have e : (Spec.controlCov xs).mulVec (fun i => b i - b' i) i * (xs.length - 1) = ∑ t : Fin xs.length, (xs[t] i.succ - m i.succ) * ∑ j, (b j - b' j) * (xs[t] (Fin.succ j) - m j.succ) := by
        simp only [Finset.mul_sum]
        rw [Finset.sum_comm]
        show (∑ j, Spec.sampleCov 1 xs i.succ j.succ * (b j - b' j)) * _ = _
        rw [Finset.sum_mul]
        refine Finset.sum_congr rfl fun j _ => ?_
        have := centred_cov xs hn i.succ j.succ
        rw [mul_right_comm, ← this, Finset.sum_mul]
        exact Finset.sum_congr rfl fun t _ => by ring
      rw [Finset.sum_eq_zero fun t _ => by rw [h7 t, mul_zero]] at e
      exact (mul_eq_zero.1 e).resolve_right hlen1
    have h9 := Matrix.eq_zero_of_mulVec_eq_zero hdet h8
    have h10 : ∀ i, b i - b' i = 0 := fun i => congrFun h9 i
    refine ⟨?_, funext fun i => by linarith [h10 i]⟩
    have h11 : ∑ i, (b i - b' i) * m i.succ = 0 := Finset.sum_eq_zero fun i _ => by rw [h10 i, zero_mul]
    linarith

/-- The observations `y - alpha . (c - E[c])` that control variates average. -/
noncomputable def Spec.adjusted (ecv : Fin k → ℝ) (α : Fin k → ℝ) (xs : List (Fin (k + 1) → ℝ)) : List ℝ := xs.map fun x => x 0 - ∑ i, α i * (x i.succ - ecv i)

/-- Sum of squared deviations from the mean. -/
noncomputable def Spec.spread (l : List ℝ) : ℝ := (l.map fun y => (y - l.sum / l.length) ^ 2).sum

theorem spread_adjusted (ecv α : Fin k → ℝ) (xs : List (Fin (k + 1) → ℝ)) :
    Spec.spread (Spec.adjusted ecv α xs) = Spec.rss xs ((Spec.adjusted ecv α xs).sum / xs.length - ∑ i, α i * ecv i) α := by
  unfold Spec.spread Spec.rss
  have hl : (Spec.adjusted ecv α xs).length = xs.length := by simp [Spec.adjusted]
  rw [hl]
  generalize (Spec.adjusted ecv α xs).sum / (xs.length : ℝ) = m
  unfold Spec.adjusted
  rw [List.map_map]
  congr 1
  refine List.map_congr_left fun x _ => ?_
  simp only [Function.comp_apply, mul_sub, Finset.sum_sub_distrib]
  ring

/-- **C150**: the estimate is the mean of the observations adjusted with the estimated coefficients, and no other coefficients give adjusted observations with a smaller sample variance; in
particular it is not larger than that of the observations `y`. -/
theorem C150_smallest_variance (ecv : List ℝ) (hk : ecv ≠ []) (record : Bool) (Xs : List (List (Fin (ecv.length + 1) → ℝ))) (X : List (Fin (ecv.length + 1) → ℝ))
    (hne : ∀ Y ∈ Xs, Y ≠ []) (hX : X ≠ []) (hn : 2 ≤ (Xs.flatten ++ X).length) (hdet : (Spec.controlCov (Xs.flatten ++ X)).det ≠ 0) :
    ∃ s, CVEst.init ecv none record = .ok s ∧
      let s' := (s.runCatching (Xs.map fun X => .mat ⟨_, X⟩)).update (.mat ⟨_, X⟩)
      ∃ α, s'.2.alpha = .val α ∧ s'.2.estimate = .ok (.val ((Spec.adjusted ecv.get α (Xs.flatten ++ X)).sum / (Xs.flatten ++ X).length)) ∧
        (∀ α', Spec.spread (Spec.adjusted ecv.get α (Xs.flatten ++ X)) ≤ Spec.spread (Spec.adjusted ecv.get α' (Xs.flatten ++ X))) ∧
        Spec.spread (Spec.adjusted ecv.get α (Xs.flatten ++ X)) ≤ Spec.spread ((Xs.flatten ++ X).map fun x => x 0) := by
  obtain ⟨s, hs, -, a, b, h1, h2, h3, h4⟩ := C150_least_squares ecv hk record Xs X hne hX hn hdet
  refine ⟨s, hs, b, h1, ?_⟩
  set xs := Xs.flatten ++ X with hxs
  have hlen : (xs.length : ℝ) ≠ 0 := by exact_mod_cast (by omega : xs.length ≠ 0)
  -- the intercept is the mean of the residuals
  have hmean : (Spec.adjusted ecv.get b xs).sum / xs.length = a + ∑ i, b i * ecv.get i := by
    have key : Spec.rss xs ((Spec.adjusted ecv.get b xs).sum / xs.length - ∑ i, b i * ecv.get i) b ≤ Spec.rss xs a b := by
      have e : ∀ c, Spec.rss xs c b = xs.length * (c - ((Spec.adjusted ecv.get b xs).sum / xs.length - ∑ i, b i * ecv.get i)) ^ 2 +
          Spec.rss xs ((Spec.adjusted ecv.get b xs).sum / xs.length - ∑ i, b i * ecv.get i) b := by
        intro c
        set m := (Spec.adjusted ecv.get b xs).sum / (xs.length : ℝ) - ∑ i, b i * ecv.get i with hm
        have hz : ∑ t : Fin xs.length, (xs[t] 0 - (m + ∑ i, b i * xs[t] i.succ)) = 0 := by
          have e1 : (Spec.adjusted ecv.get b xs).sum = ∑ t : Fin xs.length, (xs[t] 0 - ∑ i, b i * (xs[t] (Fin.succ i) - ecv.get i)) := list_sum_fin xs _
          have e2 : ∀ t : Fin xs.length, xs[t] 0 - (m + ∑ i, b i * xs[t] i.succ) = (xs[t] 0 - ∑ i, b i * (xs[t] (Fin.succ i) - ecv.get i)) - (Spec.adjusted ecv.get b xs).sum / (xs.length : ℝ) := by
            intro t
            rw [hm]
            simp only [mul_sub, Finset.sum_sub_distrib]
            ring
          rw [Finset.sum_congr rfl fun t _ => e2 t, Finset.sum_sub_distrib, ← e1, Finset.sum_const, Finset.card_univ, Fintype.card_fin, nsmul_eq_mul]
          field_simp
          ring
        unfold Spec.rss
        rw [list_sum_fin, list_sum_fin]
        have e3 : ∀ t : Fin xs.length, (xs[t] 0 - (c + ∑ i, b i * xs[t] i.succ)) ^ 2 =
            (c - m) ^ 2 + ((-2 * (c - m)) * (xs[t] 0 - (m + ∑ i, b i * xs[t] i.succ)) + (xs[t] 0 - (m + ∑ i, b i * xs[t] i.succ)) ^ 2) := fun t => by ring
        rw [Finset.sum_congr rfl fun t _ => e3 t, Finset.sum_add_distrib, Finset.sum_add_distrib, ← Finset.mul_sum, hz, mul_zero, zero_add, Finset.sum_const, Finset.card_univ, Fintype.card_fin,
          nsmul_eq_mul]
      rw [e a]
      exact le_add_of_nonneg_left (by positivity)
    have := (h4 _ _ key).1
    linarith
  have hmin : ∀ α', Spec.spread (Spec.adjusted ecv.get b xs) ≤ Spec.spread (Spec.adjusted ecv.get α' xs) := by
    intro α'
    rw [spread_adjusted, spread_adjusted, hmean, add_sub_cancel_right]
    exact h3 _ _
  refine ⟨by rw [hmean]; exact h2, hmin, ?_⟩
  have := hmin fun _ => 0
  simpa [Spec.adjusted] using this

/-- Concrete case: one control variate with mean 0; the points `(c, y) = (-1, 0), (0, 3), (2, 3)` are fitted best by `y = 12/7 + 6/7 c`. -/
example : ∃ s, CVEst.init [0] none false = .ok s ∧ (s.update (.mat ⟨2, [![0, -1], ![3, 0], ![3, 2]]⟩)).2.estimate = .ok (.val (12 / 7)) := by
  obtain ⟨s, h, -, a, b, -, h2, -, h4⟩ := C150_least_squares [0] (by simp) false [] [![0, -1], ![3, 0], ![3, 2]] (by simp) (by simp) (by simp) (by
    rw [Matrix.det_fin_one (A := Spec.controlCov (k := 1) _)]
    norm_num [Spec.controlCov, Spec.sampleCov, Spec.sampleMean])
  refine ⟨s, h, h2.trans ?_⟩
  obtain ⟨e1, e2⟩ := h4 (12 / 7) (fun _ => 6 / 7) (by
    simp only [List.flatten_nil, List.nil_append, Spec.rss, List.map_cons, List.map_nil, List.sum_cons, List.sum_nil, List.length_singleton, Fin.sum_univ_one]
    norm_num
    have : ∀ p q : ℝ, 18 / 7 ≤ (-(p + -q)) ^ 2 + ((3 - p) ^ 2 + (3 - (p + q * 2)) ^ 2) := fun p q => by
      nlinarith [sq_nonneg (p - 12 / 7 + (q - 6 / 7) / 3), sq_nonneg (q - 6 / 7)]
    have h := this a (b 0)
    rwa [show b 0 + -a = -(a + -b 0) by ring])
  rw [← e1]
  simp

end Primate
