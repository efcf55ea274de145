import Verif.Props.Variance
import Verif.Props.Hutchpp
import Verif.Props.SLQ
import Verif.Lemmas.Ritz
import Mathlib.Analysis.SpecialFunctions.Trigonometric.Series
import Mathlib.Analysis.Convex.SpecificFunctions.Basic
import Mathlib.Algebra.BigOperators.Ring.Finset

/-! # Property C110: exponential tail of the Rademacher trace estimator -/

noncomputable section

namespace Primate

open Matrix

variable {N : ℕ}

/-- Hoeffding's lemma for a finite family with mean zero and values in `[-B, B]`. -/
theorem hoeffding_mgf {ι : Type} [Fintype ι] (X : ι → ℝ) (B : ℝ) (hB : 0 < B) (hX : ∀ i, |X i| ≤ B) (h0 : ∑ i, X i = 0) (s : ℝ) :
    ∑ i, Real.exp (s * X i) ≤ Fintype.card ι * Real.exp (s ^ 2 * B ^ 2 / 2) := by
  have h1 : ∀ i, Real.exp (s * X i) ≤ (B + X i) / (2 * B) * Real.exp (s * B) + (B - X i) / (2 * B) * Real.exp (-(s * B)) := by
    intro i
    have h2 := abs_le.1 (hX i)
    have ha : 0 ≤ (B + X i) / (2 * B) := div_nonneg (by linarith) (by linarith)
    have hb : 0 ≤ (B - X i) / (2 * B) := div_nonneg (by linarith) (by linarith)
    have hc := convexOn_exp.2 (Set.mem_univ (s * B)) (Set.mem_univ (-(s * B))) ha hb (by field_simp; ring)
    simp only [smul_eq_mul] at hc
    refine le_trans (le_of_eq ?_) hc
    congr 1
    field_simp
    ring
  refine (Finset.sum_le_sum fun i _ => h1 i).trans ?_
  have h2 : ∑ i, ((B + X i) / (2 * B) * Real.exp (s * B) + (B - X i) / (2 * B) * Real.exp (-(s * B))) =
      Fintype.card ι * Real.cosh (s * B) := by
    rw [Finset.sum_add_distrib, ← Finset.sum_mul, ← Finset.sum_mul, ← Finset.sum_div, ← Finset.sum_div, Finset.sum_add_distrib,
      Finset.sum_sub_distrib, h0, Finset.sum_const, Finset.card_univ, nsmul_eq_mul, Real.cosh_eq]
    field_simp
    ring
  rw [h2]
  refine mul_le_mul_of_nonneg_left ?_ (Nat.cast_nonneg _)
  have := Real.cosh_le_exp_half_sq (s * B)
  rwa [mul_pow] at this

/-- One-sided tail of the mean of `k` independent copies. -/
theorem hoeffding_tail {ι : Type} [Fintype ι] (X : ι → ℝ) (B : ℝ) (hB : 0 < B) (hX : ∀ i, |X i| ≤ B) (h0 : ∑ i, X i = 0) (k : ℕ)
    (ε : ℝ) (hε : 0 < ε) :
    ((Finset.univ.filter fun ω : Fin k → ι => k * ε ≤ ∑ t, X (ω t)).card : ℝ) ≤
      (Fintype.card ι : ℝ) ^ k * Real.exp (-(k * ε ^ 2 / (2 * B ^ 2))) := by
  obtain ⟨s, hs⟩ : ∃ s, s = ε / B ^ 2 := ⟨_, rfl⟩
  have hs0 : 0 < s := by rw [hs]; positivity
  have h1 : ((Finset.univ.filter fun ω : Fin k → ι => k * ε ≤ ∑ t, X (ω t)).card : ℝ) ≤
      ∑ ω : Fin k → ι, Real.exp (s * (∑ t, X (ω t)) - s * (k * ε)) := by
    rw [Finset.card_eq_sum_ones, Nat.cast_sum, Finset.sum_filter]
    refine Finset.sum_le_sum fun ω _ => ?_
    split_ifs with h
    · rw [Nat.cast_one, ← Real.exp_zero]
      refine Real.exp_le_exp.2 ?_
      rw [← mul_sub]
      exact mul_nonneg hs0.le (by linarith)
    · exact (Real.exp_pos _).le
  refine h1.trans ?_
  have h2 : ∀ ω : Fin k → ι, Real.exp (s * (∑ t, X (ω t)) - s * (k * ε)) = (∏ t, Real.exp (s * X (ω t))) * Real.exp (-(s * (k * ε))) := by
    intro ω
    rw [← Real.exp_sum, ← Real.exp_add, Finset.mul_sum, sub_eq_add_neg]
  simp only [h2, ← Finset.sum_mul]
  have h3 : ∑ ω : Fin k → ι, ∏ t, Real.exp (s * X (ω t)) = (∑ i, Real.exp (s * X i)) ^ k := by
    classical
    have := Fintype.prod_sum (κ := fun _ : Fin k => ι) fun _ i => Real.exp (s * X i)
    rw [← this]
    simp
  rw [h3]
  have h4 := pow_le_pow_left₀ (Finset.sum_nonneg fun i _ => (Real.exp_pos _).le) (hoeffding_mgf X B hB hX h0 s) k
  refine (mul_le_mul_of_nonneg_right h4 (Real.exp_pos _).le).trans (le_of_eq ?_)
  rw [mul_pow, ← Real.exp_nat_mul, mul_assoc, ← Real.exp_add]
  congr 2
  rw [hs]
  field_simp
  ring

/-- The same from both sides. -/
theorem hoeffding_two_sided {ι : Type} [Fintype ι] (X : ι → ℝ) (B : ℝ) (hB : 0 < B) (hX : ∀ i, |X i| ≤ B) (h0 : ∑ i, X i = 0) (k : ℕ)
    (hk : 0 < k) (ε : ℝ) (hε : 0 < ε) :
    ((Finset.univ.filter fun ω : Fin k → ι => ε ≤ |(∑ t, X (ω t)) / k|).card : ℝ) ≤
      2 * (Fintype.card ι : ℝ) ^ k * Real.exp (-(k * ε ^ 2 / (2 * B ^ 2))) := by
  classical
  have hk' : (0 : ℝ) < k := by exact_mod_cast hk
  have h1 := hoeffding_tail X B hB hX h0 k ε hε
  have h2 := hoeffding_tail (fun i => - X i) B hB (fun i => by rw [abs_neg]; exact hX i) (by simp [h0]) k ε hε
  have h3 : (Finset.univ.filter fun ω : Fin k → ι => ε ≤ |(∑ t, X (ω t)) / k|) ⊆
      (Finset.univ.filter fun ω : Fin k → ι => k * ε ≤ ∑ t, X (ω t)) ∪ (Finset.univ.filter fun ω : Fin k → ι => k * ε ≤ ∑ t, - X (ω t)) := by
    intro ω hω
    simp only [Finset.mem_union, Finset.mem_filter, Finset.mem_univ, true_and, Finset.sum_neg_distrib] at hω ⊢
    rcases le_abs.1 hω with h | h
    · left
      rw [le_div_iff₀ hk'] at h
      linarith
    · right
      rw [← neg_div, le_div_iff₀ hk'] at h
      linarith
  have h4 : ((Finset.univ.filter fun ω : Fin k → ι => ε ≤ |(∑ t, X (ω t)) / k|).card : ℝ) ≤
      ((Finset.univ.filter fun ω : Fin k → ι => k * ε ≤ ∑ t, X (ω t)).card : ℝ) +
      ((Finset.univ.filter fun ω : Fin k → ι => k * ε ≤ ∑ t, - X (ω t)).card : ℝ) := by
    have := (Finset.card_le_card h3).trans (Finset.card_union_le _ _)
    exact_mod_cast this
  linarith

/-- The share of the sign patterns whose mean of quadratic forms is off by `ε` or more. -/
theorem signs_tail (A : Matrix (Fin N) (Fin N) ℝ) (k : ℕ) (hk : 0 < k) (B : ℝ) (hB : 0 < B)
    (hdev : ∀ x : Vec N, (∀ i, x i = 1 ∨ x i = -1) → |Spec.quad A x - A.trace| ≤ B) (ε : ℝ) (hε : 0 < ε) :
    ((Finset.univ.filter fun ω : Fin k × Fin N → Bool => ε ≤ |(∑ t : Fin k, Spec.quad A fun i => sgn (ω (t, i))) / k - A.trace|).card : ℝ) /
      2 ^ (k * N) ≤ 2 * Real.exp (-(k * ε ^ 2 / (2 * B ^ 2))) := by
  classical
  have hk' : (k : ℝ) ≠ 0 := by exact_mod_cast hk.ne'
  obtain ⟨X, hX⟩ : ∃ X : (Fin N → Bool) → ℝ, X = fun x => (Spec.quad A fun i => sgn (x i)) - A.trace := ⟨_, rfl⟩
  have hXB : ∀ x, |X x| ≤ B := by
    intro x
    rw [hX]
    refine hdev _ fun i => ?_
    cases x i <;> simp [sgn]
  have hX0 : ∑ x, X x = 0 := by
    rw [hX]
    simp only [quad_sub_trace]
    rw [Finset.sum_comm]
    refine Finset.sum_eq_zero fun i _ => ?_
    rw [Finset.sum_comm]
    refine Finset.sum_eq_zero fun j _ => ?_
    split_ifs with hij
    · simp
    · refine sum_signs_flip i _ fun ω => ?_
      rw [sgn_flip, sgn_flip, if_pos rfl, if_neg (Ne.symm hij)]
      ring
  have h1 := hoeffding_two_sided X B hB hXB hX0 k hk ε hε
  have h2 : (Finset.univ.filter fun ω : Fin k × Fin N → Bool => ε ≤ |(∑ t : Fin k, Spec.quad A fun i => sgn (ω (t, i))) / k - A.trace|).card =
      (Finset.univ.filter fun ω : Fin k → Fin N → Bool => ε ≤ |(∑ t, X (ω t)) / k|).card := by
    refine Finset.card_bij (fun ω _ t i => ω (t, i)) ?_ ?_ ?_
    · intro ω hω
      simp only [Finset.mem_filter, Finset.mem_univ, true_and] at hω ⊢
      refine hω.trans (le_of_eq ?_)
      rw [hX]
      simp only [Finset.sum_sub_distrib, Finset.sum_const, Finset.card_univ, Fintype.card_fin, nsmul_eq_mul]
      congr 1
      field_simp
    · intro ω _ ω' _ h
      funext ⟨t, i⟩
      exact congrFun (congrFun h t) i
    · intro ω hω
      refine ⟨fun p => ω p.1 p.2, ?_, rfl⟩
      simp only [Finset.mem_filter, Finset.mem_univ, true_and] at hω ⊢
      refine hω.trans (le_of_eq ?_)
      rw [hX]
      simp only [Finset.sum_sub_distrib, Finset.sum_const, Finset.card_univ, Fintype.card_fin, nsmul_eq_mul]
      congr 1
      field_simp
  rw [h2, div_le_iff₀ (by positivity)]
  refine h1.trans (le_of_eq ?_)
  simp only [Fintype.card_fun, Fintype.card_bool, Fintype.card_fin, Nat.cast_pow, Nat.cast_ofNat]
  rw [← pow_mul, mul_comm N k]
  ring

/-- **C110**: let `rngs ω` follow the bit patterns `ω` as in C22, and let `B` bound the deviation of a single sample from the trace.  The share of
the equally likely bit patterns for which the value returned by `hutch` with `CountCriterion(k)` is off by `ε` or more is at most
`2 exp(-k ε² / (2 B²))`. -/
theorem C110_tail (tppf : ℝ → ℕ → ℝ) (zscore : ℝ → ℝ) (A : Matrix (Fin N) (Fin N) ℝ) (hN : N ≠ 0)
    (k : ℕ) (hk : 0 < k) (rngs : (Fin k × Fin N → Bool) → Rng)
    (hu : ∀ ω (t : Fin k) (i : Fin N),
      if ω (t, i) then 1/2 ≤ (rngs ω).unif (t * N + i) ∧ (rngs ω).unif (t * N + i) < 1
      else 0 ≤ (rngs ω).unif (t * N + i) ∧ (rngs ω).unif (t * N + i) < 1/2)
    (B : ℝ) (hB : 0 < B) (hdev : ∀ x : Vec N, (∀ i, x i = 1 ∨ x i = -1) → |Spec.quad A x - A.trace| ≤ B) (ε : ℝ) (hε : 0 < ε) :
    ∃ est : (Fin k × Fin N → Bool) → ℝ,
      (∀ ω, hutch tppf zscore (rngs ω) (scalarArgs A (.name "rademacher") k) (k + 1) =
        some (.ok (.scalar (.val fun _ => est ω), []))) ∧
      ((Finset.univ.filter fun ω => ε ≤ |est ω - A.trace|).card : ℝ) / 2 ^ (k * N) ≤ 2 * Real.exp (-(k * ε ^ 2 / (2 * B ^ 2))) := by
  refine ⟨fun ω => (∑ t : Fin k, Spec.quad A fun i => sgn (ω (t, i))) / k, fun ω =>
    hutch_rademacher_signs tppf zscore A hN k hk rngs hu ω, signs_tail A k hk B hB hdev ε hε⟩

/-- **C110** in terms of the entries: a single sample deviates from the trace by at most the sum of the off-diagonal absolute values. -/
theorem C110_tail_entries (tppf : ℝ → ℕ → ℝ) (zscore : ℝ → ℝ) (A : Matrix (Fin N) (Fin N) ℝ) (hN : N ≠ 0)
    (k : ℕ) (hk : 0 < k) (rngs : (Fin k × Fin N → Bool) → Rng)
    (hu : ∀ ω (t : Fin k) (i : Fin N),
      if ω (t, i) then 1/2 ≤ (rngs ω).unif (t * N + i) ∧ (rngs ω).unif (t * N + i) < 1
      else 0 ≤ (rngs ω).unif (t * N + i) ∧ (rngs ω).unif (t * N + i) < 1/2)
    (B : ℝ) (hB : B = ∑ i, ∑ j, if i = j then 0 else |A i j|) (hB0 : 0 < B) (ε : ℝ) (hε : 0 < ε) :
    ∃ est : (Fin k × Fin N → Bool) → ℝ,
      (∀ ω, hutch tppf zscore (rngs ω) (scalarArgs A (.name "rademacher") k) (k + 1) =
        some (.ok (.scalar (.val fun _ => est ω), []))) ∧
      ((Finset.univ.filter fun ω => ε ≤ |est ω - A.trace|).card : ℝ) / 2 ^ (k * N) ≤ 2 * Real.exp (-(k * ε ^ 2 / (2 * B ^ 2))) := by
  refine C110_tail tppf zscore A hN k hk rngs hu B hB0 (fun x hx => ?_) ε hε
  have hx' : x = fun i => sgn (decide (x i = 1)) := by
    funext i
    rcases hx i with h | h <;> simp [h, sgn]
  rw [hx', quad_sub_trace, hB]
  refine (Finset.abs_sum_le_sum_abs _ _).trans (Finset.sum_le_sum fun i _ => ?_)
  refine (Finset.abs_sum_le_sum_abs _ _).trans (Finset.sum_le_sum fun j _ => ?_)
  split_ifs
  · simp
  · rw [abs_mul, abs_mul]
    have hs : ∀ b, |sgn b| = 1 := by intro b; cases b <;> simp [sgn]
    rw [hs, hs]
    simp

/-- **C110** in terms of the spectrum: with all eigenvalues in `[lo, hi]`, the deviation of a sample is at most `N (hi - lo)`. -/
theorem C110_tail_spectrum (tppf : ℝ → ℕ → ℝ) (zscore : ℝ → ℝ) (A : Matrix (Fin N) (Fin N) ℝ) (hN : N ≠ 0)
    (lam : Fin N → ℝ) (U : Matrix (Fin N) (Fin N) ℝ) (hU : Spec.Eigen A lam U) (lo hi : ℝ) (hlo : ∀ i, lo ≤ lam i) (hhi : ∀ i, lam i ≤ hi)
    (hlt : lo < hi) (k : ℕ) (hk : 0 < k) (rngs : (Fin k × Fin N → Bool) → Rng)
    (hu : ∀ ω (t : Fin k) (i : Fin N),
      if ω (t, i) then 1/2 ≤ (rngs ω).unif (t * N + i) ∧ (rngs ω).unif (t * N + i) < 1
      else 0 ≤ (rngs ω).unif (t * N + i) ∧ (rngs ω).unif (t * N + i) < 1/2) (ε : ℝ) (hε : 0 < ε) :
    ∃ est : (Fin k × Fin N → Bool) → ℝ,
      (∀ ω, hutch tppf zscore (rngs ω) (scalarArgs A (.name "rademacher") k) (k + 1) =
        some (.ok (.scalar (.val fun _ => est ω), []))) ∧
      ((Finset.univ.filter fun ω => ε ≤ |est ω - A.trace|).card : ℝ) / 2 ^ (k * N) ≤
        2 * Real.exp (-(k * ε ^ 2 / (2 * (N * (hi - lo)) ^ 2))) := by
  have hN' : (0 : ℝ) < N := by exact_mod_cast Nat.pos_of_ne_zero hN
  refine C110_tail tppf zscore A hN k hk rngs hu (N * (hi - lo)) (mul_pos hN' (by linarith)) (fun x hx => ?_) ε hε
  have hU' := isEigh_iff_eigen.mpr hU
  have hxx : x ⬝ᵥ x = N := by
    have : ∀ i, x i * x i = 1 := fun i => by rcases hx i with h | h <;> rw [h] <;> norm_num
    simp [dotProduct, this]
  have h1 := quadForm_bounds hU' lo hi hlo hhi x
  rw [hxx, ← quad_eq_dot] at h1
  have h2 : A.trace = ∑ i, lam i := by
    conv_lhs => rw [← hU'.matFun_id]
    exact matFun_trace A lam U hU _
  have h3 : lo * N ≤ A.trace := by
    rw [h2]
    refine le_trans (le_of_eq ?_) (Finset.sum_le_sum fun i _ => hlo i)
    simp [mul_comm]
  have h4 : A.trace ≤ hi * N := by
    rw [h2]
    refine (Finset.sum_le_sum fun i _ => hhi i).trans (le_of_eq ?_)
    simp [mul_comm]
  rw [abs_le]
  constructor <;> linarith [h1.1, h1.2]

/-- **C110** read as a rule for the number of samples: with `k ≥ 2 B² ln(2/δ) / ε²` samples the share of bit patterns for which the estimate is off
by `ε` or more is at most `δ`. -/
theorem C110_sample_size (tppf : ℝ → ℕ → ℝ) (zscore : ℝ → ℝ) (A : Matrix (Fin N) (Fin N) ℝ) (hN : N ≠ 0)
    (k : ℕ) (hk : 0 < k) (rngs : (Fin k × Fin N → Bool) → Rng)
    (hu : ∀ ω (t : Fin k) (i : Fin N),
      if ω (t, i) then 1/2 ≤ (rngs ω).unif (t * N + i) ∧ (rngs ω).unif (t * N + i) < 1
      else 0 ≤ (rngs ω).unif (t * N + i) ∧ (rngs ω).unif (t * N + i) < 1/2)
    (B : ℝ) (hB : 0 < B) (hdev : ∀ x : Vec N, (∀ i, x i = 1 ∨ x i = -1) → |Spec.quad A x - A.trace| ≤ B) (ε : ℝ) (hε : 0 < ε)
    (δ : ℝ) (hδ : 0 < δ) (hsize : 2 * B ^ 2 * Real.log (2 / δ) / ε ^ 2 ≤ k) :
    ∃ est : (Fin k × Fin N → Bool) → ℝ,
      (∀ ω, hutch tppf zscore (rngs ω) (scalarArgs A (.name "rademacher") k) (k + 1) =
        some (.ok (.scalar (.val fun _ => est ω), []))) ∧
      ((Finset.univ.filter fun ω => ε ≤ |est ω - A.trace|).card : ℝ) / 2 ^ (k * N) ≤ δ := by
  obtain ⟨est, h1, h2⟩ := C110_tail tppf zscore A hN k hk rngs hu B hB hdev ε hε
  refine ⟨est, h1, h2.trans ?_⟩
  have h3 : Real.log (2 / δ) ≤ k * ε ^ 2 / (2 * B ^ 2) := by
    rw [div_le_iff₀ (by positivity)] at hsize
    rw [le_div_iff₀ (by positivity)]
    linarith
  have h4 : Real.exp (-(k * ε ^ 2 / (2 * B ^ 2))) ≤ δ / 2 := by
    rw [Real.exp_neg]
    have h5 : 2 / δ ≤ Real.exp (k * ε ^ 2 / (2 * B ^ 2)) := by
      rw [← Real.exp_log (show 0 < 2 / δ by positivity)]
      exact Real.exp_le_exp.2 h3
    calc (Real.exp (k * ε ^ 2 / (2 * B ^ 2)))⁻¹ ≤ (2 / δ)⁻¹ := inv_anti₀ (by positivity) h5
      _ = δ / 2 := by rw [inv_div]
  linarith

/-- For the matrix with ones off the diagonal and `N = 2`, one sample is `±2` away from the trace 0: `B = 2`, and with 20 samples the estimate is off by
2 or more for at most a share `2 exp(-10)` of the patterns. -/
example (tppf : ℝ → ℕ → ℝ) (zscore : ℝ → ℝ) :
    ∃ rngs : (Fin 20 × Fin 2 → Bool) → Rng, ∃ est : (Fin 20 × Fin 2 → Bool) → ℝ,
      (∀ ω, hutch tppf zscore (rngs ω) (scalarArgs !![(0 : ℝ), 1; 1, 0] (.name "rademacher") 20) 21 =
        some (.ok (.scalar (.val fun _ => est ω), []))) ∧
      ((Finset.univ.filter fun ω => (2 : ℝ) ≤ |est ω - (!![(0 : ℝ), 1; 1, 0]).trace|).card : ℝ) / 2 ^ (20 * 2) ≤ 2 * Real.exp (-10) := by
  refine ⟨fun ω => { unif := fun p => if h : p / 2 < 20 then (if ω (⟨p / 2, h⟩, ⟨p % 2, Nat.mod_lt _ (by norm_num)⟩) then 1/2 else 0) else 0,
                     norm := fun _ => 0 }, ?_⟩
  have h := C110_tail_entries (N := 2) tppf zscore !![(0 : ℝ), 1; 1, 0] (by norm_num) 20 (by norm_num)
    (fun ω => { unif := fun p => if h : p / 2 < 20 then (if ω (⟨p / 2, h⟩, ⟨p % 2, Nat.mod_lt _ (by norm_num)⟩) then 1/2 else 0) else 0,
                norm := fun _ => 0 }) (fun ω t i => by
      have h1 : ((t : ℕ) * 2 + i) / 2 = t := by have := i.2; omega
      have h2 : ((t : ℕ) * 2 + i) % 2 = i := by have := i.2; omega
      simp only [h1, h2, t.2, dif_pos, Fin.eta]
      split_ifs <;> norm_num) 2 (by simp [Fin.sum_univ_two]; norm_num) (by norm_num) 2 (by norm_num)
  obtain ⟨est, h1, h2⟩ := h
  refine ⟨est, h1, h2.trans (le_of_eq ?_)⟩
  norm_num

end Primate
