import Verif.Props.HutchMoments
import Mathlib.LinearAlgebra.Matrix.Notation

/-! # Property C96: the variance of the Rademacher estimator -/

namespace Primate

variable {N : ℕ}

section Moments

variable {ι : Type} [Fintype ι] [DecidableEq ι]

/-- A product of signs that changes sign when the bit `a` is flipped sums to zero. -/
theorem sum_signs_flip (a : ι) (f : (ι → Bool) → ℝ) (hf : ∀ ω, f (flipAt a ω) = - f ω) :
    ∑ ω, f ω = 0 := by
  have h1 : ∑ ω, f ω = ∑ ω, f (flipAt a ω) := (Equiv.sum_comp (flipAt a) f).symm
  simp only [hf, Finset.sum_neg_distrib] at h1
  linarith

omit [Fintype ι] in
theorem sgn_flip (a b : ι) (ω : ι → Bool) :
    sgn (flipAt a ω b) = if b = a then - sgn (ω b) else sgn (ω b) := by
  by_cases h : b = a
  · subst h; simp [flipAt, sgn_not]
  · simp [flipAt, h]

/-- Fourth moments of independent signs. -/
theorem sum_signs4 {a b c d : ι} (hab : a ≠ b) (hcd : c ≠ d) :
    ∑ ω : ι → Bool, sgn (ω a) * sgn (ω b) * (sgn (ω c) * sgn (ω d)) =
      if (a = c ∧ b = d) ∨ (a = d ∧ b = c) then (2 : ℝ) ^ Fintype.card ι else 0 := by
  by_cases hac : a = c
  · subst hac
    by_cases hbd : b = d
    · subst hbd
      have : ∀ ω : ι → Bool, sgn (ω a) * sgn (ω b) * (sgn (ω a) * sgn (ω b)) = 1 := by
        intro ω
        rw [mul_mul_mul_comm, sgn_mul_self, sgn_mul_self, one_mul]
      simp [this]
    · rw [if_neg (by rintro (⟨-, h⟩ | ⟨h, -⟩) <;> contradiction)]
      refine sum_signs_flip b _ fun ω => ?_
      simp only [sgn_flip, if_neg hab, if_neg (Ne.symm hbd), if_true]
      ring
  · by_cases had : a = d
    · subst had
      by_cases hbc : b = c
      · subst hbc
        have : ∀ ω : ι → Bool, sgn (ω a) * sgn (ω b) * (sgn (ω b) * sgn (ω a)) = 1 := by
          intro ω
          rw [mul_comm (sgn (ω b)), mul_mul_mul_comm, sgn_mul_self, sgn_mul_self, one_mul]
        simp [this]
      · rw [if_neg (by rintro (⟨h, -⟩ | ⟨-, h⟩) <;> contradiction)]
        refine sum_signs_flip b _ fun ω => ?_
        simp only [sgn_flip, if_neg hab, if_neg (Ne.symm hbc), if_true]
        ring
    · rw [if_neg (by rintro (⟨h, -⟩ | ⟨h, -⟩) <;> contradiction)]
      refine sum_signs_flip a _ fun ω => ?_
      simp only [sgn_flip, if_neg (Ne.symm hab), if_neg (Ne.symm hac), if_neg (Ne.symm had), if_true]
      ring

end Moments

/-- The error of one sample only involves the off-diagonal entries. -/
theorem quad_sub_trace (A : Matrix (Fin N) (Fin N) ℝ) (x : Fin N → Bool) :
    Spec.quad A (fun i => sgn (x i)) - A.trace =
      ∑ i, ∑ j, if i = j then 0 else A i j * (sgn (x i) * sgn (x j)) := by
  unfold Spec.quad Matrix.trace
  rw [← Finset.sum_sub_distrib]
  refine Finset.sum_congr rfl fun i _ => ?_
  rw [Matrix.diag_apply, sub_eq_iff_eq_add, ← Finset.add_sum_erase _ _ (Finset.mem_univ i),
    ← Finset.add_sum_erase (a := i) _ (fun j => if i = j then (0 : ℝ) else _) (Finset.mem_univ i),
    if_pos rfl, zero_add, mul_assoc, sgn_mul_self, mul_one, add_comm]
  congr 1
  refine Finset.sum_congr rfl fun j hj => ?_
  rw [if_neg (Finset.ne_of_mem_erase hj).symm, mul_assoc]

/-- Covariance of the samples number `t` and `s`. -/
theorem sum_cov (k : ℕ) (A : Matrix (Fin N) (Fin N) ℝ) (t s : Fin k) :
    ∑ ω : Fin k × Fin N → Bool, (Spec.quad A (fun i => sgn (ω (t, i))) - A.trace) *
        (Spec.quad A (fun i => sgn (ω (s, i))) - A.trace) =
      if t = s then 2 ^ (k * N) * ∑ i, ∑ j, (if i = j then 0 else A i j * (A i j + A j i)) else 0 := by
  have key : ∀ i j, ∑ ω : Fin k × Fin N → Bool, ∑ p, ∑ q,
      (if i = j then 0 else A i j * (sgn (ω (t, i)) * sgn (ω (t, j)))) *
        (if p = q then 0 else A p q * (sgn (ω (s, p)) * sgn (ω (s, q)))) =
      if i = j then 0 else if t = s then 2 ^ (k * N) * (A i j * (A i j + A j i)) else 0 := by
    intro i j
    by_cases hij : i = j
    · simp [hij]
    simp only [if_neg hij]
    rw [Finset.sum_comm]
    have h1 : ∀ p q, ∑ ω : Fin k × Fin N → Bool,
        (A i j * (sgn (ω (t, i)) * sgn (ω (t, j)))) *
          (if p = q then 0 else A p q * (sgn (ω (s, p)) * sgn (ω (s, q)))) =
        if t = s then 2 ^ (k * N) * (A i j *
          ((if i = p then if j = q then A p q else 0 else 0) +
            (if j = p then if i = q then A p q else 0 else 0))) else 0 := by
      intro p q
      by_cases hpq : p = q
      · subst hpq
        have : ¬ (i = p ∧ j = p) := by rintro ⟨rfl, rfl⟩; exact hij rfl
        by_cases h1 : i = p <;> by_cases h2 : j = p <;> simp_all
      · simp only [if_neg hpq]
        have h2 : ∀ ω : Fin k × Fin N → Bool,
            (A i j * (sgn (ω (t, i)) * sgn (ω (t, j)))) * (A p q * (sgn (ω (s, p)) * sgn (ω (s, q)))) =
            A i j * A p q * (sgn (ω (t, i)) * sgn (ω (t, j)) * (sgn (ω (s, p)) * sgn (ω (s, q)))) := by
          intro ω; ring
        simp only [h2, ← Finset.mul_sum]
        rw [sum_signs4 (by simpa using hij) (by simpa using hpq)]
        simp only [Prod.mk.injEq, Fintype.card_prod, Fintype.card_fin]
        by_cases hts : t = s
        · simp only [hts, true_and, if_true]
          by_cases h3 : i = p
          · subst h3
            by_cases h4 : j = q
            · subst h4
              have : ¬ j = i := fun h => hij h.symm
              simp [this]; ring
            · have : ¬ (i = q) := hpq
              simp [h4, this]
          · by_cases h4 : j = p
            · subst h4
              by_cases h5 : i = q
              · subst h5; simp [h3]; ring
              · simp [h3, h5]
            · simp [h3, h4]
        · simp [hts]
    have h2 : ∀ p, ∑ ω : Fin k × Fin N → Bool, ∑ q,
        (A i j * (sgn (ω (t, i)) * sgn (ω (t, j)))) *
          (if p = q then 0 else A p q * (sgn (ω (s, p)) * sgn (ω (s, q)))) =
        ∑ q, if t = s then 2 ^ (k * N) * (A i j *
          ((if i = p then if j = q then A p q else 0 else 0) +
            (if j = p then if i = q then A p q else 0 else 0))) else 0 := by
      intro p
      rw [Finset.sum_comm]
      exact Finset.sum_congr rfl fun q _ => h1 p q
    simp only [h2]
    split_ifs with hts
    · simp only [← Finset.mul_sum, Finset.sum_add_distrib]
      congr 2
      congr 1
      · rw [Finset.sum_eq_single i (fun p _ hp => by simp [Ne.symm hp]) (by simp)]
        simp
      · rw [Finset.sum_eq_single j (fun p _ hp => by simp [Ne.symm hp]) (by simp)]
        simp
    · simp
  have hprod : ∀ ω : Fin k × Fin N → Bool,
      (Spec.quad A (fun i => sgn (ω (t, i))) - A.trace) *
        (Spec.quad A (fun i => sgn (ω (s, i))) - A.trace) =
      ∑ i, ∑ j, ∑ p, ∑ q, (if i = j then 0 else A i j * (sgn (ω (t, i)) * sgn (ω (t, j)))) *
        (if p = q then 0 else A p q * (sgn (ω (s, p)) * sgn (ω (s, q)))) := by
    intro ω
    rw [quad_sub_trace A (fun i => ω (t, i)), quad_sub_trace A (fun i => ω (s, i))]
    simp only [Finset.sum_mul]
    refine Finset.sum_congr rfl fun i _ => Finset.sum_congr rfl fun j _ => ?_
    simp only [Finset.mul_sum]
  simp only [hprod]
  rw [Finset.sum_comm]
  have h3 : ∀ i, ∑ ω : Fin k × Fin N → Bool, ∑ j, ∑ p, ∑ q,
      (if i = j then 0 else A i j * (sgn (ω (t, i)) * sgn (ω (t, j)))) *
        (if p = q then 0 else A p q * (sgn (ω (s, p)) * sgn (ω (s, q)))) =
      ∑ j, if i = j then 0 else if t = s then 2 ^ (k * N) * (A i j * (A i j + A j i)) else 0 := by
    intro i
    rw [Finset.sum_comm]
    exact Finset.sum_congr rfl fun j _ => key i j
  simp only [h3]
  split_ifs with hts
  · simp only [Finset.mul_sum, mul_ite, mul_zero]
  · simp

/-- Mean squared error of the average of `k` samples over all sign patterns. -/
theorem mse_signs (A : Matrix (Fin N) (Fin N) ℝ) (k : ℕ) (hk : 0 < k) :
    (∑ ω : Fin k × Fin N → Bool, ((∑ t : Fin k, Spec.quad A fun i => sgn (ω (t, i))) / k - A.trace) ^ 2) / 2 ^ (k * N) =
      (∑ i, ∑ j, if i = j then 0 else A i j * (A i j + A j i)) / k := by
  have hk' : (k : ℝ) ≠ 0 := by exact_mod_cast hk.ne'
  have h1 : ∀ ω : Fin k × Fin N → Bool,
      ((∑ t : Fin k, Spec.quad A fun i => sgn (ω (t, i))) / k - A.trace) ^ 2 =
      (∑ t : Fin k, ∑ s : Fin k, (Spec.quad A (fun i => sgn (ω (t, i))) - A.trace) *
        (Spec.quad A (fun i => sgn (ω (s, i))) - A.trace)) / (k : ℝ) ^ 2 := by
    intro ω
    rw [← Finset.sum_mul_sum]
    simp only [Finset.sum_sub_distrib, Finset.sum_const, Finset.card_univ, Fintype.card_fin, nsmul_eq_mul]
    field_simp
  simp only [h1, ← Finset.sum_div]
  rw [Finset.sum_comm]
  have h2 : ∀ t : Fin k, ∑ ω : Fin k × Fin N → Bool, ∑ s : Fin k,
      (Spec.quad A (fun i => sgn (ω (t, i))) - A.trace) *
        (Spec.quad A (fun i => sgn (ω (s, i))) - A.trace) =
      2 ^ (k * N) * ∑ i, ∑ j, (if i = j then 0 else A i j * (A i j + A j i)) := by
    intro t
    rw [Finset.sum_comm]
    simp [sum_cov]
  simp only [h2, Finset.sum_const, Finset.card_univ, Fintype.card_fin, nsmul_eq_mul]
  have : (2 : ℝ) ^ (k * N) ≠ 0 := by positivity
  field_simp

/-- For a symmetric matrix the off-diagonal sum is twice the squared Frobenius norm of the off-diagonal part. -/
theorem offdiag_symmetric (A : Matrix (Fin N) (Fin N) ℝ) (hA : ∀ i j, A i j = A j i) :
    (∑ i, ∑ j, if i = j then 0 else A i j * (A i j + A j i)) = 2 * (∑ i, ∑ j, A i j ^ 2 - ∑ i, A i i ^ 2) := by
  rw [← Finset.sum_sub_distrib, Finset.mul_sum]
  refine Finset.sum_congr rfl fun i _ => ?_
  rw [← Finset.add_sum_erase _ _ (Finset.mem_univ i),
    ← Finset.add_sum_erase _ (fun j => A i j ^ 2) (Finset.mem_univ i), if_pos rfl, zero_add,
    add_sub_cancel_left, Finset.mul_sum]
  refine Finset.sum_congr rfl fun j hj => ?_
  rw [if_neg (Finset.ne_of_mem_erase hj).symm, hA j i]
  ring

/-- **C96**: let `rngs ω` follow the bit patterns `ω` as in C22.  The mean squared error of what `hutch`
returns with `CountCriterion(k)` is exactly the sum of `A_ij (A_ij + A_ji)` over `i ≠ j`, divided by `k`. -/
theorem C96_variance (tppf : ℝ → ℕ → ℝ) (zscore : ℝ → ℝ) (A : Matrix (Fin N) (Fin N) ℝ) (hN : N ≠ 0)
    (k : ℕ) (hk : 0 < k) (rngs : (Fin k × Fin N → Bool) → Rng)
    (hu : ∀ ω (t : Fin k) (i : Fin N),
      if ω (t, i) then 1/2 ≤ (rngs ω).unif (t * N + i) ∧ (rngs ω).unif (t * N + i) < 1
      else 0 ≤ (rngs ω).unif (t * N + i) ∧ (rngs ω).unif (t * N + i) < 1/2) :
    ∃ est : (Fin k × Fin N → Bool) → ℝ,
      (∀ ω, hutch tppf zscore (rngs ω) (scalarArgs A (.name "rademacher") k) (k + 1) =
        some (.ok (.scalar (.val fun _ => est ω), []))) ∧
      (∑ ω, (est ω - A.trace) ^ 2) / 2 ^ (k * N) =
        (∑ i, ∑ j, if i = j then 0 else A i j * (A i j + A j i)) / k := by
  refine ⟨fun ω => (∑ t : Fin k, Spec.quad A fun i => sgn (ω (t, i))) / k, fun ω =>
    hutch_rademacher_signs tppf zscore A hN k hk rngs hu ω, mse_signs A k hk⟩

/-- **C96**: for a symmetric matrix the mean squared error is twice the squared Frobenius norm of the
off-diagonal part, divided by the number of vectors. -/
theorem C96_symmetric (tppf : ℝ → ℕ → ℝ) (zscore : ℝ → ℝ) (A : Matrix (Fin N) (Fin N) ℝ) (hN : N ≠ 0)
    (hA : ∀ i j, A i j = A j i) (k : ℕ) (hk : 0 < k) (rngs : (Fin k × Fin N → Bool) → Rng)
    (hu : ∀ ω (t : Fin k) (i : Fin N),
      if ω (t, i) then 1/2 ≤ (rngs ω).unif (t * N + i) ∧ (rngs ω).unif (t * N + i) < 1
      else 0 ≤ (rngs ω).unif (t * N + i) ∧ (rngs ω).unif (t * N + i) < 1/2) :
    ∃ est : (Fin k × Fin N → Bool) → ℝ,
      (∀ ω, hutch tppf zscore (rngs ω) (scalarArgs A (.name "rademacher") k) (k + 1) =
        some (.ok (.scalar (.val fun _ => est ω), []))) ∧
      (∑ ω, (est ω - A.trace) ^ 2) / 2 ^ (k * N) =
        2 * (∑ i, ∑ j, A i j ^ 2 - ∑ i, A i i ^ 2) / k := by
  obtain ⟨est, h1, h2⟩ := C96_variance tppf zscore A hN k hk rngs hu
  refine ⟨est, h1, ?_⟩
  rw [h2, offdiag_symmetric A hA]

/-- **C96**, consequence: the share of the equally likely bit patterns for which the returned value is off by `ε` or
more is at most the variance over `k ε²`. -/
theorem C96_chebyshev (tppf : ℝ → ℕ → ℝ) (zscore : ℝ → ℝ) (A : Matrix (Fin N) (Fin N) ℝ) (hN : N ≠ 0)
    (hA : ∀ i j, A i j = A j i) (k : ℕ) (hk : 0 < k) (rngs : (Fin k × Fin N → Bool) → Rng)
    (hu : ∀ ω (t : Fin k) (i : Fin N),
      if ω (t, i) then 1/2 ≤ (rngs ω).unif (t * N + i) ∧ (rngs ω).unif (t * N + i) < 1
      else 0 ≤ (rngs ω).unif (t * N + i) ∧ (rngs ω).unif (t * N + i) < 1/2) (ε : ℝ) (hε : 0 < ε) :
    ∃ est : (Fin k × Fin N → Bool) → ℝ,
      (∀ ω, hutch tppf zscore (rngs ω) (scalarArgs A (.name "rademacher") k) (k + 1) =
        some (.ok (.scalar (.val fun _ => est ω), []))) ∧
      ((Finset.univ.filter fun ω => ε ≤ |est ω - A.trace|).card : ℝ) / 2 ^ (k * N) ≤
        2 * (∑ i, ∑ j, A i j ^ 2 - ∑ i, A i i ^ 2) / (k * ε ^ 2) := by
  obtain ⟨est, h1, h2⟩ := C96_symmetric tppf zscore A hN hA k hk rngs hu
  refine ⟨est, h1, ?_⟩
  have hk' : (0 : ℝ) < k := by exact_mod_cast hk
  rw [← div_div, ← h2, div_right_comm]
  refine div_le_div_of_nonneg_right ?_ (by positivity)
  rw [le_div_iff₀ (by positivity), ← nsmul_eq_mul, ← Finset.sum_const]
  refine (Finset.sum_le_sum fun ω hω => ?_).trans
    (Finset.sum_le_sum_of_subset_of_nonneg (Finset.filter_subset _ _) fun ω _ _ => sq_nonneg _)
  rw [Finset.mem_filter] at hω
  rw [← sq_abs (est ω - A.trace)]
  exact pow_le_pow_left₀ hε.le hω.2 2

/-- Non-vacuity: for `[[0, 1], [1, 0]]` and one vector the mean squared error is 4 (the values are 2 and -2). -/
example (tppf : ℝ → ℕ → ℝ) (zscore : ℝ → ℝ) (rngs : (Fin 1 × Fin 2 → Bool) → Rng)
    (hu : ∀ ω (t : Fin 1) (i : Fin 2),
      if ω (t, i) then 1/2 ≤ (rngs ω).unif (t * 2 + i) ∧ (rngs ω).unif (t * 2 + i) < 1
      else 0 ≤ (rngs ω).unif (t * 2 + i) ∧ (rngs ω).unif (t * 2 + i) < 1/2) :
    ∃ est : (Fin 1 × Fin 2 → Bool) → ℝ,
      (∀ ω, hutch tppf zscore (rngs ω)
        (scalarArgs (!![0, 1; 1, 0] : Matrix (Fin 2) (Fin 2) ℝ) (.name "rademacher") 1) 2 =
        some (.ok (.scalar (.val fun _ => est ω), []))) ∧
      (∑ ω, est ω ^ 2) / 2 ^ (1 * 2) = 4 := by
  obtain ⟨est, h1, h2⟩ := C96_variance tppf zscore (!![0, 1; 1, 0] : Matrix (Fin 2) (Fin 2) ℝ) (by norm_num) 1
    one_pos rngs hu
  refine ⟨est, h1, ?_⟩
  have ht : (!![0, 1; 1, 0] : Matrix (Fin 2) (Fin 2) ℝ).trace = 0 := by simp [Matrix.trace]
  simp only [ht, sub_zero] at h2
  rw [h2]
  simp [Fin.sum_univ_two]
  norm_num

end Primate
