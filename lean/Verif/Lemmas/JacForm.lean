import Verif.Lemmas.QuadCheb

/-! The quadratic form of a tridiagonal matrix. -/

noncomputable section

namespace Primate

open Matrix

/-- The quadratic form of the tridiagonal matrix with the diagonal `α` and the coefficients `β 1, β 2, ...` beside it. -/
def tform (α β : ℕ → ℝ) (m : ℕ) (y : ℕ → ℝ) : ℝ :=
  ∑ i ∈ Finset.range m, (α i * y i ^ 2 + 2 * (if i + 1 < m then β (i + 1) * (y i * y (i + 1)) else 0))

theorem tform_eq (α β : ℕ → ℝ) (m : ℕ) (y : ℕ → ℝ) : (fun i : Fin m => y i) ⬝ᵥ (jac α β m *ᵥ fun i : Fin m => y i) = tform α β m y := by
  have e1 : (fun i : Fin m => y i) ⬝ᵥ (jac α β m *ᵥ fun i : Fin m => y i) = ∑ i : Fin m, ∑ j : Fin m,
      (fun a b : ℕ => y a * ((if a = b then α a else 0) + (if b = a + 1 then β (a + 1) else 0) + (if a = b + 1 then β (b + 1) else 0)) * y b) i j := by
    simp only [dotProduct, mulVec, Finset.mul_sum]
    refine Finset.sum_congr rfl fun i _ => Finset.sum_congr rfl fun j _ => ?_
    rw [← mul_assoc]
    congr 2
    simp only [jac, Spec.jacobi, Matrix.of_apply, Fin.ext_iff]
    by_cases h1 : (i : ℕ) = j
    · rw [if_pos h1, if_pos h1, if_neg (by omega), if_neg (by omega), add_zero, add_zero]
    · rw [if_neg h1, if_neg h1, zero_add]
      by_cases h2 : (i : ℕ) + 1 = j
      · rw [if_pos h2, if_pos h2.symm, if_neg (by omega), add_zero]
      · rw [if_neg h2, if_neg (show ¬ (j : ℕ) = i + 1 from fun h => h2 h.symm), zero_add]
        by_cases h3 : (j : ℕ) + 1 = i
        · rw [if_pos h3, if_pos h3.symm]
        · rw [if_neg h3, if_neg (show ¬ (i : ℕ) = j + 1 from fun h => h3 h.symm)]
  have e2 : ∀ g : ℕ → ℕ → ℝ, ∑ i : Fin m, ∑ j : Fin m, g i j = ∑ i ∈ Finset.range m, ∑ j ∈ Finset.range m, g i j := by
    intro g
    rw [← Fin.sum_univ_eq_sum_range (fun i => ∑ j ∈ Finset.range m, g i j)]
    exact Finset.sum_congr rfl fun i _ => Fin.sum_univ_eq_sum_range (g i) m
  refine e1.trans ((e2 fun a b : ℕ => y a * ((if a = b then α a else 0) + (if b = a + 1 then β (a + 1) else 0) + (if a = b + 1 then β (b + 1) else 0)) * y b).trans ?_)
  have e3 : ∀ a b : ℕ, y a * ((if a = b then α a else 0) + (if b = a + 1 then β (a + 1) else 0) + (if a = b + 1 then β (b + 1) else 0)) * y b =
      (if a = b then α a * y a ^ 2 else 0) + (if b = a + 1 then β (a + 1) * (y a * y (a + 1)) else 0) + (if a = b + 1 then β (b + 1) * (y b * y (b + 1)) else 0) := by
    intro a b
    by_cases h1 : a = b
    · subst h1; simp; ring
    · by_cases h2 : b = a + 1
      · subst h2; simp [show ¬ a = a + 1 + 1 by omega]; ring
      · by_cases h3 : a = b + 1
        · subst h3; simp [h2]; ring
        · simp [h1, h2, h3]
  have e4 : ∑ i ∈ Finset.range m, ∑ j ∈ Finset.range m, (if i = j + 1 then β (j + 1) * (y j * y (j + 1)) else 0) =
      ∑ i ∈ Finset.range m, if i + 1 < m then β (i + 1) * (y i * y (i + 1)) else 0 := by
    rw [Finset.sum_comm]
    refine Finset.sum_congr rfl fun i _ => ?_
    rw [Finset.sum_ite_eq']
    simp only [Finset.mem_range]
  have e5 : ∀ i, ∑ j ∈ Finset.range m, (if j = i + 1 then β (i + 1) * (y i * y (i + 1)) else 0) = if i + 1 < m then β (i + 1) * (y i * y (i + 1)) else 0 := by
    intro i
    rw [Finset.sum_ite_eq']
    simp only [Finset.mem_range]
  simp only [e3, Finset.sum_add_distrib, e4, e5]
  unfold tform
  rw [Finset.sum_add_distrib, ← Finset.mul_sum, two_mul, add_assoc]
  congr 1
  refine Finset.sum_congr rfl fun i hi => ?_
  rw [Finset.sum_ite_eq, if_pos hi]

/-- The form lies between `c` and `d` times the squared norm. -/
def FormIn (α β : ℕ → ℝ) (m : ℕ) (c d : ℝ) : Prop :=
  ∀ y : ℕ → ℝ, c * ∑ i ∈ Finset.range m, y i ^ 2 ≤ tform α β m y ∧ tform α β m y ≤ d * ∑ i ∈ Finset.range m, y i ^ 2

theorem FormIn.mono {α β : ℕ → ℝ} {m : ℕ} {c d c' d' : ℝ} (h : FormIn α β m c d) (hc : c' ≤ c) (hd : d ≤ d') : FormIn α β m c' d' := fun y => by
  have h0 : 0 ≤ ∑ i ∈ Finset.range m, y i ^ 2 := Finset.sum_nonneg fun _ _ => sq_nonneg _
  exact ⟨(mul_le_mul_of_nonneg_right hc h0).trans (h y).1, (h y).2.trans (mul_le_mul_of_nonneg_right hd h0)⟩

theorem sum_sq_fin {m : ℕ} (y : ℕ → ℝ) : (fun i : Fin m => y i) ⬝ᵥ (fun i : Fin m => y i) = ∑ i ∈ Finset.range m, y i ^ 2 := by
  rw [← Fin.sum_univ_eq_sum_range (fun i => y i ^ 2)]
  exact Finset.sum_congr rfl fun i _ => (sq _).symm

/-- The eigenvalues bound the form. -/
theorem formIn_of_eigen {α β : ℕ → ℝ} {m : ℕ} {th : Fin m → ℝ} {Y : Matrix (Fin m) (Fin m) ℝ} (hY : IsEigh (jac α β m) th Y) {c d : ℝ}
    (h : ∀ j, c ≤ th j ∧ th j ≤ d) : FormIn α β m c d := by
  intro y
  rw [← tform_eq, ← sum_sq_fin]
  set z : Vec m := fun i => y i
  have hJ : jac α β m = Spec.matFun th Y fun x => x := by
    have := hY.matFun_poly Polynomial.X
    rw [Polynomial.aeval_X] at this
    rw [← this]
    congr 1
    funext x
    rw [Polynomial.eval_X]
  have e2 : z ⬝ᵥ (jac α β m *ᵥ z) = ∑ a, th a * (Yᵀ *ᵥ z) a ^ 2 := by
    rw [hJ]
    exact hY.quad_sum (fun x => x) z
  rw [e2, ← hY.norm_sum z, Finset.mul_sum, Finset.mul_sum]
  exact ⟨Finset.sum_le_sum fun a _ => mul_le_mul_of_nonneg_right (h a).1 (sq_nonneg _),
    Finset.sum_le_sum fun a _ => mul_le_mul_of_nonneg_right (h a).2 (sq_nonneg _)⟩

/-- The entries from `k` on. -/
def tailFrom (k : ℕ) (y : ℕ → ℝ) : ℕ → ℝ := fun i => if i < k then 0 else y i

theorem tform_split (α β : ℕ → ℝ) {m k : ℕ} (hk : 0 < k) (hkm : k < m) (y : ℕ → ℝ) :
    tform α β m y = tform α β k y + tform α β m (tailFrom k y) + 2 * (β k * (y (k - 1) * y k)) := by
  obtain ⟨r, rfl⟩ : ∃ r, m = k + r := ⟨m - k, by omega⟩
  unfold tform
  rw [Finset.sum_range_add, Finset.sum_range_add (fun i => α i * tailFrom k y i ^ 2 + _)]
  have e1 : ∑ i ∈ Finset.range k, (α i * tailFrom k y i ^ 2 + 2 * (if i + 1 < k + r then β (i + 1) * (tailFrom k y i * tailFrom k y (i + 1)) else 0)) = 0 := by
    refine Finset.sum_eq_zero fun i hi => ?_
    simp [tailFrom, Finset.mem_range.1 hi]
  have e2 : ∑ i ∈ Finset.range r, (α (k + i) * tailFrom k y (k + i) ^ 2 + 2 * (if k + i + 1 < k + r then β (k + i + 1) * (tailFrom k y (k + i) * tailFrom k y (k + i + 1)) else 0)) =
      ∑ i ∈ Finset.range r, (α (k + i) * y (k + i) ^ 2 + 2 * (if k + i + 1 < k + r then β (k + i + 1) * (y (k + i) * y (k + i + 1)) else 0)) := by
    refine Finset.sum_congr rfl fun i _ => ?_
    simp [tailFrom, show ¬ k + i + 1 < k by omega]
  rw [e1, e2, zero_add]
  obtain ⟨s, rfl⟩ : ∃ s, k = s + 1 := ⟨k - 1, by omega⟩
  have e3 : ∑ i ∈ Finset.range (s + 1), (α i * y i ^ 2 + 2 * (if i + 1 < s + 1 + r then β (i + 1) * (y i * y (i + 1)) else 0)) =
      ∑ i ∈ Finset.range (s + 1), (α i * y i ^ 2 + 2 * (if i + 1 < s + 1 then β (i + 1) * (y i * y (i + 1)) else 0)) + 2 * (β (s + 1) * (y s * y (s + 1))) := by
    rw [Finset.sum_range_succ, Finset.sum_range_succ (fun i => α i * y i ^ 2 + 2 * (if i + 1 < s + 1 then _ else _)), if_pos (by omega), if_neg (by omega)]
    have : ∑ i ∈ Finset.range s, (α i * y i ^ 2 + 2 * (if i + 1 < s + 1 + r then β (i + 1) * (y i * y (i + 1)) else 0)) =
        ∑ i ∈ Finset.range s, (α i * y i ^ 2 + 2 * (if i + 1 < s + 1 then β (i + 1) * (y i * y (i + 1)) else 0)) := by
      refine Finset.sum_congr rfl fun i hi => ?_
      have := Finset.mem_range.1 hi
      rw [if_pos (by omega), if_pos (by omega)]
    rw [this]
    ring
  rw [e3, Nat.add_sub_cancel]
  ring

theorem sum_split_tail {m k : ℕ} (hkm : k ≤ m) (y : ℕ → ℝ) :
    ∑ i ∈ Finset.range m, y i ^ 2 = ∑ i ∈ Finset.range k, y i ^ 2 + ∑ i ∈ Finset.range m, tailFrom k y i ^ 2 := by
  obtain ⟨r, rfl⟩ : ∃ r, m = k + r := ⟨m - k, by omega⟩
  rw [Finset.sum_range_add, Finset.sum_range_add (fun i => tailFrom k y i ^ 2)]
  have e1 : ∑ i ∈ Finset.range k, tailFrom k y i ^ 2 = 0 := Finset.sum_eq_zero fun i hi => by simp [tailFrom, Finset.mem_range.1 hi]
  have e2 : ∑ i ∈ Finset.range r, tailFrom k y (k + i) ^ 2 = ∑ i ∈ Finset.range r, y (k + i) ^ 2 := Finset.sum_congr rfl fun i _ => by simp [tailFrom]
  rw [e1, e2, zero_add]

/-- The form of the matrix from the forms of the two blocks. -/
theorem FormIn.join {α β : ℕ → ℝ} {m k : ℕ} {c d B : ℝ} (hk : 0 < k) (hkm : k < m) (hB : |β k| ≤ B) (h1 : FormIn α β k c d)
    (h2 : ∀ y : ℕ → ℝ, c * ∑ i ∈ Finset.range m, tailFrom k y i ^ 2 ≤ tform α β m (tailFrom k y) ∧ tform α β m (tailFrom k y) ≤ d * ∑ i ∈ Finset.range m, tailFrom k y i ^ 2) :
    FormIn α β m (c - B) (d + B) := by
  intro y
  rw [tform_split α β hk hkm]
  have hs := sum_split_tail hkm.le y
  obtain ⟨a1, a2⟩ := h1 y
  obtain ⟨b1, b2⟩ := h2 y
  have hsub : y (k - 1) ^ 2 + y k ^ 2 ≤ ∑ i ∈ Finset.range m, y i ^ 2 := by
    have : ∑ i ∈ ({k - 1, k} : Finset ℕ), y i ^ 2 ≤ ∑ i ∈ Finset.range m, y i ^ 2 := by
      refine Finset.sum_le_sum_of_subset_of_nonneg ?_ fun _ _ _ => sq_nonneg _
      intro i hi
      rw [Finset.mem_insert, Finset.mem_singleton] at hi
      rw [Finset.mem_range]
      omega
    rwa [Finset.sum_pair (by omega)] at this
  have hB0 : 0 ≤ B := (abs_nonneg _).trans hB
  have hc : |2 * (β k * (y (k - 1) * y k))| ≤ B * ∑ i ∈ Finset.range m, y i ^ 2 := by
    have e : |2 * (β k * (y (k - 1) * y k))| = |β k| * (2 * (|y (k - 1)| * |y k|)) := by
      rw [abs_mul, abs_mul, abs_mul, abs_two]; ring
    rw [e]
    refine mul_le_mul hB (le_trans ?_ hsub) (by positivity) hB0
    nlinarith [sq_nonneg (|y (k - 1)| - |y k|), sq_abs (y (k - 1)), sq_abs (y k)]
  obtain ⟨c1, c2⟩ := abs_le.1 hc
  rw [hs] at c1 c2 ⊢
  constructor <;> nlinarith

/-- Changing the coefficients beside the diagonal. -/
theorem tform_pert {α β β' : ℕ → ℝ} {m : ℕ} {τ : ℝ} (hτ : 0 ≤ τ) (h : ∀ j, 1 ≤ j → j < m → |β j - β' j| ≤ τ) (y : ℕ → ℝ) :
    |tform α β m y - tform α β' m y| ≤ 2 * τ * ∑ i ∈ Finset.range m, y i ^ 2 := by
  unfold tform
  rw [← Finset.sum_sub_distrib]
  have h1 : ∀ i ∈ Finset.range m, |α i * y i ^ 2 + 2 * (if i + 1 < m then β (i + 1) * (y i * y (i + 1)) else 0) -
      (α i * y i ^ 2 + 2 * (if i + 1 < m then β' (i + 1) * (y i * y (i + 1)) else 0))| ≤ τ * (y i ^ 2 + if i + 1 < m then y (i + 1) ^ 2 else 0) := by
    intro i _
    split_ifs with hi
    · have e : α i * y i ^ 2 + 2 * (β (i + 1) * (y i * y (i + 1))) - (α i * y i ^ 2 + 2 * (β' (i + 1) * (y i * y (i + 1)))) =
          (β (i + 1) - β' (i + 1)) * (2 * (y i * y (i + 1))) := by ring
      rw [e, abs_mul]
      refine mul_le_mul (h (i + 1) (by omega) hi) ?_ (abs_nonneg _) hτ
      rw [abs_le]
      constructor <;> nlinarith [sq_nonneg (y i - y (i + 1)), sq_nonneg (y i + y (i + 1))]
    · rw [sub_self, abs_zero]
      positivity
  refine (Finset.abs_sum_le_sum_abs _ _).trans ((Finset.sum_le_sum h1).trans ?_)
  rw [← Finset.mul_sum, Finset.sum_add_distrib]
  have h2 : ∑ i ∈ Finset.range m, (if i + 1 < m then y (i + 1) ^ 2 else 0) ≤ ∑ i ∈ Finset.range m, y i ^ 2 := by
    rcases m with _ | m
    · simp
    · rw [Finset.sum_range_succ, if_neg (by omega), add_zero, Finset.sum_range_succ']
      have : ∑ i ∈ Finset.range m, (if i + 1 < m + 1 then y (i + 1) ^ 2 else 0) = ∑ i ∈ Finset.range m, y (i + 1) ^ 2 := by
        refine Finset.sum_congr rfl fun i hi => if_pos ?_
        have := Finset.mem_range.1 hi
        omega
      rw [this]
      have := sq_nonneg (y 0)
      linarith
  nlinarith

theorem tform_congr {α β α' β' : ℕ → ℝ} {m : ℕ} (y : ℕ → ℝ) (ha : ∀ i < m, α i = α' i ∨ y i = 0) (hb : ∀ i, i + 1 < m → β (i + 1) = β' (i + 1) ∨ y i = 0) :
    tform α β m y = tform α' β' m y := by
  unfold tform
  refine Finset.sum_congr rfl fun i hi => ?_
  have hi := Finset.mem_range.1 hi
  congr 1
  · rcases ha i hi with h | h <;> rw [h]
    ring
  · split_ifs with h1
    · rcases hb i h1 with h | h <;> rw [h]
      ring
    · rfl

end Primate
