import Verif.Lemmas.Paige
import Verif.Lemmas.LanczosFlStep
import Verif.Lemmas.MatFunRun

/-! The eigenvalues of the computed tridiagonal matrices stay in the range of the matrix. -/

noncomputable section

namespace Primate

open Matrix

variable {n k : ℕ}

/-- The tridiagonal matrix with the entries `α 0, ..., α (k-1)` and `β 1, ..., β (k-1)`. -/
abbrev jac (α β : ℕ → ℝ) (k : ℕ) : Matrix (Fin k) (Fin k) ℝ := Spec.jacobi k α fun i => β (i + 1)

theorem jac_symm (α β : ℕ → ℝ) (k : ℕ) : (jac α β k).IsSymm := by
  ext i j
  simp only [jac, Spec.jacobi, Matrix.transpose_apply, Matrix.of_apply]
  by_cases h : i = j
  · rw [h]
  · rw [if_neg h, if_neg (fun hc => h hc.symm)]
    by_cases h1 : (i : ℕ) + 1 = j
    · rw [if_pos h1, if_neg (by omega), if_pos h1]
    · rw [if_neg h1]
      by_cases h2 : (j : ℕ) + 1 = i
      · rw [if_pos h2, if_neg h1]
      · rw [if_neg h2, if_neg h1]

theorem jac_tri (α β : ℕ → ℝ) (k : ℕ) (i j : Fin k) (h : (i : ℕ) + 1 < j) : jac α β k i j = 0 := by
  simp only [jac, Spec.jacobi, Matrix.of_apply]
  rw [if_neg (fun hc => by rw [hc] at h; omega), if_neg (by omega), if_neg (by omega)]

/-- A row of the matrix times a vector. -/
theorem jac_mulVec (α β : ℕ → ℝ) (hb : β 0 = 0) (k : ℕ) (s : ℕ → ℝ) (i : Fin k) :
    (jac α β k *ᵥ fun j : Fin k => s j) i = β i * s (i - 1) + α i * s i + if (i : ℕ) + 1 < k then β (i + 1) * s (i + 1) else 0 := by
  have e : ∀ j : Fin k, jac α β k i j * s j = (if (j : ℕ) + 1 = i then β (j + 1) * s j else 0) + (if (j : ℕ) = i then α j * s j else 0) +
      (if (j : ℕ) = i + 1 then β j * s j else 0) := by
    intro j
    simp only [jac, Spec.jacobi, Matrix.of_apply]
    by_cases h : i = j
    · subst h
      rw [if_pos rfl, if_neg (by omega), if_pos rfl, if_neg (by omega)]
      ring
    · have h' : (j : ℕ) ≠ i := fun hc => h (Fin.ext hc.symm)
      rw [if_neg h, if_neg h']
      by_cases h1 : (i : ℕ) + 1 = j
      · rw [if_pos h1, if_neg (by omega), if_pos h1.symm, h1]
        ring
      · rw [if_neg h1, if_neg (c := (j : ℕ) = i + 1) (fun hc => h1 hc.symm)]
        by_cases h2 : (j : ℕ) + 1 = i
        · rw [if_pos h2, if_pos h2]
          ring
        · rw [if_neg h2, if_neg h2]
          ring
  have e2 : (jac α β k *ᵥ fun j : Fin k => s j) i = ∑ j : Fin k, jac α β k i j * s j := rfl
  rw [e2]
  simp only [e]
  rw [Finset.sum_add_distrib, Finset.sum_add_distrib,
    Fin.sum_univ_eq_sum_range (fun j => if j + 1 = (i : ℕ) then β (j + 1) * s j else 0) k,
    Fin.sum_univ_eq_sum_range (fun j => if j = (i : ℕ) then α j * s j else 0) k,
    Fin.sum_univ_eq_sum_range (fun j => if j = (i : ℕ) + 1 then β j * s j else 0) k]
  congr 1
  · congr 1
    · by_cases hi : (i : ℕ) = 0
      · rw [hi, hb, zero_mul]
        refine Finset.sum_eq_zero fun j _ => ?_
        rw [if_neg (by omega)]
      · rw [Finset.sum_eq_single ((i : ℕ) - 1)]
        · rw [if_pos (by omega), show (i : ℕ) - 1 + 1 = i by omega]
        · intro j _ hj
          rw [if_neg (by omega)]
        · intro hc
          have := i.2
          exact absurd (Finset.mem_range.2 (by omega)) hc
    · rw [Finset.sum_eq_single (i : ℕ)]
      · rw [if_pos rfl]
      · intro j _ hj
        rw [if_neg hj]
      · intro hc
        exact absurd (Finset.mem_range.2 i.2) hc
  · split_ifs with hi
    · rw [Finset.sum_eq_single ((i : ℕ) + 1)]
      · rw [if_pos rfl]
      · intro j _ hj
        rw [if_neg hj]
      · intro hc
        exact absurd (Finset.mem_range.2 hi) hc
    · refine Finset.sum_eq_zero fun j hj => ?_
      have := Finset.mem_range.1 hj
      rw [if_neg (by omega)]

/-- The approximate recurrence with one bound `S` for all coefficients. -/
structure NearS (A : Matrix (Fin n) (Fin n) ℝ) (ε S : ℝ) (k : ℕ) (α β : ℕ → ℝ) (q : ℕ → Vec n) (r : Vec n) : Prop where
  b0 : β 0 = 0
  bnn : ∀ j < k, 0 ≤ β j
  bS : ∀ j < k, β j ≤ S
  unit : ∀ j < k, |nrm (q j) - 1| ≤ 5 * ε
  step : ∀ j, j + 1 < k → nrm (A *ᵥ q j - β j • q (j - 1) - α j • q j - β (j + 1) • q (j + 1)) ≤ 13 * (ε * S)
  last : ∀ j, j + 1 = k → nrm (A *ᵥ q j - β j • q (j - 1) - α j • q j - r) ≤ 13 * (ε * S)
  ortho : ∀ j, j + 1 < k → β (j + 1) * |q j ⬝ᵥ q (j + 1)| ≤ 24 * (ε * S)
  ortho_last : ∀ j, j + 1 = k → |q j ⬝ᵥ r| ≤ 24 * (ε * S)

variable {A : Matrix (Fin n) (Fin n) ℝ} {ε S : ℝ} {α β : ℕ → ℝ} {q : ℕ → Vec n} {r : Vec n}

theorem NearS.pre (h : NearS A ε S k α β q r) (t : ℕ) (ht : t < k) : NearS A ε S t α β q (β t • q t) := by
  refine ⟨h.b0, fun j hj => h.bnn j (by omega), fun j hj => h.bS j (by omega), fun j hj => h.unit j (by omega), fun j hj => h.step j (by omega), ?_,
    fun j hj => h.ortho j (by omega), ?_⟩
  · rintro j rfl
    exact h.step j ht
  · rintro j rfl
    rw [dotProduct_smul, smul_eq_mul, abs_mul, abs_of_nonneg (h.bnn _ ht)]
    exact h.ortho j ht

theorem NearS.nearRel (h : NearS A ε S k α β q r) :
    ∃ F : Fin k → Vec n, NearRel A (fun i : Fin k => q i) (jac α β k) r F ∧ ∀ j, nrm (F j) ≤ 13 * (ε * S) := by
  refine ⟨fun j => A *ᵥ q j - ((∑ i, jac α β k i j • q i) + (if (j : ℕ) + 1 = k then r else 0)), ⟨jac_symm _ _ _, jac_tri _ _ _, fun j => ?_⟩, fun j => ?_⟩
  · simp
  · have e : ∑ i : Fin k, jac α β k i j • q i = β j • q (j - 1) + α j • q j + if (j : ℕ) + 1 < k then β (j + 1) • q (j + 1) else 0 := by
      funext a
      have := jac_mulVec α β h.b0 k (fun i => q i a) j
      rw [Finset.sum_apply]
      have e2 : ∑ i : Fin k, (jac α β k i j • q i) a = (jac α β k *ᵥ fun i : Fin k => q i a) j := by
        refine Finset.sum_congr rfl fun i _ => ?_
        rw [Pi.smul_apply, smul_eq_mul, (jac_symm α β k).apply]
      rw [e2, this]
      simp only [Pi.add_apply, Pi.smul_apply, smul_eq_mul]
      congr 1
      split_ifs <;> simp
    simp only [e]
    by_cases hj : (j : ℕ) + 1 < k
    · rw [if_pos hj, if_neg (by omega)]
      have := h.step j hj
      rwa [sub_sub, sub_sub, ← add_assoc, add_zero] at *
    · have hj' : (j : ℕ) + 1 = k := by omega
      rw [if_neg hj, if_pos hj']
      have := h.last j hj'
      rwa [sub_sub, sub_sub, ← add_assoc, add_zero] at *

theorem NearS.defect_le (h : NearS A ε S k α β q r) (hA : A.IsSymm) (h0 : 0 ≤ ε) (h1 : ε ≤ 1 / 100) (hS : 0 ≤ S) (i j : Fin k) :
    |defect (fun i : Fin k => q i) (jac α β k) r i j| ≤ 48 * (ε * S) := by
  obtain ⟨F, hR, hF⟩ := h.nearRel
  have eS : 0 ≤ ε * S := mul_nonneg h0 hS
  rcases lt_trichotomy i j with hij | hij | hij
  · rw [hR.defect_upper hA i j hij]
    have hij' : (i : ℕ) < j := hij
    have ui := h.unit i i.2
    have uj := h.unit j j.2
    have d1 : |q i ⬝ᵥ F j| ≤ 1.05 * (13 * (ε * S)) :=
      (abs_dot_le _ _).trans (mul_le_mul (by linarith [(abs_le.1 ui).2]) (hF j) (nrm_nonneg _) (by norm_num))
    have d2 : |F i ⬝ᵥ q j| ≤ 13 * (ε * S) * 1.05 :=
      (abs_dot_le _ _).trans (mul_le_mul (hF i) (by linarith [(abs_le.1 uj).2]) (nrm_nonneg _) (by linarith))
    have d3 : |jac α β k i j| ≤ S := by
      simp only [jac, Spec.jacobi, Matrix.of_apply]
      rw [if_neg (fun hc => by rw [hc] at hij'; omega)]
      by_cases hc : (i : ℕ) + 1 = j
      · rw [if_pos hc, hc, abs_of_nonneg (h.bnn j j.2)]
        exact h.bS j j.2
      · rw [if_neg hc, if_neg (by omega), abs_zero]
        exact hS
    have d4 : |q j ⬝ᵥ q j - q i ⬝ᵥ q i| ≤ 20.5 * ε := by
      have n1 := abs_le.1 (near_one_sq h0 h1 ui)
      have n2 := abs_le.1 (near_one_sq h0 h1 uj)
      rw [nrm_sq] at n1 n2
      rw [abs_le]
      constructor <;> linarith [n1.1, n1.2, n2.1, n2.2]
    have d5 : |jac α β k i j * (q j ⬝ᵥ q j - q i ⬝ᵥ q i)| ≤ S * (20.5 * ε) := by
      rw [abs_mul]
      exact mul_le_mul d3 d4 (abs_nonneg _) hS
    have t1 := abs_sub (q i ⬝ᵥ F j - F i ⬝ᵥ q j) (jac α β k i j * (q j ⬝ᵥ q j - q i ⬝ᵥ q i))
    have t2 := abs_sub (q i ⬝ᵥ F j) (F i ⬝ᵥ q j)
    linarith
  · subst hij
    rw [hR.defect_diag i]
    have sub : ∀ a b : ℕ, (ha : a < k) → (hb : b < k) → a + 1 = b → jac α β k ⟨b, hb⟩ ⟨a, ha⟩ = β b := by
      intro a b ha hb hab
      simp only [jac, Spec.jacobi, Matrix.of_apply]
      rw [if_neg (by intro hc; have := congrArg Fin.val hc; simp at this; omega), if_neg (by omega), if_pos hab, hab]
    have b1 : |if hj : 0 < (i : ℕ) then jac α β k i ⟨i - 1, by omega⟩ * (q (⟨i - 1, by omega⟩ : Fin k) ⬝ᵥ q i) else 0| ≤ 24 * (ε * S) := by
      by_cases hj : 0 < (i : ℕ)
      · rw [dif_pos hj, sub (i - 1) i (by omega) i.2 (by omega), abs_mul, abs_of_nonneg (h.bnn i i.2)]
        have := h.ortho (i - 1) (by omega)
        rwa [show (i : ℕ) - 1 + 1 = i by omega] at this
      · rw [dif_neg hj, abs_zero]
        linarith
    have b2 : |if hj : (i : ℕ) + 1 < k then (q i ⬝ᵥ q (⟨i + 1, hj⟩ : Fin k)) * jac α β k ⟨i + 1, hj⟩ i else q i ⬝ᵥ r| ≤ 24 * (ε * S) := by
      by_cases hj : (i : ℕ) + 1 < k
      · rw [dif_pos hj, sub i (i + 1) i.2 hj rfl, abs_mul, abs_of_nonneg (h.bnn (i + 1) hj), mul_comm]
        exact h.ortho i hj
      · rw [dif_neg hj]
        exact h.ortho_last i (by omega)
    have t1 := abs_sub (if hj : 0 < (i : ℕ) then jac α β k i ⟨i - 1, by omega⟩ * (q (⟨i - 1, by omega⟩ : Fin k) ⬝ᵥ q i) else 0)
      (if hj : (i : ℕ) + 1 < k then (q i ⬝ᵥ q (⟨i + 1, hj⟩ : Fin k)) * jac α β k ⟨i + 1, hj⟩ i else q i ⬝ᵥ r)
    exact t1.trans (by linarith)
  · rw [hR.defect_lower i j hij, abs_zero]
    linarith

/-- Paige's theorem: the product of the loss of orthogonality and the last entry of the eigenvector is of the size of the rounding errors. -/
theorem NearS.loss (h : NearS A ε S k α β q r) (hA : A.IsSymm) (h0 : 0 ≤ ε) (h1 : ε ≤ 1 / 100) (hS : 0 ≤ S) (hk : 0 < k) (th : ℝ) (s : Vec k)
    (hs : jac α β k *ᵥ s = th • s) :
    |s ⟨k - 1, by omega⟩ * (comb (fun i : Fin k => q i) s ⬝ᵥ r)| ≤ 48 * (ε * S) * (k * (s ⬝ᵥ s)) := by
  rw [paige_identity (jac_symm _ _ _) hk th s hs, abs_neg]
  exact abs_quad_le _ _ (h.defect_le hA h0 h1 hS) s

/-- The partial sums of `Q s`. -/
def partComb (q : ℕ → Vec n) (s : ℕ → ℝ) (t : ℕ) : Vec n := ∑ i ∈ Finset.range t, s i • q i

theorem partComb_eq (q : ℕ → Vec n) (s : ℕ → ℝ) (t : ℕ) : partComb q s t = comb (fun i : Fin t => q i) (fun i => s i) := by
  unfold partComb comb
  exact (Fin.sum_univ_eq_sum_range (fun i => s i • q i) t).symm

theorem partComb_sq (q : ℕ → Vec n) (s : ℕ → ℝ) (t : ℕ) :
    partComb q s t ⬝ᵥ partComb q s t = ∑ i ∈ Finset.range t, (s i ^ 2 * (q i ⬝ᵥ q i) + 2 * (s i * (partComb q s i ⬝ᵥ q i))) := by
  induction t with
  | zero => simp [partComb]
  | succ t ih =>
    rw [Finset.sum_range_succ, ← ih]
    have e : partComb q s (t + 1) = partComb q s t + s t • q t := Finset.sum_range_succ _ _
    rw [e, add_dotProduct, dotProduct_add, dotProduct_add, smul_dotProduct, smul_dotProduct, dotProduct_smul, dotProduct_smul, dotProduct_comm (q t)]
    simp only [smul_eq_mul]
    ring

/-- The new column against the combination of the old ones, when the eigenvalue is away from the eigenvalues of the leading block. -/
theorem NearS.term (h : NearS A ε S k α β q r) (hA : A.IsSymm) (h0 : 0 ≤ ε) (h1 : ε ≤ 1 / 100) (hS : 0 ≤ S) (th : ℝ) (s : ℕ → ℝ)
    (hs : (jac α β k *ᵥ fun i : Fin k => s i) = th • fun i : Fin k => s i) (t : ℕ) (ht : t < k) (ht0 : 0 < t)
    (hfar : ∀ mu : ℝ, ∀ y : Vec t, y ⬝ᵥ y = 1 → jac α β t *ᵥ y = mu • y → 400 * (t * t * (ε * S)) < |mu - th|) :
    |s t * (partComb q s t ⬝ᵥ q t)| ≤ 0.12 * s t ^ 2 := by
  obtain ⟨mu, Y, hY⟩ := exists_isEigh (jac α β t) (jac_symm α β t)
  set x : Vec t := fun i => s i with hx
  have htr : (0 : ℝ) < t := by exact_mod_cast ht0
  -- the leading block applied to the leading entries
  have hxe : jac α β t *ᵥ x = th • x - (β t * s t) • (Pi.single ⟨t - 1, by omega⟩ 1 : Vec t) := by
    funext i
    rw [hx, jac_mulVec α β h.b0 t s i]
    have := congrFun hs ⟨i, by omega⟩
    rw [jac_mulVec α β h.b0 k s ⟨i, by omega⟩] at this
    simp only [Pi.smul_apply, Pi.sub_apply, smul_eq_mul] at this ⊢
    rw [if_pos (by omega : (i : ℕ) + 1 < k)] at this
    by_cases hi : (i : ℕ) + 1 < t
    · rw [if_pos hi, Pi.single_apply, if_neg (by intro hc; have := congrArg Fin.val hc; simp at this; omega), ← this]
      ring
    · have hi' : (i : ℕ) + 1 = t := by omega
      rw [if_neg hi, Pi.single_apply, if_pos (Fin.ext (by simp; omega)), ← this, hi']
      ring
  have hsum : x = ∑ a, (Y.col a ⬝ᵥ x) • Y.col a := by
    have e : x = Y *ᵥ (Yᵀ *ᵥ x) := by rw [mulVec_mulVec, hY.mul_transpose, one_mulVec]
    conv_lhs => rw [e]
    funext i
    rw [Finset.sum_apply]
    show ∑ a, Y i a * (Yᵀ *ᵥ x) a = _
    refine Finset.sum_congr rfl fun a _ => ?_
    rw [Pi.smul_apply, smul_eq_mul, mul_comm]
    rfl
  have hz : partComb q s t = ∑ a, (Y.col a ⬝ᵥ x) • comb (fun i : Fin t => q i) (Y.col a) := by
    rw [partComb_eq]
    show comb (fun i : Fin t => q i) x = _
    conv_lhs => rw [hsum]
    unfold comb
    simp only [Finset.smul_sum, Finset.sum_apply, Finset.sum_smul, smul_smul]
    rw [Finset.sum_comm]
    rfl
  have hpre := h.pre t ht
  have hb : ∀ a, |s t * ((Y.col a ⬝ᵥ x) * (comb (fun i : Fin t => q i) (Y.col a) ⬝ᵥ q t))| ≤ 0.12 / t * s t ^ 2 := by
    intro a
    have hfa := hfar (mu a) (Y.col a) (hY.unit_col a) (hY.col_eq a)
    have hl := hpre.loss hA h0 h1 hS ht0 (mu a) (Y.col a) (hY.col_eq a)
    rw [hY.unit_col a, dotProduct_smul, smul_eq_mul, mul_one] at hl
    have hc : (mu a - th) * (Y.col a ⬝ᵥ x) = -(β t * s t * Y.col a ⟨t - 1, by omega⟩) := by
      have e1 : Y.col a ⬝ᵥ (jac α β t *ᵥ x) = mu a * (Y.col a ⬝ᵥ x) := by
        rw [dotProduct_mulVec, ← mulVec_transpose, (jac_symm α β t).eq, hY.col_eq, smul_dotProduct, smul_eq_mul]
      rw [hxe, dotProduct_sub, dotProduct_smul, dotProduct_smul, dotProduct_single, smul_eq_mul, smul_eq_mul] at e1
      linarith
    set c := comb (fun i : Fin t => q i) (Y.col a) ⬝ᵥ q t with hcd
    set X := Y.col a ⬝ᵥ x with hX
    set l := Y.col a ⟨t - 1, by omega⟩ with hld
    have key : |mu a - th| * |s t * (X * c)| ≤ s t ^ 2 * (48 * (ε * S) * t) := by
      rw [← abs_mul]
      have e : (mu a - th) * (s t * (X * c)) = -(s t ^ 2 * (l * (β t * c))) := by
        have : (mu a - th) * (s t * (X * c)) = ((mu a - th) * X) * (s t * c) := by ring
        rw [this, hc]
        ring
      rw [e, abs_neg, abs_mul, abs_of_nonneg (sq_nonneg (s t))]
      exact mul_le_mul_of_nonneg_left hl (sq_nonneg _)
    have hpos : 0 < |mu a - th| := lt_of_le_of_lt (by positivity) hfa
    have h2 : s t ^ 2 * (48 * (ε * S) * t) ≤ |mu a - th| * (0.12 / t * s t ^ 2) := by
      have h3 : 48 * (ε * S) * t ≤ |mu a - th| * (0.12 / t) := by
        have h4 : 400 * (t * t * (ε * S)) * (0.12 / t) ≤ |mu a - th| * (0.12 / t) := mul_le_mul_of_nonneg_right hfa.le (by positivity)
        have h5 : 400 * (t * t * (ε * S)) * (0.12 / t) = 48 * (ε * S) * t := by
          field_simp
          ring
        linarith
      calc s t ^ 2 * (48 * (ε * S) * t) ≤ s t ^ 2 * (|mu a - th| * (0.12 / t)) := mul_le_mul_of_nonneg_left h3 (sq_nonneg _)
        _ = _ := by ring
    exact le_of_mul_le_mul_left (key.trans h2) hpos
  rw [hz, sum_dotProduct, Finset.mul_sum]
  refine (Finset.abs_sum_le_sum_abs _ _).trans ?_
  have : ∀ a ∈ Finset.univ, |s t * (((Y.col a ⬝ᵥ x) • comb (fun i : Fin t => q i) (Y.col a)) ⬝ᵥ q t)| ≤ 0.12 / t * s t ^ 2 := by
    intro a _
    rw [smul_dotProduct, smul_eq_mul]
    exact hb a
  refine (Finset.sum_le_sum this).trans (le_of_eq ?_)
  rw [Finset.sum_const, Finset.card_univ, Fintype.card_fin, nsmul_eq_mul]
  field_simp

/-- Every eigenvalue of the computed tridiagonal matrix is in the range of the quadratic form, up to rounding errors. -/
theorem NearS.interval (hA : A.IsSymm) (h0 : 0 ≤ ε) (h1 : ε ≤ 1 / 100) (hS : 0 ≤ S) (lo hi : ℝ) (hlo : ∀ x : Vec n, lo * (x ⬝ᵥ x) ≤ x ⬝ᵥ (A *ᵥ x))
    (hhi : ∀ x : Vec n, x ⬝ᵥ (A *ᵥ x) ≤ hi * (x ⬝ᵥ x)) (k : ℕ) :
    ∀ r : Vec n, NearS A ε S k α β q r → ∀ (th : ℝ) (s : Vec k), s ⬝ᵥ s = 1 → jac α β k *ᵥ s = th • s →
      lo - 400 * (k ^ 3 * (ε * S)) ≤ th ∧ th ≤ hi + 400 * (k ^ 3 * (ε * S)) := by
  induction k using Nat.strong_induction_on with
  | _ k ih =>
  intro r h th s hs1 hs
  have eS : 0 ≤ ε * S := mul_nonneg h0 hS
  have hk : 0 < k := by
    rcases Nat.eq_zero_or_pos k with h' | h'
    · subst h'
      simp [dotProduct] at hs1
    · exact h'
  have hkr : (1 : ℝ) ≤ k := by exact_mod_cast hk
  by_cases hnear : ∃ t, 0 < t ∧ t < k ∧ ∃ mu : ℝ, ∃ y : Vec t, y ⬝ᵥ y = 1 ∧ jac α β t *ᵥ y = mu • y ∧ |mu - th| ≤ 400 * (t * t * (ε * S))
  · -- close to an eigenvalue of a leading block
    obtain ⟨t, ht0, htk, mu, y, hy1, hy, hmu⟩ := hnear
    obtain ⟨i1, i2⟩ := ih t htk _ (h.pre t htk) mu y hy1 hy
    have htr : (t : ℝ) + 1 ≤ k := by exact_mod_cast htk
    have ht1 : (0 : ℝ) ≤ t := Nat.cast_nonneg t
    have hc : (t : ℝ) ^ 3 + t * t ≤ k ^ 3 := by
      have : ((t : ℝ) + 1) ^ 3 ≤ k ^ 3 := pow_le_pow_left₀ (by linarith) htr 3
      nlinarith
    have hc2 : ((t : ℝ) ^ 3 + t * t) * (ε * S) ≤ k ^ 3 * (ε * S) := mul_le_mul_of_nonneg_right hc eS
    obtain ⟨m1, m2⟩ := abs_le.1 hmu
    constructor <;> linarith
  · -- the approximate eigenvector is not small
    push Not at hnear
    set s' : ℕ → ℝ := fun i => if hi : i < k then s ⟨i, hi⟩ else 0 with hs'
    have hss : (fun i : Fin k => s' i) = s := by
      funext i
      simp [hs']
    have hse : (jac α β k *ᵥ fun i : Fin k => s' i) = th • fun i : Fin k => s' i := by rw [hss]; exact hs
    set z := comb (fun i : Fin k => q i) s with hz
    have hzz : partComb q s' k = z := by rw [partComb_eq, hss]
    have hnorm : ∑ i ∈ Finset.range k, s' i ^ 2 = 1 := by
      rw [← Fin.sum_univ_eq_sum_range (fun i => s' i ^ 2) k, ← hs1]
      refine Finset.sum_congr rfl fun i _ => ?_
      rw [← congrFun hss i]
      ring
    have hterm : ∀ i ∈ Finset.range k, 0.6 * s' i ^ 2 ≤ s' i ^ 2 * (q i ⬝ᵥ q i) + 2 * (s' i * (partComb q s' i ⬝ᵥ q i)) := by
      intro i hi
      have hik := Finset.mem_range.1 hi
      have u := (abs_le.1 (near_one_sq h0 h1 (h.unit i hik))).2
      rw [nrm_sq] at u
      have u2 : s' i ^ 2 * 0.8975 ≤ s' i ^ 2 * (q i ⬝ᵥ q i) := mul_le_mul_of_nonneg_left (by linarith) (sq_nonneg _)
      have u3 : |s' i * (partComb q s' i ⬝ᵥ q i)| ≤ 0.12 * s' i ^ 2 := by
        rcases Nat.eq_zero_or_pos i with h' | h'
        · subst h'
          have : partComb q s' 0 = 0 := by simp [partComb]
          rw [this, zero_dotProduct, mul_zero, abs_zero]
          positivity
        · exact h.term hA h0 h1 hS th s' hse i hik h' (fun mu y hy1 hy => hnear i h' hik mu y hy1 hy)
      have u4 := (abs_le.1 u3).1
      have u5 := sq_nonneg (s' i)
      linarith
    have hzn : 0.6 ≤ z ⬝ᵥ z := by
      rw [← hzz, partComb_sq]
      have := Finset.sum_le_sum hterm
      rw [← Finset.mul_sum, hnorm, mul_one] at this
      exact this
    -- the Rayleigh quotient
    obtain ⟨F, hR, hF⟩ := h.nearRel
    have hres := hR.resid hk th s hs
    have hl := h.loss hA h0 h1 hS hk th s hs
    rw [hs1, mul_one] at hl
    have hray : z ⬝ᵥ (A *ᵥ z) - th * (z ⬝ᵥ z) = s ⟨k - 1, by omega⟩ * (z ⬝ᵥ r) + ∑ j, s j * (z ⬝ᵥ F j) := by
      have := congrArg (fun w => z ⬝ᵥ w) hres
      simp only [dotProduct_sub, dotProduct_add, dotProduct_smul, dotProduct_sum, smul_eq_mul] at this
      exact this
    have hsabs : ∑ j, |s j| ≤ Real.sqrt k := by
      have := abs_sum_le_sqrt s
      rwa [nrm, hs1, Real.sqrt_one, mul_one] at this
    have hznorm : nrm z ≤ 1.05 * Real.sqrt k := by
      rw [hz]
      unfold comb
      refine (nrm_sum_le _ _).trans ?_
      have : ∀ j ∈ Finset.univ, nrm (s j • q (j : Fin k)) ≤ 1.05 * |s j| := by
        intro j _
        rw [nrm_smul, mul_comm]
        exact mul_le_mul_of_nonneg_right (by linarith [(abs_le.1 (h.unit j j.2)).2]) (abs_nonneg _)
      refine (Finset.sum_le_sum this).trans ?_
      rw [← Finset.mul_sum]
      exact mul_le_mul_of_nonneg_left hsabs (by norm_num)
    have hFs : |∑ j, s j * (z ⬝ᵥ F j)| ≤ 13.65 * (k * (ε * S)) := by
      refine (Finset.abs_sum_le_sum_abs _ _).trans ?_
      have : ∀ j ∈ Finset.univ, |s j * (z ⬝ᵥ F j)| ≤ |s j| * (1.05 * Real.sqrt k * (13 * (ε * S))) := by
        intro j _
        rw [abs_mul]
        refine mul_le_mul_of_nonneg_left ((abs_dot_le _ _).trans ?_) (abs_nonneg _)
        exact mul_le_mul hznorm (hF j) (nrm_nonneg _) (by positivity)
      refine (Finset.sum_le_sum this).trans ?_
      rw [← Finset.sum_mul]
      have h2 : (∑ j, |s j|) * (1.05 * Real.sqrt k * (13 * (ε * S))) ≤ Real.sqrt k * (1.05 * Real.sqrt k * (13 * (ε * S))) :=
        mul_le_mul_of_nonneg_right hsabs (by positivity)
      have h3 : Real.sqrt k * (1.05 * Real.sqrt k * (13 * (ε * S))) = 13.65 * (k * (ε * S)) := by
        have : Real.sqrt k * Real.sqrt k = k := Real.mul_self_sqrt (Nat.cast_nonneg k)
        calc Real.sqrt k * (1.05 * Real.sqrt k * (13 * (ε * S))) = (Real.sqrt k * Real.sqrt k) * (1.05 * 13 * (ε * S)) := by ring
          _ = _ := by rw [this]; ring
      linarith
    have hdev : |z ⬝ᵥ (A *ᵥ z) - th * (z ⬝ᵥ z)| ≤ 62 * (k * (ε * S)) := by
      rw [hray]
      refine (abs_add_le _ _).trans ?_
      have : 0 ≤ k * (ε * S) := by positivity
      linarith
    obtain ⟨v1, v2⟩ := abs_le.1 hdev
    have q1 := hlo z
    have q2 := hhi z
    have hk3 : (k : ℝ) ≤ k ^ 3 := by
      calc (k : ℝ) = k ^ 1 := (pow_one _).symm
        _ ≤ k ^ 3 := pow_le_pow_right₀ hkr (by norm_num)
    have hk4 : k * (ε * S) ≤ k ^ 3 * (ε * S) := mul_le_mul_of_nonneg_right hk3 eS
    have hk5 : 0 ≤ k ^ 3 * (ε * S) := by positivity
    have hk6 : 400 * (k ^ 3 * (ε * S)) * 0.6 ≤ 400 * (k ^ 3 * (ε * S)) * (z ⬝ᵥ z) := mul_le_mul_of_nonneg_left hzn (by positivity)
    have hz0 : 0 < z ⬝ᵥ z := by linarith
    constructor
    · have : (lo - 400 * (k ^ 3 * (ε * S))) * (z ⬝ᵥ z) ≤ th * (z ⬝ᵥ z) := by linarith
      exact le_of_mul_le_mul_right this hz0
    · have : th * (z ⬝ᵥ z) ≤ (hi + 400 * (k ^ 3 * (ε * S))) * (z ⬝ᵥ z) := by linarith
      exact le_of_mul_le_mul_right this hz0

end Primate
