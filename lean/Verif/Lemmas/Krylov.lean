import Verif.Prelude
import Verif.Model.Lanczos

/-! The three-term recurrence in exact arithmetic. -/

noncomputable section

namespace Primate

open Matrix

variable {n : ℕ}

/-- `⟨A x, y⟩ = ⟨x, A y⟩`. -/
def SelfAdj (A : Vec n → Vec n) : Prop := ∀ x y, A x ⬝ᵥ y = x ⬝ᵥ A y

theorem SelfAdj.mulVec {A : Matrix (Fin n) (Fin n) ℝ} (hA : A.IsSymm) : SelfAdj A.mulVec := by
  intro x y
  rw [dotProduct_mulVec, ← mulVec_transpose, hA.eq]

theorem dot_self_nonneg (v : Vec n) : 0 ≤ v ⬝ᵥ v := Finset.sum_nonneg fun i _ => mul_self_nonneg (v i)

theorem dot_self_eq_zero {v : Vec n} (h : v ⬝ᵥ v = 0) : v = 0 := by
  funext i
  have := (Finset.sum_eq_zero_iff_of_nonneg (fun i _ => mul_self_nonneg (v i))).mp h i (Finset.mem_univ i)
  exact mul_self_eq_zero.mp this

theorem nrm_nonneg (v : Vec n) : 0 ≤ nrm v := Real.sqrt_nonneg _

theorem nrm_sq (v : Vec n) : nrm v * nrm v = v ⬝ᵥ v := Real.mul_self_sqrt (dot_self_nonneg v)

theorem nrm_eq_zero {v : Vec n} (h : nrm v = 0) : v = 0 := by
  apply dot_self_eq_zero
  rw [← nrm_sq, h, mul_zero]

theorem nrm_zero : nrm (0 : Vec n) = 0 := by simp [nrm]

theorem SelfAdj.add {A : Vec n → Vec n} (hA : SelfAdj A) (x y : Vec n) : A (x + y) = A x + A y := by
  have h : ∀ z, (A (x + y) - (A x + A y)) ⬝ᵥ z = 0 := by
    intro z
    rw [sub_dotProduct, add_dotProduct, hA, hA, hA, add_dotProduct, sub_self]
  exact sub_eq_zero.mp (dot_self_eq_zero (h _))

theorem SelfAdj.smul {A : Vec n → Vec n} (hA : SelfAdj A) (c : ℝ) (x : Vec n) : A (c • x) = c • A x := by
  have h : ∀ z, (A (c • x) - c • A x) ⬝ᵥ z = 0 := by
    intro z
    rw [sub_dotProduct, smul_dotProduct, hA, hA, smul_dotProduct, sub_self]
  exact sub_eq_zero.mp (dot_self_eq_zero (h _))

theorem SelfAdj.zero {A : Vec n → Vec n} (hA : SelfAdj A) : A 0 = 0 := by
  have := hA.smul 0 0
  simpa using this

/-- `(q_{j-1}, q_j, b_j)` of the recurrence started at `v`. -/
def lz (A : Vec n → Vec n) (v : Vec n) : ℕ → Vec n × Vec n × ℝ
  | 0 => (0, normalized v, 0)
  | j + 1 =>
    let t := lz A v j
    let w := A t.2.1 - t.2.2 • t.1
    let r := w - (t.2.1 ⬝ᵥ w) • t.2.1
    (t.2.1, (nrm r)⁻¹ • r, nrm r)

def lzp (A : Vec n → Vec n) (v : Vec n) (j : ℕ) : Vec n := (lz A v j).1
def lzq (A : Vec n → Vec n) (v : Vec n) (j : ℕ) : Vec n := (lz A v j).2.1
def lzb (A : Vec n → Vec n) (v : Vec n) (j : ℕ) : ℝ := (lz A v j).2.2
def lzw (A : Vec n → Vec n) (v : Vec n) (j : ℕ) : Vec n := A (lzq A v j) - lzb A v j • lzp A v j
def lza (A : Vec n → Vec n) (v : Vec n) (j : ℕ) : ℝ := lzq A v j ⬝ᵥ lzw A v j
def lzr (A : Vec n → Vec n) (v : Vec n) (j : ℕ) : Vec n := lzw A v j - lza A v j • lzq A v j

variable (A : Vec n → Vec n) (v : Vec n)

theorem lzp_zero : lzp A v 0 = 0 := rfl
theorem lzq_zero : lzq A v 0 = normalized v := rfl
theorem lzb_zero : lzb A v 0 = 0 := rfl
theorem lzp_succ (j : ℕ) : lzp A v (j + 1) = lzq A v j := rfl
theorem lzb_succ (j : ℕ) : lzb A v (j + 1) = nrm (lzr A v j) := rfl
theorem lzq_succ (j : ℕ) : lzq A v (j + 1) = (lzb A v (j + 1))⁻¹ • lzr A v j := rfl

theorem lzb_nonneg (j : ℕ) : 0 ≤ lzb A v j := by
  cases j with
  | zero => rw [lzb_zero]
  | succ j => exact nrm_nonneg _

theorem lzr_eq (j : ℕ) : lzr A v j = lzb A v (j + 1) • lzq A v (j + 1) := by
  rw [lzq_succ, smul_smul]
  by_cases h : lzb A v (j + 1) = 0
  · have : lzr A v j = 0 := nrm_eq_zero h
    rw [this, smul_zero]
  · rw [mul_inv_cancel₀ h, one_smul]

/-- The three-term recurrence. -/
theorem lz_rec (j : ℕ) :
    A (lzq A v j) = lzb A v j • lzp A v j + lza A v j • lzq A v j + lzb A v (j + 1) • lzq A v (j + 1) := by
  rw [← lzr_eq, lzr, lzw]
  abel

theorem normalized_unit {v : Vec n} (hv : v ≠ 0) : normalized v ⬝ᵥ normalized v = 1 := by
  have hpos : 0 < v ⬝ᵥ v :=
    lt_of_le_of_ne (dot_self_nonneg v) fun h => hv (dot_self_eq_zero h.symm)
  have hn : nrm v ≠ 0 := fun h => hv (nrm_eq_zero h)
  unfold normalized
  rw [if_pos hpos]
  have : (fun i => v i / nrm v) = (nrm v)⁻¹ • v := by
    funext i; simp [div_eq_inv_mul]
  rw [this, smul_dotProduct, dotProduct_smul, ← nrm_sq]
  simp only [smul_eq_mul]
  field_simp

theorem normalized_smul (v : Vec n) : v = nrm v • normalized v := by
  by_cases hv : v = 0
  · subst hv
    simp [nrm_zero]
  · have hpos : 0 < v ⬝ᵥ v :=
      lt_of_le_of_ne (dot_self_nonneg v) fun h => hv (dot_self_eq_zero h.symm)
    have hn : nrm v ≠ 0 := fun h => hv (nrm_eq_zero h)
    unfold normalized
    rw [if_pos hpos]
    funext i
    simp only [Pi.smul_apply, smul_eq_mul]
    field_simp

theorem normalized_zero : normalized (0 : Vec n) = 0 := by
  unfold normalized
  rw [if_neg (by simp)]

/-- Orthonormality of the Lanczos vectors before a breakdown. -/
theorem lz_orthonormal (hA : SelfAdj A) (hv : v ≠ 0) (k : ℕ) (hb : ∀ j < k, lzb A v (j + 1) ≠ 0) :
    ∀ i j, i ≤ k → j ≤ k → lzq A v i ⬝ᵥ lzq A v j = if i = j then 1 else 0 := by
  induction k with
  | zero =>
    intro i j hi hj
    obtain rfl : i = 0 := by omega
    obtain rfl : j = 0 := by omega
    simpa [lzq_zero] using normalized_unit hv
  | succ k ih =>
    have ih := ih fun j hj => hb j (by omega)
    -- prev vector as a combination
    have hp : ∀ i, i ≤ k → ∀ j, j ≤ k → lzp A v i ⬝ᵥ lzq A v j = if j + 1 = i then 1 else 0 := by
      intro i hi j hj
      cases i with
      | zero => simp [lzp_zero]
      | succ i =>
        rw [lzp_succ, ih i j (by omega) hj]
        by_cases h : i = j
        · simp [h]
        · rw [if_neg h, if_neg (by omega)]
    have hr : ∀ i, i ≤ k → lzr A v k ⬝ᵥ lzq A v i = 0 := by
      intro i hi
      by_cases hik : i = k
      · subst hik
        rw [lzr, sub_dotProduct, smul_dotProduct, ih i i hi hi, dotProduct_comm (lzw A v i)]
        simp [lza]
      · have h1 : A (lzq A v k) ⬝ᵥ lzq A v i = if i + 1 = k then lzb A v k else 0 := by
          rw [hA, lz_rec A v i, dotProduct_add, dotProduct_add, dotProduct_smul, dotProduct_smul,
            dotProduct_smul, ih k i le_rfl hi, ih k (i + 1) le_rfl (by omega),
            dotProduct_comm _ (lzp A v i), hp i hi k le_rfl, if_neg (by omega), if_neg (by omega)]
          by_cases h : i + 1 = k
          · simp [h]
          · rw [if_neg (by omega), if_neg h]; simp
        rw [lzr, lzw, sub_dotProduct, sub_dotProduct, smul_dotProduct, smul_dotProduct, h1,
          ih k i le_rfl hi, hp k le_rfl i hi]
        have hki : k ≠ i := fun h => hik h.symm
        by_cases h : i + 1 = k
        · simp [h, hki]
        · simp [h, hki]
    have hq : ∀ i, i ≤ k → lzq A v (k + 1) ⬝ᵥ lzq A v i = 0 := by
      intro i hi
      rw [lzq_succ, smul_dotProduct, hr i hi, smul_zero]
    have hqq : lzq A v (k + 1) ⬝ᵥ lzq A v (k + 1) = 1 := by
      have hne := hb k (by omega)
      rw [lzq_succ, smul_dotProduct, dotProduct_smul, ← nrm_sq, ← lzb_succ]
      simp only [smul_eq_mul]
      field_simp
    intro i j hi hj
    rcases Nat.lt_or_ge i (k + 1) with hi' | hi' <;> rcases Nat.lt_or_ge j (k + 1) with hj' | hj'
    · exact ih i j (by omega) (by omega)
    · obtain rfl : j = k + 1 := by omega
      rw [dotProduct_comm, hq i (by omega), if_neg (by omega)]
    · obtain rfl : i = k + 1 := by omega
      rw [hq j (by omega), if_neg (by omega)]
    · obtain rfl : i = k + 1 := by omega
      obtain rfl : j = k + 1 := by omega
      rw [hqq, if_pos rfl]

/-- The residual is orthogonal to all Lanczos vectors so far. -/
theorem lzr_orth (hA : SelfAdj A) (k : ℕ) (hb : ∀ j < k, lzb A v (j + 1) ≠ 0) (i : ℕ) (hi : i ≤ k) :
    lzr A v k ⬝ᵥ lzq A v i = 0 := by
  by_cases hv : v = 0
  · have h0 : lzq A v 0 = 0 := by rw [lzq_zero, hv, normalized_zero]
    have hr0 : lzr A v 0 = 0 := by
      rw [lzr, lzw, h0, hA.zero, lzp_zero]
      simp
    have hb1 : lzb A v 1 = 0 := by rw [lzb_succ, hr0, nrm_zero]
    have hk : k = 0 := by
      by_contra hk
      exact hb 0 (by omega) hb1
    subst hk
    rw [hr0, zero_dotProduct]
  · by_cases hbk : lzb A v (k + 1) = 0
    · have : lzr A v k = 0 := nrm_eq_zero hbk
      rw [this, zero_dotProduct]
    · have := lz_orthonormal A v hA hv (k + 1) (fun j hj => by
        rcases Nat.lt_or_ge j k with h | h
        · exact hb j h
        · obtain rfl : j = k := by omega
          exact hbk) (k + 1) i le_rfl (by omega)
      rw [lzr_eq, smul_dotProduct, this, if_neg (by omega), smul_zero]

end Primate
