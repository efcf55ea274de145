import Verif.Lemmas.KData
import Verif.Lemmas.LanczosRun
import Verif.Model.Tridiag

/-! The output of the recurrence as a Krylov relation. -/

noncomputable section

namespace Primate

open Matrix

variable {n : ℕ}

theorem triMat_apply (k : ℕ) (d e : ℕ → ℝ) (i j : Fin k) :
    triMat k d e i j = (if (i : ℕ) = j then d j else 0) + (if (i : ℕ) + 1 = j then e j else 0) +
      (if (i : ℕ) = j + 1 then e i else 0) := by
  unfold triMat
  simp only [Matrix.of_apply]
  rcases lt_trichotomy (i : ℕ) j with h | h | h
  · rw [if_neg (by intro he; rw [he] at h; omega), if_neg (by omega : ¬ (j : ℕ) + 1 = i), if_neg (by omega : ¬ (i : ℕ) = j),
      if_neg (by omega : ¬ (i : ℕ) = j + 1)]
    simp
  · rw [if_pos (Fin.ext h), if_pos h, if_neg (by omega), if_neg (by omega), h]
    simp
  · rw [if_neg (by intro he; rw [he] at h; omega), if_neg (by omega : ¬ (i : ℕ) + 1 = j), if_neg (by omega : ¬ (i : ℕ) = j),
      if_neg (by omega : ¬ (i : ℕ) + 1 = j)]
    by_cases h' : (j : ℕ) + 1 = i
    · rw [if_pos h', if_pos h'.symm]; simp
    · rw [if_neg h', if_neg (Ne.symm h')]; simp

theorem triMat_symm (k : ℕ) (d e : ℕ → ℝ) : (triMat k d e).IsSymm := by
  ext i j
  rw [transpose_apply, triMat_apply, triMat_apply]
  rcases lt_trichotomy (i : ℕ) j with h | h | h
  · rw [if_neg (by omega), if_neg (by omega), if_neg (by omega : ¬ (i : ℕ) = j),
      if_neg (by omega : ¬ (i : ℕ) = j + 1)]
    by_cases h' : (i : ℕ) + 1 = j
    · rw [if_pos h'.symm, if_pos h']; ring
    · rw [if_neg (Ne.symm h'), if_neg h']
  · rw [if_pos h.symm, if_pos h, if_neg (by omega), if_neg (by omega), if_neg (by omega), if_neg (by omega), h]
  · rw [if_neg (by omega), if_neg (by omega : ¬ (i : ℕ) = j), if_neg (by omega : ¬ (i : ℕ) + 1 = j),
      if_neg (by omega : ¬ (j : ℕ) = i + 1)]
    by_cases h' : (j : ℕ) + 1 = i
    · rw [if_pos h', if_pos h'.symm]; simp
    · rw [if_neg h', if_neg (Ne.symm h')]

theorem triMat_congr {k : ℕ} {d e d' e' : ℕ → ℝ} (hd : ∀ i < k, d i = d' i)
    (he : ∀ i, 1 ≤ i → i < k → e i = e' i) : triMat k d e = triMat k d' e' := by
  ext i j
  unfold triMat
  simp only [Matrix.of_apply]
  split_ifs with h1 h2 h3
  · exact hd i i.2
  · exact he j (by omega) j.2
  · exact he i (by omega) i.2
  · rfl

/-- A column of a tridiagonal matrix against a family of vectors. -/
theorem triMat_col {k : ℕ} (d e : ℕ → ℝ) (g : ℕ → Vec n) (j : Fin k) :
    ∑ l : Fin k, triMat k d e l j • g l =
      (if 0 < (j : ℕ) then e j • g (j - 1) else 0) + d j • g j +
        (if (j : ℕ) + 1 < k then e (j + 1) • g (j + 1) else 0) := by
  have h0 : ∑ l : Fin k, triMat k d e l j • g l = ∑ l ∈ Finset.range k, ((if l = (j : ℕ) then d j else 0) +
      (if l + 1 = j then e j else 0) + (if l = (j : ℕ) + 1 then e l else 0)) • g l := by
    rw [← Fin.sum_univ_eq_sum_range]
    exact Finset.sum_congr rfl fun l _ => by rw [triMat_apply]
  rw [h0]
  · have h : ∀ l, ((if l = (j : ℕ) then d j else 0) + (if l + 1 = j then e j else 0) +
      (if l = (j : ℕ) + 1 then e l else 0)) • g l = (if l = (j : ℕ) then d j • g j else 0) +
        (if l + 1 = j then e j • g (j - 1) else 0) + (if l = (j : ℕ) + 1 then e (j + 1) • g (j + 1) else 0) := by
      intro l
      rw [add_smul, add_smul]
      congr 1
      · congr 1
        · split_ifs with h
          · rw [h]
          · exact zero_smul _ _
        · split_ifs with h
          · rw [← h, Nat.add_sub_cancel]
          · exact zero_smul _ _
      · split_ifs with h
        · rw [h]
        · exact zero_smul _ _
    simp only [h, Finset.sum_add_distrib]
    rw [Finset.sum_ite_eq', if_pos (Finset.mem_range.mpr j.2), Finset.sum_ite_eq']
    simp only [Finset.mem_range]
    rw [add_comm (d j • g j)]
    congr 2
    by_cases h0 : 0 < (j : ℕ)
    · rw [if_pos h0, Finset.sum_eq_single ((j : ℕ) - 1)]
      · rw [if_pos (by omega)]
      · intro b _ hb
        rw [if_neg (by omega)]
      · intro hb
        exact absurd (Finset.mem_range.mpr (by omega)) hb
    · rw [if_neg h0]
      exact Finset.sum_eq_zero fun l _ => by rw [if_neg (by omega)]

/-- The Lanczos vectors up to `J`, followed by zero columns. -/
def qcols (A : Vec n → Vec n) (v : Vec n) (J deg : ℕ) : Matrix (Fin n) (Fin deg) ℝ :=
  Matrix.of fun i j => if (j : ℕ) ≤ J then lzq A v j i else 0

theorem qcols_col (A : Vec n → Vec n) (v : Vec n) (J deg : ℕ) (j : Fin deg) :
    (qcols A v J deg).col j = if (j : ℕ) ≤ J then lzq A v j else 0 := by
  funext i
  unfold qcols
  simp only [Matrix.col_apply, Matrix.of_apply]
  split_ifs <;> rfl

theorem mulVec_cols {k : ℕ} (Q : Matrix (Fin n) (Fin k) ℝ) (y : Vec k) : Q *ᵥ y = ∑ j, y j • Q.col j := by
  funext i
  rw [Finset.sum_apply]
  show ∑ j, Q i j * y j = _
  exact Finset.sum_congr rfl fun j _ => by
    show _ = y j * Q i j
    rw [mul_comm]

/-- The relation satisfied by the results of the recurrence when it ends at the full degree or at an exact
breakdown. -/
theorem kdata_of_final (M : Matrix (Fin n) (Fin n) ℝ) (hM : M.IsSymm) (v : Vec n) (hv : v ≠ 0) (deg J : ℕ)
    (alpha beta : ℕ → ℝ) (hJ : J < deg) (hb : ∀ i < J, lzb M.mulVec v (i + 1) ≠ 0)
    (ha : ∀ i ≤ J, alpha i = lza M.mulVec v i) (hbe : ∀ i ≤ J + 1, beta i = lzb M.mulVec v i)
    (hstop : J + 1 = deg ∨ lzb M.mulVec v (J + 1) = 0) :
    KData M (normalized v) (qcols M.mulVec v J deg) (triMat deg alpha beta)
      (if J + 1 = deg then lzb M.mulVec v deg • lzq M.mulVec v deg else 0) := by
  have hA := SelfAdj.mulVec hM
  have horth := lz_orthonormal M.mulVec v hA hv J hb
  set q := lzq M.mulVec v with hq
  set Q := qcols M.mulVec v J deg with hQ
  set r : Vec n := if J + 1 = deg then lzb M.mulVec v deg • q deg else 0 with hr
  have hcolQ : ∀ j : Fin deg, Q.col j = if (j : ℕ) ≤ J then q j else 0 := qcols_col _ _ _ _
  -- column relation
  have hcol : ∀ j : Fin deg, M *ᵥ Q.col j =
      (∑ l : Fin deg, triMat deg alpha beta l j • Q.col l) + (if (j : ℕ) + 1 = deg then r else 0) := by
    intro j
    have h1 := triMat_col alpha beta (fun l => if l ≤ J then q l else 0) j
    simp only [hcolQ, h1]
    by_cases hj : (j : ℕ) ≤ J
    · rw [if_pos hj, show M *ᵥ q j = _ from lz_rec M.mulVec v j, ← hq, ha j hj]
      have e1 : (if 0 < (j : ℕ) then beta j • (if (j : ℕ) - 1 ≤ J then q (j - 1) else 0) else 0) =
          lzb M.mulVec v j • lzp M.mulVec v j := by
        split_ifs with h0 h2
        · obtain ⟨i, hi⟩ : ∃ i, (j : ℕ) = i + 1 := ⟨j - 1, by omega⟩
          rw [hbe j (by omega), hi, lzp_succ, Nat.add_sub_cancel]
        · omega
        · rw [show (j : ℕ) = 0 by omega, lzb_zero, zero_smul]
      rw [e1]
      rw [add_assoc (lzb M.mulVec v j • lzp M.mulVec v j + _)]
      congr 1
      by_cases hjJ : (j : ℕ) = J
      · rcases hstop with hs | hs
        · rw [if_neg (by omega), zero_add, if_pos (by omega), hr, if_pos hs, hjJ, hs]
        · by_cases hJd : J + 1 = deg
          · rw [if_neg (by omega), zero_add, if_pos (by omega), hr, if_pos hJd, hjJ, hJd]
          · rw [if_pos (by omega), if_neg (by omega), if_neg (by omega), hjJ, hs, zero_smul, smul_zero, add_zero]
      · rw [if_pos (by omega), if_pos (by omega), if_neg (by omega), add_zero, hbe (j + 1) (by omega)]
    · rw [if_neg hj, mulVec_zero, smul_zero, if_neg (by omega : ¬ (j : ℕ) + 1 ≤ J)]
      have hJd : ¬ J + 1 = deg := by omega
      have hr0 : r = 0 := by rw [hr, if_neg hJd]
      rw [hr0, smul_zero, if_pos (by omega)]
      by_cases hj1 : (j : ℕ) - 1 ≤ J
      · rcases hstop with hs | hs
        · exact absurd hs hJd
        · rw [if_pos hj1, hbe j (by omega), show (j : ℕ) = J + 1 by omega, hs, zero_smul]
          simp
      · rw [if_neg hj1]
        simp
  have hk : 0 < deg := by omega
  have hrel : ∀ y : Vec deg, M *ᵥ (Q *ᵥ y) = Q *ᵥ (triMat deg alpha beta *ᵥ y) + y ⟨deg - 1, by omega⟩ • r := by
    intro y
    rw [mulVec_cols Q y, mulVec_sum]
    simp only [mulVec_smul, hcol, smul_add, Finset.sum_add_distrib]
    congr 1
    · rw [mulVec_cols Q]
      simp only [Finset.smul_sum, smul_smul]
      rw [Finset.sum_comm]
      refine Finset.sum_congr rfl fun l _ => ?_
      rw [← Finset.sum_smul]
      congr 1
      exact Finset.sum_congr rfl fun j _ => mul_comm _ _
    · rw [Finset.sum_eq_single (⟨deg - 1, by omega⟩ : Fin deg)]
      · rw [if_pos (by show deg - 1 + 1 = deg; omega)]
      · intro b _ hb
        rw [if_neg, smul_zero]
        intro he
        apply hb
        apply Fin.ext
        show (b : ℕ) = deg - 1
        omega
      · intro h
        exact absurd (Finset.mem_univ _) h
  refine ⟨hk, hrel, ?_, triMat_symm _ _ _, ?_, ?_, ?_⟩
  · intro i j hij
    rw [triMat_apply, if_neg (by omega), if_neg (by omega), if_neg (by omega)]
    ring
  · rw [mulVec_single_one, hcolQ, if_pos (Nat.zero_le _)]
    rfl
  · intro y
    rw [mulVec_cols, dotProduct_sum]
    rw [Finset.sum_eq_single (⟨0, hk⟩ : Fin deg)]
    · rw [hcolQ, if_pos (Nat.zero_le _), dotProduct_smul, ← lzq_zero M.mulVec v]
      have := horth 0 0 (Nat.zero_le _) (Nat.zero_le _)
      show y _ • (q 0 ⬝ᵥ q 0) = _
      rw [this, if_pos rfl, smul_eq_mul, mul_one]
    · intro b _ hb
      rw [hcolQ, dotProduct_smul, ← lzq_zero M.mulVec v]
      have hb0 : (0 : ℕ) ≠ b := fun h => hb (Fin.ext h.symm)
      split_ifs with hbJ
      · have := horth 0 b (Nat.zero_le _) hbJ
        show y _ • (q 0 ⬝ᵥ q b) = _
        rw [this, if_neg hb0, smul_zero]
      · rw [dotProduct_zero, smul_zero]
    · intro h
      exact absurd (Finset.mem_univ _) h
  · by_cases hJd : J + 1 = deg
    · right
      constructor
      · ext i j
        rw [Matrix.mul_apply]
        have := horth i j (by omega) (by omega)
        have e : ∑ l, Qᵀ i l * Q l j = Q.col i ⬝ᵥ Q.col j := rfl
        rw [e, hcolQ, hcolQ, if_pos (by omega), if_pos (by omega), this, Matrix.one_apply]
        simp only [Fin.ext_iff]
      · intro j
        rw [hr, if_pos hJd]
        show Q.col j ⬝ᵥ _ = 0
        rw [hcolQ, if_pos (by omega), dotProduct_comm]
        have := lzr_orth M.mulVec v hA J hb j (by omega)
        rw [lzr_eq, hJd] at this
        exact this
    · left
      rw [hr, if_neg hJd]

end Primate
