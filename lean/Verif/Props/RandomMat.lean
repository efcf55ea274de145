import Verif.Model.RandomMat
import Mathlib.LinearAlgebra.Matrix.PosDef
import Mathlib.LinearAlgebra.Matrix.Charpoly.Coeff

/-!
# C60, C61: random matrices with a given spectrum
-/

noncomputable section

namespace Primate

open Matrix Polynomial

/-- The contract of the QR kernel: the Q factor is orthogonal. -/
def Spec.QROrth (qr : SquareQR) : Prop := ∀ n A, (qr n A)ᵀ * qr n A = 1

/-- What it means that a real matrix is symmetric with eigenvalues `ew`, counted with multiplicity, and an orthonormal basis of
eigenvectors. -/
structure Spec.HasSpectrum {n : ℕ} (A : Matrix (Fin n) (Fin n) ℝ) (ew : Fin n → ℝ) : Prop where
  symm : Aᵀ = A
  charpoly : A.charpoly = ∏ i, (X - C (ew i))
  basis : ∃ V : Fin n → Fin n → ℝ, (∀ i j, V i ⬝ᵥ V j = if i = j then 1 else 0) ∧ ∀ i, A *ᵥ V i = ew i • V i

theorem conjDiag_spectrum {n : ℕ} (Q : Matrix (Fin n) (Fin n) ℝ) (hQ : Qᵀ * Q = 1) (ew : Fin n → ℝ) :
    Spec.HasSpectrum (conjDiag Q ew) ew := by
  refine ⟨?_, ?_, fun i => Qᵀ i, fun i j => ?_, fun i => ?_⟩
  · unfold conjDiag
    rw [transpose_mul, transpose_mul, transpose_transpose, diagonal_transpose, Matrix.mul_assoc]
  · have h := Matrix.charpoly_mul_comm (Q * diagonal ew) Qᵀ
    unfold conjDiag
    rw [h, ← Matrix.mul_assoc, hQ, Matrix.one_mul, Matrix.charpoly_diagonal]
  · have := congrFun (congrFun hQ i) j
    rw [Matrix.one_apply] at this
    rw [← this]
    rfl
  · have h1 : Qᵀ *ᵥ Qᵀ i = Pi.single i 1 := by
      funext k
      have := congrFun (congrFun hQ k) i
      rw [Matrix.one_apply] at this
      rw [Pi.single_apply, ← this]
      rfl
    unfold conjDiag
    rw [← mulVec_mulVec, h1, ← mulVec_mulVec]
    have h2 : diagonal ew *ᵥ Pi.single i 1 = ew i • (Pi.single i 1 : Fin n → ℝ) := by
      funext k
      rw [mulVec_diagonal]
      by_cases h : k = i
      · subst h; simp
      · simp [h]
    rw [h2, mulVec_smul]
    congr 1
    funext k
    simp

/-- C60: `symmetric` returns a symmetric matrix of the requested size with exactly the requested eigenvalues, for both
distributions and whatever the generator produces. -/
theorem C60_symmetric (qr : SquareQR) (hqr : Spec.QROrth qr) (n : ℕ) (hn : 0 < n) (dist : String)
    (hdist : dist = "uniform" ∨ dist = "normal") (pd : Bool) (ew : Fin n → ℝ) (rng : Rng) :
    ∃ A : Matrix (Fin n) (Fin n) ℝ, symmetric qr n dist pd (some (List.ofFn ew)) rng = .ok ⟨n, A⟩ ∧
      Spec.HasSpectrum A ew := by
  have hs := conjDiag_spectrum (qr n (squareform n (if dist = "uniform" then rng.unif else rng.norm)
    fun i => rng.unif (n * (n - 1) / 2 + i))) (hqr _ _) ew
  refine ⟨_, ?_, hs⟩
  unfold symmetric
  rw [if_neg (by rcases hdist with h | h <;> simp [h]), if_neg (by omega)]
  simp only [Int.toNat_natCast, List.length_ofFn, List.getElem_ofFn, Fin.eta, dif_pos, hs.symm]
  congr 2
  rw [← two_smul ℝ, smul_smul]
  norm_num

/-- C60: without `ew` the eigenvalues are those drawn: `low + (1 - low) u` with `low = 0` if `pd` and `-1` otherwise. -/
theorem C60_symmetric_default (qr : SquareQR) (hqr : Spec.QROrth qr) (n : ℕ) (hn : 0 < n) (dist : String)
    (hdist : dist = "uniform" ∨ dist = "normal") (pd : Bool) (rng : Rng) :
    ∃ A : Matrix (Fin n) (Fin n) ℝ, symmetric qr n dist pd none rng = .ok ⟨n, A⟩ ∧
      Spec.HasSpectrum A fun i => (if pd then 0 else -1) + (if pd then 1 else 2) * rng.unif (n * (n - 1) / 2 + n + i) := by
  obtain ⟨A, h1, h2⟩ := C60_symmetric qr hqr n hn dist hdist pd
    (fun i => (if pd then 0 else -1) + (if pd then 1 else 2) * rng.unif (n * (n - 1) / 2 + n + i)) rng
  refine ⟨A, ?_, h2⟩
  rw [← h1]
  unfold symmetric
  have : uniformEw n (if pd then 0 else -1) rng (n * (n - 1) / 2 + n) = List.ofFn (fun i : Fin n =>
      (if pd then (0 : ℝ) else -1) + (if pd then 1 else 2) * rng.unif (n * (n - 1) / 2 + n + i)) := by
    unfold uniformEw
    rw [List.ofFn_eq_map, ← List.map_coe_finRange_eq_range, List.map_map]
    refine List.map_congr_left fun i _ => ?_
    cases pd <;> (simp; try norm_num)
  simp only [Int.toNat_natCast, this]

/-- C60: `symmetric` raises ValueError for an unknown distribution, a size that is not positive, or a wrong number of
eigenvalues. -/
theorem C60_symmetric_rejects (qr : SquareQR) (n : ℤ) (dist : String) (pd : Bool) (ew : Option (List ℝ)) (rng : Rng)
    (h : (dist ≠ "uniform" ∧ dist ≠ "normal") ∨ n ≤ 0 ∨ ∃ l, ew = some l ∧ (l.length : ℤ) ≠ n) :
    symmetric qr n dist pd ew rng = .error .value := by
  unfold symmetric
  by_cases h1 : dist ≠ "uniform" ∧ dist ≠ "normal"
  · rw [if_pos h1]
  rw [if_neg h1]
  by_cases h2 : n ≤ 0
  · rw [if_pos h2]
  rw [if_neg h2]
  rcases h with h | h | ⟨l, rfl, hl⟩
  · exact absurd h h1
  · exact absurd h h2
  · exact dif_neg (by show ¬ l.length = n.toNat; omega)

/-- C60: `haar` returns a symmetric matrix with exactly the requested eigenvalues, or those drawn from `[-1, 1)`; a wrong number of
eigenvalues raises AssertionError. -/
theorem C60_haar (n : ℕ) (U : Matrix (Fin n) (Fin n) ℝ) (hU : Uᵀ * U = 1) (ew : Fin n → ℝ) (l : List ℝ) (rng : Rng) :
    (∃ A, haar n U (some (List.ofFn ew)) rng = .ok A ∧ Spec.HasSpectrum A ew) ∧
    (∃ A, haar n U none rng = .ok A ∧ Spec.HasSpectrum A fun i => -1 + 2 * rng.unif i) ∧
    (l.length ≠ n → haar n U (some l) rng = .error .assertion) := by
  refine ⟨⟨_, ?_, conjDiag_spectrum U hU ew⟩, ⟨_, ?_, conjDiag_spectrum U hU _⟩, fun h => dif_neg h⟩
  · simp [haar]
  · have : uniformEw n (-1) rng 0 = List.ofFn (fun i : Fin n => -1 + 2 * rng.unif i) := by
      unfold uniformEw
      rw [List.ofFn_eq_map, ← List.map_coe_finRange_eq_range, List.map_map]
      refine List.map_congr_left fun i _ => ?_
      simp
      norm_num
    simp [haar, this]

/-- A kernel meeting the contract. -/
example : Spec.QROrth fun _ _ => 1 := fun n _ => by simp

/-! ## C61 -/

/-- The quadratic form in the basis of eigenvectors. -/
theorem quadratic_spectrum {n : ℕ} (A : Matrix (Fin n) (Fin n) ℝ) (ew : Fin n → ℝ) (h : Spec.HasSpectrum A ew) :
    ∃ W : Matrix (Fin n) (Fin n) ℝ, Wᵀ * W = 1 ∧ W * Wᵀ = 1 ∧ ∀ x, x ⬝ᵥ A *ᵥ x = ∑ i, ew i * (W *ᵥ x) i ^ 2 := by
  obtain ⟨-, -, V, hV, hA⟩ := h
  have h1 : Matrix.of V * (Matrix.of V)ᵀ = 1 := by
    ext i j
    rw [Matrix.one_apply, ← hV]
    rfl
  have h2 : (Matrix.of V)ᵀ * Matrix.of V = 1 := mul_eq_one_comm.1 h1
  have h3 : A * (Matrix.of V)ᵀ = (Matrix.of V)ᵀ * diagonal ew := by
    ext k i
    have := congrFun (hA i) k
    rw [mul_diagonal]
    rw [Pi.smul_apply, smul_eq_mul, mul_comm] at this
    exact this
  refine ⟨Matrix.of V, h2, h1, fun x => ?_⟩
  have h4 : A = (Matrix.of V)ᵀ * diagonal ew * Matrix.of V := by
    rw [← h3, Matrix.mul_assoc, h2, Matrix.mul_one]
  rw [h4, ← mulVec_mulVec, ← mulVec_mulVec, dotProduct_mulVec, vecMul_transpose]
  unfold dotProduct
  refine Finset.sum_congr rfl fun i _ => ?_
  rw [mulVec_diagonal]
  ring

theorem posSemidef_iff_spectrum {n : ℕ} (A : Matrix (Fin n) (Fin n) ℝ) (ew : Fin n → ℝ) (h : Spec.HasSpectrum A ew) :
    A.PosSemidef ↔ ∀ i, 0 ≤ ew i := by
  obtain ⟨W, h1, h2, hq⟩ := quadratic_spectrum A ew h
  rw [posSemidef_iff_dotProduct_mulVec]
  constructor
  · rintro ⟨-, hp⟩ i
    have := hp (Wᵀ *ᵥ Pi.single i 1)
    rw [star_trivial, hq, mulVec_mulVec, h2, one_mulVec, Finset.sum_eq_single i] at this
    · simpa using this
    · intro j _ hj; simp [hj]
    · intro hi; exact absurd (Finset.mem_univ i) hi
  · intro hp
    refine ⟨h.symm, fun x => ?_⟩
    rw [star_trivial, hq]
    exact Finset.sum_nonneg fun i _ => mul_nonneg (hp i) (sq_nonneg _)

/-- C61 is false as documented: the flag `pd` does nothing when eigenvalues are given; the matrix is positive semi-definite exactly if
they all are non-negative. -/
theorem C61_flag_ignored (qr : SquareQR) (hqr : Spec.QROrth qr) (n : ℕ) (hn : 0 < n) (dist : String)
    (hdist : dist = "uniform" ∨ dist = "normal") (pd : Bool) (ew : Fin n → ℝ) (rng : Rng) :
    symmetric qr n dist pd (some (List.ofFn ew)) rng = symmetric qr n dist false (some (List.ofFn ew)) rng ∧
    ∃ A : Matrix (Fin n) (Fin n) ℝ, symmetric qr n dist pd (some (List.ofFn ew)) rng = .ok ⟨n, A⟩ ∧
      (A.PosSemidef ↔ ∀ i, 0 ≤ ew i) := by
  obtain ⟨A, h1, h2⟩ := C60_symmetric qr hqr n hn dist hdist pd ew rng
  exact ⟨rfl, A, h1, posSemidef_iff_spectrum A ew h2⟩

/-- C61, counterexample: `symmetric(2, pd=True, ew=[1, -1])` is not positive semi-definite. -/
theorem C61_counterexample (qr : SquareQR) (hqr : Spec.QROrth qr) (rng : Rng) :
    ∃ A : Matrix (Fin 2) (Fin 2) ℝ, symmetric qr 2 "normal" true (some [1, -1]) rng = .ok ⟨2, A⟩ ∧ ¬ A.PosSemidef := by
  obtain ⟨-, A, h1, h2⟩ := C61_flag_ignored qr hqr 2 (by norm_num) "normal" (Or.inr rfl) true ![1, -1] rng
  refine ⟨A, by simpa using h1, fun h => ?_⟩
  have := h2.1 h 1
  norm_num at this

/-- C61 when no eigenvalues are given: with `pd` the matrix is positive semi-definite whatever the generator produces (uniform variates are
non-negative), and positive definite if no variate used is zero. -/
theorem C61_default_partial (qr : SquareQR) (hqr : Spec.QROrth qr) (n : ℕ) (hn : 0 < n) (dist : String)
    (hdist : dist = "uniform" ∨ dist = "normal") (rng : Rng) (hu : ∀ k, 0 ≤ rng.unif k) :
    ∃ A : Matrix (Fin n) (Fin n) ℝ, symmetric qr n dist true none rng = .ok ⟨n, A⟩ ∧ A.PosSemidef ∧
      ((∀ k, rng.unif k ≠ 0) → ∀ x, x ≠ 0 → 0 < x ⬝ᵥ A *ᵥ x) := by
  obtain ⟨A, h1, h2⟩ := C60_symmetric_default qr hqr n hn dist hdist true rng
  refine ⟨A, h1, (posSemidef_iff_spectrum A _ h2).2 fun i => by simpa using hu _, ?_⟩
  intro h0 x hx
  obtain ⟨W, h3, -, hq⟩ := quadratic_spectrum A _ h2
  rw [hq]
  obtain ⟨i, hi⟩ : ∃ i, (W *ᵥ x) i ≠ 0 := by
    by_contra hc
    push Not at hc
    apply hx
    rw [← one_mulVec x, ← h3, ← mulVec_mulVec, show W *ᵥ x = 0 from funext hc, mulVec_zero]
  have hpos : ∀ k, 0 < rng.unif k := fun k => lt_of_le_of_ne (hu k) (h0 k).symm
  refine Finset.sum_pos' (fun j _ => ?_) ⟨i, Finset.mem_univ i, ?_⟩
  · have := hu (n * (n - 1) / 2 + n + j)
    simp only [if_true]
    positivity
  · have := hpos (n * (n - 1) / 2 + n + i)
    simp only [if_true]
    positivity

/-- `idx i j`, for `i < j < n`, counts the pairs row by row. -/
structure Spec.RowByRow (n : ℕ) (idx : ℕ → ℕ → ℕ) : Prop where
  first : idx 0 1 = 0
  next : ∀ i j, i < j → j + 1 < n → idx i (j + 1) = idx i j + 1
  row : ∀ i, i + 2 < n → idx (i + 1) (i + 2) = idx i (n - 1) + 1

theorem tri_succ (i : ℕ) : (i + 1) * (i + 1 + 1) / 2 = i * (i + 1) / 2 + (i + 1) := by
  have : (i + 1) * (i + 1 + 1) = i * (i + 1) + (i + 1) * 2 := by ring
  rw [this, Nat.add_mul_div_right _ _ (by norm_num)]

theorem squareform_index (n : ℕ) : Spec.RowByRow n fun i j => i * n - i * (i + 1) / 2 + (j - i - 1) := by
  refine ⟨by simp, fun i j hij hj => ?_, fun i hi => ?_⟩
  · omega
  · rw [tri_succ]
    have h1 : i * (i + 1) / 2 + i ≤ i * n := by
      have : i * (i + 1) / 2 ≤ i * (i + 1) := Nat.div_le_self _ _
      nlinarith
    have h2 : (i + 1) * n = i * n + n := by ring
    rw [h2]
    generalize i * (i + 1) / 2 = t at *
    generalize i * n = m at *
    omega

/-- C60: the matrix that `symmetric` hands to the QR decomposition: the first `n (n - 1) / 2` numbers of the distribution fill the upper triangle row by row, mirrored
below, and the uniform numbers that follow are the diagonal.  The result is `Q diag(ew) Qᵀ`, averaged with its transpose. -/
theorem C60_symmetric_draws (qr : SquareQR) (n : ℕ) (hn : 0 < n) (dist : String) (hdist : dist = "uniform" ∨ dist = "normal") (pd : Bool) (ew : Fin n → ℝ) (rng : Rng) :
    ∃ (idx : ℕ → ℕ → ℕ) (A : Matrix (Fin n) (Fin n) ℝ), Spec.RowByRow n idx ∧
      (∀ i j, i < j → A i j = (if dist = "uniform" then rng.unif else rng.norm) (idx i j) ∧ A j i = A i j) ∧
      (∀ i, A i i = rng.unif (n * (n - 1) / 2 + i)) ∧
      ∃ S, symmetric qr n dist pd (some (List.ofFn ew)) rng = .ok ⟨n, S⟩ ∧
        ∀ i j, S i j = (∑ k, qr n A i k * ew k * qr n A j k + ∑ k, qr n A j k * ew k * qr n A i k) / 2 := by
  refine ⟨_, squareform n (if dist = "uniform" then rng.unif else rng.norm) fun i => rng.unif (n * (n - 1) / 2 + i), squareform_index n, fun i j hij => ?_, fun i => ?_, ?_⟩
  · have h1 : min (i : ℕ) (j : ℕ) = i := min_eq_left hij.le
    have h2 : max (i : ℕ) (j : ℕ) = j := max_eq_right hij.le
    unfold squareform
    rw [if_neg hij.ne, if_neg hij.ne', min_comm (j : ℕ), max_comm (j : ℕ), h1, h2]
    exact ⟨rfl, rfl⟩
  · simp [squareform]
  · have hc : ∀ (Q : Matrix (Fin n) (Fin n) ℝ) (i j : Fin n), conjDiag Q ew i j = ∑ k, Q i k * ew k * Q j k := fun Q i j => by
      simp [conjDiag, Matrix.mul_apply, Matrix.diagonal_apply]
    unfold symmetric
    rw [if_neg (by rcases hdist with h | h <;> simp [h]), if_neg (by omega)]
    simp only [Int.toNat_natCast, List.length_ofFn, List.getElem_ofFn, Fin.eta, dif_pos]
    refine ⟨_, rfl, fun i j => ?_⟩
    simp only [Matrix.smul_apply, Matrix.add_apply, Matrix.transpose_apply, smul_eq_mul, hc]
    ring

/-- For `n = 3` the numbers 0, 1, 2 of the stream are the entries (0,1), (0,2), (1,2). -/
example (qr : SquareQR) (rng : Rng) : ∃ A : Matrix (Fin 3) (Fin 3) ℝ, A 0 1 = rng.norm 0 ∧ A 0 2 = rng.norm 1 ∧ A 1 2 = rng.norm 2 ∧ A 2 0 = rng.norm 1 ∧
    A 2 2 = rng.unif 5 := by
  obtain ⟨idx, A, h, h1, h2, -⟩ := C60_symmetric_draws qr 3 (by norm_num) "normal" (Or.inr rfl) false (fun _ => 1) rng
  have e0 := h.first
  have e1 := h.next 0 1 (by norm_num) (by norm_num)
  have e2 := h.row 0 (by norm_num)
  have a1 := (h1 0 1 (by decide)).1
  have a2 := h1 0 2 (by decide)
  have a3 := (h1 1 2 (by decide)).1
  norm_num at e1 e2 a1 a2 a3
  rw [e0] at e1 a1
  rw [e1] at e2 a2
  rw [e2] at a3
  refine ⟨A, a1, a2.1, a3, a2.2.trans a2.1, ?_⟩
  rw [h2 2]
  norm_num

end Primate
