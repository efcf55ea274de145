import Verif.Lemmas.Krylov
import Mathlib.Algebra.Polynomial.AlgebraMap
import Mathlib.Algebra.Polynomial.Degree.Lemmas
import Mathlib.LinearAlgebra.Matrix.Notation
import Mathlib.LinearAlgebra.Lagrange

/-! Krylov relations in matrix form, and what they imply for polynomials. -/

noncomputable section

namespace Primate

open Matrix Polynomial

variable {n k : ℕ}

/-- `A Q = Q T + r e_kᵀ` with `Q e_1 = q0`, `q0ᵀ Q = e_1ᵀ`, `T` tridiagonal and symmetric, and either `r = 0` or
`Q` orthonormal with `Qᵀ r = 0`. -/
structure KData (A : Matrix (Fin n) (Fin n) ℝ) (q0 : Vec n) (Q : Matrix (Fin n) (Fin k) ℝ)
    (T : Matrix (Fin k) (Fin k) ℝ) (r : Vec n) : Prop where
  kpos : 0 < k
  rel : ∀ y : Vec k, A *ᵥ (Q *ᵥ y) = Q *ᵥ (T *ᵥ y) + y ⟨k - 1, by omega⟩ • r
  tri : ∀ i j : Fin k, (j : ℕ) + 1 < i → T i j = 0
  symm : T.IsSymm
  e0 : Q *ᵥ (Pi.single ⟨0, kpos⟩ 1) = q0
  q0Q : ∀ y : Vec k, q0 ⬝ᵥ (Q *ᵥ y) = y ⟨0, kpos⟩
  exact : r = 0 ∨ (Qᵀ * Q = 1 ∧ ∀ j, (fun i => Q i j) ⬝ᵥ r = 0)

namespace KData

variable {A : Matrix (Fin n) (Fin n) ℝ} {q0 : Vec n} {Q : Matrix (Fin n) (Fin k) ℝ}
  {T : Matrix (Fin k) (Fin k) ℝ} {r : Vec n}

/-- `T^m e_1` has only its first `m + 1` entries nonzero. -/
theorem band (h : KData A q0 Q T r) (m : ℕ) (i : Fin k) (hi : m < i) :
    ((T ^ m) *ᵥ (Pi.single ⟨0, h.kpos⟩ 1 : Vec k)) i = 0 := by
  induction m generalizing i with
  | zero =>
    rw [pow_zero, one_mulVec, Pi.single_apply, if_neg]
    intro he
    have := congrArg Fin.val he
    simp at this
    omega
  | succ m ih =>
    rw [pow_succ', ← mulVec_mulVec]
    show ∑ j, T i j * _ = 0
    refine Finset.sum_eq_zero fun j _ => ?_
    by_cases hj : m < j
    · rw [ih j hj, mul_zero]
    · rw [h.tri i j (by omega), zero_mul]

theorem pow_lt (h : KData A q0 Q T r) (m : ℕ) (hm : m < k ∨ r = 0) :
    (A ^ m) *ᵥ q0 = Q *ᵥ ((T ^ m) *ᵥ (Pi.single ⟨0, h.kpos⟩ 1 : Vec k)) := by
  induction m with
  | zero => rw [pow_zero, pow_zero, one_mulVec, one_mulVec, h.e0]
  | succ m ih =>
    rw [pow_succ', ← mulVec_mulVec, ih (by rcases hm with hm | hm; (left; omega); (right; exact hm)),
      h.rel, pow_succ', ← mulVec_mulVec]
    rcases hm with hm | hm
    · rw [h.band m _ (by show m < k - 1; omega), zero_smul, add_zero]
    · simp [hm]

theorem aeval_mulVec {m : ℕ} (B : Matrix (Fin m) (Fin m) ℝ) (p : ℝ[X]) (x : Vec m) :
    (aeval B p) *ᵥ x = ∑ i ∈ Finset.range (p.natDegree + 1), p.coeff i • ((B ^ i) *ᵥ x) := by
  rw [aeval_eq_sum_range, sum_mulVec]
  exact Finset.sum_congr rfl fun i _ => smul_mulVec _ _ _

/-- `p(A) q0 = Q p(T) e_1` for polynomials of degree below `k` (all polynomials when `r = 0`). -/
theorem poly (h : KData A q0 Q T r) (p : ℝ[X]) (hp : p.natDegree < k ∨ r = 0) :
    (aeval A p) *ᵥ q0 = Q *ᵥ ((aeval T p) *ᵥ (Pi.single ⟨0, h.kpos⟩ 1 : Vec k)) := by
  rw [aeval_mulVec, aeval_mulVec, mulVec_sum]
  refine Finset.sum_congr rfl fun i hi => ?_
  rw [mulVec_smul, h.pow_lt i]
  rcases hp with hp | hp
  · left
    have := Finset.mem_range.mp hi
    omega
  · exact Or.inr hp

theorem pow_symm {m : ℕ} {B : Matrix (Fin m) (Fin m) ℝ} (hB : B.IsSymm) (i : ℕ) : (B ^ i).IsSymm := by
  show (B ^ i)ᵀ = B ^ i
  rw [transpose_pow, hB.eq]

theorem dot_pow_mulVec {m : ℕ} {B : Matrix (Fin m) (Fin m) ℝ} (hB : B.IsSymm) (i j : ℕ) (x : Vec m) :
    x ⬝ᵥ ((B ^ (i + j)) *ᵥ x) = ((B ^ i) *ᵥ x) ⬝ᵥ ((B ^ j) *ᵥ x) := by
  rw [pow_add, ← mulVec_mulVec]
  have := SelfAdj.mulVec (pow_symm hB i) x ((B ^ j) *ᵥ x)
  exact this.symm

theorem moment (h : KData A q0 Q T r) (hA : A.IsSymm) (m : ℕ) (hm : m < 2 * k ∨ r = 0) :
    q0 ⬝ᵥ ((A ^ m) *ᵥ q0) =
      ((T ^ m) *ᵥ (Pi.single ⟨0, h.kpos⟩ 1 : Vec k)) ⟨0, h.kpos⟩ := by
  by_cases h0 : m < k ∨ r = 0
  · rw [h.pow_lt m h0, h.q0Q]
  · push Not at h0
    obtain ⟨hmk, hr⟩ := h0
    have hm : m < 2 * k := by rcases hm with hm | hm; exact hm; exact absurd hm hr
    obtain ⟨hQ, hQr⟩ : Qᵀ * Q = 1 ∧ ∀ j, (fun i => Q i j) ⬝ᵥ r = 0 := by
      rcases h.exact with h' | h'
      · exact absurd h' hr
      · exact h'
    set e : Vec k := Pi.single ⟨0, h.kpos⟩ 1 with he
    have hk := h.kpos
    obtain ⟨j, hj⟩ : ∃ j, m = (k - 1) + (j + 1) := ⟨m - k, by omega⟩
    have hjk : j < k := by omega
    rw [hj, dot_pow_mulVec hA, h.pow_lt (k - 1) (Or.inl (by omega)), pow_succ', ← mulVec_mulVec,
      h.pow_lt j (Or.inl hjk), h.rel]
    have hd : ∀ x y : Vec k, (Q *ᵥ x) ⬝ᵥ (Q *ᵥ y) = x ⬝ᵥ y := by
      intro x y
      rw [dotProduct_mulVec, vecMul_mulVec, hQ, vecMul_one]
    have hd' : ∀ x : Vec k, (Q *ᵥ x) ⬝ᵥ r = 0 := by
      intro x
      rw [dotProduct_comm, dotProduct_mulVec]
      have : r ᵥ* Q = 0 := by
        funext l
        show r ⬝ᵥ (fun i => Q i l) = 0
        rw [dotProduct_comm]
        exact hQr l
      rw [this, zero_dotProduct]
    rw [dotProduct_add, hd, dotProduct_smul, hd', smul_zero, add_zero]
    have h1 : e ⬝ᵥ ((T ^ ((k - 1) + (j + 1))) *ᵥ e) = ((T ^ ((k - 1) + (j + 1))) *ᵥ e) ⟨0, h.kpos⟩ := by
      rw [he, single_dotProduct, one_mul]
    rw [← h1, dot_pow_mulVec h.symm, pow_succ', ← mulVec_mulVec]

/-- `q0ᵀ p(A) q0 = (p(T))_{11}` for polynomials of degree at most `2k - 1` (all when `r = 0`). -/
theorem quad_poly (h : KData A q0 Q T r) (hA : A.IsSymm) (p : ℝ[X]) (hp : p.natDegree < 2 * k ∨ r = 0) :
    q0 ⬝ᵥ ((aeval A p) *ᵥ q0) = ((aeval T p) *ᵥ (Pi.single ⟨0, h.kpos⟩ 1 : Vec k)) ⟨0, h.kpos⟩ := by
  rw [aeval_mulVec, aeval_mulVec, dotProduct_sum, Finset.sum_apply]
  refine Finset.sum_congr rfl fun i hi => ?_
  rw [dotProduct_smul, Pi.smul_apply, h.moment hA i]
  rcases hp with hp | hp
  · left
    have := Finset.mem_range.mp hi
    omega
  · exact Or.inr hp

end KData

/-- `V` holds orthonormal eigenvectors of `B` with eigenvalues `w`. -/
def IsEigh {m : ℕ} (B : Matrix (Fin m) (Fin m) ℝ) (w : Fin m → ℝ) (V : Matrix (Fin m) (Fin m) ℝ) : Prop :=
  Vᵀ * V = 1 ∧ B * V = V * Matrix.diagonal w

namespace IsEigh

variable {m : ℕ} {B : Matrix (Fin m) (Fin m) ℝ} {w : Fin m → ℝ} {V : Matrix (Fin m) (Fin m) ℝ}

theorem mul_transpose (h : IsEigh B w V) : V * Vᵀ = 1 := mul_eq_one_comm.mp h.1

theorem pow_mul (h : IsEigh B w V) (i : ℕ) : B ^ i * V = V * Matrix.diagonal fun a => w a ^ i := by
  induction i with
  | zero => simp
  | succ i ih =>
    rw [pow_succ', Matrix.mul_assoc, ih, ← Matrix.mul_assoc, h.2, Matrix.mul_assoc, diagonal_mul_diagonal]
    congr 2
    funext a
    rw [pow_succ']

theorem aeval_mul (h : IsEigh B w V) (p : ℝ[X]) :
    aeval B p * V = V * Matrix.diagonal fun a => p.eval (w a) := by
  rw [aeval_eq_sum_range, Matrix.sum_mul]
  have h1 : ∀ i, (p.coeff i • B ^ i) * V = V * Matrix.diagonal fun a => p.coeff i * w a ^ i := by
    intro i
    rw [Matrix.smul_mul, h.pow_mul, ← Matrix.mul_smul]
    congr 1
    ext a b
    by_cases hab : a = b
    · subst hab; simp
    · simp [hab]
  rw [Finset.sum_congr rfl fun i _ => h1 i, ← Matrix.mul_sum]
  congr 1
  ext a b
  rw [Matrix.sum_apply]
  by_cases hab : a = b
  · subst hab
    simp only [diagonal_apply_eq]
    rw [eval_eq_sum_range]
  · simp [hab]

/-- The spectral formula for polynomials. -/
theorem aeval_eq (h : IsEigh B w V) (p : ℝ[X]) (x : Vec m) (i : Fin m) :
    (aeval B p *ᵥ x) i = ∑ a, V i a * (p.eval (w a) * ∑ l, V l a * x l) := by
  have h1 : aeval B p = V * (Matrix.diagonal fun a => p.eval (w a)) * Vᵀ := by
    rw [← h.aeval_mul, Matrix.mul_assoc, h.mul_transpose, Matrix.mul_one]
  rw [h1, ← mulVec_mulVec, ← mulVec_mulVec]
  show ∑ a, V i a * _ = _
  refine Finset.sum_congr rfl fun a _ => ?_
  rw [mulVec_diagonal]
  rfl

end IsEigh

/-- A polynomial that takes prescribed values on a finite set. -/
theorem exists_interp (s : Finset ℝ) (f : ℝ → ℝ) : ∃ p : ℝ[X], ∀ x ∈ s, p.eval x = f x := by
  classical
  refine ⟨Lagrange.interpolate s id f, fun x hx => ?_⟩
  exact Lagrange.eval_interpolate_at_node f (Set.injOn_id _) hx

end Primate
