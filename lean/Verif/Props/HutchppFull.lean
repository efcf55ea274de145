import Verif.Model.HutchppFull
import Verif.Props.Hutchpp
import Verif.Props.Variance

/-! # C100, C101: the result object and the variance of Hutch++ -/

noncomputable section

namespace Primate

open Matrix

variable {N : ℕ}

/-! ## C100 -/

/-- The residual vectors after deflation. -/
def Spec.deflated {r nb : ℕ} (Q : Fin r → Vec N) (G : Fin nb → Vec N) (j : Fin nb) : Vec N :=
  fun i => G j i - ∑ l, (Q l ⬝ᵥ G j) * Q l i

/-- The samples that the claim asks for: one quadratic form per basis vector and one per deflated vector. -/
def Spec.hutchppSamples {r nb : ℕ} (A : Matrix (Fin N) (Fin N) ℝ) (Q : Fin r → Vec N) (G : Fin nb → Vec N) : List ℝ :=
  (List.ofFn fun l => Spec.quad A (Q l)) ++ List.ofFn fun j => Spec.quad A (Spec.deflated Q G j)

theorem sum_rows_quad {k : ℕ} (A : Matrix (Fin N) (Fin N) ℝ) (V : Fin k → Vec N) :
    (List.ofFn fun i : Fin N => ∑ j, (A *ᵥ V j) i * V j i).sum = ∑ j, Spec.quad A (V j) := by
  rw [List.sum_ofFn, Finset.sum_comm]
  refine Finset.sum_congr rfl fun j _ => ?_
  rw [quad_eq_dot]
  exact Finset.sum_congr rfl fun i _ => mul_comm _ _

theorem deflated_eq {r nb : ℕ} (Q : Fin r → Vec N) (G : Fin nb → Vec N) (j : Fin nb) :
    (fun i => G j i - ∑ l, Q l i * ∑ p, Q l p * G j p) = Spec.deflated Q G j := by
  funext i
  unfold Spec.deflated
  congr 1
  exact Finset.sum_congr rfl fun l _ => by rw [mul_comm]; rfl

/-- C100 (partial): with `full=True` and a matrix, the estimate is stored in the result object, the first `min(N, nb)` samples are the quadratic forms
of the basis vectors (default mode), and the remaining ones sum to the sum of the quadratic forms of the deflated vectors, so the estimate is the sum of
the first group plus `1/nb` times the sum of the second.  Missing: the second group has one number per row, not one per vector
(`C100_counterexample`). -/
theorem C100_samples_partial {nb : ℕ} (qr : (Fin nb → Vec N) → Fin (min N nb) → Vec N) (shape : QuadShape)
    (A : Matrix (Fin N) (Fin N) ℝ) (WB G : Fin nb → Vec N) :
    ∃ e nit l₁ l₂, hutchppCoreShaped qr (.ofMatrix A) shape false true WB G = .ok (.pair e e nit (l₁ ++ l₂)) ∧ nit = 2 * nb ∧
      l₁ = (List.ofFn fun l => Spec.quad A (qr (fun j => A *ᵥ WB j) l)) ∧ l₂.length = N ∧
      l₂.sum = ∑ j, Spec.quad A (Spec.deflated (qr fun j => A *ᵥ WB j) G j) ∧ e = l₁.sum + l₂.sum / nb := by
  have hG : ∀ Q : Fin (min N nb) → Vec N, (fun (j : Fin nb) i => G j i - ∑ l, Q l i * ∑ p, Q l p * G j p) = Spec.deflated Q G :=
    fun Q => funext fun j => deflated_eq Q G j
  have h2 := sum_rows_quad A (Spec.deflated (qr fun j => A *ᵥ WB j) G)
  refine ⟨_, _, (List.ofFn fun l => Spec.quad A (qr (fun j => A *ᵥ WB j) l)), (List.ofFn fun i : Fin N => ∑ j,
    (A *ᵥ Spec.deflated (qr fun j => A *ᵥ WB j) G j) i * Spec.deflated (qr fun j => A *ᵥ WB j) G j i), ?_, rfl, rfl, by simp, h2, rfl⟩
  have hq : ∀ v : Vec N, (Operand.ofMatrix A).quadForm v = Spec.quad A v := fun v => (C20_quadForm A (fun _ => 0) id v).1
  simp only [hutchppCoreShaped, Operand.ofMatrix, Option.isSome_none, Bool.and_false, Bool.false_and, Bool.false_eq_true, if_false]
  simp only [hutchppCore, Bool.false_eq_true, if_false, if_true]
  have hq' : ∀ v : Vec N, ({ apply := A.mulVec, quad := none } : Operand N).quadForm v = Spec.quad A v := hq
  simp only [hq', ← hG]
  have e : ∀ x : ℝ, 1 / (nb : ℝ) * x = x / nb := fun x => by ring
  simp only [e]

/-- C100 for `mode="full"`: both groups have one number per row; the sums are the same as in the default mode. -/
theorem C100_full_mode_partial {nb : ℕ} (qr : (Fin nb → Vec N) → Fin (min N nb) → Vec N) (shape : QuadShape)
    (A : Matrix (Fin N) (Fin N) ℝ) (WB G : Fin nb → Vec N) :
    ∃ e nit l₁ l₂, hutchppCoreShaped qr (.ofMatrix A) shape true true WB G = .ok (.pair e e nit (l₁ ++ l₂)) ∧ nit = 2 * nb ∧
      l₁.length = N ∧ l₂.length = N ∧ l₁.sum = ∑ l, Spec.quad A (qr (fun j => A *ᵥ WB j) l) ∧
      l₂.sum = ∑ j, Spec.quad A (Spec.deflated (qr fun j => A *ᵥ WB j) G j) ∧ e = l₁.sum + l₂.sum / nb := by
  have hG : ∀ Q : Fin (min N nb) → Vec N, (fun (j : Fin nb) i => G j i - ∑ l, Q l i * ∑ p, Q l p * G j p) = Spec.deflated Q G :=
    fun Q => funext fun j => deflated_eq Q G j
  have h2 := sum_rows_quad A (Spec.deflated (qr fun j => A *ᵥ WB j) G)
  have h1 := sum_rows_quad A (qr fun j => A *ᵥ WB j)
  refine ⟨_, _, (List.ofFn fun i : Fin N => ∑ j, (A *ᵥ (qr fun j => A *ᵥ WB j) j) i * (qr fun j => A *ᵥ WB j) j i),
    (List.ofFn fun i : Fin N => ∑ j,
    (A *ᵥ Spec.deflated (qr fun j => A *ᵥ WB j) G j) i * Spec.deflated (qr fun j => A *ᵥ WB j) G j i), ?_, rfl, by simp, by simp,
    h1, h2, rfl⟩
  simp only [hutchppCoreShaped, Operand.ofMatrix, Option.isSome_none, Bool.and_false, Bool.false_and, Bool.false_eq_true, if_false]
  simp only [hutchppCore, if_true]
  simp only [← hG]
  have e : ∀ x : ℝ, 1 / (nb : ℝ) * x = x / nb := fun x => by ring
  simp only [e]

/-- C100 is false of the code: unless the number of vectors happens to be the number of rows, the samples are not those announced by the comment on line
172, in either mode. -/
theorem C100_counterexample {nb : ℕ} (h : nb ≠ N) (qr : (Fin nb → Vec N) → Fin (min N nb) → Vec N) (shape : QuadShape)
    (A : Matrix (Fin N) (Fin N) ℝ) (mode : Bool) (WB G : Fin nb → Vec N) :
    ∀ e e' nit l, hutchppCoreShaped qr (.ofMatrix A) shape mode true WB G = .ok (.pair e e' nit l) →
      l ≠ Spec.hutchppSamples A (qr fun j => A *ᵥ WB j) G := by
  intro e e' nit l hl heq
  have hlen : l.length = min N nb + nb := by rw [heq]; simp [Spec.hutchppSamples]
  cases mode with
  | true =>
    obtain ⟨e₁, n₁, l₁, l₂, h1, -, h2, h3, -⟩ := C100_full_mode_partial qr shape A WB G
    rw [h1] at hl
    simp only [Except.ok.injEq, HutchppOut.pair.injEq] at hl
    obtain ⟨-, -, -, rfl⟩ := hl
    rw [List.length_append] at hlen
    omega
  | false =>
    obtain ⟨e₁, n₁, l₁, l₂, h1, -, h2, h3, -⟩ := C100_samples_partial qr shape A WB G
    rw [h1] at hl
    simp only [Except.ok.injEq, HutchppOut.pair.injEq] at hl
    obtain ⟨-, -, -, rfl⟩ := hl
    rw [List.length_append, h2, List.length_ofFn] at hlen
    omega

/-- C100 is false of the code for matrix functions: with `full=True` and the default mode every call that gets as far as the samples raises ValueError, although
the same call with `full=False` returns a number. -/
theorem C100_matrix_function (rng : Rng) (qr : ∀ nb, (Fin nb → Vec N) → Fin (min N nb) → Vec N) (A : Operand N) (hq : A.quad.isSome)
    (hN : N ≠ 0) (m : Option ℤ) (hm : 0 < hutchppNb N m) (s : String) (pdf : Pdf N) (hp : isotropicPdf s rng N = .ok pdf) :
    hutchppShaped qr rng A .array1 m false (.name s) true = .error .value ∧
    ∃ e, hutchppShaped qr rng A .array1 m false (.name s) false = .ok (.scalar e) := by
  have h1 : ¬ hutchppNb N m < 0 := by omega
  have h2 : ¬ hutchppNb N m = 0 := by omega
  simp [hutchppShaped, hp, hN, h1, h2, hutchppCoreShaped, hq, hutchppCore]

/-- In all other cases the shapes play no role. -/
theorem C100_shape (rng : Rng) (qr : ∀ nb, (Fin nb → Vec N) → Fin (min N nb) → Vec N) (A : Operand N) (shape : QuadShape)
    (m : Option ℤ) (modeFull : Bool) (pdf : PdfArg N) (full : Bool)
    (h : full = false ∨ modeFull = true ∨ A.quad = none ∨ shape = .number) :
    hutchppShaped qr rng A shape m modeFull pdf full = hutchpp qr rng A m modeFull pdf full := by
  have hc : ∀ nb (WB G : Fin nb → Vec N), hutchppCoreShaped (qr nb) A shape modeFull full WB G =
      .ok (hutchppCore (qr nb) A modeFull full WB G) := by
    intro nb WB G
    unfold hutchppCoreShaped
    rcases h with h | h | h | h <;> simp [h]
  unfold hutchppShaped hutchpp
  simp only [hc]
  rfl

/-! ## C101 -/

/-- The matrix on which the residual samples act: `A` between the projectors onto the complement of the sketch. -/
def Spec.residual {r : ℕ} (A : Matrix (Fin N) (Fin N) ℝ) (Q : Fin r → Vec N) : Matrix (Fin N) (Fin N) ℝ :=
  (1 - Matrix.of fun i j => ∑ l, Q l i * Q l j) * A * (1 - Matrix.of fun i j => ∑ l, Q l i * Q l j)

theorem residual_eq {r : ℕ} (A : Matrix (Fin N) (Fin N) ℝ) (Q : Fin r → Vec N) :
    Spec.residual A Q = (1 - colMat Q * (colMat Q)ᵀ)ᵀ * A * (1 - colMat Q * (colMat Q)ᵀ) := by
  have h : (Matrix.of fun i j => ∑ l, Q l i * Q l j : Matrix (Fin N) (Fin N) ℝ) = colMat Q * (colMat Q)ᵀ := by
    funext i j
    simp [mul_apply, colMat]
  unfold Spec.residual
  rw [h, transpose_sub, transpose_one, transpose_mul, transpose_transpose]

/-- The error of the Hutch++ value is the error of the plain estimator on the residual matrix. -/
theorem hutchppValue_error {r nb : ℕ} (A : Matrix (Fin N) (Fin N) ℝ) (Q : Fin r → Vec N)
    (horth : ∀ a b, ∑ i, Q a i * Q b i = if a = b then 1 else 0) (G : Fin nb → Vec N) :
    hutchppValue A Q G - A.trace = (∑ j, Spec.quad (Spec.residual A Q) (G j)) / nb - (Spec.residual A Q).trace := by
  have ho := colMat_orth Q horth
  rw [residual_eq]
  set P := 1 - colMat Q * (colMat Q)ᵀ with hP
  have hPP : P * Pᵀ = P := by
    have hT : Pᵀ = P := by
      rw [hP, transpose_sub, transpose_one, transpose_mul, transpose_transpose]
    rw [hT, hP, Matrix.sub_mul, Matrix.mul_sub, Matrix.mul_sub, Matrix.one_mul, Matrix.mul_one,
      Matrix.one_mul, Matrix.mul_assoc, ← Matrix.mul_assoc (colMat Q)ᵀ, ho, Matrix.one_mul]
    simp
  have htr : (Pᵀ * A * P).trace = A.trace - ∑ l, Spec.quad A (Q l) := by
    rw [trace_mul_comm, ← Matrix.mul_assoc, hPP, hP, Matrix.sub_mul, Matrix.one_mul, trace_sub,
      sum_quad_colMat, Matrix.mul_assoc, trace_mul_comm (colMat Q)]
  simp only [hutchppValue, proj_colMat, ← hP, quad_mulVec, htr]
  ring

/-- C101: fix the part of the stream that produces the sketch.  Averaged over all equally likely sign patterns of the residual vectors, the squared
error of `hutchpp` on a symmetric matrix is exactly `2/nb` times the squared Frobenius norm of the off-diagonal part of the residual matrix. -/
theorem C101_variance (hN : N ≠ 0) (qr : ∀ nb, (Fin nb → Vec N) → Fin (min N nb) → Vec N)
    (A : Matrix (Fin N) (Fin N) ℝ) (hA : A.IsSymm) (m : Option ℤ) (modeFull full : Bool)
    (nb : ℕ) (hnb : 0 < nb) (hm : hutchppNb N m = nb)
    (rngs : (Fin nb × Fin N → Bool) → Rng) (u : ℕ → ℝ)
    (hsketch : ∀ ω p, p < nb * N → (rngs ω).unif p = u p)
    (hres : ∀ ω (j : Fin nb) (i : Fin N),
      if ω (j, i) then 1/2 ≤ (rngs ω).unif (nb * N + j * N + i) ∧
        (rngs ω).unif (nb * N + j * N + i) < 1
      else 0 ≤ (rngs ω).unif (nb * N + j * N + i) ∧ (rngs ω).unif (nb * N + j * N + i) < 1/2)
    (hqr : QROk (qr nb) fun j => A *ᵥ fun i => rademacherEntry (u (j * N + i))) :
    ∃ est : (Fin nb × Fin N → Bool) → ℝ,
      (∀ ω, ∃ out, hutchpp qr (rngs ω) (.ofMatrix A) m modeFull (.name "rademacher") full = .ok out ∧
        out.estimate = est ω) ∧
      ∀ B, B = Spec.residual A (qr nb fun j => A *ᵥ fun i => rademacherEntry (u (j * N + i))) →
        (∑ ω, (est ω - A.trace) ^ 2) / 2 ^ (nb * N) = 2 * (∑ i, ∑ j, B i j ^ 2 - ∑ i, B i i ^ 2) / nb := by
  refine ⟨fun ω => hutchppValue A (qr nb fun j => A *ᵥ fun i => rademacherEntry (u (j * N + i)))
    fun j i => sgn (ω (j, i)), fun ω => hutchpp_signs (rngs ω) hN qr A m modeFull full nb hnb hm ω u (hsketch ω) (hres ω), ?_⟩
  intro B hB
  have hBs : ∀ i j, B i j = B j i := by
    have : Bᵀ = B := by
      rw [hB, residual_eq]
      simp only [transpose_mul, transpose_transpose, hA.eq, Matrix.mul_assoc]
    intro i j
    exact congrFun (congrFun this j) i
  simp only [hutchppValue_error A _ hqr.orth, ← hB]
  rw [mse_signs B nb hnb, offdiag_symmetric B hBs]

theorem frob_trace {p q : ℕ} (X : Matrix (Fin p) (Fin q) ℝ) : ∑ i, ∑ j, X i j ^ 2 = (Xᵀ * X).trace := by
  simp only [trace, diag, mul_apply, transpose_apply, sq]
  exact Finset.sum_comm

/-- Multiplying by the projector does not increase the Frobenius norm. -/
theorem frob_proj_le {r : ℕ} (M : Matrix (Fin N) (Fin N) ℝ) (Q : Fin r → Vec N)
    (horth : ∀ a b, ∑ i, Q a i * Q b i = if a = b then 1 else 0) (X : Matrix (Fin N) (Fin N) ℝ)
    (hX : X = (1 - colMat Q * (colMat Q)ᵀ) * M) : ∑ i, ∑ j, X i j ^ 2 ≤ ∑ i, ∑ j, M i j ^ 2 := by
  have ho := colMat_orth Q horth
  have h1 : Xᵀ * X = Mᵀ * M - ((colMat Q)ᵀ * M)ᵀ * ((colMat Q)ᵀ * M) := by
    have hT : (1 - colMat Q * (colMat Q)ᵀ)ᵀ = 1 - colMat Q * (colMat Q)ᵀ := by
      rw [transpose_sub, transpose_one, transpose_mul, transpose_transpose]
    have hPP : (1 - colMat Q * (colMat Q)ᵀ) * (1 - colMat Q * (colMat Q)ᵀ) = 1 - colMat Q * (colMat Q)ᵀ := by
      rw [Matrix.sub_mul, Matrix.mul_sub, Matrix.mul_sub, Matrix.one_mul, Matrix.mul_one,
        Matrix.one_mul, Matrix.mul_assoc, ← Matrix.mul_assoc (colMat Q)ᵀ, ho, Matrix.one_mul]
      simp
    rw [hX, transpose_mul, hT, Matrix.mul_assoc, ← Matrix.mul_assoc _ _ M, hPP, Matrix.sub_mul, Matrix.one_mul, Matrix.mul_sub,
      transpose_mul, transpose_transpose]
    simp only [Matrix.mul_assoc]
  rw [frob_trace, frob_trace, h1, trace_sub, ← frob_trace ((colMat Q)ᵀ * M)]
  have : 0 ≤ ∑ i, ∑ j, ((colMat Q)ᵀ * M) i j ^ 2 := Finset.sum_nonneg fun i _ => Finset.sum_nonneg fun j _ => sq_nonneg _
  linarith

/-- Deflation does not increase the Frobenius norm. -/
theorem C101_frobenius {r : ℕ} (A : Matrix (Fin N) (Fin N) ℝ) (Q : Fin r → Vec N)
    (horth : ∀ a b, ∑ i, Q a i * Q b i = if a = b then 1 else 0) :
    ∑ i, ∑ j, Spec.residual A Q i j ^ 2 ≤ ∑ i, ∑ j, A i j ^ 2 := by
  have hT : (1 - colMat Q * (colMat Q)ᵀ)ᵀ = 1 - colMat Q * (colMat Q)ᵀ := by
    rw [transpose_sub, transpose_one, transpose_mul, transpose_transpose]
  have h1 := frob_proj_le (A * (1 - colMat Q * (colMat Q)ᵀ)) Q horth (Spec.residual A Q)
    (by rw [residual_eq, hT, Matrix.mul_assoc])
  have h2 := frob_proj_le Aᵀ Q horth (A * (1 - colMat Q * (colMat Q)ᵀ))ᵀ (by rw [transpose_mul, hT])
  have h3 : ∀ M : Matrix (Fin N) (Fin N) ℝ, ∑ i, ∑ j, Mᵀ i j ^ 2 = ∑ i, ∑ j, M i j ^ 2 := fun M => Finset.sum_comm
  rw [h3, h3] at h2
  exact h1.trans h2

/-- C101, consequence: the mean squared error is at most `2 ‖A‖²/nb`. -/
theorem C101_bound (hN : N ≠ 0) (qr : ∀ nb, (Fin nb → Vec N) → Fin (min N nb) → Vec N)
    (A : Matrix (Fin N) (Fin N) ℝ) (hA : A.IsSymm) (m : Option ℤ) (modeFull full : Bool)
    (nb : ℕ) (hnb : 0 < nb) (hm : hutchppNb N m = nb)
    (rngs : (Fin nb × Fin N → Bool) → Rng) (u : ℕ → ℝ)
    (hsketch : ∀ ω p, p < nb * N → (rngs ω).unif p = u p)
    (hres : ∀ ω (j : Fin nb) (i : Fin N),
      if ω (j, i) then 1/2 ≤ (rngs ω).unif (nb * N + j * N + i) ∧
        (rngs ω).unif (nb * N + j * N + i) < 1
      else 0 ≤ (rngs ω).unif (nb * N + j * N + i) ∧ (rngs ω).unif (nb * N + j * N + i) < 1/2)
    (hqr : QROk (qr nb) fun j => A *ᵥ fun i => rademacherEntry (u (j * N + i))) :
    ∃ est : (Fin nb × Fin N → Bool) → ℝ,
      (∀ ω, ∃ out, hutchpp qr (rngs ω) (.ofMatrix A) m modeFull (.name "rademacher") full = .ok out ∧
        out.estimate = est ω) ∧
      (∑ ω, (est ω - A.trace) ^ 2) / 2 ^ (nb * N) ≤ 2 * (∑ i, ∑ j, A i j ^ 2) / nb := by
  obtain ⟨est, h1, h2⟩ := C101_variance hN qr A hA m modeFull full nb hnb hm rngs u hsketch hres hqr
  refine ⟨est, h1, ?_⟩
  rw [h2 _ rfl]
  refine div_le_div_of_nonneg_right ?_ (by positivity)
  have h3 := C101_frobenius A _ hqr.orth
  have h4 : 0 ≤ ∑ i, Spec.residual A (qr nb fun j => A *ᵥ fun i => rademacherEntry (u (j * N + i))) i i ^ 2 :=
    Finset.sum_nonneg fun i _ => sq_nonneg _
  linarith

/-- Non-vacuity: for every number of rows and sample count there are such streams and such a QR routine. -/
example (A : Matrix (Fin N) (Fin N) ℝ) (nb : ℕ) (u : ℕ → ℝ) :
    ∃ (qr : ∀ nb, (Fin nb → Vec N) → Fin (min N nb) → Vec N) (rngs : (Fin nb × Fin N → Bool) → Rng),
      (∀ ω p, p < nb * N → (rngs ω).unif p = u p) ∧
      (∀ ω (j : Fin nb) (i : Fin N),
        if ω (j, i) then 1/2 ≤ (rngs ω).unif (nb * N + j * N + i) ∧ (rngs ω).unif (nb * N + j * N + i) < 1
        else 0 ≤ (rngs ω).unif (nb * N + j * N + i) ∧ (rngs ω).unif (nb * N + j * N + i) < 1/2) ∧
      QROk (qr nb) fun j => A *ᵥ fun i => rademacherEntry (u (j * N + i)) := by
  choose qr hqr using fun nb (Y : Fin nb → Vec N) => exists_isQR Y
  refine ⟨qr, fun ω => ⟨fun p => if p < nb * N then u p else
    if h : (p - nb * N) / N < nb ∧ 0 < N then (if ω (⟨(p - nb * N) / N, h.1⟩, ⟨(p - nb * N) % N, Nat.mod_lt _ h.2⟩) then 1/2 else 0)
    else 0, fun _ => 0⟩, fun ω p hp => by simp [hp], fun ω j i => ?_, hqr _ _⟩
  have hN : 0 < N := i.pos
  have h0 : ¬ nb * N + j * N + i < nb * N := by omega
  have h1 : nb * N + j * N + i - nb * N = i + N * j := by rw [mul_comm N]; omega
  have h2 : ((i : ℕ) + N * j) / N = j := by rw [Nat.add_mul_div_left _ _ hN, Nat.div_eq_of_lt i.2, zero_add]
  have h3 : ((i : ℕ) + N * j) % N = i := by rw [Nat.add_mul_mod_self_left, Nat.mod_eq_of_lt i.2]
  simp only [h0, if_false, h1, h2, h3, j.2, hN, and_self, dite_true]
  cases ω (j, i) <;> norm_num

end Primate
