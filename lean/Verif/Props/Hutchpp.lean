import Verif.Props.HutchBatch
import Verif.Lemmas.QR

/-! # Properties C26-C29, C77: Hutch++ -/

namespace Primate

open Matrix

variable {N : ℕ} (rng : Rng)

/-- The QR routine respects its contract on the matrix it is applied to. -/
abbrev QROk {nb : ℕ} (qr : (Fin nb → Vec N) → Fin (min N nb) → Vec N) (Y : Fin nb → Vec N) : Prop :=
  IsQR Y (qr Y)

/-! ## C26 (hutchpp) -/

/-- **C26**: for an empty operator `hutchpp` returns 0.0 for every valid `pdf` and every `m`. -/
theorem C26_hutchpp (qr : ∀ nb, (Fin nb → Vec 0) → Fin (min 0 nb) → Vec 0) (A : Operand 0)
    (m : Option ℤ) (modeFull full : Bool) (s : String) (pdf : Pdf 0)
    (hp : isotropicPdf s rng 0 = .ok pdf) :
    ∃ out, hutchpp qr rng A m modeFull (.name s) full = .ok out ∧ out.estimate = 0 := by
  simp only [hutchpp, hp, if_true]
  refine ⟨_, rfl, ?_⟩
  cases full <;> rfl

/-! ## C27 -/

/-- **C27** counterexample: a 1x1 or 2x2 operator with the default `m` raises ZeroDivisionError,
and the number of deflation samples is not a multiple of 3 for 3 x 3 operators. -/
theorem C27_counterexample (qr : ∀ (N nb : ℕ), (Fin nb → Vec N) → Fin (min N nb) → Vec N)
    (A : ∀ N, Operand N) (modeFull full : Bool) :
    (∀ N, N = 1 ∨ N = 2 → hutchpp (qr N) rng (A N) none modeFull (.name "rademacher") full =
      .error .zeroDivision) ∧
    ¬ (3 ∣ hutchppNb 3 none) := by
  constructor
  · intro N hN
    have h0 : hutchppNb N none = 0 := by
      rcases hN with rfl | rfl <;> rfl
    have hne : N ≠ 0 := by omega
    have hp : ∃ pdf, isotropicPdf "rademacher" rng N = .ok pdf := ⟨_, rfl⟩
    obtain ⟨pdf, hp⟩ := hp
    simp [hutchpp, hp, hne, h0]
  · decide

/-- **C27**: the adjustment `nb += nb % 3` never makes an indivisible count divisible. -/
theorem C27_divisible_iff (m : ℤ) : 3 ∣ hutchppNb N (some m) ↔ 3 ∣ m := by
  simp only [hutchppNb, Option.getD_some]
  omega

/-- **C27**, the part that holds: with the default `m` every operator with at least three rows
is accepted, `nb >= 1`, and with `full` the reported number of products is `2 nb`. -/
theorem C27_accepts_partial (hN : 3 ≤ N)
    (qr : ∀ nb, (Fin nb → Vec N) → Fin (min N nb) → Vec N) (A : Operand N) (modeFull full : Bool)
    (s : String) (pdf : Pdf N) (hp : isotropicPdf s rng N = .ok pdf) :
    1 ≤ hutchppNb N none ∧
    ∃ out, hutchpp qr rng A none modeFull (.name s) full = .ok out ∧
      ∀ e e' nit l, out = .pair e e' nit l → e' = e ∧ nit = 2 * hutchppNb N none := by
  have h1 : 1 ≤ hutchppNb N none := by simp only [hutchppNb, Option.getD_none]; omega
  refine ⟨h1, ?_⟩
  have hne : N ≠ 0 := by omega
  simp only [hutchpp, hp, hne, if_false, if_neg (show ¬ hutchppNb N none < 0 by omega),
    if_neg (show ¬ hutchppNb N none = 0 by omega)]
  refine ⟨_, rfl, ?_⟩
  intro e e' nit l h
  unfold hutchppCore at h
  dsimp only at h
  cases full with
  | true =>
    simp only [if_true, HutchppOut.pair.injEq] at h
    obtain ⟨rfl, rfl, rfl, -⟩ := h
    refine ⟨rfl, ?_⟩
    rw [Int.toNat_of_nonneg (by omega)]
  | false => simp at h

/-! ## C77 -/

/-- **C77** counterexample: a callable `pdf`, allowed by the signature, is always rejected. -/
theorem C77_counterexample (qr : ∀ nb, (Fin nb → Vec N) → Fin (min N nb) → Vec N) (A : Operand N)
    (m : Option ℤ) (modeFull full : Bool) (f : Pdf N) :
    hutchpp qr rng A m modeFull (.callable f) full = .error .assertion := rfl

/-- **C77**, the part that holds: exactly the five names are accepted. -/
theorem C77_names_partial (s : String) :
    (∃ pdf, isotropicPdf s rng N = .ok pdf) ↔
      s ∈ ["rademacher", "normal", "sphere", "signs", "gaussian"] := by
  constructor
  · rintro ⟨pdf, h⟩
    obtain ⟨d, hd, -⟩ := isotropicPdf_ok rng h
    by_contra hs
    simp only [List.mem_cons, List.not_mem_nil, or_false, not_or] at hs
    obtain ⟨h1, h2, h3, h4, h5⟩ := hs
    simp [ISO_DISTRIBUTIONS, List.lookup, beq_eq_false_iff_ne.mpr h1, beq_eq_false_iff_ne.mpr h2,
      beq_eq_false_iff_ne.mpr h3, beq_eq_false_iff_ne.mpr h4, beq_eq_false_iff_ne.mpr h5] at hd
  · intro h
    fin_cases h <;> exact ⟨_, rfl⟩

/-! ## The value computed by hutchpp -/

theorem quad_eq_dot (A : Matrix (Fin N) (Fin N) ℝ) (v : Vec N) :
    Spec.quad A v = v ⬝ᵥ A *ᵥ v := by
  simp only [Spec.quad, dotProduct, mulVec, Finset.mul_sum]
  exact Finset.sum_congr rfl fun i _ => Finset.sum_congr rfl fun j _ => by ring

/-- The Hutch++ estimate for an orthonormal family `Q` and residual vectors `G`: the trace on
the range of `Q` plus the mean of the quadratic forms of the `G j` projected off `Q`. -/
noncomputable def hutchppValue {r nb : ℕ} (A : Matrix (Fin N) (Fin N) ℝ) (Q : Fin r → Vec N)
    (G : Fin nb → Vec N) : ℝ :=
  ∑ l, Spec.quad A (Q l) +
    (∑ j, Spec.quad A (fun i => G j i - ∑ l, (Q l ⬝ᵥ G j) * Q l i)) / nb

theorem hutchppCore_estimate {nb : ℕ} (qr : (Fin nb → Vec N) → Fin (min N nb) → Vec N)
    (A : Matrix (Fin N) (Fin N) ℝ) (modeFull full : Bool) (WB G : Fin nb → Vec N) :
    (hutchppCore qr (.ofMatrix A) modeFull full WB G).estimate =
      hutchppValue A (qr fun j => A *ᵥ WB j) G := by
  have hq : ∀ v : Vec N, ∑ i, (A *ᵥ v) i * v i = Spec.quad A v := by
    intro v; rw [quad_eq_dot]; simp only [dotProduct]
    exact Finset.sum_congr rfl fun i _ => mul_comm _ _
  have hG : ∀ (Q : Fin (min N nb) → Vec N) (j : Fin nb),
      (fun i => G j i - ∑ l, Q l i * ∑ p, Q l p * G j p) =
      fun i => G j i - ∑ l, (Q l ⬝ᵥ G j) * Q l i := by
    intro Q j
    funext i
    congr 1
    exact Finset.sum_congr rfl fun l _ => by rw [mul_comm]; rfl
  have h1 : ∀ Q : Fin (min N nb) → Vec N,
      (if modeFull then List.ofFn fun i : Fin N => ∑ j, (Operand.ofMatrix A).apply (Q j) i * Q j i
        else List.ofFn fun j => (Operand.ofMatrix A).quadForm (Q j)).sum = ∑ l, Spec.quad A (Q l) := by
    intro Q
    cases modeFull with
    | true =>
      simp only [if_true, List.sum_ofFn]
      rw [Finset.sum_comm]
      exact Finset.sum_congr rfl fun l _ => hq (Q l)
    | false =>
      simp only [Bool.false_eq_true, if_false, List.sum_ofFn]
      exact Finset.sum_congr rfl fun l _ => (C20_quadForm A (fun _ => 0) id _).1
  have h2 : ∀ Q : Fin (min N nb) → Vec N,
      (List.ofFn fun i : Fin N => ∑ j : Fin nb, (Operand.ofMatrix A).apply
        (fun i => G j i - ∑ l, Q l i * ∑ p, Q l p * G j p) i *
        (fun i => G j i - ∑ l, Q l i * ∑ p, Q l p * G j p) i).sum =
      ∑ j, Spec.quad A (fun i => G j i - ∑ l, (Q l ⬝ᵥ G j) * Q l i) := by
    intro Q
    rw [List.sum_ofFn, Finset.sum_comm]
    exact Finset.sum_congr rfl fun j _ => by rw [← hG]; exact hq _
  unfold hutchppCore hutchppValue
  dsimp only
  have h3 := h1 (qr fun j => A *ᵥ WB j)
  have h4 := h2 (qr fun j => A *ᵥ WB j)
  simp only [Operand.ofMatrix] at h3 h4 ⊢
  cases full <;> simp only [if_true, Bool.false_eq_true, if_false, HutchppOut.estimate, h3, h4] <;> ring

/-- What a successful call computes. -/
theorem hutchpp_ok (hN : N ≠ 0) (qr : ∀ nb, (Fin nb → Vec N) → Fin (min N nb) → Vec N)
    (A : Matrix (Fin N) (Fin N) ℝ) (m : Option ℤ) (modeFull full : Bool) (s : String) (pdf : Pdf N)
    (hp : isotropicPdf s rng N = .ok pdf) (nb : ℕ) (hnb : 0 < nb) (hm : hutchppNb N m = nb) :
    ∃ out, hutchpp qr rng (.ofMatrix A) m modeFull (.name s) full = .ok out ∧
      out.estimate = hutchppValue A (qr nb fun j => A *ᵥ pdf [] nb j) (pdf [nb] nb) := by
  obtain rfl : nb = (hutchppNb N m).toNat := by omega
  simp only [hutchpp, hp, hN, if_false, if_neg (show ¬ hutchppNb N m < 0 by omega),
    if_neg (show ¬ hutchppNb N m = 0 by omega)]
  exact ⟨_, rfl, hutchppCore_estimate _ A modeFull full _ _⟩

/-! ## C28 -/

section
variable {r nb : ℕ} (A : Matrix (Fin N) (Fin N) ℝ) (Q : Fin r → Vec N)

/-- The family as the columns of a matrix. -/
def colMat (Q : Fin r → Vec N) : Matrix (Fin N) (Fin r) ℝ := Matrix.of fun i l => Q l i

theorem colMat_orth (h : ∀ a b, ∑ i, Q a i * Q b i = if a = b then 1 else 0) :
    (colMat Q)ᵀ * colMat Q = 1 := by
  funext a b
  rw [mul_apply, one_apply]
  exact h a b

theorem sum_quad_colMat : ∑ l, Spec.quad A (Q l) = ((colMat Q)ᵀ * A * colMat Q).trace := by
  simp only [trace, diag, mul_apply, quad_eq_dot, dotProduct, mulVec, transpose_apply, colMat, of_apply]
  refine Finset.sum_congr rfl fun l _ => ?_
  simp only [Finset.mul_sum, Finset.sum_mul]
  rw [Finset.sum_comm]
  exact Finset.sum_congr rfl fun i _ => Finset.sum_congr rfl fun j _ => by ring

theorem proj_colMat (g : Vec N) :
    (fun i => g i - ∑ l, (Q l ⬝ᵥ g) * Q l i) = (1 - colMat Q * (colMat Q)ᵀ) *ᵥ g := by
  funext i
  rw [sub_mulVec, one_mulVec, ← mulVec_mulVec, Pi.sub_apply]
  congr 1
  exact Finset.sum_congr rfl fun l _ => by simp [colMat, mulVec, dotProduct, mul_comm]

theorem quad_mulVec (P : Matrix (Fin N) (Fin N) ℝ) (g : Vec N) :
    Spec.quad A (P *ᵥ g) = Spec.quad (Pᵀ * A * P) g := by
  rw [quad_eq_dot, quad_eq_dot, ← mulVec_mulVec, ← mulVec_mulVec, dotProduct_mulVec g, vecMul_transpose]

end

/-- If every column of `A` lies in the span of the orthonormal family `Q`, the Hutch++ value is the
trace. -/
theorem hutchppValue_exact {r nb : ℕ} (A : Matrix (Fin N) (Fin N) ℝ) (Q : Fin r → Vec N)
    (horth : ∀ a b, ∑ i, Q a i * Q b i = if a = b then 1 else 0)
    (hspan : ∃ C : Matrix (Fin r) (Fin N) ℝ, A = colMat Q * C) (G : Fin nb → Vec N) :
    hutchppValue A Q G = A.trace := by
  obtain ⟨C, hC⟩ := hspan
  have ho := colMat_orth Q horth
  have h1 : ∑ l, Spec.quad A (Q l) = A.trace := by
    rw [sum_quad_colMat, hC, ← Matrix.mul_assoc, ho, Matrix.one_mul, trace_mul_comm]
  have h2 : ∀ g : Vec N, Spec.quad A (fun i => g i - ∑ l, (Q l ⬝ᵥ g) * Q l i) = 0 := by
    intro g
    rw [proj_colMat, quad_mulVec]
    have : (1 - colMat Q * (colMat Q)ᵀ)ᵀ * A = 0 := by
      rw [transpose_sub, transpose_one, transpose_mul, transpose_transpose, Matrix.sub_mul,
        Matrix.one_mul, hC, Matrix.mul_assoc, ← Matrix.mul_assoc (colMat Q)ᵀ, ho, Matrix.one_mul,
        sub_self]
    rw [this, Matrix.zero_mul]
    simp [Spec.quad]
  simp only [hutchppValue, h1, h2, Finset.sum_const_zero, zero_div, add_zero]

/-- **C28**: if every column of `A` is a combination of the sketch `A * WB` (i.e. the sketch has
captured the range of `A`), `hutchpp` returns the trace exactly, whatever the residual vectors.
Symmetry of `A` is not needed. -/
theorem C28_exact (hN : N ≠ 0) (qr : ∀ nb, (Fin nb → Vec N) → Fin (min N nb) → Vec N)
    (A : Matrix (Fin N) (Fin N) ℝ) (m : Option ℤ) (modeFull full : Bool) (s : String) (pdf : Pdf N)
    (hp : isotropicPdf s rng N = .ok pdf) (nb : ℕ) (hnb : 0 < nb) (hm : hutchppNb N m = nb)
    (hqr : QROk (qr nb) fun j => A *ᵥ pdf [] nb j)
    (hcap : ∃ C : Fin nb → Fin N → ℝ, ∀ i j, A i j = ∑ k, (A *ᵥ pdf [] nb k) i * C k j) :
    ∃ out, hutchpp qr rng (.ofMatrix A) m modeFull (.name s) full = .ok out ∧
      out.estimate = A.trace := by
  obtain ⟨out, h1, h2⟩ := hutchpp_ok rng hN qr A m modeFull full s pdf hp nb hnb hm
  refine ⟨out, h1, ?_⟩
  obtain ⟨R, hR⟩ := hqr.span
  obtain ⟨C, hC⟩ := hcap
  rw [h2]
  refine hutchppValue_exact A _ hqr.orth ⟨Matrix.of fun l j => ∑ k, R l k * C k j, ?_⟩ _
  funext i j
  rw [hC i j, mul_apply]
  simp only [hR, colMat, of_apply, Finset.sum_mul, Finset.mul_sum]
  rw [Finset.sum_comm]
  exact Finset.sum_congr rfl fun l _ => Finset.sum_congr rfl fun k _ => by ring

/-- **C28**: in particular when at least as many sketch vectors as rows are used. -/
theorem C28_exact_full (hN : N ≠ 0) (qr : ∀ nb, (Fin nb → Vec N) → Fin (min N nb) → Vec N)
    (A : Matrix (Fin N) (Fin N) ℝ) (m : Option ℤ) (modeFull full : Bool) (s : String) (pdf : Pdf N)
    (hp : isotropicPdf s rng N = .ok pdf) (nb : ℕ) (hle : N ≤ nb) (hm : hutchppNb N m = nb)
    (hqr : QROk (qr nb) fun j => A *ᵥ pdf [] nb j) :
    ∃ out, hutchpp qr rng (.ofMatrix A) m modeFull (.name s) full = .ok out ∧
      out.estimate = A.trace := by
  obtain ⟨out, h1, h2⟩ := hutchpp_ok rng hN qr A m modeFull full s pdf hp nb (by omega) hm
  refine ⟨out, h1, ?_⟩
  rw [h2]
  have hmin : min N nb = N := by omega
  have key : ∀ (r : ℕ) (hr : r = N) (Q : Fin r → Vec N),
      (∀ a b, ∑ i, Q a i * Q b i = if a = b then 1 else 0) →
      ∃ C : Matrix (Fin r) (Fin N) ℝ, A = colMat Q * C := by
    intro r hr Q ho
    subst hr
    have h := mul_eq_one_comm.mp (colMat_orth Q ho)
    exact ⟨(colMat Q)ᵀ * A, by rw [← Matrix.mul_assoc, h, Matrix.one_mul]⟩
  exact hutchppValue_exact A _ hqr.orth (key _ hmin _ hqr.orth) _

/-- Non-vacuity: a QR routine satisfying the contract exists, so for every matrix with `m = 3 N`
the hypotheses of `C28_exact_full` hold. -/
example (hN : N ≠ 0) (A : Matrix (Fin N) (Fin N) ℝ) :
    ∃ qr : ∀ nb, (Fin nb → Vec N) → Fin (min N nb) → Vec N,
      ∃ out, hutchpp qr rng (.ofMatrix A) (some (3 * N)) false (.name "sphere") false = .ok out ∧
        out.estimate = A.trace := by
  choose qr hqr using fun nb (Y : Fin nb → Vec N) => exists_isQR Y
  exact ⟨qr, C28_exact_full rng hN qr A (some (3 * N)) false false "sphere" _ rfl (3 * N) (by omega)
    (by simp [hutchppNb]) (hqr _ _)⟩

/-! ## C29 -/

/-- **C29**: full and reduced modes give the same value on a matrix. -/
theorem C29_modes {nb : ℕ} (qr : (Fin nb → Vec N) → Fin (min N nb) → Vec N)
    (A : Matrix (Fin N) (Fin N) ℝ) (full full' : Bool) (WB G : Fin nb → Vec N) :
    (hutchppCore qr (.ofMatrix A) true full WB G).estimate =
      (hutchppCore qr (.ofMatrix A) false full' WB G).estimate := by
  rw [hutchppCore_estimate, hutchppCore_estimate]

theorem hutchppValue_unbiased {r nb : ℕ} (hnb : 0 < nb) (A : Matrix (Fin N) (Fin N) ℝ)
    (Q : Fin r → Vec N) (horth : ∀ a b, ∑ i, Q a i * Q b i = if a = b then 1 else 0) :
    (∑ ω : Fin nb × Fin N → Bool, hutchppValue A Q fun j i => sgn (ω (j, i))) / 2 ^ (nb * N) =
      A.trace := by
  have hnb' : (nb : ℝ) ≠ 0 := by exact_mod_cast hnb.ne'
  have ho := colMat_orth Q horth
  set P := 1 - colMat Q * (colMat Q)ᵀ with hP
  have hPP : P * Pᵀ = P := by
    have hT : Pᵀ = P := by
      rw [hP, transpose_sub, transpose_one, transpose_mul, transpose_transpose]
    rw [hT, hP, Matrix.sub_mul, Matrix.mul_sub, Matrix.mul_sub, Matrix.one_mul, Matrix.mul_one,
      Matrix.one_mul, Matrix.mul_assoc, ← Matrix.mul_assoc (colMat Q)ᵀ, ho, Matrix.one_mul]
    simp
  have htr : (Pᵀ * A * P).trace = A.trace - ∑ l, Spec.quad A (Q l) := by
    rw [trace_mul_comm, ← Matrix.mul_assoc, hPP, hP, Matrix.sub_mul, Matrix.one_mul, trace_sub,
      sum_quad_colMat, Matrix.mul_assoc, trace_mul_comm (colMat Q)]
  simp only [hutchppValue, proj_colMat, ← hP, quad_mulVec]
  have h5 : ∑ ω : Fin nb × Fin N → Bool, ∑ j : Fin nb, Spec.quad (Pᵀ * A * P) (fun i => sgn (ω (j, i))) =
      nb * (2 ^ (nb * N) * (A.trace - ∑ l, Spec.quad A (Q l))) := by
    rw [Finset.sum_comm]
    simp only [sum_quad_signs, htr, Finset.sum_const, Finset.card_univ, Fintype.card_fin, nsmul_eq_mul]
  rw [Finset.sum_add_distrib, ← Finset.sum_div, h5]
  simp only [Finset.sum_const, Finset.card_univ, Fintype.card_fin, nsmul_eq_mul, Fintype.card_pi,
    Fintype.card_bool, Finset.prod_const, Fintype.card_prod]
  push_cast
  field_simp
  ring

/-- The value of `hutchpp` on a stream with given sketch and given residual signs. -/
theorem hutchpp_signs (rng : Rng) (hN : N ≠ 0) (qr : ∀ nb, (Fin nb → Vec N) → Fin (min N nb) → Vec N)
    (A : Matrix (Fin N) (Fin N) ℝ) (m : Option ℤ) (modeFull full : Bool)
    (nb : ℕ) (hnb : 0 < nb) (hm : hutchppNb N m = nb) (ω : Fin nb × Fin N → Bool) (u : ℕ → ℝ)
    (hsketch : ∀ p, p < nb * N → rng.unif p = u p)
    (hres : ∀ (j : Fin nb) (i : Fin N),
      if ω (j, i) then 1/2 ≤ rng.unif (nb * N + j * N + i) ∧ rng.unif (nb * N + j * N + i) < 1
      else 0 ≤ rng.unif (nb * N + j * N + i) ∧ rng.unif (nb * N + j * N + i) < 1/2) :
    ∃ out, hutchpp qr rng (.ofMatrix A) m modeFull (.name "rademacher") full = .ok out ∧
      out.estimate = hutchppValue A (qr nb fun j => A *ᵥ fun i => rademacherEntry (u (j * N + i)))
        fun j i => sgn (ω (j, i)) := by
  obtain ⟨out, h1, h2⟩ := hutchpp_ok rng hN qr A m modeFull full "rademacher" _ rfl nb hnb hm
  refine ⟨out, h1, ?_⟩
  rw [h2]
  congr 1
  · congr 1
    funext j
    congr 1
    funext i
    simp only [IsoDist.fill, rawCols, List.sum_nil, zero_mul, zero_add]
    rw [hsketch]
    calc (j : ℕ) * N + i < j * N + N := by omega
      _ = (j + 1) * N := by ring
      _ ≤ nb * N := Nat.mul_le_mul_right _ j.2
  · funext j i
    have h := hres j i
    simp only [IsoDist.fill, rawCols, List.sum_cons, List.sum_nil, add_zero]
    cases hω : ω (j, i) with
    | true => rw [hω] at h; exact (rademacherEntry_half _).2 h.1 h.2
    | false => rw [hω] at h; exact (rademacherEntry_half _).1 h.1 h.2

/-- **C29**: fix the part of the stream that produces the sketch; averaged over all equally likely
sign patterns of the residual vectors `hutchpp` returns exactly the trace. -/
theorem C29_unbiased (hN : N ≠ 0) (qr : ∀ nb, (Fin nb → Vec N) → Fin (min N nb) → Vec N)
    (A : Matrix (Fin N) (Fin N) ℝ) (m : Option ℤ) (modeFull full : Bool)
    (nb : ℕ) (hnb : 0 < nb) (hm : hutchppNb N m = nb)
    (rngs : (Fin nb × Fin N → Bool) → Rng) (u : ℕ → ℝ)
    (hsketch : ∀ ω p, p < nb * N → (rngs ω).unif p = u p)
    (hres : ∀ ω (j : Fin nb) (i : Fin N),
      if ω (j, i) then 1/2 ≤ (rngs ω).unif (nb * N + j * N + i) ∧
        (rngs ω).unif (nb * N + j * N + i) < 1
      else 0 ≤ (rngs ω).unif (nb * N + j * N + i) ∧ (rngs ω).unif (nb * N + j * N + i) < 1/2)
    (hqr : QROk (qr nb) fun j => A *ᵥ fun i => rademacherEntry (u (j * N + i))) :
    ∃ est : (Fin nb × Fin N → Bool) → ℝ,
      (∀ ω, ∃ out, hutchpp qr (rngs ω) (.ofMatrix A) m modeFull (.name "rademacher") full = .ok out ∧
        out.estimate = est ω) ∧
      (∑ ω, est ω) / 2 ^ (nb * N) = A.trace := by
  refine ⟨fun ω => hutchppValue A (qr nb fun j => A *ᵥ fun i => rademacherEntry (u (j * N + i)))
    fun j i => sgn (ω (j, i)), fun ω =>
      hutchpp_signs (rngs ω) hN qr A m modeFull full nb hnb hm ω u (hsketch ω) (hres ω), hutchppValue_unbiased hnb A _ hqr.orth⟩

end Primate
