import Verif.Model.NormalizeFl
import Verif.Lemmas.Float
import Verif.Lemmas.MatFunRun
import Verif.Lemmas.Perturb
import Verif.Props.Operators

/-!
# C161: `normalize_unit` with an inexact eigenvalue and rounding
-/

noncomputable section

namespace Primate

open Spec Matrix

variable {φ : Fmt} {fl : ℝ → ℝ} {n : ℕ}

/-- **C161**, inexact eigenvalue: whatever nonzero number `alpha` the eigensolver returns, the operator has the eigenvectors of `A` and the eigenvalues `1/2 + lam / (2 alpha)`.  They
lie in `[0, 1]` if and only if `|alpha|` is at least the spectral radius, and in the documented interval `[-1, 1]` if and only if no quotient `lam / alpha` is above one or below
minus three.  So an `alpha` that is too small in magnitude by a relative error `δ` gives the interval `[-δ/2, 1 + δ/2]`, and an eigenvalue above one if the eigenvalue of
largest magnitude has the sign of `alpha`. -/
theorem C161_inexact (A : Matrix (Fin n) (Fin n) ℝ) (hA : A.IsSymm) (lam : Fin n → ℝ) (U : Matrix (Fin n) (Fin n) ℝ) (hU : Eigen A lam U) (alpha : ℝ) (h0 : alpha ≠ 0) (hn : 2 ≤ n)
    (interval : ℝ × ℝ) :
    ∃ (B : Matrix (Fin n) (Fin n) ℝ) (mu : Fin n → ℝ), normalizeUnit A.mulVec alpha interval = .ok B.mulVec ∧ B.IsSymm ∧ Eigen B mu U ∧
      (∀ i, mu i = 1 / 2 + lam i / (2 * alpha)) ∧
      ((∀ i, 0 ≤ mu i ∧ mu i ≤ 1) ↔ ∀ i, |lam i| ≤ |alpha|) ∧
      ((∀ i, -1 ≤ mu i ∧ mu i ≤ 1) ↔ ∀ i, -3 ≤ lam i / alpha ∧ lam i / alpha ≤ 1) ∧
      (∀ δ, (∀ i, |lam i| ≤ (1 + δ) * |alpha|) → ∀ i, -(δ / 2) ≤ mu i ∧ mu i ≤ 1 + δ / 2) ∧
      (∀ i, |alpha| < |lam i| → 0 < lam i * alpha → 1 < mu i) := by
  have h2 : 2 * alpha ≠ 0 := mul_ne_zero two_ne_zero h0
  have hab : 0 < |alpha| := abs_pos.2 h0
  have hq : ∀ i, lam i / (2 * alpha) = 1 / 2 * (lam i / alpha) := fun i => by field_simp
  have hr : ∀ i, |lam i / alpha| = |lam i| / |alpha| := fun i => abs_div _ _
  refine ⟨(1 / (2 * alpha)) • (A + alpha • 1), fun i => 1 / 2 + lam i / (2 * alpha), ?_, ?_, ⟨hU.orthonormal, fun j => ?_⟩, fun i => rfl, ?_, ?_, ?_, ?_⟩
  · unfold normalizeUnit
    rw [if_neg (by omega), if_neg h2]
    congr 1
    funext x
    rw [smul_mulVec, add_mulVec, smul_mulVec, one_mulVec]
  · show (_ : Matrix _ _ ℝ)ᵀ = _
    rw [transpose_smul, transpose_add, transpose_smul, transpose_one, hA.eq]
  · rw [smul_mulVec, add_mulVec, smul_mulVec, one_mulVec, hU.eigen j, ← add_smul, smul_smul]
    congr 1
    field_simp
    ring
  · refine forall_congr' fun i => ?_
    simp only [hq]
    rw [← div_le_one hab, ← hr, abs_le]
    constructor <;> rintro ⟨h1, h2⟩ <;> constructor <;> linarith
  · refine forall_congr' fun i => ?_
    simp only [hq]
    constructor <;> rintro ⟨h1, h2⟩ <;> constructor <;> linarith
  · intro δ hδ i
    have h1 := hδ i
    rw [← div_le_iff₀ hab, ← hr, abs_le] at h1
    simp only [hq]
    constructor <;> linarith [h1.1, h1.2]
  · intro i h1 h3
    have h4 : 0 < lam i / alpha := by
      rw [← mul_div_mul_right _ _ h0]
      exact div_pos h3 (mul_self_pos.2 h0)
    have h5 : 1 < |lam i / alpha| := by rw [hr, lt_div_iff₀ hab]; linarith
    rw [abs_of_pos h4] at h5
    simp only [hq]
    linarith

/-- Conditions on the sizes: `alpha` is representable, its double and its inverse are in the normal range. -/
structure Spec.NormRoom (φ : Fmt) (alpha : ℝ) : Prop where
  exp : φ.emin ≤ φ.emax
  small : φ.u ≤ 1 / 32
  ne : alpha ≠ 0
  double : φ.Mem (2 * alpha)
  inv : φ.eta ≤ φ.u * (1 / (2 * |alpha|))
  invTop : 1 / (2 * |alpha|) ≤ φ.top

/-- **C161**, rounding: each entry of the product is within `(7 u (|a| + |alpha x|) + 4 η) / (2 |alpha|) + η` of `(a + alpha x) / (2 alpha)`, where `a` is the entry of the product with
`A` as computed. -/
theorem C161_entry (hf : φ.Nearest fl) (h : NormRoom φ alpha) (hn : 2 ≤ n) (A : Vec n → Vec n) (interval : ℝ × ℝ) :
    ∃ B, normalizeUnitFl fl A alpha interval = .ok B ∧ ∀ x i, 4 * (|A x i| + |alpha * x i| + φ.eta) ≤ φ.top →
      4 * (|A x i| + |alpha * x i| + φ.eta) / (2 * |alpha|) ≤ φ.top →
      |B x i - (A x i + alpha * x i) / (2 * alpha)| ≤ (7 * φ.u * (|A x i| + |alpha * x i|) + 4 * φ.eta) / (2 * |alpha|) + φ.eta := by
  have hu := φ.u_pos
  have he := φ.eta_pos
  have hsm := h.small
  have h2 : 2 * alpha ≠ 0 := mul_ne_zero two_ne_zero h.ne
  refine ⟨_, by unfold normalizeUnitFl; rw [if_neg (by omega), hf.eq_self h.double, if_neg h2], fun x i ht1 ht2 => ?_⟩
  have hab : 0 < |alpha| := abs_pos.2 h.ne
  set c := 1 / (2 * alpha) with hc
  have hcab : |c| = 1 / (2 * |alpha|) := by rw [hc, abs_div, abs_one, abs_mul, abs_two]
  have hc0 : 0 < |c| := by rw [hcab]; positivity
  have e1 : (A x i + alpha * x i) / (2 * alpha) = c * (A x i + alpha * x i) := by rw [hc]; ring
  have e2 : ∀ t, t / (2 * |alpha|) = |c| * t := fun t => by rw [hcab]; ring
  rw [e1, e2]
  rw [e2] at ht2
  have hinv := h.inv
  have hinvT := h.invTop
  rw [← hcab] at hinv hinvT
  set a := A x i
  set b := alpha * x i
  set η := φ.eta
  set u := φ.u
  have ha := abs_nonneg a
  have hb := abs_nonneg b
  have ub : u * |b| ≤ 1 / 32 * |b| := mul_le_mul_of_nonneg_right hsm hb
  have ua : u * |a| ≤ 1 / 32 * |a| := mul_le_mul_of_nonneg_right hsm ha
  have uη : u * η ≤ 1 / 32 * η := mul_le_mul_of_nonneg_right hsm he.le
  have ub0 : 0 ≤ u * |b| := mul_nonneg hu.le hb
  have ua0 : 0 ≤ u * |a| := mul_nonneg hu.le ha
  have uη0 : 0 ≤ u * η := mul_nonneg hu.le he.le
  -- the scaled vector
  have d1 := hf.err h.exp (x := b) (by linarith)
  set t1 := fl b
  have hab1 : |a + t1| ≤ |a| + 33 / 32 * |b| + η := by
    have := abs_add_le a t1
    have := abs_sub_abs_le_abs_sub t1 b
    linarith
  -- the sum
  have d2 := hf.err h.exp (x := a + t1) (by linarith)
  have d2' := mul_le_mul_of_nonneg_left hab1 hu.le
  set t2 := fl (a + t1)
  have hs : |t2 - (a + b)| ≤ 3 * (u * (|a| + |b|)) + 3 * η := by
    have h1 : t2 - (a + b) = (t2 - (a + t1)) + (t1 - b) := by ring
    rw [h1]
    refine (abs_add_le _ _).trans ?_
    linarith
  have hab2 : |a + b| ≤ |a| + |b| := abs_add_le a b
  have ht : |t2| ≤ 9 / 8 * (|a| + |b|) + 3 * η := by
    have := abs_sub_abs_le_abs_sub t2 (a + b)
    linarith
  -- the factor
  have d3 := hf.err h.exp (x := c) hinvT
  set c' := fl c
  have d3' : |c' - c| ≤ 2 * (u * |c|) := by linarith
  have uc : u * |c| ≤ 1 / 32 * |c| := mul_le_mul_of_nonneg_right hsm hc0.le
  have hc' : |c'| ≤ 17 / 16 * |c| := by
    have := abs_sub_abs_le_abs_sub c' c
    linarith
  have hprod : |c' * t2| ≤ |c| * (17 / 16 * (9 / 8 * (|a| + |b|) + 3 * η)) := by
    rw [abs_mul]
    have := mul_le_mul hc' ht (abs_nonneg _) (by linarith)
    linarith
  have hca : 0 ≤ |c| * (|a| + |b|) := mul_nonneg hc0.le (by linarith)
  have hcη : 0 ≤ |c| * η := mul_nonneg hc0.le he.le
  have d4 := hf.err h.exp (x := c' * t2) (by linarith)
  have p1 := mul_le_mul_of_nonneg_left hprod hu.le
  have p2 : |c'| * |t2 - (a + b)| ≤ 17 / 16 * |c| * (3 * (u * (|a| + |b|)) + 3 * η) := mul_le_mul hc' hs (abs_nonneg _) (by linarith)
  have p3 : |c' - c| * |a + b| ≤ 2 * (u * |c|) * (|a| + |b|) := mul_le_mul d3' hab2 (abs_nonneg _) (by have := mul_nonneg hu.le hc0.le; linarith)
  have e3 : fl (c' * t2) - c * (a + b) = (fl (c' * t2) - c' * t2) + (c' * (t2 - (a + b)) + (c' - c) * (a + b)) := by ring
  rw [e3]
  refine (abs_add_le _ _).trans ?_
  have p4 := abs_add_le (c' * (t2 - (a + b))) ((c' - c) * (a + b))
  rw [abs_mul, abs_mul] at p4
  have uca : 0 ≤ u * (|c| * (|a| + |b|)) := mul_nonneg hu.le hca
  have ucη : u * (|c| * η) ≤ 1 / 32 * (|c| * η) := mul_le_mul_of_nonneg_right hsm hcη
  have q1 : u * (|c| * (17 / 16 * (9 / 8 * (|a| + |b|) + 3 * η))) = 153 / 128 * (u * (|c| * (|a| + |b|))) + 51 / 16 * (u * (|c| * η)) := by ring
  have q2 : 17 / 16 * |c| * (3 * (u * (|a| + |b|)) + 3 * η) = 51 / 16 * (u * (|c| * (|a| + |b|))) + 51 / 16 * (|c| * η) := by ring
  have q3 : 2 * (u * |c|) * (|a| + |b|) = 2 * (u * (|c| * (|a| + |b|))) := by ring
  have q4 : |c| * (7 * u * (|a| + |b|) + 4 * η) = 7 * (u * (|c| * (|a| + |b|))) + 4 * (|c| * η) := by ring
  rw [q4]
  linarith

/-- Products with a symmetric matrix are not longer than the spectral radius times the vector. -/
theorem nrm_mulVec_radius {A : Matrix (Fin n) (Fin n) ℝ} {lam : Fin n → ℝ} {U : Matrix (Fin n) (Fin n) ℝ} (hU : Eigen A lam U) (hA : A.IsSymm) {R : ℝ} (hR : 0 ≤ R) (h : ∀ i, |lam i| ≤ R)
    (v : Vec n) (hv : v ⬝ᵥ v = 1) : nrm (A *ᵥ v) ≤ R := by
  have hU2 : Eigen (A * A) (fun i => lam i * lam i) U := ⟨hU.orthonormal, fun j => by
    rw [← mulVec_mulVec, hU.eigen j, mulVec_smul, hU.eigen j, smul_smul]⟩
  obtain ⟨-, b, hb⟩ := (isEigh_iff_eigen.2 hU2).rayleigh v hv
  have e : v ⬝ᵥ ((A * A) *ᵥ v) = (A *ᵥ v) ⬝ᵥ (A *ᵥ v) := by
    rw [← mulVec_mulVec, dotProduct_mulVec, ← mulVec_transpose, hA.eq]
  rw [e] at hb
  unfold nrm
  rw [Real.sqrt_le_left hR]
  refine hb.trans ?_
  have := mul_self_le_mul_self (abs_nonneg _) (h b)
  rw [abs_mul_abs_self] at this
  rw [sq]
  exact this

/-- **C161**, together: if the product is accurate to `γ` in each entry, the Rayleigh quotient of the operator returned, as computed, for a vector of length one is in
`[-δ/2 - err, 1 + δ/2 + err]` with `err = 7 u (1 + δ/2) + n (2 γ + 4 η) / (2 |alpha|) + n η`. -/
theorem C161_rayleigh (hf : φ.Nearest fl) (h : NormRoom φ alpha) (hn : 2 ≤ n) (A : Matrix (Fin n) (Fin n) ℝ) (hA : A.IsSymm) (lam : Fin n → ℝ) (U : Matrix (Fin n) (Fin n) ℝ)
    (hU : Eigen A lam U) {δ : ℝ} (hδ : ∀ i, |lam i| ≤ (1 + δ) * |alpha|) (mul : Vec n → Vec n) {γ : ℝ} (v : Vec n) (hv : v ⬝ᵥ v = 1) (hγ : ∀ i, |mul v i - (A *ᵥ v) i| ≤ γ)
    (ht1 : 4 * ((2 + δ) * |alpha| + γ + φ.eta) ≤ φ.top) (ht2 : 4 * ((2 + δ) * |alpha| + γ + φ.eta) / (2 * |alpha|) ≤ φ.top) (interval : ℝ × ℝ) :
    ∃ B, normalizeUnitFl fl mul alpha interval = .ok B ∧
      -(δ / 2) - (7 * φ.u * (1 + δ / 2) + n * (2 * γ + 4 * φ.eta) / (2 * |alpha|) + n * φ.eta) ≤ v ⬝ᵥ B v ∧
      v ⬝ᵥ B v ≤ 1 + δ / 2 + (7 * φ.u * (1 + δ / 2) + n * (2 * γ + 4 * φ.eta) / (2 * |alpha|) + n * φ.eta) := by
  have hu := φ.u_pos
  have he := φ.eta_pos
  have hsm := h.small
  have hab : 0 < |alpha| := abs_pos.2 h.ne
  obtain ⟨B, hB, hBe⟩ := C161_entry hf h hn mul interval
  obtain ⟨C, mu, hC, -, hCU, -, -, -, hmu, -⟩ := C161_inexact A hA lam U hU alpha h.ne hn interval
  have hCv : ∀ i, (C *ᵥ v) i = ((A *ᵥ v) i + alpha * v i) / (2 * alpha) := by
    intro i
    have h2 : 2 * alpha ≠ 0 := mul_ne_zero two_ne_zero h.ne
    unfold normalizeUnit at hC
    rw [if_neg (by omega), if_neg h2] at hC
    have := congrFun (congrFun (Except.ok.inj hC) v) i
    rw [← this]
    simp only [Pi.smul_apply, Pi.add_apply, smul_eq_mul]
    ring
  have hi0 : 0 < n := by omega
  have hR0 : 0 ≤ (1 + δ) * |alpha| := (abs_nonneg _).trans (hδ ⟨0, hi0⟩)
  have hγ0 : 0 ≤ γ := (abs_nonneg _).trans (hγ ⟨0, hi0⟩)
  have hAv := nrm_mulVec_radius hU hA hR0 hδ v hv
  have hvn : nrm v = 1 := by unfold nrm; rw [hv, Real.sqrt_one]
  have hentry : ∀ (w : Vec n) i, |w i| ≤ nrm w := fun w i => by
    unfold nrm
    rw [← Real.sqrt_sq_eq_abs]
    refine Real.sqrt_le_sqrt ?_
    have := Finset.single_le_sum (f := fun k => w k * w k) (fun k _ => mul_self_nonneg _) (Finset.mem_univ i)
    rw [sq]
    exact this
  have hv1 : ∀ i, |v i| ≤ 1 := fun i => hvn ▸ hentry v i
  have hm : ∀ i, |mul v i| ≤ |(A *ᵥ v) i| + γ := fun i => by
    have := abs_sub_abs_le_abs_sub (mul v i) ((A *ᵥ v) i)
    linarith [hγ i]
  have hA1 : ∀ i, |(A *ᵥ v) i| ≤ (1 + δ) * |alpha| := fun i => (hentry _ i).trans hAv
  have hal : ∀ i, |alpha * v i| = |alpha| * |v i| := fun i => abs_mul _ _
  have hal1 : ∀ i, |alpha| * |v i| ≤ |alpha| := fun i => mul_le_of_le_one_right hab.le (hv1 i)
  have hsize : ∀ i, |mul v i| + |alpha * v i| + φ.eta ≤ (2 + δ) * |alpha| + γ + φ.eta := fun i => by
    rw [hal]
    linarith [hm i, hA1 i, hal1 i]
  set k := 1 / (2 * |alpha|) with hk
  have hk0 : 0 < k := by positivity
  have ek : ∀ t, t / (2 * |alpha|) = k * t := fun t => by rw [hk]; ring
  have hka : k * |alpha| = 1 / 2 := by rw [hk]; field_simp
  have hdiff : ∀ i, |B v i - (C *ᵥ v) i| ≤ 7 * φ.u * (k * (|(A *ᵥ v) i| + |alpha| * |v i|)) + (k * (2 * γ + 4 * φ.eta) + φ.eta) := by
    intro i
    have h1 := hBe v i (by linarith [hsize i]) (by
      refine le_trans ?_ ht2
      rw [ek, ek]
      exact mul_le_mul_of_nonneg_left (by linarith [hsize i]) hk0.le)
    rw [ek, hal] at h1
    have h2 : (mul v i + alpha * v i) / (2 * alpha) - (C *ᵥ v) i = (mul v i - (A *ᵥ v) i) / (2 * alpha) := by rw [hCv]; ring
    have h3 : |(mul v i + alpha * v i) / (2 * alpha) - (C *ᵥ v) i| ≤ k * γ := by
      rw [h2, abs_div, abs_mul, abs_two, ek]
      exact mul_le_mul_of_nonneg_left (hγ i) hk0.le
    have h4 := abs_sub_le (B v i) ((mul v i + alpha * v i) / (2 * alpha)) ((C *ᵥ v) i)
    have h5 : k * (7 * φ.u * (|mul v i| + |alpha| * |v i|) + 4 * φ.eta) ≤ k * (7 * φ.u * (|(A *ᵥ v) i| + |alpha| * |v i|) + (γ + 4 * φ.eta)) := by
      refine mul_le_mul_of_nonneg_left ?_ hk0.le
      have a1 := mul_le_mul_of_nonneg_left (hm i) hu.le
      have a2 := mul_le_mul_of_nonneg_right hsm hγ0
      linarith
    linarith
  have hsum : |v ⬝ᵥ B v - v ⬝ᵥ (C *ᵥ v)| ≤ 7 * φ.u * (1 + δ / 2) + n * (k * (2 * γ + 4 * φ.eta)) + n * φ.eta := by
    have e : v ⬝ᵥ B v - v ⬝ᵥ (C *ᵥ v) = ∑ i, v i * (B v i - (C *ᵥ v) i) := by
      unfold dotProduct
      rw [← Finset.sum_sub_distrib]
      exact Finset.sum_congr rfl fun i _ => by ring
    rw [e]
    refine (Finset.abs_sum_le_sum_abs _ _).trans ?_
    have hstep : ∀ i, |v i * (B v i - (C *ᵥ v) i)| ≤ 7 * φ.u * k * (|v i| * |(A *ᵥ v) i|) + 7 * φ.u * (k * |alpha|) * (v i * v i) + (k * (2 * γ + 4 * φ.eta) + φ.eta) := by
      intro i
      rw [abs_mul]
      have a1 := mul_le_mul_of_nonneg_left (hdiff i) (abs_nonneg (v i))
      have a3 : 0 ≤ k * (2 * γ + 4 * φ.eta) + φ.eta := by
        have := mul_nonneg hk0.le (by linarith : 0 ≤ 2 * γ + 4 * φ.eta)
        linarith
      have a2 := mul_le_of_le_one_left a3 (hv1 i)
      have a4 : |v i| * (7 * φ.u * (k * (|(A *ᵥ v) i| + |alpha| * |v i|))) = 7 * φ.u * k * (|v i| * |(A *ᵥ v) i|) + 7 * φ.u * (k * |alpha|) * (v i * v i) := by
        rw [← abs_mul_abs_self (v i)]; ring
      linarith
    refine (Finset.sum_le_sum fun i _ => hstep i).trans ?_
    rw [Finset.sum_add_distrib, Finset.sum_add_distrib, ← Finset.mul_sum, ← Finset.mul_sum, Finset.sum_const, Finset.card_univ, Fintype.card_fin, nsmul_eq_mul]
    have s1 : ∑ i, |v i| * |(A *ᵥ v) i| ≤ (1 + δ) * |alpha| := by
      have := abs_dot_le (fun i => |v i|) (fun i => |(A *ᵥ v) i|)
      have n1 : ∀ w : Vec n, nrm (fun i => |w i|) = nrm w := fun w => by
        unfold nrm dotProduct
        simp only [abs_mul_abs_self]
      rw [n1, n1, hvn, one_mul] at this
      exact (le_abs_self _).trans (this.trans hAv)
    have s2 : ∑ i, v i * v i = 1 := hv
    have s3 := mul_le_mul_of_nonneg_left s1 (by positivity : 0 ≤ 7 * φ.u * k)
    have s4 : 7 * φ.u * k * ((1 + δ) * |alpha|) = 7 * φ.u * (1 + δ) * (k * |alpha|) := by ring
    rw [s4, hka] at s3
    rw [s2, hka]
    linarith
  obtain ⟨⟨a, ra⟩, b, rb⟩ := (isEigh_iff_eigen.2 hCU).rayleigh v hv
  have m1 := hmu δ hδ
  refine ⟨B, hB, ?_, ?_⟩
  · rw [ek]
    have := (abs_le.1 hsum).1
    have := (m1 a).1
    linarith
  · rw [ek]
    have := (abs_le.1 hsum).2
    have := (m1 b).2
    linarith

/-- C161: rounding changes neither the exceptions nor when they are raised, if doubling `alpha` is exact. -/
theorem C161_errors (hf : φ.Nearest fl) {alpha : ℝ} (h : φ.Mem (2 * alpha)) (A : Vec n → Vec n) (interval : ℝ × ℝ) (e : PyErr) :
    normalizeUnitFl fl A alpha interval = .error e ↔ normalizeUnit A alpha interval = .error e := by
  unfold normalizeUnitFl normalizeUnit
  rw [hf.eq_self h]
  split_ifs <;> simp

/-! ## Examples -/

/-- The sizes are in range for `alpha = -3` in binary64. -/
theorem normRoom_binary64 : NormRoom binary64 (-3) := by
  have hu : binary64.u = (2 : ℝ) ^ (-53 : ℤ) := rfl
  have he : binary64.eta ≤ (2 : ℝ) ^ (-60 : ℤ) := by
    have : binary64.eta = (2 : ℝ) ^ (-1075 : ℤ) := rfl
    rw [this]
    exact zpow_le_zpow_right₀ (by norm_num) (by norm_num)
  have ht : (1024 : ℝ) ≤ binary64.top := by
    have h1 : (1 : ℝ) ≤ 2 ^ (971 : ℤ) := one_le_zpow₀ (by norm_num) (by norm_num)
    have h2 : binary64.top = (2 ^ 53 - 1) * (2 : ℝ) ^ (971 : ℤ) := rfl
    rw [h2]
    generalize (2 : ℝ) ^ (971 : ℤ) = z at h1
    linarith
  have h3 : |(-3 : ℝ)| = 3 := by norm_num
  refine ⟨by norm_num [binary64], by rw [hu]; norm_num, by norm_num, ?_, ?_, ?_⟩
  · have := Fmt.mem_int (φ := binary64) (by norm_num [binary64]) (by norm_num [binary64]) (by norm_num [binary64]) (-6) (by norm_num [binary64])
    have e : (2 : ℝ) * -3 = ((-6 : ℤ) : ℝ) := by norm_num
    rw [e]
    exact this
  · rw [h3, hu]
    refine he.trans ?_
    norm_num
  · rw [h3]
    norm_num
    linarith

/-- For `diag(1, -3)` with `alpha = -3` the operator is within `10⁻¹⁴` of `diag(1/3, 1)` at `(0, 1)`, whatever the rounding. -/
example (hf : binary64.Nearest fl) : ∃ B, normalizeUnitFl (n := 2) fl (fun x => ![x 0, -3 * x 1]) (-3) (-1, 1) = .ok B ∧ |B ![0, 1] 1 - 1| ≤ 10 ^ (-14 : ℤ) := by
  have hr := normRoom_binary64
  obtain ⟨B, h1, h2⟩ := C161_entry hf hr (le_refl 2) (fun x => ![x 0, -3 * x 1]) (-1, 1)
  refine ⟨B, h1, ?_⟩
  have hu : binary64.u = (2 : ℝ) ^ (-53 : ℤ) := rfl
  have he : binary64.eta ≤ (2 : ℝ) ^ (-60 : ℤ) := by
    have : binary64.eta = (2 : ℝ) ^ (-1075 : ℤ) := rfl
    rw [this]
    exact zpow_le_zpow_right₀ (by norm_num) (by norm_num)
  have hu' : binary64.u ≤ 1 / 5000000000000000 := by rw [hu]; norm_num
  have he' : binary64.eta ≤ 1 / 100000000000000000 := he.trans (by norm_num)
  have ht : (1024 : ℝ) ≤ binary64.top := by
    have h1 : (1 : ℝ) ≤ 2 ^ (971 : ℤ) := one_le_zpow₀ (by norm_num) (by norm_num)
    have h2 : binary64.top = (2 ^ 53 - 1) * (2 : ℝ) ^ (971 : ℤ) := rfl
    rw [h2]
    generalize (2 : ℝ) ^ (971 : ℤ) = z at h1
    linarith
  have h3 : |(-3 : ℝ)| = 3 := by norm_num
  have h4 := h2 ![0, 1] 1
  simp only [Matrix.cons_val_one, Matrix.cons_val_fin_one, mul_one, h3] at h4
  have e14 : (10 : ℝ) ^ (-14 : ℤ) = 1 / 100000000000000 := by norm_num
  rw [e14]
  have h5 := h4 (by linarith) (by linarith)
  have e : ((-3 : ℝ) + -3) / (2 * -3) = 1 := by norm_num
  rw [e] at h5
  linarith

/-- An eigenvalue estimate that is three percent too small takes the spectrum out of the unit interval: `diag(1, -3)` with `alpha = -2.9`. -/
example : ∃ (B : Matrix (Fin 2) (Fin 2) ℝ) (mu : Fin 2 → ℝ), normalizeUnit (Matrix.diagonal ![1, -3] : Matrix (Fin 2) (Fin 2) ℝ).mulVec (-2.9) (-1, 1) = .ok B.mulVec ∧
    Eigen B mu 1 ∧ 1 < mu 1 := by
  have hE : Eigen (Matrix.diagonal ![1, -3] : Matrix (Fin 2) (Fin 2) ℝ) ![1, -3] 1 := by
    refine ⟨by simp, fun j => ?_⟩
    funext i
    rw [mulVec_diagonal]
    rw [Pi.smul_apply, smul_eq_mul, Matrix.one_apply]
    split_ifs with h
    · rw [h]
    · ring
  obtain ⟨B, mu, h1, -, h2, -, -, -, -, h3⟩ := C161_inexact _ (Matrix.diagonal_transpose _) _ _ hE (-2.9) (by norm_num) (le_refl 2) (-1, 1)
  refine ⟨B, mu, h1, h2, h3 1 ?_ ?_⟩
  · simp only [Matrix.cons_val_one, Matrix.cons_val_fin_one]
    rw [abs_of_neg (by norm_num), abs_of_neg (by norm_num)]
    norm_num
  · simp only [Matrix.cons_val_one, Matrix.cons_val_fin_one]
    norm_num

end Primate
