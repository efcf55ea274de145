import Verif.Props.SlqFl
import Verif.Props.QuadFl

/-! # Property C144: inaccurate values of the function -/

noncomputable section

namespace Primate

open Spec Matrix Polynomial StatsFl

variable {n : ℕ} {A : Matrix (Fin n) (Fin n) ℝ} {φ : Fmt} {fl : ℝ → ℝ} {K : SlqKernels n} {c : MFCfg} {M ε B ω δ L H S lo hi a b : ℝ}

theorem matFun_sub (lam : Fin n → ℝ) (U : Matrix (Fin n) (Fin n) ℝ) (f F : ℝ → ℝ) : matFun lam U f - matFun lam U F = matFun lam U fun x => f x - F x := by
  unfold matFun
  rw [← Matrix.sub_mul, ← Matrix.mul_sub, Matrix.diagonal_sub]

/-- **C144**: values of the function with an error of at most `ρ` at the eigenvalues change the quadratic form of `f(A)` by at most `ρ |v|²`. -/
theorem C144_quadForm (lam : Fin n → ℝ) (U : Matrix (Fin n) (Fin n) ℝ) (hU : Eigen A lam U) (f F : ℝ → ℝ) (ρ : ℝ) (hρ : ∀ i, |f (lam i) - F (lam i)| ≤ ρ) (v : Vec n) :
    |quadForm (matFun lam U f) v - quadForm (matFun lam U F) v| ≤ ρ * nrm v ^ 2 := by
  have h1 : quadForm (matFun lam U f) v - quadForm (matFun lam U F) v = quadForm (matFun lam U fun x => f x - F x) v := by
    rw [← matFun_sub]
    unfold quadForm
    rw [Matrix.sub_mulVec, dotProduct_sub]
  rw [h1]
  exact matFun_quad_le hU _ hρ v

/-- **C144**: values of the function with an error of at most `ρ` at the eigenvalues change `f(A) v` by at most `ρ |v|`. -/
theorem C144_apply (lam : Fin n → ℝ) (U : Matrix (Fin n) (Fin n) ℝ) (hU : Eigen A lam U) (f F : ℝ → ℝ) (ρ : ℝ) (hρ0 : 0 ≤ ρ) (hρ : ∀ i, |f (lam i) - F (lam i)| ≤ ρ) (v : Vec n) :
    nrm (matFun lam U f *ᵥ v - matFun lam U F *ᵥ v) ≤ ρ * nrm v := by
  have hE := isEigh_iff_eigen.2 hU
  rw [← Matrix.sub_mulVec, matFun_sub]
  set G := fun x => f x - F x with hG
  have hsymm : (matFun lam U G)ᵀ = matFun lam U G := by
    unfold matFun
    simp [Matrix.transpose_mul, Matrix.mul_assoc]
  have hsq : matFun lam U G * matFun lam U G = matFun lam U fun x => G x ^ 2 := by
    unfold matFun
    calc U * diagonal (fun i => G (lam i)) * Uᵀ * (U * diagonal (fun i => G (lam i)) * Uᵀ)
        = U * diagonal (fun i => G (lam i)) * (Uᵀ * U) * (diagonal (fun i => G (lam i)) * Uᵀ) := by simp only [Matrix.mul_assoc]
      _ = U * (diagonal (fun i => G (lam i)) * diagonal (fun i => G (lam i))) * Uᵀ := by rw [hU.orthonormal, Matrix.mul_one]; simp only [Matrix.mul_assoc]
      _ = _ := by rw [Matrix.diagonal_mul_diagonal]; simp only [sq]
  have h1 : nrm (matFun lam U G *ᵥ v) ^ 2 = quadForm (matFun lam U fun x => G x ^ 2) v := by
    rw [sq, nrm_sq, ← hsq]
    unfold quadForm
    rw [← Matrix.mulVec_mulVec, Matrix.dotProduct_mulVec v, ← Matrix.mulVec_transpose, hsymm]
  have h2 := matFun_quad_le hU (fun x => G x ^ 2) (Φ := ρ ^ 2) (fun i => by
    rw [abs_of_nonneg (sq_nonneg _), ← sq_abs]
    exact pow_le_pow_left₀ (abs_nonneg _) (hρ i) 2) v
  rw [← h1, abs_of_nonneg (sq_nonneg _), ← mul_pow] at h2
  exact abs_le_of_sq_le_sq' h2 (mul_nonneg hρ0 (nrm_nonneg _)) |>.2

/-- C144 for `hutch` on a `MatrixFunction`: the values `c.f` that are computed differ from those of the function `F` by at most `ρ`, and `F` is within `η` of a polynomial.
The number returned differs from the mean of the quadratic forms of `F(A)` by at most what C142 gives for a polynomial at the distance `η + ρ`, and `n ρ`. -/
theorem C144_slq (h : SlqInput K c A M ε B ω δ L H S lo hi a b) (lam : Fin n → ℝ) (U : Matrix (Fin n) (Fin n) ℝ) (hU : Eigen A lam U)
    (hlam : ∀ i, lo ≤ lam i ∧ lam i ≤ hi) (κ : ℕ) (hκ : κ ≤ c.deg) (hsteps : Steps K c S κ fun v => ∀ i, v i = 1 ∨ v i = -1) (hn0 : n ≠ 0)
    (hs1 : 2 * c.tol ≤ Real.sqrt n) (hs2 : Real.sqrt n ≤ B) (g : ℝ[X]) (Φ η : ℝ) (hR : QRange L H S Φ (Real.sqrt n)) (hg : g.natDegree + 2 ≤ 2 * κ) (F : ℝ → ℝ) (ρ : ℝ)
    (hρ : ∀ x, a ≤ x → x ≤ b → |c.f x - F x| ≤ ρ) (hΦ : ∀ x, a ≤ x → x ≤ b → |c.f x| ≤ Φ) (hη : ∀ x, a ≤ x → x ≤ b → |F x - g.eval x| ≤ η)
    (hn : φ.Nearest fl) (hsum : ∀ t (x : List ℝ), x ≠ [] → SumOrder fl x (K.colsum t x)) (hmem : ∀ t j p q, |p * q| ≤ H → φ.Mem ((K.quad t j).mul p q))
    (G : MFFl n) (hG : SlqState c κ ε S lo hi G) (rng : Rng) (hu : ∀ p, 0 ≤ rng.unif p ∧ rng.unif p < 1) (batch k : ℕ) (full : Bool) (bt : ℕ)
    (hbt : bt = if full then batch else 1) (hb0 : 0 < bt) (hk : 0 < k) (E : ℝ) (hE : E = flQuadErr c.deg ε S ω δ c.tol a b Φ (η + ρ))
    (hfit : φ.Fits (k * bt) (n * (Φ + E))) :
    ∃ (x : ℝ) (G' : MFFl n) (pdf : Pdf n), (PdfArg.name "rademacher" : PdfArg n).resolve rng = .ok pdf ∧
      slqFl fl K c rng G batch (.name "rademacher") (k * bt) full (k + 1) = some (.ok (G', .val fun _ => x)) ∧ SlqState c κ ε S lo hi G' ∧ φ.Mem x ∧
      |x - Spec.mean ((Spec.drawn pdf bt k).map (quadForm (matFun lam U F)))| ≤ n * ρ + (n * E + 16 * (k * bt : ℕ) * φ.u * (n * (Φ + E))) := by
  obtain ⟨x, G', pdf, h1, h2, h3, h4, h5⟩ := C142_slq_rounding h lam U hU hlam κ hκ hsteps hn0 hs1 hs2 g Φ (η + ρ) hR hg hΦ
    (fun x h1 h2 => (abs_sub_le _ (F x) _).trans (by linarith [hρ x h1 h2, hη x h1 h2])) hn hsum hmem G hG rng hu batch k full bt hbt hb0 hk E hE hfit
  refine ⟨x, G', pdf, h1, h2, h3, h4, ?_⟩
  have hS0 : 0 ≤ S := h.tol0.le.trans h.Stol
  have hl : ∀ i, |c.f (lam i) - F (lam i)| ≤ ρ := by
    intro i
    have e1 : 0 ≤ 400 * (c.deg : ℝ) ^ 3 * ε * S := mul_nonneg (mul_nonneg (by positivity) h.eps0) hS0
    have e2 : 0 ≤ 4 * c.tol + δ * S := add_nonneg (by linarith [h.tol0]) (mul_nonneg h.del0 hS0)
    exact hρ _ (by linarith [h.alo, (hlam i).1]) (by linarith [h.bhi, (hlam i).2])
  have hsg := rademacher_pdf_signs rng hu pdf h1
  have hkb : (0 : ℝ) < ((k * bt : ℕ) : ℝ) := by exact_mod_cast Nat.mul_pos hk hb0
  have hv : ∀ v ∈ Spec.drawn pdf bt k, |quadForm (matFun lam U c.f) v - quadForm (matFun lam U F) v| ≤ n * ρ := by
    intro v hv
    obtain ⟨t, -, ht⟩ := List.mem_flatMap.1 hv
    obtain ⟨j, rfl⟩ := List.mem_ofFn.1 ht
    refine (C144_quadForm lam U hU c.f F ρ hl _).trans (le_of_eq ?_)
    rw [sq, nrm_sq, mul_comm]
    congr 1
    rw [dotProduct, ← sign_norm (hsg _ _ j)]
    exact Finset.sum_congr rfl fun i _ => (sq _).symm
  have hm : ∀ l : List (Vec n), (∀ v ∈ l, |quadForm (matFun lam U c.f) v - quadForm (matFun lam U F) v| ≤ n * ρ) →
      |(l.map (quadForm (matFun lam U c.f))).sum - (l.map (quadForm (matFun lam U F))).sum| ≤ l.length * (n * ρ) := by
    intro l
    induction l with
    | nil => simp
    | cons v l ih =>
      intro h6
      simp only [List.map_cons, List.sum_cons, List.length_cons]
      rw [add_sub_add_comm]
      refine (abs_add_le _ _).trans ((add_le_add (h6 v (by simp)) (ih fun w hw => h6 w (by simp [hw]))).trans (le_of_eq ?_))
      push_cast
      ring
  have h6 : |Spec.mean ((Spec.drawn pdf bt k).map (quadForm (matFun lam U c.f))) - Spec.mean ((Spec.drawn pdf bt k).map (quadForm (matFun lam U F)))| ≤ n * ρ := by
    have h7 := hm _ hv
    unfold Spec.mean
    rw [List.length_map, List.length_map, ← sub_div, drawn_length, abs_div, abs_of_pos hkb, div_le_iff₀ hkb]
    rw [drawn_length] at h7
    linarith
  have h8 := abs_sub_le x (Spec.mean ((Spec.drawn pdf bt k).map (quadForm (matFun lam U c.f)))) (Spec.mean ((Spec.drawn pdf bt k).map (quadForm (matFun lam U F))))
  linarith

open MeasureTheory in
/-- **C144** end to end: with an ideal generator the number computed in floating point arithmetic from inaccurate function values misses `tr F(A)` by more than `ξ` and the
errors of the quadrature, of the function values and of rounding with a probability that falls exponentially with the number of samples. -/
theorem C144_tail {Ω : Type*} [MeasurableSpace Ω] {P : Measure Ω} [IsProbabilityMeasure P] (K : Ω → SlqKernels n) (h : ∀ o, SlqInput (K o) c A M ε B ω δ L H S lo hi a b)
    (lam : Fin n → ℝ) (U : Matrix (Fin n) (Fin n) ℝ) (hU : Eigen A lam U) (hlam : ∀ i, lo ≤ lam i ∧ lam i ≤ hi) (κ : ℕ) (hκ : κ ≤ c.deg)
    (hsteps : ∀ o, Steps (K o) c S κ fun v => ∀ i, v i = 1 ∨ v i = -1) (hn0 : n ≠ 0) (hs1 : 2 * c.tol ≤ Real.sqrt n) (hs2 : Real.sqrt n ≤ B) (g : ℝ[X]) (Φ η : ℝ)
    (hR : QRange L H S Φ (Real.sqrt n)) (hg : g.natDegree + 2 ≤ 2 * κ) (F : ℝ → ℝ) (ρ : ℝ) (hρ : ∀ x, a ≤ x → x ≤ b → |c.f x - F x| ≤ ρ) (hΦ : ∀ x, a ≤ x → x ≤ b → |c.f x| ≤ Φ)
    (hη : ∀ x, a ≤ x → x ≤ b → |F x - g.eval x| ≤ η)
    (hn : φ.Nearest fl) (hsum : ∀ o t (x : List ℝ), x ≠ [] → SumOrder fl x ((K o).colsum t x))
    (hmem : ∀ o t j p q, |p * q| ≤ H → φ.Mem (((K o).quad t j).mul p q)) (G : MFFl n) (hG : SlqState c κ ε S lo hi G) (k : ℕ) (hk : 0 < k) (E : ℝ)
    (hE : E = flQuadErr c.deg ε S ω δ c.tol a b Φ (η + ρ)) (hfit : φ.Fits k (n * (Φ + E))) (u X : ℕ → Ω → ℝ) (hu : Spec.IidUniform P u) (D : ℝ) (hD : 0 < D)
    (hdev : ∀ x : Vec n, (∀ i, x i = 1 ∨ x i = -1) → |quadForm (matFun lam U F) x - ∑ i, F (lam i)| ≤ D) (ξ : ℝ) (hξ : 0 < ξ) :
    ∃ est : Ω → ℝ,
      (∀ᵐ o ∂P, ∃ G', slqFl fl (K o) c ⟨fun q => u q o, fun q => X q o⟩ G 32 (.name "rademacher") k false (k + 1) = some (.ok (G', .val fun _ => est o))) ∧
      P.real {o | ξ + (n * ρ + (n * E + 16 * k * φ.u * (n * (Φ + E)))) ≤ |est o - ∑ i, F (lam i)|} ≤ 2 * Real.exp (-(k * ξ ^ 2 / (2 * D ^ 2))) := by
  obtain ⟨y, hy, -, -, -, -, htail⟩ := C112_rademacher (fun _ _ => 0) (fun _ => 0) (matFun lam U F) hn0 k hk u X hu
  rw [matFun_trace A lam U hU] at htail
  have hr : ∀ᵐ o ∂P, ∀ q, u q o ∈ Set.Ico (0 : ℝ) 1 := by
    rw [ae_all_iff]
    intro q
    have h1 : ∀ᵐ x ∂(volume.restrict (Set.Ico (0 : ℝ) 1)), x ∈ Set.Ico (0 : ℝ) 1 := ae_restrict_mem measurableSet_Ico
    rw [← (hu.law q).map_eq] at h1
    exact ae_of_ae_map (hu.law q).aemeasurable h1
  have key : ∀ o, ∃ x : ℝ, (∀ q, u q o ∈ Set.Ico (0 : ℝ) 1) →
      hutch (fun _ _ => 0) (fun _ => 0) ⟨fun q => u q o, fun q => X q o⟩ (scalarArgs (matFun lam U F) (.name "rademacher") k) (k + 1) =
        some (.ok (.scalar (.val fun _ => y o), [])) →
      (∃ G', slqFl fl (K o) c ⟨fun q => u q o, fun q => X q o⟩ G 32 (.name "rademacher") k false (k + 1) = some (.ok (G', .val fun _ => x))) ∧
        |x - y o| ≤ n * ρ + (n * E + 16 * k * φ.u * (n * (Φ + E))) := by
    intro o
    by_cases h0 : ∀ q, u q o ∈ Set.Ico (0 : ℝ) 1
    · obtain ⟨x, G', pdf, h1, h2, -, -, h3⟩ := C144_slq (h o) lam U hU hlam κ hκ (hsteps o) hn0 hs1 hs2 g Φ η hR hg F ρ hρ hΦ hη hn (hsum o) (hmem o) G hG
        ⟨fun q => u q o, fun q => X q o⟩ h0 32 k false 1 rfl (by omega) hk E hE (by simpa using hfit)
      rw [Nat.mul_one] at h2 h3
      refine ⟨x, fun _ h5 => ⟨⟨G', h2⟩, ?_⟩⟩
      have hcols : (scalarArgs (matFun lam U F) (.name "rademacher") k).cols = 1 := rfl
      have h6 := hutch_count (fun _ _ => 0) (fun _ => 0) ⟨fun q => u q o, fun q => X q o⟩ (scalarArgs (matFun lam U F) (.name "rademacher") k) hn0 (by rw [hcols]; omega)
        pdf h1 k hk (by rw [hcols, mul_one]; rfl)
      rw [h5, hcols] at h6
      simp only [scalarArgs, Bool.or_false, Bool.false_eq_true, if_false, Option.some.injEq, Except.ok.injEq, Prod.mk.injEq, HutchOut.scalar.injEq, NumArr.val.injEq,
        and_true] at h6
      have h7 := congrFun h6 0
      rw [h7]
      exact h3
    · exact ⟨0, fun h' => absurd h' h0⟩
  choose est hest using key
  refine ⟨est, ?_, le_trans ?_ (htail D hD (fun x hx => by rw [quad_dot]; exact hdev x hx) ξ hξ)⟩
  · filter_upwards [hr, hy] with o h1 h2
    exact (hest o h1 h2).1
  · refine ENNReal.toReal_mono (measure_ne_top _ _) (measure_mono_ae ?_)
    filter_upwards [hr, hy] with o h1 h2 h3
    have h4 := (hest o h1 h2).2
    have h5 : ξ + (n * ρ + (n * E + 16 * k * φ.u * (n * (Φ + E)))) ≤ |est o - ∑ i, F (lam i)| := h3
    have h6 := abs_sub_le (est o) (y o) (∑ i, F (lam i))
    show ξ ≤ |y o - ∑ i, F (lam i)|
    linarith

/-- Concrete case of C144: the matrix with the diagonal `(1, 3)` and a function whose values are those of the square up to `2 ^ -40`, in binary64; two steps of the recurrence
and any number of passes. -/
theorem slq_example_values (f : ℝ → ℝ) (hf : ∀ x, 1 / 2 ≤ x → x ≤ 4 → |f x - x ^ 2| ≤ 1 / 2 ^ 40) (hfl : binary64.Nearest fl) (K : SlqKernels 2) (hL : ∀ t j, LKernelsRounded fl !![1, 0; 0, 3] (K.lan t j))
    (hQ : ∀ t j, QKernelsRounded fl (K.quad t j) 2 (1 / 2 ^ 40) (1 / 2 ^ 40) ((2 : ℝ) ^ (-400 : ℤ)) ((2 : ℝ) ^ (400 : ℤ)))
    (hsum : ∀ t (x : List ℝ), x ≠ [] → SumOrder fl x (K.colsum t x)) (otol : ℝ) (rng : Rng) (hu : ∀ p, 0 ≤ rng.unif p ∧ rng.unif p < 1) (k : ℕ) (hk : 0 < k)
    (hk2 : k ≤ 2 ^ 20) :
    ∃ (x : ℝ) (G' : MFFl 2), slqFl fl K ⟨f, 2, 1 / 2 ^ 40, otol, 0⟩ rng (MFFl.init 2 2) 32 (.name "rademacher") k false (k + 1) =
      some (.ok (G', .val fun _ => x)) ∧ |x - 10| ≤ 1 / 10 ^ 6 := by
  have two : ∀ {a b : ℤ}, a ≤ b → (2 : ℝ) ^ a ≤ (2 : ℝ) ^ b := fun h => zpow_le_zpow_right₀ (by norm_num) h
  have low : (2 : ℝ) ^ (-400 : ℤ) ≤ 1 / 2 ^ 40 := by
    have h1 := two (show (-400 : ℤ) ≤ -40 by norm_num)
    have e : (2 : ℝ) ^ (-40 : ℤ) = 1 / 2 ^ 40 := by norm_num
    rwa [e] at h1
  have high : (1024 : ℝ) ≤ (2 : ℝ) ^ (400 : ℤ) := by
    have h1 := two (show (10 : ℤ) ≤ 400 by norm_num)
    have e : (2 : ℝ) ^ (10 : ℤ) = 1024 := by norm_num
    rwa [e] at h1
  set c : MFCfg := ⟨f, 2, 1 / 2 ^ 40, otol, 0⟩ with hc
  have s2 : Real.sqrt (2 : ℕ) ^ 2 = 2 := by
    rw [Real.sq_sqrt (by norm_num)]
    norm_num
  have s0 := Real.sqrt_nonneg ((2 : ℕ) : ℝ)
  have s1 : 1 ≤ Real.sqrt (2 : ℕ) := by
    rw [Real.le_sqrt (by norm_num) (by norm_num)]
    norm_num
  have s3 : Real.sqrt (2 : ℕ) ≤ 2 := Real.sqrt_le_iff.2 ⟨by norm_num, by norm_num⟩
  obtain ⟨h, hmem⟩ := C142_binary64 (c := c) (A := !![1, 0; 0, 3]) (M := 4) (S := 32) (lo := 1) (hi := 3) (a := 1 / 2) (b := 4) hfl (by norm_num) (by norm_num)
    (by ext i j; fin_cases i <;> fin_cases j <;> rfl) (by simp only [Fin.sum_univ_two]; norm_num) (low.trans (by norm_num)) low hL hQ le_rfl (by norm_num [hc]) (by norm_num [hc])
    (le_trans (by norm_num [hc]) high) le_rfl (by norm_num [hc]) (by norm_num [hc]) (by norm_num) (by norm_num [hc]) (by norm_num [hc]) (by norm_num) (by norm_num [hc])
    (by norm_num [hc])
  have hU : Eigen (!![1, 0; 0, 3] : Matrix (Fin 2) (Fin 2) ℝ) ![1, 3] 1 := by
    constructor
    · simp
    · intro j
      ext i
      fin_cases i <;> fin_cases j <;> simp [Matrix.mulVec, dotProduct, Fin.sum_univ_two]
  have hnrm : ∀ v : Vec 2, (∀ i, v i = 1 ∨ v i = -1) → nrm v = Real.sqrt (2 : ℕ) := by
    intro v hv
    unfold nrm
    congr 1
    rw [dotProduct, ← sign_norm hv]
    exact Finset.sum_congr rfl fun i _ => (sq _).symm
  have hsteps : Steps K c 32 2 fun v => ∀ i, v i = 1 ∨ v i = -1 := by
    refine steps_two h _ 1 (by norm_num [hc]) fun v hv => ?_
    rw [hnrm v hv]
    refine ⟨le_trans (by norm_num [hc]) s1, s3.trans (le_trans (by norm_num) high), fun x => ?_⟩
    rw [one_mul]
    unfold nrm
    refine Real.sqrt_le_sqrt ?_
    have e0 : v 0 * v 0 = 1 := by rcases hv 0 with e | e <;> rw [e] <;> norm_num
    have e1 : v 1 * v 1 = 1 := by rcases hv 1 with e | e <;> rw [e] <;> norm_num
    have e : (!![1, 0; 0, 3] *ᵥ v - x • v) ⬝ᵥ (!![1, 0; 0, 3] *ᵥ v - x • v) = (1 - x) ^ 2 * (v 0 * v 0) + (3 - x) ^ 2 * (v 1 * v 1) := by
      simp [dotProduct, Fin.sum_univ_two]
      ring
    rw [e, e0, e1]
    push_cast
    nlinarith [sq_nonneg (x - 2)]
  have hEq : flQuadErr 2 (8 * ((2 : ℕ) + 1) * (1 / 2 ^ 53)) 32 (1 / 2 ^ 40) (1 / 2 ^ 40) (1 / 2 ^ 40) (1 / 2) 4 17 (0 + 1 / 2 ^ 40) ≤ 1 / 10 ^ 7 := by
    norm_num [flQuadErr]
  have hE0 : 0 ≤ flQuadErr 2 (8 * ((2 : ℕ) + 1) * (1 / 2 ^ 53)) 32 (1 / 2 ^ 40) (1 / 2 ^ 40) (1 / 2 ^ 40) (1 / 2) 4 17 (0 + 1 / 2 ^ 40) := by
    norm_num [flQuadErr]
  set E := flQuadErr 2 (8 * ((2 : ℕ) + 1) * (1 / 2 ^ 53)) 32 (1 / 2 ^ 40) (1 / 2 ^ 40) (1 / 2 ^ 40) (1 / 2) 4 17 (0 + 1 / 2 ^ 40) with hE
  have low1 : (2 : ℝ) ^ (-400 : ℤ) ≤ 1 := low.trans (by norm_num)
  obtain ⟨x, G', pdf, hp, h1, -, -, h2⟩ := C144_slq h ![1, 3] 1 hU (fun i => by fin_cases i <;> norm_num) 2 le_rfl hsteps (by norm_num) (le_trans (by norm_num [hc]) s1)
    (s3.trans (le_trans (by norm_num) high)) (X ^ 2) 17 0
    ⟨low1.trans (by norm_num), le_trans (by norm_num) high, low1.trans (by norm_num), le_trans (by norm_num) high, low1.trans s1, le_trans (by linarith) high,
      low1.trans (by rw [s2]; norm_num), le_trans (by rw [s2]; norm_num) high, low1.trans (by linarith), le_trans (by linarith) high, low1.trans (by rw [s2]; norm_num),
      le_trans (by rw [s2]; norm_num) high⟩
    (by rw [natDegree_X_pow]) (fun x => x ^ 2) (1 / 2 ^ 40) hf (fun x h1 h2 => by
      have h3 := hf x h1 h2
      have h4 : |x ^ 2| ≤ 16 := by
        rw [abs_of_nonneg (sq_nonneg x)]
        nlinarith
      have h5 := abs_le_of_close h3 h4
      show |f x| ≤ 17
      linarith) (fun x _ _ => by simp) hfl hsum hmem (MFFl.init 2 2) (slqState_init c 2 h.eps0 (by norm_num) (Or.inl rfl)) rng hu 32 k false 1 rfl (by omega) hk E
    rfl (binary64_fits _ (by omega) _ (le_trans (two (by norm_num : (-1022 : ℤ) ≤ 0)) (by push_cast; rw [zpow_zero]; linarith))
      (le_trans (by push_cast; linarith) (high.trans (two (by norm_num)))))
  rw [Nat.mul_one] at h1 h2
  refine ⟨x, G', h1, ?_⟩
  have hsg := rademacher_pdf_signs rng hu pdf hp
  have hq : ∀ v : Vec 2, (∀ i, v i = 1 ∨ v i = -1) → quadForm (matFun ![1, 3] 1 fun x => x ^ 2) v = 10 := by
    intro v hv
    have e0 : v 0 * v 0 = 1 := by rcases hv 0 with e | e <;> rw [e] <;> norm_num
    have e1 : v 1 * v 1 = 1 := by rcases hv 1 with e | e <;> rw [e] <;> norm_num
    have e : quadForm (matFun ![1, 3] 1 fun x => x ^ 2) v = 1 * (v 0 * v 0) + 9 * (v 1 * v 1) := by
      simp [quadForm, matFun, dotProduct, Matrix.mulVec, Fin.sum_univ_two]
      ring
    rw [e, e0, e1]
    norm_num
  have hmean : Spec.mean ((Spec.drawn pdf 1 k).map (quadForm (matFun ![1, 3] 1 fun x => x ^ 2))) = 10 := by
    have e : (Spec.drawn pdf 1 k).map (quadForm (matFun ![1, 3] 1 fun x => x ^ 2)) = List.replicate k 10 := by
      rw [List.eq_replicate_iff, List.length_map, drawn_length, mul_one]
      refine ⟨rfl, fun b hb => ?_⟩
      obtain ⟨v, hv, rfl⟩ := List.mem_map.1 hb
      unfold Spec.drawn at hv
      obtain ⟨t, -, ht⟩ := List.mem_flatMap.1 hv
      obtain ⟨j, rfl⟩ := List.mem_ofFn.1 ht
      exact hq _ (hsg _ _ _)
    rw [e, Spec.mean, List.sum_replicate, List.length_replicate, nsmul_eq_mul, mul_div_cancel_left₀]
    exact_mod_cast hk.ne'
  rw [hmean] at h2
  refine h2.trans ?_
  have kr : (k : ℝ) ≤ 2 ^ 20 := by exact_mod_cast hk2
  have hu' : binary64.u = 1 / 2 ^ 53 := by norm_num [Fmt.u, binary64]
  rw [hu']
  push_cast
  have h3 : (k : ℝ) * (2 * (17 + E)) ≤ 2 ^ 20 * 35 := mul_le_mul kr (by linarith) (by linarith) (by norm_num)
  linarith

/-- The square computed in binary64 is such a function. -/
example (hfl : binary64.Nearest fl) (x : ℝ) (h1 : 1 / 2 ≤ x) (h2 : x ≤ 4) : |fl (x ^ 2) - x ^ 2| ≤ 1 / 2 ^ 40 := by
  have hu' : binary64.u = 1 / 2 ^ 53 := by norm_num [Fmt.u, binary64]
  have he : binary64.eta ≤ 1 / 2 ^ 53 := by
    have e : (2 : ℝ) ^ (-53 : ℤ) = 1 / 2 ^ 53 := by norm_num
    rw [← e]
    exact zpow_le_zpow_right₀ (by norm_num) (by norm_num [binary64])
  have h3 : |x ^ 2| ≤ 16 := by
    rw [abs_of_nonneg (sq_nonneg x)]
    nlinarith
  have ht : (16 : ℝ) ≤ binary64.top := by
    have := (binary64_mem_int 16 (by norm_num)).le_top
    simpa using this
  have h4 := hfl.err (by norm_num [binary64]) (h3.trans ht)
  rw [hu'] at h4
  linarith

theorem backward_nonneg (k deg : ℕ) {δ S tol : ℝ} (hδ : 0 ≤ δ) (hS : 0 ≤ S) (ht : 0 ≤ tol) : 0 ≤ backward k deg δ S tol := by
  unfold backward
  have := mul_nonneg hδ hS
  split <;> linarith

/-- C144 for one column of `quad`: as C136, the values `f` that are computed differ from those of the function `F` by at most `ρ`. -/
theorem C144_quad {K : LKernels n} {tol : ℝ} {v : Vec n} {deg : ℕ} {orth : ℤ} {alpha beta : Buf ℝ} {Q : Buf (Vec n)}
    (h : FlInput K A M ε tol B v deg orth alpha beta Q) (hA : A.IsSymm) (E : QKernels n) (ω δ L H : ℝ) (hE : QKernelsOk E deg ω δ L H) (hω : 0 ≤ ω)
    (hω1 : deg * ω ≤ 1 / 100) (hδ : 0 ≤ δ) (otol lo hi : ℝ) (lam : Fin n → ℝ) (U : Matrix (Fin n) (Fin n) ℝ) (hU : Eigen A lam U)
    (hlam : ∀ i, lo ≤ lam i ∧ lam i ≤ hi) (f F : ℝ → ℝ) (ρ : ℝ) :
    ∃ (t : LState n) (y : ℝ) (k : ℕ), quadColFl K E f v deg tol otol orth alpha beta Q = .ok (t, y) ∧ 1 ≤ k ∧ k ≤ deg ∧
      (t.beta.get k < tol ∨ k = deg) ∧ (∀ j, 1 ≤ j → j < k → tol ≤ t.beta.get j) ∧
      ∀ S, M ≤ S → (∀ j < deg, |t.alpha.get j| ≤ S ∧ |t.beta.get j| ≤ S) → ∀ a b, a < b →
        a ≤ lo - 400 * k ^ 3 * ε * S - backward k deg δ S tol → hi + 400 * k ^ 3 * ε * S + backward k deg δ S tol ≤ b →
        RestOk k deg alpha beta a b (backward k deg δ S tol) →
        ∀ (g : ℝ[X]) (Φ η : ℝ), g.natDegree + 2 ≤ 2 * k → (∀ x, a ≤ x → x ≤ b → |f x| ≤ Φ) → (∀ x, a ≤ x → x ≤ b → |f x - F x| ≤ ρ) →
          (∀ x, a ≤ x → x ≤ b → |F x - g.eval x| ≤ η) → QRange L H S Φ (nrm v) →
          |y - v ⬝ᵥ (matFun lam U F *ᵥ v)| ≤ nrm v ^ 2 * (ρ + (2.15 * (η + ρ) + (11 * ε + 8 * deg * ω) * Φ +
            (Φ + (η + ρ)) * (4 * k * (33 * ε + 496 * k ^ 3 * (ε * S) / (b - a)) + 32 * k ^ 3 * backward k deg δ S tol / (b - a)))) := by
  obtain ⟨t, y, k, h1, h2, h3, h4, h5, -, -, -, -, h6⟩ := C136_quad_accuracy h hA E ω δ L H hE hω hω1 hδ otol lo hi lam U hU hlam f
  refine ⟨t, y, k, h1, h2, h3, h4, h5, fun S hMS hS a b hab ha hb hrest g Φ η hg hΦ hρ hη hR => ?_⟩
  have h7 := h6 S hMS hS a b hab ha hb hrest g Φ (η + ρ) hg hΦ (fun x h1 h2 => (abs_sub_le _ (F x) _).trans (by linarith [hρ x h1 h2, hη x h1 h2])) hR
  have hS0 : 0 ≤ S := (h.M0).trans hMS
  have e1 : 0 ≤ 400 * (k : ℝ) ^ 3 * ε * S := mul_nonneg (mul_nonneg (by positivity) h.eps0) hS0
  have e2 := backward_nonneg k deg hδ hS0 h.tol0.le
  have h8 := C144_quadForm lam U hU f F ρ (fun i => hρ _ (by linarith [(hlam i).1]) (by linarith [(hlam i).2])) v
  have h9 := abs_sub_le y (v ⬝ᵥ (matFun lam U f *ᵥ v)) (v ⬝ᵥ (matFun lam U F *ᵥ v))
  unfold quadForm at h8
  linarith

/-- C144 for `_matvec`: as C137, the values `f` that are computed differ from those of the function `F` by at most `ρ`. -/
theorem C144_matvec {K : LKernels n} {tol : ℝ} {v : Vec n} {deg : ℕ} {orth : ℤ} {alpha beta : Buf ℝ}
    (h : FlInput K A M ε tol B v deg orth alpha beta (Buf.zeros deg)) (E : QKernels n) (ω δ L H : ℝ) (hE : QKernelsOk E deg ω δ L H)
    (hω : 0 ≤ ω) (hω1 : ω ≤ 1 / 100) (hδ : 0 ≤ δ) (otol lo hi : ℝ) (lam : Fin n → ℝ) (U : Matrix (Fin n) (Fin n) ℝ) (hU : Eigen A lam U)
    (hlam : ∀ i, lo ≤ lam i ∧ lam i ≤ hi) (f F : ℝ → ℝ) (ρ : ℝ) :
    ∃ (t : LState n) (y : Vec n) (k : ℕ), matvecFl K E f v deg tol otol orth alpha beta = .ok (t, y) ∧ 1 ≤ k ∧ k ≤ deg ∧
      (t.beta.get k < tol ∨ k = deg) ∧ (∀ j, 1 ≤ j → j < k → tol ≤ t.beta.get j) ∧
      ∀ S, M ≤ S → (∀ j < deg, |t.alpha.get j| ≤ S ∧ |t.beta.get j| ≤ S) → ∀ a b, a < b →
        a ≤ lo - 400 * k ^ 3 * ε * S - backward k deg δ S tol → hi + 400 * k ^ 3 * ε * S + backward k deg δ S tol ≤ b →
        RestOk k deg alpha beta a b (backward k deg δ S tol) →
        ∀ (g : ℝ[X]) (Φ η : ℝ), g.natDegree < k → (∀ x, a ≤ x → x ≤ b → |f x| ≤ Φ) → (∀ x, a ≤ x → x ≤ b → |f x - F x| ≤ ρ) →
          (∀ x, a ≤ x → x ≤ b → |F x - g.eval x| ≤ η) → QRange L H S Φ (nrm v) →
          nrm (y - matFun lam U F *ᵥ v) ≤ nrm v * (ρ + (1.05 * (1 + Real.sqrt k) * (η + ρ) + (5 * ε + 5 * deg ^ 2 * ω) * Φ +
            (Φ + (η + ρ)) * (52 * k ^ 4 * (ε * S) / (b - a) + 5 * k ^ 4 * backward k deg δ S tol / (b - a)))) := by
  obtain ⟨t, y, k, h1, h2, h3, h4, h5, -, -, -, -, h6⟩ := C137_matvec_accuracy h E ω δ L H hE hω hω1 hδ otol lo hi lam U hU hlam f
  refine ⟨t, y, k, h1, h2, h3, h4, h5, fun S hMS hS a b hab ha hb hrest g Φ η hg hΦ hρ hη hR => ?_⟩
  have h7 := h6 S hMS hS a b hab ha hb hrest g Φ (η + ρ) hg hΦ (fun x h1 h2 => (abs_sub_le _ (F x) _).trans (by linarith [hρ x h1 h2, hη x h1 h2])) hR
  have hS0 : 0 ≤ S := (h.M0).trans hMS
  have e1 : 0 ≤ 400 * (k : ℝ) ^ 3 * ε * S := mul_nonneg (mul_nonneg (by positivity) h.eps0) hS0
  have e2 := backward_nonneg k deg hδ hS0 h.tol0.le
  have hρ0 : 0 ≤ ρ := (abs_nonneg _).trans (hρ a le_rfl hab.le)
  have h8 := C144_apply lam U hU f F ρ hρ0 (fun i => hρ _ (by linarith [(hlam i).1]) (by linarith [(hlam i).2])) v
  have h9 : nrm (y - matFun lam U F *ᵥ v) ≤ nrm (y - matFun lam U f *ᵥ v) + nrm (matFun lam U f *ᵥ v - matFun lam U F *ᵥ v) := by
    have := nrm_add_le (y - matFun lam U f *ᵥ v) (matFun lam U f *ᵥ v - matFun lam U F *ᵥ v)
    rwa [sub_add_sub_cancel] at this
  linarith

end Primate
