import Verif.Props.Prob
import Verif.Props.HutchppFull

/-! # Property C113: `hutchpp` with ideal random number generators -/

noncomputable section

namespace Primate

open MeasureTheory ProbabilityTheory Matrix

variable {N : ℕ} {Ω : Type*} [MeasurableSpace Ω] {P : Measure Ω}

theorem uniform_range {u : ℕ → Ω → ℝ} (hu : Spec.IidUniform P u) : ∀ᵐ ω ∂P, ∀ q, u q ω ∈ Set.Ico (0 : ℝ) 1 := by
  rw [ae_all_iff]
  intro q
  have h1 : ∀ᵐ x ∂(volume.restrict (Set.Ico (0 : ℝ) 1)), x ∈ Set.Ico (0 : ℝ) 1 := ae_restrict_mem measurableSet_Ico
  rw [← (hu.law q).map_eq] at h1
  exact ae_of_ae_map (hu.law q).aemeasurable h1

/-- First and second half of a pattern of bits. -/
def splitBits (nb N : ℕ) : (Fin (nb + nb) × Fin N → Bool) ≃ (Fin nb × Fin N → Bool) × (Fin nb × Fin N → Bool) :=
  (Equiv.arrowCongr ((Equiv.prodCongrLeft fun _ => finSumFinEquiv.symm).trans (Equiv.sumProdDistrib _ _ _)) (Equiv.refl Bool)).trans
    (Equiv.sumArrowEquivProdArrow _ _ _)

theorem splitBits_fst (nb N : ℕ) (b : Fin (nb + nb) × Fin N → Bool) (j : Fin nb) (i : Fin N) :
    (splitBits nb N b).1 (j, i) = b (Fin.castAdd nb j, i) := rfl

theorem splitBits_snd (nb N : ℕ) (b : Fin (nb + nb) × Fin N → Bool) (j : Fin nb) (i : Fin N) :
    (splitBits nb N b).2 (j, i) = b (Fin.natAdd nb j, i) := rfl

theorem sum_splitBits (nb N : ℕ) (F : (Fin nb × Fin N → Bool) → (Fin nb × Fin N → Bool) → ℝ) :
    (∑ b, F (splitBits nb N b).1 (splitBits nb N b).2) / 2 ^ ((nb + nb) * N) =
      (∑ x, (∑ y, F x y) / 2 ^ (nb * N)) / 2 ^ (nb * N) := by
  rw [Equiv.sum_comp (splitBits nb N) fun p => F p.1 p.2, Fintype.sum_prod_type, ← Finset.sum_div, div_div, ← pow_add, add_mul]

/-- The sketch vectors that `hutchpp` draws first. -/
def Spec.sketch (nb N : ℕ) (u : ℕ → ℝ) : Fin nb → Vec N := fun j i => if 1/2 ≤ u (j * N + i) then 1 else -1

/-- Sum of the squares of the entries off the diagonal. -/
def Spec.offDiagSq (B : Matrix (Fin N) (Fin N) ℝ) : ℝ := ∑ i, ∑ j, B i j ^ 2 - ∑ i, B i i ^ 2

/-- C113: with independent uniform numbers, `hutchpp` with Rademacher vectors returns a number almost surely, whose expectation over sketch and residual vectors
together is the trace, for every QR routine that meets its contract.  For symmetric matrices the mean squared error is the expectation, over the sketch, of
`2/nb` times the squared off-diagonal part of the residual; this is at most `2 ‖A‖²/nb`, and Chebyshev's inequality follows. -/
theorem C113_hutchpp [IsProbabilityMeasure P] (hN : N ≠ 0) (qr : ∀ nb, (Fin nb → Vec N) → Fin (min N nb) → Vec N)
    (A : Matrix (Fin N) (Fin N) ℝ) (m : Option ℤ) (modeFull full : Bool) (nb : ℕ) (hnb : 0 < nb) (hm : hutchppNb N m = nb)
    (u : ℕ → Ω → ℝ) (X : ℕ → Ω → ℝ) (hu : Spec.IidUniform P u) (hqr : ∀ Y, QROk (qr nb) Y) :
    ∃ est : Ω → ℝ,
      (∀ᵐ ω ∂P, ∃ out, hutchpp qr ⟨fun q => u q ω, fun q => X q ω⟩ (.ofMatrix A) m modeFull (.name "rademacher") full = .ok out ∧
        out.estimate = est ω) ∧
      Integrable est P ∧ ∫ ω, est ω ∂P = A.trace ∧
      Integrable (fun ω => (est ω - A.trace) ^ 2) P ∧
      (A.IsSymm →
        ∫ ω, (est ω - A.trace) ^ 2 ∂P =
          ∫ ω, 2 * Spec.offDiagSq (Spec.residual A (qr nb fun j => A *ᵥ Spec.sketch nb N (fun q => u q ω) j)) / nb ∂P ∧
        ∫ ω, (est ω - A.trace) ^ 2 ∂P ≤ 2 * (∑ i, ∑ j, A i j ^ 2) / nb ∧
        ∀ ε : ℝ, 0 < ε → P.real {ω | ε ≤ |est ω - A.trace|} ≤ 2 * (∑ i, ∑ j, A i j ^ 2) / (nb * ε ^ 2)) := by
  have hnb' : (0 : ℝ) < nb := by exact_mod_cast hnb
  obtain ⟨V, hV⟩ : ∃ V : (Fin nb × Fin N → Bool) → (Fin nb × Fin N → Bool) → ℝ,
    V = fun x y => hutchppValue A (qr nb fun j => A *ᵥ fun i => sgn (x (j, i))) fun j i => sgn (y (j, i)) := ⟨_, rfl⟩
  obtain ⟨G, hG⟩ : ∃ G : (Fin (nb + nb) × Fin N → Bool) → ℝ, G = fun b => V (splitBits nb N b).1 (splitBits nb N b).2 := ⟨_, rfl⟩
  have hsk : ∀ ω, (fun j i => sgn ((splitBits nb N (bitsOf (nb + nb) N u ω)).1 (j, i))) = Spec.sketch nb N fun q => u q ω := by
    intro ω
    funext j i
    rw [splitBits_fst]
    unfold bitsOf Spec.sketch sgn
    simp
  have hmse : A.IsSymm → ∀ x, (∑ y, (V x y - A.trace) ^ 2) / 2 ^ (nb * N) =
      2 * Spec.offDiagSq (Spec.residual A (qr nb fun j => A *ᵥ fun i => sgn (x (j, i)))) / nb := by
    intro hA x
    have hBs : ∀ i j, Spec.residual A (qr nb fun j => A *ᵥ fun i => sgn (x (j, i))) i j =
        Spec.residual A (qr nb fun j => A *ᵥ fun i => sgn (x (j, i))) j i := by
      have : (Spec.residual A (qr nb fun j => A *ᵥ fun i => sgn (x (j, i))))ᵀ = Spec.residual A (qr nb fun j => A *ᵥ fun i => sgn (x (j, i))) := by
        rw [residual_eq]
        simp only [transpose_mul, transpose_transpose, hA.eq, Matrix.mul_assoc]
      intro i j
      exact congrFun (congrFun this j) i
    simp only [hV, hutchppValue_error A _ (hqr _).orth]
    rw [mse_signs _ nb hnb, offdiag_symmetric _ hBs]
    rfl
  have hint2 := bitsOf_integral hu (nb + nb) N fun b => (G b - A.trace) ^ 2
  have hbound : A.IsSymm → ∫ ω, (G (bitsOf (nb + nb) N u ω) - A.trace) ^ 2 ∂P ≤ 2 * (∑ i, ∑ j, A i j ^ 2) / nb := by
    intro hA
    rw [hint2.2, hG, sum_splitBits nb N fun x y => (V x y - A.trace) ^ 2]
    simp only [hmse hA]
    rw [div_le_iff₀ (by positivity)]
    have h1 : ∀ x : Fin nb × Fin N → Bool, 2 * Spec.offDiagSq (Spec.residual A (qr nb fun j => A *ᵥ fun i => sgn (x (j, i)))) / nb ≤
        2 * (∑ i, ∑ j, A i j ^ 2) / nb := by
      intro x
      refine div_le_div_of_nonneg_right ?_ hnb'.le
      have h3 := C101_frobenius A _ (hqr fun j => A *ᵥ fun i => sgn (x (j, i))).orth
      unfold Spec.offDiagSq
      have h4 : 0 ≤ ∑ i, Spec.residual A (qr nb fun j => A *ᵥ fun i => sgn (x (j, i))) i i ^ 2 := Finset.sum_nonneg fun i _ => sq_nonneg _
      linarith
    refine (Finset.sum_le_sum fun x _ => h1 x).trans (le_of_eq ?_)
    simp only [Finset.sum_const, Finset.card_univ, nsmul_eq_mul, Fintype.card_pi, Fintype.card_bool, Finset.prod_const, Fintype.card_prod, Fintype.card_fin]
    push_cast
    ring
  refine ⟨fun ω => G (bitsOf (nb + nb) N u ω), ?_, (bitsOf_integral hu _ N G).1, ?_, hint2.1, fun hA => ⟨?_, hbound hA, ?_⟩⟩
  · filter_upwards [uniform_range hu] with ω hω
    have hbit : ∀ q, rademacherEntry (u q ω) = if 1/2 ≤ u q ω then 1 else -1 := by
      intro q
      obtain ⟨h1, h2⟩ := hω q
      split_ifs with h
      · exact (rademacherEntry_half _).2 h h2
      · exact (rademacherEntry_half _).1 h1 (not_le.1 h)
    obtain ⟨out, h1, h2⟩ := hutchpp_signs ⟨fun q => u q ω, fun q => X q ω⟩ hN qr A m modeFull full nb hnb hm
      (splitBits nb N (bitsOf (nb + nb) N u ω)).2 (fun q => u q ω) (fun _ _ => rfl) (fun j i => by
        obtain ⟨h1, h2⟩ := hω (nb * N + j * N + i)
        rw [splitBits_snd]
        have e : ((Fin.natAdd nb j : Fin (nb + nb)) : ℕ) * N + i = nb * N + j * N + i := by rw [Fin.val_natAdd]; ring
        unfold bitsOf
        simp only [e]
        by_cases h : 1/2 ≤ u (nb * N + j * N + i) ω
        · rw [if_pos (decide_eq_true h)]; exact ⟨h, h2⟩
        · rw [if_neg (by rw [decide_eq_false h]; simp)]; exact ⟨h1, not_le.1 h⟩)
    refine ⟨out, h1, ?_⟩
    rw [h2, hG, hV]
    simp only [hbit]
    congr 1
    congr 1
    funext j
    congr 1
    exact congrFun (hsk ω).symm j
  · rw [(bitsOf_integral hu _ N G).2, hG, sum_splitBits nb N V, hV]
    simp only [hutchppValue_unbiased hnb A _ (hqr _).orth]
    simp only [Finset.sum_const, Finset.card_univ, nsmul_eq_mul, Fintype.card_pi, Fintype.card_bool, Finset.prod_const, Fintype.card_prod, Fintype.card_fin]
    push_cast
    field_simp
  · obtain ⟨H, hH⟩ : ∃ H : (Fin (nb + nb) × Fin N → Bool) → ℝ,
      H = fun b => 2 * Spec.offDiagSq (Spec.residual A (qr nb fun j => A *ᵥ fun i => sgn ((splitBits nb N b).1 (j, i)))) / nb := ⟨_, rfl⟩
    have h1 : ∀ ω, 2 * Spec.offDiagSq (Spec.residual A (qr nb fun j => A *ᵥ Spec.sketch nb N (fun q => u q ω) j)) / nb =
        H (bitsOf (nb + nb) N u ω) := by
      intro ω
      simp only [hH, ← hsk ω]
    simp only [h1]
    rw [(bitsOf_integral hu (nb + nb) N H).2, hint2.2, hG, sum_splitBits nb N fun x y => (V x y - A.trace) ^ 2, hH]
    rw [sum_splitBits nb N fun x _ => 2 * Spec.offDiagSq (Spec.residual A (qr nb fun j => A *ᵥ fun i => sgn (x (j, i)))) / nb]
    congr 1
    refine Finset.sum_congr rfl fun x _ => ?_
    rw [hmse hA]
    simp only [Finset.sum_const, Finset.card_univ, nsmul_eq_mul, Fintype.card_pi, Fintype.card_bool, Finset.prod_const, Fintype.card_prod, Fintype.card_fin]
    push_cast
    field_simp
  · intro ε hε
    have h1 := mul_meas_ge_le_integral_of_nonneg (μ := P) (f := fun ω => (G (bitsOf (nb + nb) N u ω) - A.trace) ^ 2)
      (Filter.Eventually.of_forall fun ω => sq_nonneg _) hint2.1 (ε ^ 2)
    have h2 : {ω | ε ^ 2 ≤ (G (bitsOf (nb + nb) N u ω) - A.trace) ^ 2} = {ω | ε ≤ |G (bitsOf (nb + nb) N u ω) - A.trace|} := by
      ext ω
      simp only [Set.mem_ofPred_eq]
      rw [← sq_abs (G _ - _), pow_le_pow_iff_left₀ hε.le (abs_nonneg _) two_ne_zero]
    rw [h2] at h1
    have h3 := h1.trans (hbound hA)
    rw [← div_div, le_div_iff₀ (by positivity), mul_comm]
    exact h3

/-- `C113_hutchpp` at work: a QR routine and ideal generators exist, and for every symmetric 4 by 4 matrix `hutchpp(A, m=3)` has the right mean and a mean squared
error of at most `2 ‖A‖²/3`. -/
example (A : Matrix (Fin 4) (Fin 4) ℝ) (hA : A.IsSymm) : ∃ (P : Measure (ℕ → ℝ)) (qr : ∀ nb, (Fin nb → Vec 4) → Fin (min 4 nb) → Vec 4) (est : (ℕ → ℝ) → ℝ),
    IsProbabilityMeasure P ∧
    (∀ᵐ z ∂P, ∃ out, hutchpp qr ⟨z, fun _ => 0⟩ (.ofMatrix A) (some 3) false (.name "rademacher") false = .ok out ∧ out.estimate = est z) ∧
    ∫ z, est z ∂P = A.trace ∧ ∫ z, (est z - A.trace) ^ 2 ∂P ≤ 2 * (∑ i, ∑ j, A i j ^ 2) / 3 := by
  choose qr hqr using fun nb (Y : Fin nb → Vec 4) => exists_isQR Y
  obtain ⟨P, hP, hu⟩ := iidUniform_exists
  obtain ⟨est, h1, -, h2, -, h3⟩ := C113_hutchpp (by norm_num) qr A (some 3) false false 3 (by norm_num) rfl _ (fun _ _ => 0) hu (hqr 3)
  exact ⟨P, qr, est, hP, h1, h2, by exact_mod_cast (h3 hA).2.1⟩

end Primate
