import Verif.Lemmas.FullOrthRun
import Verif.Lemmas.OrthIeee
import Verif.Props.LanczosFl
import Verif.Props.LanczosPy

/-! # Properties C138 and C139: the Lanczos recurrence with full re-orthogonalisation in floating point arithmetic -/

noncomputable section

namespace Primate

open Matrix Spec

variable {n : ℕ} {K : LKernels n} {A : Matrix (Fin n) (Fin n) ℝ} {M ε tol otol B : ℝ} {v : Vec n} {deg : ℕ} {orth : ℤ} {alpha beta : Buf ℝ} {Q : Buf (Vec n)}

theorem OrthData.congr {S : ℝ} {T J : ℕ} {a b a' b' : ℕ → ℝ} {q w0 w : ℕ → Vec n} (h : OrthData A ε S otol T J a b q w0 w) (ha : ∀ j ≤ J, a' j = a j)
    (hb : ∀ j ≤ J, b' j = b j) : OrthData A ε S otol T J a' b' q w0 w := by
  refine ⟨by rw [hb 0 (Nat.zero_le _)]; exact h.b0, fun j hj => by rw [hb j hj]; exact h.bnn j hj, fun j hj => by rw [hb j hj]; exact h.bS j hj,
    fun j hj => by rw [ha j hj]; exact h.aS j hj, h.unit, fun j hj => by rw [ha j hj, hb j hj]; exact h.step j hj, h.own,
    fun j hj => by rw [hb (j + 1) (by omega)]; exact h.scale j hj, h.pass⟩

/-- The run with what is known about it. -/
theorem Spec.FullInput.run' (h : FullInput K A M ε tol otol B v deg orth alpha beta Q) :
    ∃ (t : LState n) (k : ℕ) (q : ℕ → Vec n), lanczosFl K v deg tol otol orth alpha beta Q = .ok t ∧ 1 ≤ k ∧ k ≤ deg ∧
      (t.beta.get k < tol ∨ k = deg) ∧ (∀ j, 1 ≤ j → j < k → tol ≤ t.beta.get j) ∧
      (∀ j < k, t.Q.get j = q j) ∧ nrm (q 0 - (nrm v)⁻¹ • v) ≤ 5 * ε ∧ (∀ j < k, |nrm (q j) - 1| ≤ 5 * ε) ∧
      (∀ j < k, 0 ≤ t.beta.get j ∧ t.beta.get j ≤ 2 * j * M ∧ |t.alpha.get j| ≤ 2 * (2 * j + 1) * M) ∧ |t.beta.get k - nrm t.v| ≤ ε * (nrm t.v + tol) ∧
      -(ε * tol) ≤ t.beta.get k ∧
      (∀ j, k ≤ j → t.alpha.get j = alpha.get j) ∧ (∀ j, k < j → t.beta.get j = beta.get j) ∧ (∀ j, k ≤ j → j < Q.len → t.Q.get j = 0) ∧
      ∀ S, M ≤ S → 14 * S ≤ B → (∀ j < k, |t.alpha.get j| ≤ S ∧ |t.beta.get j| ≤ S) →
        ∃ w0 w : ℕ → Vec n, OrthData A ε S otol orth.toNat (k - 1) t.alpha.get t.beta.get q w0 w ∧ w (k - 1) = t.v := by
  have hd := h.deg1
  have hq := h.qLen
  have ho := h.orth1
  have hM := h.M0
  obtain ⟨J, t, hJ, hJ1, hJ2, hrun, hF⟩ := lanczosFl_run (fullK K otol orth v alpha beta Q) v deg hd tol otol 0 le_rfl alpha beta Q h.aLen h.bLen (by omega) (by omega)
  have hp : flPrev (fullK K otol orth v alpha beta Q) v Q.len = flPrev K v Q.len := rfl
  rw [hp] at hJ1 hJ2 hF
  have hrun' : lanczosFl K v deg tol otol orth alpha beta Q = .ok t := by
    rw [lanczosFl_absorb deg tol otol orth h.aLen h.bLen (by omega) (by omega)]
    exact hrun
  obtain ⟨hs1, hs2⟩ := fl_start h.kernels h.eps0 h.eps1 h.tol0 v h.start h.startB
  have good := h.good J hJ hJ1
  have T1 : (1 : ℝ) ≤ orth.toNat := by exact_mod_cast (by omega : 1 ≤ orth.toNat)
  have Te : 0 ≤ (orth.toNat : ℝ) * ε := mul_nonneg (by linarith) h.eps0
  have d1 : (1 : ℝ) ≤ deg := by exact_mod_cast hd
  have dT : (orth.toNat : ℝ) * ε ≤ deg * (orth.toNat * ε) := le_mul_of_one_le_left Te d1
  have hTe : 300 * ((orth.toNat : ℝ) * ε) ≤ 1 := by linarith [h.degE]
  have hk : 2 * (deg : ℝ) * (130 * (orth.toNat * ε)) ≤ 1 := by linarith [h.degE]
  have hbM : ∀ j ≤ J, (fullSeq K otol orth v alpha beta Q j).b ≤ 2 * j * M := fun j hj => (good j hj).1.b_le (by positivity) hM hk (by omega)
  have hβ : ∀ j ≤ J + 1, t.beta.get j = (fullSeq K otol orth v alpha beta Q j).b := hF.beta_le
  have hα : ∀ j ≤ J, t.alpha.get j = (fullSeq K otol orth v alpha beta Q j).a K j := hF.alpha_le
  have hv : t.v = (fullSeq K otol orth v alpha beta Q J).w (fullK K otol orth v alpha beta Q) J := hF.v_eq
  have jd : ∀ j ≤ J, ((j : ℝ) + 1) * M ≤ deg * M := fun j hj => by
    have : (j : ℝ) + 1 ≤ deg := by exact_mod_cast (by omega : j + 1 ≤ deg)
    exact mul_le_mul_of_nonneg_right this hM
  have hwB : nrm t.v ≤ B := by
    rw [hv]
    refine (good J le_rfl).2.trans ?_
    have hm0 : 0 ≤ M + (fullSeq K otol orth v alpha beta Q J).b := by linarith [(good J le_rfl).1.b0]
    have := mul_le_mul_of_nonneg_right (by linarith : 1 + 124 * (orth.toNat * ε) ≤ 2) hm0
    linarith [h.degB, hbM J le_rfl, jd J le_rfl]
  have hnorm : |t.beta.get (J + 1) - nrm t.v| ≤ ε * (nrm t.v + tol) := by
    rw [hβ _ le_rfl, hv]
    rw [hv] at hwB
    exact h.kernels.norm (J + 1) _ hwB
  refine ⟨t, J + 1, fun j => (fullSeq K otol orth v alpha beta Q j).q, hrun', by omega, by omega, ?_, fun j h2 h3 => ?_, fun j hj => ?_, hs2, fun j hj => ?_,
    fun j hj => ?_, hnorm, ?_, hF.alpha_gt, hF.beta_gt, fun j hj hj2 => ?_, fun S hMS hSB hS => ?_⟩
  · rw [hβ _ le_rfl]; exact hJ2
  · rw [hβ j (by omega)]
    obtain ⟨i, rfl⟩ : ∃ i, j = i + 1 := ⟨j - 1, by omega⟩
    exact hJ1 i (by omega)
  · have := hF.Qcol j (by omega) (by omega)
    rwa [Nat.mod_eq_of_lt (by omega)] at this
  · exact (good j (by omega)).1.q
  · have hjJ : j ≤ J := by omega
    have g := (good j hjJ).1
    rw [hβ j (by omega), hα j hjJ]
    refine ⟨g.b0, hbM j hjJ, ?_⟩
    have hb := hbM j hjJ
    obtain ⟨-, -, -, s4⟩ := fl_step h.kernels h.bound h.eps0 h.eps1 hM (fullSeq K otol orth v alpha beta Q j) j g.q g.p g.b0
      (by linarith [h.degB, jd j hjJ, mul_nonneg (Nat.cast_nonneg (α := ℝ) deg) hM])
    have e2 := h.eps1
    linarith
  · have h11 := (abs_le.1 hnorm).1
    have h12 := mul_le_mul_of_nonneg_right h.eps1 (nrm_nonneg t.v)
    have h13 := nrm_nonneg t.v
    linarith
  · rcases hF.Q_gt j (by omega) hj2 with h1 | h1
    · rw [h1, h.qZero]
    · exact h1
  · refine ⟨_, _, (h.data J hJ hJ1 S hMS hSB fun j hj => ?_).congr (fun j hj => hα j hj) (fun j hj => hβ j (by omega)), hv.symm⟩
    have := hS j (by omega)
    rw [hα j hj, hβ j (by omega)] at this
    exact ⟨this.1, (le_abs_self _).trans this.2⟩

/-- The relation between the size of the matrix and the coefficients, the tolerance of the projection, the off-diagonal entries and the level of orthogonality. -/
structure Spec.OrthBounds (T : ℕ) (ε S otol β δ : ℝ) : Prop where
  pos : 0 < β
  le : β ≤ S
  delta : 2 * (otol + 600 * (T * (ε * S))) ≤ δ * β
  small : 20 * (T * (S * δ)) ≤ β

theorem Spec.OrthBounds.facts {T : ℕ} {S β δ : ℝ} (h : OrthBounds T ε S otol β δ) (h0 : 0 ≤ ε) (hT : 1 ≤ T) (ht : 0 ≤ otol) :
    0 < S ∧ 0 ≤ δ ∧ 1200 * (T * ε) ≤ δ ∧ 20 * (T * δ) ≤ 1 := by
  have hS1 : 0 < S := h.pos.trans_le h.le
  have Tr : (1 : ℝ) ≤ T := by exact_mod_cast hT
  have TeS : 0 ≤ T * (ε * S) := by positivity
  have hδ : 0 ≤ δ := by
    by_contra hc
    have := mul_neg_of_neg_of_pos (not_le.1 hc) h.pos
    linarith [h.delta]
  refine ⟨hS1, hδ, ?_, ?_⟩
  · have hδβ : δ * β ≤ δ * S := mul_le_mul_of_nonneg_left h.le hδ
    have h2 : 1200 * (T * ε) * S ≤ δ * S := by linarith [h.delta]
    exact le_of_mul_le_mul_right h2 hS1
  · have h2 : 20 * (T * δ) * S ≤ 1 * S := by linarith [h.small, h.le]
    exact le_of_mul_le_mul_right h2 hS1

/-- The entries of the projection of `A` to the computed vectors. -/
theorem OrthData.entry {S : ℝ} {T J : ℕ} {a b : ℕ → ℝ} {q w0 w : ℕ → Vec n} (h : OrthData A ε S otol T J a b q w0 w) (hA : A.IsSymm) (h0 : 0 ≤ ε) (h1 : ε ≤ 1 / 100)
    (hT : 1 ≤ T) (hTJ : J ≤ T) (ht : 0 ≤ otol) {δ β : ℝ} (hβ : OrthBounds T ε S otol β δ) (hβb : ∀ j, 1 ≤ j → j ≤ J → β ≤ b j) :
    (∀ i ≤ J, ∀ l ≤ J, |q i ⬝ᵥ q l - if i = l then 1 else 0| ≤ δ) ∧
    ∀ i j : Fin (J + 1), |q i ⬝ᵥ (A *ᵥ q j) - jacobi (J + 1) a (fun i => b (i + 1)) i j| ≤ 17 * (T * δ * S) := by
  obtain ⟨hS1, hδ, hε, -⟩ := hβ.facts h0 hT ht
  obtain ⟨o1, o2, -⟩ := h.ortho hA h0 h1 hT hTJ ht hβ.pos hβ.le hβb hβ.delta hβ.small
  have hN := h.nearS hA h0 h1 hT hTJ ht hβ.pos hβ.le hβb hβ.delta hβ.small
  have Tr : (1 : ℝ) ≤ T := by exact_mod_cast hT
  have hε2 : ε ≤ T * ε := le_mul_of_one_le_left h0 Tr
  have hTδ : δ ≤ T * δ := le_mul_of_one_le_left hδ Tr
  have hTδS : δ * S ≤ T * δ * S := mul_le_mul_of_nonneg_right hTδ hS1.le
  have gram : ∀ i ≤ J, ∀ l ≤ J, |q i ⬝ᵥ q l - if i = l then 1 else 0| ≤ δ := by
    intro i hi l hl
    split_ifs with e
    · subst e
      have t1 := near_one_sq h0 h1 (h.unit i hi)
      rw [nrm_sq, abs_sub_comm] at t1
      refine t1.trans ?_
      linarith
    · rw [sub_zero]
      exact o1 i hi l hl e
  refine ⟨gram, ?_⟩
  have un : ∀ l ≤ J, nrm (q l) ≤ 1.05 := fun l hl => by linarith [(abs_le.1 (h.unit l hl)).2]
  -- a product with a coefficient
  have pr : ∀ c : ℝ, |c| ≤ S → ∀ i ≤ J, ∀ l ≤ J, |c * (q i ⬝ᵥ q l - if i = l then 1 else 0)| ≤ δ * S := by
    intro c hc i hi l hl
    rw [abs_mul, mul_comm δ]
    exact mul_le_mul hc (gram i hi l hl) (abs_nonneg _) hS1.le
  have bS : ∀ l ≤ J, |b l| ≤ S := fun l hl => by rw [abs_of_nonneg (h.bnn l hl)]; exact h.bS l hl
  have err : ∀ (i l : ℕ) (E : Vec n), i ≤ J → nrm E ≤ 13 * (T * δ * S) → |q i ⬝ᵥ E| ≤ 13.65 * (T * δ * S) := by
    intro i l E hi hE
    refine (abs_dot_le _ _).trans ?_
    have := mul_le_mul (un i hi) hE (nrm_nonneg _) (by norm_num)
    linarith
  -- the first product
  have pb : ∀ i ≤ J, ∀ j ≤ J, |b j * (q i ⬝ᵥ q (j - 1)) - if i + 1 = j then b j else 0| ≤ δ * S := by
    intro i hi j hj
    rcases Nat.eq_zero_or_pos j with hj0 | hj0
    · subst hj0
      rw [h.b0, zero_mul, if_neg (by omega), sub_zero, abs_zero]
      positivity
    · have := pr (b j) (bS j hj) i hi (j - 1) (by omega)
      by_cases e : i + 1 = j
      · rw [if_pos (by omega), mul_sub, mul_one] at this
        rwa [if_pos e]
      · rw [if_neg (by omega), sub_zero] at this
        rwa [if_neg e, sub_zero]
  have pa : ∀ i ≤ J, ∀ j ≤ J, |a j * (q i ⬝ᵥ q j) - if i = j then a j else 0| ≤ δ * S := by
    intro i hi j hj
    have := pr (a j) (h.aS j hj) i hi j hj
    by_cases e : i = j
    · rw [if_pos e, mul_sub, mul_one] at this
      rwa [if_pos e]
    · rw [if_neg e, sub_zero] at this
      rwa [if_neg e, sub_zero]
  have pc : ∀ i ≤ J, ∀ j < J, |b (j + 1) * (q i ⬝ᵥ q (j + 1)) - if i = j + 1 then b (j + 1) else 0| ≤ δ * S := by
    intro i hi j hj
    have := pr (b (j + 1)) (bS (j + 1) (by omega)) i hi (j + 1) (by omega)
    by_cases e : i = j + 1
    · rw [if_pos e, mul_sub, mul_one] at this
      rwa [if_pos e]
    · rw [if_neg e, sub_zero] at this
      rwa [if_neg e, sub_zero]
  -- an entry in the notation of natural numbers
  have ent : ∀ i j : Fin (J + 1), jacobi (J + 1) a (fun i => b (i + 1)) i j =
      (if (i : ℕ) + 1 = j then b j else 0) + (if (i : ℕ) = j then a j else 0) + (if (i : ℕ) = j + 1 then b (j + 1) else 0) := by
    intro i j
    unfold jacobi
    rw [Matrix.of_apply]
    by_cases e1 : i = j
    · subst e1
      simp
    · have e1' : (i : ℕ) ≠ j := fun e => e1 (Fin.ext e)
      rw [if_neg e1, if_neg e1']
      by_cases e2 : (i : ℕ) + 1 = j
      · rw [if_pos e2, if_pos e2, if_neg (by omega), ← e2]; ring
      · rw [if_neg e2, if_neg e2]
        by_cases e3 : (j : ℕ) + 1 = i
        · rw [if_pos e3, if_pos e3.symm]; ring
        · rw [if_neg e3, if_neg (fun e => e3 e.symm)]; ring
  -- columns before the last
  have early : ∀ i j : Fin (J + 1), (j : ℕ) < J → |q i ⬝ᵥ (A *ᵥ q j) - jacobi (J + 1) a (fun i => b (i + 1)) i j| ≤ 17 * (T * δ * S) := by
    intro i j hj
    have hi : (i : ℕ) ≤ J := by omega
    have hE := err i 0 _ hi (hN.step j (by omega))
    simp only [dotProduct_sub, dotProduct_smul, smul_eq_mul] at hE
    rw [ent]
    have t1 := abs_le.1 (pb i hi j hj.le)
    have t2 := abs_le.1 (pa i hi j hj.le)
    have t3 := abs_le.1 (pc i hi j hj)
    have t4 := abs_le.1 hE
    rw [abs_le]
    constructor <;> linarith [t1.1, t1.2, t2.1, t2.2, t3.1, t3.2, t4.1, t4.2]
  intro i j
  rcases Nat.lt_or_ge j J with hj | hj
  · exact early i j hj
  · rcases Nat.lt_or_ge i J with hi | hi
    · have := early j i hi
      have e1 : q i ⬝ᵥ (A *ᵥ q j) = q j ⬝ᵥ (A *ᵥ q i) := by
        rw [dotProduct_mulVec, ← mulVec_transpose, hA.eq, dotProduct_comm]
      have e2 : jacobi (J + 1) a (fun i => b (i + 1)) i j = jacobi (J + 1) a (fun i => b (i + 1)) j i := congrFun (congrFun (jac_symm a b (J + 1)) j) i
      rwa [e1, e2]
    · have hjJ : (j : ℕ) = J := by omega
      have hij : i = j := Fin.ext (by omega)
      subst hij
      have hE := err i 0 _ hjJ.le (hN.last i (by omega))
      simp only [dotProduct_sub, dotProduct_smul, smul_eq_mul] at hE
      rw [ent]
      have t1 := abs_le.1 (pb i hjJ.le i hjJ.le)
      have t2 := abs_le.1 (pa i hjJ.le i hjJ.le)
      have t3 := abs_le.1 (o2 i hjJ.le)
      have t4 := abs_le.1 hE
      rw [hjJ] at t3 t4 t1 t2 ⊢
      rw [if_neg (by omega : ¬ J = J + 1)]
      rw [abs_le]
      constructor <;> linarith [t1.1, t1.2, t2.1, t2.2, t3.1, t3.2, t4.1, t4.2]

/-- C138: with full re-orthogonalisation the computed vectors are orthogonal up to `2 (otol + 600 orth ε S) / β`, where `β` is the smallest off-diagonal entry, and the
tridiagonal matrix is the projection of `A` to their span up to an error of that order. -/
theorem C138_full_orthogonality (h : FullInput K A M ε tol otol B v deg orth alpha beta Q) (hA : A.IsSymm) :
    ∃ (t : LState n) (k : ℕ), lanczosFl K v deg tol otol orth alpha beta Q = .ok t ∧ 1 ≤ k ∧ k ≤ deg ∧
      (t.beta.get k < tol ∨ k = deg) ∧ (∀ j, 1 ≤ j → j < k → tol ≤ t.beta.get j) ∧
      nrm (t.Q.get 0 - (nrm v)⁻¹ • v) ≤ 5 * ε ∧ (∀ j < k, |nrm (t.Q.get j) - 1| ≤ 5 * ε) ∧
      (∀ j < k, 0 ≤ t.beta.get j ∧ t.beta.get j ≤ 2 * j * M ∧ |t.alpha.get j| ≤ 2 * (2 * j + 1) * M) ∧ |t.beta.get k - nrm t.v| ≤ ε * (nrm t.v + tol) ∧
      (∀ j, k ≤ j → t.alpha.get j = alpha.get j) ∧ (∀ j, k < j → t.beta.get j = beta.get j) ∧ (∀ j, k ≤ j → j < Q.len → t.Q.get j = 0) ∧
      ∀ S, M ≤ S → 14 * S ≤ B → (∀ j < k, |t.alpha.get j| ≤ S ∧ |t.beta.get j| ≤ S) →
        ∀ β δ, (∀ j, 1 ≤ j → j < k → β ≤ t.beta.get j) → OrthBounds orth.toNat ε S otol β δ →
          (∀ i < k, ∀ j < k, i ≠ j → |t.Q.get i ⬝ᵥ t.Q.get j| ≤ δ) ∧
          (∀ i j : Fin k, |t.Q.get i ⬝ᵥ (A *ᵥ t.Q.get j) - jacobi k t.alpha.get (fun i => t.beta.get (i + 1)) i j| ≤ 17 * (orth.toNat * δ * S)) ∧
          ∀ j : Fin k, nrm (A *ᵥ t.Q.get j - ((∑ i : Fin k, jacobi k t.alpha.get (fun i => t.beta.get (i + 1)) i j • t.Q.get i) +
            if (j : ℕ) + 1 = k then t.v else 0)) ≤ 13 * (orth.toNat * δ * S) := by
  obtain ⟨t, k, q, h1, h2, h3, h4, h5, h6, h7, h8, h9, h10, -, f1, f2, f3, hD⟩ := h.run'
  refine ⟨t, k, h1, h2, h3, h4, h5, by rw [h6 0 (by omega)]; exact h7, fun j hj => by rw [h6 j hj]; exact h8 j hj, h9, h10, f1, f2, f3,
    fun S hMS hSB hS β δ hb hβ => ?_⟩
  obtain ⟨w0, w, hO, hw⟩ := hD S hMS hSB hS
  obtain ⟨J, rfl⟩ : ∃ J, k = J + 1 := ⟨k - 1, by omega⟩
  rw [Nat.add_sub_cancel] at hO hw
  have o1 := h.orth1
  have o2 := h.orthD
  have hT : 1 ≤ orth.toNat := by omega
  have hTJ : J ≤ orth.toNat := by omega
  have hb' : ∀ j, 1 ≤ j → j ≤ J → β ≤ t.beta.get j := fun j hj hj2 => hb j hj (by omega)
  obtain ⟨c1, c2⟩ := hO.entry hA h.eps0 h.eps1 hT hTJ h.otol0 hβ hb'
  refine ⟨fun i hi j hj hij => ?_, fun i j => ?_, fun j => ?_⟩
  · have := c1 i (by omega) j (by omega)
    rw [if_neg hij, sub_zero] at this
    rwa [h6 i hi, h6 j hj]
  · rw [h6 i i.2, h6 j j.2]
    exact c2 i j
  · have hN := hO.nearS hA h.eps0 h.eps1 hT hTJ h.otol0 hβ.pos hβ.le hb' hβ.delta hβ.small
    obtain ⟨F, hF, hF2⟩ := hN.nearRel
    have e : A *ᵥ t.Q.get j - ((∑ i : Fin (J + 1), jacobi (J + 1) t.alpha.get (fun i => t.beta.get (i + 1)) i j • t.Q.get i) +
            if (j : ℕ) + 1 = J + 1 then t.v else 0) = F j := by
      have e1 : ∑ i : Fin (J + 1), jacobi (J + 1) t.alpha.get (fun i => t.beta.get (i + 1)) i j • t.Q.get i =
          ∑ i : Fin (J + 1), jac t.alpha.get t.beta.get (J + 1) i j • q i := Finset.sum_congr rfl fun i _ => by rw [h6 i i.2]
      rw [e1, h6 j j.2, ← hw, hF.rel j]
      exact add_sub_cancel_left _ _
    rw [e]
    exact hF2 j

/-- C139: with full re-orthogonalisation the eigenvalues of the computed tridiagonal matrix stay within the range of the spectrum of `A` up to
`18 k orth δ S`, where `δ` is the level of orthogonality of C138. -/
theorem C139_nodes_full (h : FullInput K A M ε tol otol B v deg orth alpha beta Q) (lo hi : ℝ) (lam : Fin n → ℝ) (U : Matrix (Fin n) (Fin n) ℝ)
    (hU : Eigen A lam U) (hlam : ∀ i, lo ≤ lam i ∧ lam i ≤ hi) :
    ∃ (t : LState n) (k : ℕ), lanczosFl K v deg tol otol orth alpha beta Q = .ok t ∧ 1 ≤ k ∧ k ≤ deg ∧
      (t.beta.get k < tol ∨ k = deg) ∧ (∀ j, 1 ≤ j → j < k → tol ≤ t.beta.get j) ∧
      (∀ j < k, 0 ≤ t.beta.get j ∧ t.beta.get j ≤ 2 * j * M ∧ |t.alpha.get j| ≤ 2 * (2 * j + 1) * M) ∧
      ∀ S, M ≤ S → 14 * S ≤ B → (∀ j < k, |t.alpha.get j| ≤ S ∧ |t.beta.get j| ≤ S) →
        ∀ β δ, (∀ j, 1 ≤ j → j < k → β ≤ t.beta.get j) → OrthBounds orth.toNat ε S otol β δ →
          ∀ (th : ℝ) (s : Vec k), s ≠ 0 → jacobi k t.alpha.get (fun i => t.beta.get (i + 1)) *ᵥ s = th • s →
            lo - 18 * (k * (orth.toNat * δ * S)) ≤ th ∧ th ≤ hi + 18 * (k * (orth.toNat * δ * S)) := by
  have hE := isEigh_iff_eigen.2 hU
  have hAe := hE.matFun_poly Polynomial.X
  rw [Polynomial.aeval_X] at hAe
  have hA : A.IsSymm := by
    rw [← hAe]
    unfold Spec.matFun
    show (U * _ * Uᵀ)ᵀ = _
    rw [Matrix.transpose_mul, Matrix.transpose_mul, Matrix.transpose_transpose, Matrix.diagonal_transpose, Matrix.mul_assoc]
  have hq : ∀ x : Vec n, x ⬝ᵥ (A *ᵥ x) = ∑ a, lam a * (Uᵀ *ᵥ x) a ^ 2 := by
    intro x
    conv_lhs => rw [← hAe]
    rw [hE.quad_sum]
    exact Finset.sum_congr rfl fun a _ => by rw [Polynomial.eval_X]
  have hlo : ∀ x : Vec n, lo * (x ⬝ᵥ x) ≤ x ⬝ᵥ (A *ᵥ x) := fun x => by
    rw [hq, ← hE.norm_sum, Finset.mul_sum]
    exact Finset.sum_le_sum fun a _ => mul_le_mul_of_nonneg_right (hlam a).1 (sq_nonneg _)
  have hhi : ∀ x : Vec n, x ⬝ᵥ (A *ᵥ x) ≤ hi * (x ⬝ᵥ x) := fun x => by
    rw [hq, ← hE.norm_sum, Finset.mul_sum]
    exact Finset.sum_le_sum fun a _ => mul_le_mul_of_nonneg_right (hlam a).2 (sq_nonneg _)
  obtain ⟨t, k, q, h1, h2, h3, h4, h5, h6, h7, h8, h9, h10, -, f1, f2, f3, hD⟩ := h.run'
  refine ⟨t, k, h1, h2, h3, h4, h5, h9, fun S hMS hSB hS β δ hb hβ th s hs0 hs => ?_⟩
  obtain ⟨w0, w, hO, hw⟩ := hD S hMS hSB hS
  obtain ⟨J, rfl⟩ : ∃ J, k = J + 1 := ⟨k - 1, by omega⟩
  rw [Nat.add_sub_cancel] at hO hw
  have o1 := h.orth1
  have o2 := h.orthD
  have hT : 1 ≤ orth.toNat := by omega
  have hTJ : J ≤ orth.toNat := by omega
  obtain ⟨c1, c2⟩ := hO.entry hA h.eps0 h.eps1 hT hTJ h.otol0 hβ (fun j hj hj2 => hb j hj (by omega))
  obtain ⟨hS1, hδ, -, hTδ⟩ := hβ.facts h.eps0 hT h.otol0
  set T : ℝ := (orth.toNat : ℝ) with hTd
  have Tr : (1 : ℝ) ≤ T := by rw [hTd]; exact_mod_cast hT
  -- the norm of the vector is one
  have hss : 0 < s ⬝ᵥ s := by
    rw [← nrm_sq]
    have : 0 < nrm s := lt_of_le_of_ne (nrm_nonneg s) fun e => hs0 (nrm_eq_zero e.symm)
    positivity
  set κ : ℝ := ((J + 1 : ℕ) : ℝ) with hκ
  set x : Vec n := ∑ i : Fin (J + 1), s i • q i with hx
  have l1 := abs_sum_sq_le s
  have dbl : ∀ (C : ℝ) (G : Fin (J + 1) → Fin (J + 1) → ℝ), 0 ≤ C → (∀ i j, |G i j| ≤ C) → |∑ i, ∑ j, s i * s j * G i j| ≤ C * (κ * (s ⬝ᵥ s)) := by
    intro C G hC hG
    calc |∑ i, ∑ j, s i * s j * G i j| ≤ ∑ i, ∑ j, |s i| * |s j| * C := by
          refine (Finset.abs_sum_le_sum_abs _ _).trans (Finset.sum_le_sum fun i _ => ?_)
          refine (Finset.abs_sum_le_sum_abs _ _).trans (Finset.sum_le_sum fun j _ => ?_)
          rw [abs_mul, abs_mul]
          exact mul_le_mul_of_nonneg_left (hG i j) (by positivity)
      _ = C * (∑ i, |s i|) ^ 2 := by
          rw [sq, Finset.sum_mul_sum, Finset.mul_sum]
          refine Finset.sum_congr rfl fun i _ => ?_
          rw [Finset.mul_sum]
          exact Finset.sum_congr rfl fun j _ => mul_comm _ _
      _ ≤ C * (κ * (s ⬝ᵥ s)) := mul_le_mul_of_nonneg_left l1 hC
  have xx : x ⬝ᵥ x = ∑ i : Fin (J + 1), ∑ j : Fin (J + 1), s i * s j * (q i ⬝ᵥ q j) := by
    rw [hx, sum_dotProduct]
    refine Finset.sum_congr rfl fun i _ => ?_
    rw [dotProduct_sum]
    exact Finset.sum_congr rfl fun j _ => by rw [smul_dotProduct, dotProduct_smul, smul_eq_mul, smul_eq_mul]; ring
  have xA : x ⬝ᵥ (A *ᵥ x) = ∑ i : Fin (J + 1), ∑ j : Fin (J + 1), s i * s j * (q i ⬝ᵥ (A *ᵥ q j)) := by
    rw [hx, mulVec_sum, sum_dotProduct]
    refine Finset.sum_congr rfl fun i _ => ?_
    rw [dotProduct_sum]
    exact Finset.sum_congr rfl fun j _ => by rw [mulVec_smul, smul_dotProduct, dotProduct_smul, smul_eq_mul, smul_eq_mul]; ring
  have ss : s ⬝ᵥ s = ∑ i : Fin (J + 1), ∑ j : Fin (J + 1), s i * s j * (if (i : ℕ) = j then 1 else 0) := by
    unfold dotProduct
    refine Finset.sum_congr rfl fun i _ => ?_
    rw [Finset.sum_eq_single i]
    · rw [if_pos rfl, mul_one]
    · intro j _ hj
      rw [if_neg (fun e => hj (Fin.ext e.symm)), mul_zero]
    · intro hi
      exact absurd (Finset.mem_univ i) hi
  have sT : th * (s ⬝ᵥ s) = ∑ i : Fin (J + 1), ∑ j : Fin (J + 1), s i * s j * jacobi (J + 1) t.alpha.get (fun i => t.beta.get (i + 1)) i j := by
    have : s ⬝ᵥ (jacobi (J + 1) t.alpha.get (fun i => t.beta.get (i + 1)) *ᵥ s) = th * (s ⬝ᵥ s) := by rw [hs, dotProduct_smul, smul_eq_mul]
    rw [← this]
    unfold dotProduct
    refine Finset.sum_congr rfl fun i _ => ?_
    rw [mulVec, dotProduct, Finset.mul_sum]
    exact Finset.sum_congr rfl fun j _ => by ring
  have d1 : |x ⬝ᵥ x - s ⬝ᵥ s| ≤ δ * (κ * (s ⬝ᵥ s)) := by
    rw [xx, ss, ← Finset.sum_sub_distrib]
    simp only [← Finset.sum_sub_distrib, ← mul_sub]
    rw [← ss]
    exact dbl δ (fun i j => q i ⬝ᵥ q j - if (i : ℕ) = j then 1 else 0) hδ fun i j => c1 i (by omega) j (by omega)
  have d2 : |x ⬝ᵥ (A *ᵥ x) - th * (s ⬝ᵥ s)| ≤ 17 * (T * δ * S) * (κ * (s ⬝ᵥ s)) := by
    rw [xA, sT, ← Finset.sum_sub_distrib]
    simp only [← Finset.sum_sub_distrib, ← mul_sub]
    exact dbl _ (fun i j => q i ⬝ᵥ (A *ᵥ q j) - jacobi (J + 1) t.alpha.get (fun i => t.beta.get (i + 1)) i j) (by positivity) c2
  have kT : κ ≤ 2 * T := by
    rw [hTd, hκ]
    exact_mod_cast (by omega : J + 1 ≤ 2 * orth.toNat)
  have kδ : κ * δ ≤ 1 / 10 := by
    have := mul_le_mul_of_nonneg_right kT hδ
    linarith
  have k0 : 0 ≤ κ := Nat.cast_nonneg _
  set σ := s ⬝ᵥ s with hσ
  have xpos : 0 < x ⬝ᵥ x := by
    have h11 := (abs_le.1 d1).1
    have h12 := mul_le_mul_of_nonneg_right kδ hss.le
    linarith
  -- the Rayleigh quotient
  set ρ := x ⬝ᵥ (A *ᵥ x) / (x ⬝ᵥ x) with hρ
  have e1 : x ⬝ᵥ (A *ᵥ x) = ρ * (x ⬝ᵥ x) := (div_mul_cancel₀ _ xpos.ne').symm
  have r1 : lo ≤ ρ := (le_div_iff₀ xpos).2 (hlo x)
  have r2 : ρ ≤ hi := (div_le_iff₀ xpos).2 (hhi x)
  have r3 : |ρ| ≤ S := by
    rw [hρ, abs_div, abs_of_pos xpos, div_le_iff₀ xpos]
    refine (abs_dot_le _ _).trans ?_
    have h11 := mul_le_mul_of_nonneg_left (h.bound x) (nrm_nonneg x)
    rw [← nrm_sq]
    have h12 := mul_le_mul_of_nonneg_right hMS (mul_self_nonneg (nrm x))
    linarith
  rw [e1] at d2
  have d3 : |ρ * (x ⬝ᵥ x - σ)| ≤ S * (δ * (κ * σ)) := by
    rw [abs_mul]
    exact mul_le_mul r3 d1 (abs_nonneg _) hS1.le
  have hTδS : δ * S ≤ T * δ * S := mul_le_mul_of_nonneg_right (le_mul_of_one_le_left hδ Tr) hS1.le
  have d4 : S * (δ * (κ * σ)) ≤ T * δ * S * (κ * σ) := by
    have := mul_le_mul_of_nonneg_right hTδS (by positivity : 0 ≤ κ * σ)
    linarith
  have d5 : |ρ - th| * σ ≤ 18 * (κ * (T * δ * S)) * σ := by
    have e2 : |ρ - th| * σ = |ρ * (x ⬝ᵥ x) - th * σ - ρ * (x ⬝ᵥ x - σ)| := by
      rw [← abs_of_pos hss, ← abs_mul, abs_of_pos hss]
      congr 1
      ring
    rw [e2]
    refine (abs_sub _ _).trans ?_
    linarith
  have d6 := abs_le.1 (le_of_mul_le_mul_right d5 hss)
  constructor <;> linarith [d6.1, d6.2]

/-- The public function `lanczos` never asks for the number of projections that C138 needs, whatever `orth` and `ncv` are: `orth` is cut off at `deg - 2`, so that the
last vector is not orthogonalised against the first one. `MatrixFunction` with `orth < 0` uses `orth = deg`. -/
theorem C138_public_not_full (N ncv deg orth : ℤ) (hN : 0 < N) (atol rtol : Option Fl) (p : LanczosParams) (h : validateLanczos N ncv deg orth atol rtol = .ok p) :
    p.orth + 1 < p.deg := by
  obtain ⟨-, -, h1, h2, -⟩ := C72_values N ncv deg orth hN atol rtol p h
  omega

/-! ### Concrete cases -/

/-- The theorems C138 and C139 hold for binary64 with `ε = 8 (n + 1) 2 ^ (-53)`, whatever the order of the operations in sums and inner products. -/
theorem C138_binary64 (fl : ℝ → ℝ) (hfl : binary64.Nearest fl) (n : ℕ) (hn0 : 0 < n) (hn : n ≤ 2 ^ 40) (A : Matrix (Fin n) (Fin n) ℝ) (K : LKernels n)
    (hK : LKernelsRounded fl A K) (M tol otol : ℝ) (hF : ∑ i, ∑ j, A i j ^ 2 ≤ M ^ 2) (hM : (2 : ℝ) ^ (-400 : ℤ) ≤ M) (htol : (2 : ℝ) ^ (-400 : ℤ) ≤ tol)
    (ho0 : 0 ≤ otol) (ho1 : otol ≤ 1 / 2) (v : Vec n) (hv : 2 * tol ≤ nrm v) (hv2 : nrm v ≤ (2 : ℝ) ^ (400 : ℤ)) (deg : ℕ) (hd : 1 ≤ deg) (orth : ℤ) (ho : 1 ≤ orth)
    (hod : (deg : ℤ) ≤ orth + 1) (hd2 : 2400 * deg * orth.toNat * (n + 1) ≤ (2 : ℝ) ^ 53) (hd3 : 32 * (deg + 1) * M ≤ (2 : ℝ) ^ (400 : ℤ)) (alpha beta : Buf ℝ)
    (Q : Buf (Vec n)) (ha : deg ≤ alpha.len) (hb : deg + 1 ≤ beta.len) (hQ1 : deg ≤ Q.len) (hQ2 : ∀ m, Q.get m = 0) :
    FullInput K A M (8 * (n + 1) * (1 / 2 ^ 53)) tol otol ((2 : ℝ) ^ (400 : ℤ)) v deg orth alpha beta Q := by
  have pos : ∀ a : ℤ, (0 : ℝ) < (2 : ℝ) ^ a := fun a => zpow_pos (by norm_num) a
  have hM0 : 0 < M := (pos _).trans_le hM
  have hu : binary64.u = 1 / 2 ^ 53 := by norm_num [Fmt.u, binary64]
  have hdr : (1 : ℝ) ≤ deg := by exact_mod_cast hd
  have hMB : M ≤ (2 : ℝ) ^ (400 : ℤ) := by
    have : 8 * M ≤ 8 * ((deg : ℝ) + 1) * M := mul_le_mul_of_nonneg_right (by linarith) hM0.le
    clear pos hM htol hv2
    generalize (2 : ℝ) ^ (400 : ℤ) = Y at *
    linarith
  have hn' : (n : ℝ) ≤ 2 ^ 40 := by exact_mod_cast hn
  have room := binary64_room n hn M tol _ hM hMB htol (pos 400).le le_rfl
  refine ⟨?_, ?_, ?_, hM0.le, by positivity, by linarith, (pos _).trans_le htol, ho0, ho1, hv, hv2, hd, ho, hod, by linarith, hd3, ha, hb, hQ1, hQ2⟩
  · have := rounded_ok hfl A hK M tol _ hM0 ((pos _).trans_le htol) (pos 400).le hF hn0 room
    rwa [hu] at this
  · have := rounded_orth_ok hfl A hK M tol _ hM0 (pos 400).le hn0 room
    rwa [hu] at this
  · intro x
    have h1 := frobSq_mulVec A x
    rw [← nrm_sq, ← nrm_sq] at h1
    have h2 : frobSq A * (nrm x * nrm x) ≤ M ^ 2 * (nrm x * nrm x) := mul_le_mul_of_nonneg_right hF (mul_self_nonneg _)
    refine abs_le_of_sq_le_sq' ?_ (mul_nonneg hM0.le (nrm_nonneg _)) |>.2
    nlinarith

/-- A concrete input: the matrix with the rows `(2, 1)`, `(1, 2)`, the start vector `(1, 0)`, two iterations in binary64 with `orth = 1`. -/
theorem fullInput_example : ∃ K : LKernels 2, FullInput K !![2, 1; 1, 2] 4 (8 * ((2 : ℕ) + 1) * (1 / 2 ^ 53)) (1 / 2 ^ 10) (1 / 2 ^ 50) ((2 : ℝ) ^ (400 : ℤ))
    (Pi.single 0 1) 2 1 ⟨2, fun _ => 0⟩ ⟨3, fun _ => 0⟩ ⟨2, fun _ _ => 0⟩ := by
  obtain ⟨fl, hfl⟩ := Fmt.exists_nearest (φ := binary64) (by norm_num [binary64])
  obtain ⟨K, hK⟩ := rounded_exist fl (!![2, 1; 1, 2] : Matrix (Fin 2) (Fin 2) ℝ) (by norm_num)
  have h4 : (2 : ℝ) ^ (-400 : ℤ) ≤ 1 / 2 ^ 10 := by
    have : (2 : ℝ) ^ (-400 : ℤ) ≤ (2 : ℝ) ^ (-10 : ℤ) := zpow_le_zpow_right₀ (by norm_num) (by norm_num)
    have e : (2 : ℝ) ^ (-10 : ℤ) = 1 / 2 ^ 10 := by norm_num
    rwa [e] at this
  have h5 : (2 : ℝ) ^ (10 : ℤ) ≤ (2 : ℝ) ^ (400 : ℤ) := zpow_le_zpow_right₀ (by norm_num) (by norm_num)
  have e5 : (2 : ℝ) ^ (10 : ℤ) = 1024 := by norm_num
  rw [e5] at h5
  have hv : nrm (Pi.single (0 : Fin 2) (1 : ℝ)) = 1 := by
    unfold nrm
    rw [dotProduct, Fin.sum_univ_two]
    simp
  refine ⟨K, C138_binary64 fl hfl 2 (by norm_num) (by norm_num) _ K hK 4 _ _ ?_ (h4.trans (by norm_num)) h4 (by norm_num) (by norm_num) _ ?_ ?_ 2 (by norm_num) 1 le_rfl
    (by norm_num) (by norm_num) ?_ _ _ _ le_rfl le_rfl le_rfl (fun _ => rfl)⟩
  · simp only [Fin.sum_univ_two]
    norm_num
  · rw [hv]
    norm_num
  · rw [hv]
    exact le_trans (by norm_num) h5
  · refine le_trans ?_ h5
    norm_num

/-- In this case the two computed vectors are orthogonal up to `10 ^ (-7)`. -/
theorem full_example : ∃ (K : LKernels 2) (t : LState 2),
    lanczosFl K (Pi.single 0 1) 2 (1 / 2 ^ 10) (1 / 2 ^ 50) 1 ⟨2, fun _ => 0⟩ ⟨3, fun _ => 0⟩ ⟨2, fun _ _ => 0⟩ = .ok t ∧ |t.Q.get 0 ⬝ᵥ t.Q.get 1| ≤ 1 / 10 ^ 7 := by
  obtain ⟨K, h⟩ := fullInput_example
  have hA : (!![2, 1; 1, 2] : Matrix (Fin 2) (Fin 2) ℝ).IsSymm := by ext i j; fin_cases i <;> fin_cases j <;> rfl
  obtain ⟨t, k, h1, h2, h3, h4, h5, -, -, h8, -, -, -, f3, hmain⟩ := C138_full_orthogonality h hA
  refine ⟨K, t, h1, ?_⟩
  have hB : (1024 : ℝ) ≤ (2 : ℝ) ^ (400 : ℤ) := by
    have h5 : (2 : ℝ) ^ (10 : ℤ) ≤ (2 : ℝ) ^ (400 : ℤ) := zpow_le_zpow_right₀ (by norm_num) (by norm_num)
    have e5 : (2 : ℝ) ^ (10 : ℤ) = 1024 := by norm_num
    rwa [e5] at h5
  rcases Nat.lt_or_ge 1 k with hk | hk
  · have := (hmain 24 (by norm_num) (le_trans (by norm_num) hB) (fun j hj => ?_) (1 / 2 ^ 10) (1 / 10 ^ 7) (fun j hj hj2 => h5 j hj hj2)
      ⟨by norm_num, by norm_num, by norm_num, by norm_num⟩).1 0 (by omega) 1 (by omega) (by norm_num)
    · exact this
    · obtain ⟨b0, b1, b2⟩ := h8 j hj
      have jr : (j : ℝ) ≤ 1 := by exact_mod_cast (by omega : j ≤ 1)
      exact ⟨by linarith, by rw [abs_of_nonneg b0]; linarith⟩
  · rw [f3 1 hk (by norm_num), dotProduct_zero, abs_zero]
    norm_num

end Primate
