import Verif.Lemmas.EarlyFl
import Verif.Props.SlqFl

/-!
# C146: early termination of the Lanczos recurrence in floating point arithmetic

The recurrence stops before `deg` steps only near an invariant subspace of small dimension: if it stops after `k` steps there is a monic polynomial of degree `k` for which
`p(A) v` is small.  For start vectors with components along enough well separated eigenvalues that cannot happen.
-/

noncomputable section

namespace Primate

open Matrix Polynomial Spec

variable {n : ℕ}

/-- The size below which `|p(A) v| / |v|` has to fall before the recurrence can stop after `k` steps. -/
def Spec.stopLevel (k : ℕ) (tol ε S : ℝ) : ℝ := 2 * tol * S ^ (k - 1) + 18 * ε * (3 * S) ^ k

theorem NearLanczos.poly {A : Matrix (Fin n) (Fin n) ℝ} {M ε S : ℝ} {k : ℕ} {α β : ℕ → ℝ} {q : ℕ → Vec n} {r : Vec n} (h : NearLanczos A M ε k α β q r)
    (hA : ∀ x, nrm (A *ᵥ x) ≤ M * nrm x) (hM : 0 ≤ M) (h0 : 0 ≤ ε) (hk : 1 ≤ k) (hMS : M ≤ S) (hb : ∀ j < k, 0 ≤ β j) (hS : ∀ j < k, |α j| ≤ S ∧ β j ≤ S) :
    nrm ((∏ i ∈ Finset.range (k - 1), β (i + 1)) • r - aeval A (jacPoly α β k) *ᵥ q 0) ≤ 13 * ε * S ^ k * (3 ^ k - 1) := by
  have hS0 : 0 ≤ S := hM.trans hMS
  have hβ : ∀ j < k, |β j| ≤ S := fun j hj => by rw [abs_of_nonneg (hb j hj)]; exact (hS j hj).2
  set c : ℕ → ℝ := fun j => ∏ i ∈ Finset.range j, β (i + 1) with hc
  have hc0 : ∀ j, j < k → 0 ≤ c j := fun j hj => Finset.prod_nonneg fun i hi => hb _ (by have := Finset.mem_range.1 hi; omega)
  have hcS : ∀ j, j < k → c j ≤ S ^ j := by
    intro j hj
    have : S ^ j = ∏ i ∈ Finset.range j, S := by rw [Finset.prod_const, Finset.card_range]
    rw [this]
    exact Finset.prod_le_prod (fun i hi => hb _ (by have := Finset.mem_range.1 hi; omega)) fun i hi => (hS _ (by have := Finset.mem_range.1 hi; omega)).2
  have hcs : ∀ j, c (j + 1) = c j * β (j + 1) := fun j => Finset.prod_range_succ _ _
  set z : ℕ → Vec n := fun j => if j < k then c j • q j else c (k - 1) • r with hz
  have hz1 : ∀ j < k, z j = c j • q j := fun j hj => if_pos hj
  have hzk : z k = c (k - 1) • r := if_neg (lt_irrefl _)
  -- one step: `j < k`
  have step : ∀ j < k, nrm (z (j + 1) - c j • (A *ᵥ q j - α j • q j - β j • q (j - 1))) ≤ 13 * ε * S ^ (j + 1) := by
    intro j hj
    have hw : (6 * M + 3 * β j + |α j| + 3 * S) ≤ 13 * S := by have := hS j hj; linarith
    have hr : ∀ w : Vec n, nrm (A *ᵥ q j - β j • q (j - 1) - α j • q j - w) ≤ ε * (13 * S) →
        nrm (c j • w - c j • (A *ᵥ q j - α j • q j - β j • q (j - 1))) ≤ 13 * ε * S ^ (j + 1) := by
      intro w hw
      have e : c j • w - c j • (A *ᵥ q j - α j • q j - β j • q (j - 1)) = -(c j • (A *ᵥ q j - β j • q (j - 1) - α j • q j - w)) := by
        rw [← smul_sub, ← smul_neg]
        congr 1
        abel
      rw [e, nrm_neg, nrm_smul, abs_of_nonneg (hc0 j hj)]
      calc c j * nrm (A *ᵥ q j - β j • q (j - 1) - α j • q j - w) ≤ S ^ j * (ε * (13 * S)) :=
            mul_le_mul (hcS j hj) hw (nrm_nonneg _) (by positivity)
        _ = _ := by ring
    rcases Nat.lt_or_ge (j + 1) k with h1 | h1
    · rw [hz1 _ h1, hcs, mul_smul]
      refine hr _ ((h.step j h1).trans (mul_le_mul_of_nonneg_left ?_ h0))
      have := (hS _ h1).2
      linarith
    · have h2 : j + 1 = k := by omega
      have e : z (j + 1) = c j • r := by rw [h2, hzk, ← h2, Nat.add_sub_cancel]
      rw [e]
      refine hr _ ((h.last j h2).trans (mul_le_mul_of_nonneg_left ?_ h0))
      linarith
  have key := jacPoly_near A hS0 (by positivity : 0 ≤ 13 * ε) (fun x => (hA x).trans (mul_le_mul_of_nonneg_right hMS (nrm_nonneg x))) α β (k := k)
    (fun j hj => (hS j hj).1) hβ z (fun _ => ?_) (fun j hj => ?_) k le_rfl
  · rwa [hzk, hz1 0 (by omega), show c 0 = 1 from Finset.prod_range_zero _, one_smul] at key
  · have := step 0 (by omega)
    rw [h.beta_zero, zero_smul, sub_zero, show c 0 = 1 from Finset.prod_range_zero _, one_smul, zero_add, pow_one] at this
    rw [hz1 0 (by omega), show c 0 = 1 from Finset.prod_range_zero _, one_smul]
    exact this
  · have := step (j + 1) (by omega)
    rw [Nat.add_sub_cancel] at this
    have e : A *ᵥ z (j + 1) - α (j + 1) • z (j + 1) - β (j + 1) ^ 2 • z j = c (j + 1) • (A *ᵥ q (j + 1) - α (j + 1) • q (j + 1) - β (j + 1) • q j) := by
      rw [hz1 _ (by omega), hz1 _ (by omega), mulVec_smul, smul_sub, smul_sub, smul_comm (α (j + 1))]
      congr 1
      rw [smul_smul, smul_smul, hcs]
      congr 1
      ring
    rw [e]
    exact this

/-- **C146**: the recurrence in floating point arithmetic stops after `k < deg` steps only if `p(A) v` is small for a monic polynomial `p` of degree `k`, that is near an
invariant subspace of dimension `k`. -/
theorem C146_early_stop {K : LKernels n} {A : Matrix (Fin n) (Fin n) ℝ} {M ε tol B : ℝ} {v : Vec n} {deg : ℕ} {orth : ℤ} {alpha beta : Buf ℝ} {Q : Buf (Vec n)}
    (h : FlInput K A M ε tol B v deg orth alpha beta Q) (otol : ℝ) :
    ∃ (t : LState n) (k : ℕ), lanczosFl K v deg tol otol orth alpha beta Q = .ok t ∧ 1 ≤ k ∧ k ≤ deg ∧ (∀ j, 1 ≤ j → j < k → tol ≤ t.beta.get j) ∧
      (k = deg ∨ t.beta.get k < tol) ∧
      (t.beta.get k < tol → ∀ S, M ≤ S → (∀ j < k, |t.alpha.get j| ≤ S ∧ t.beta.get j ≤ S) →
        ∃ p : ℝ[X], p.Monic ∧ p.natDegree = k ∧ nrm (aeval A p *ᵥ v) ≤ stopLevel k tol ε S * nrm v) := by
  obtain ⟨t, k, q, h1, h2, h3, h4, h5, -, h7, h8, h9, h10, -⟩ := C132_local_errors K A M ε tol B h.kernels h.bound h.M0 h.eps0 h.eps1 h.tol0 v h.start h.startB
    deg h.deg1 h.degE h.degB otol orth h.noOrth alpha beta Q h.aLen h.bLen h.qLen h.qLen2
  refine ⟨t, k, h1, h2, h3, h5, h4.symm, fun hlt S hMS hS => ?_⟩
  obtain ⟨hm, hd⟩ := jacPoly_monic t.alpha.get t.beta.get k
  refine ⟨_, hm, hd, ?_⟩
  have e0 := h.eps0
  have hS0 : 0 ≤ S := h.M0.trans hMS
  have nv : 0 < nrm v := by have := h.start; have := h.tol0; linarith
  have hr : nrm t.v ≤ 2 * tol := by
    have h11 := (abs_le.1 h9).1
    have h12 := mul_le_mul_of_nonneg_right h.eps1 (nrm_nonneg t.v)
    have h13 := mul_le_mul_of_nonneg_right h.eps1 h.tol0.le
    have := h.tol0
    linarith
  have hb : ∀ j < k, 0 ≤ t.beta.get j := fun j hj => (h10 j hj).1
  have g1 := NearLanczos.poly h8 h.bound h.M0 e0 h2 hMS hb hS
  set p := jacPoly t.alpha.get t.beta.get k with hp
  have g2 : nrm ((∏ i ∈ Finset.range (k - 1), t.beta.get (i + 1)) • t.v) ≤ S ^ (k - 1) * (2 * tol) := by
    rw [nrm_smul, abs_of_nonneg (Finset.prod_nonneg fun i hi => hb _ (by have := Finset.mem_range.1 hi; omega))]
    refine mul_le_mul ?_ hr (nrm_nonneg _) (by positivity)
    have : S ^ (k - 1) = ∏ i ∈ Finset.range (k - 1), S := by rw [Finset.prod_const, Finset.card_range]
    rw [this]
    exact Finset.prod_le_prod (fun i hi => hb _ (by have := Finset.mem_range.1 hi; omega)) fun i hi => (hS _ (by have := Finset.mem_range.1 hi; omega)).2
  have g3 : nrm (aeval A p *ᵥ (q 0 - (nrm v)⁻¹ • v)) ≤ (3 * S) ^ k * (5 * ε) :=
    (jacPoly_bound A hS0 (fun x => (h.bound x).trans (mul_le_mul_of_nonneg_right hMS (nrm_nonneg x))) _ _ (k := k) (fun j hj => (hS j hj).1)
      (fun j hj => by rw [abs_of_nonneg (hb j hj)]; exact (hS j hj).2) _ k le_rfl).trans (mul_le_mul_of_nonneg_left h7 (by positivity))
  have e : (nrm v)⁻¹ • (aeval A p *ᵥ v) = (∏ i ∈ Finset.range (k - 1), t.beta.get (i + 1)) • t.v -
      ((∏ i ∈ Finset.range (k - 1), t.beta.get (i + 1)) • t.v - aeval A p *ᵥ q 0) - aeval A p *ᵥ (q 0 - (nrm v)⁻¹ • v) := by
    rw [mulVec_sub, mulVec_smul]
    abel
  have g4 : nrm ((nrm v)⁻¹ • (aeval A p *ᵥ v)) ≤ stopLevel k tol ε S := by
    rw [e]
    refine (nrm_sub_le _ _).trans ((add_le_add ((nrm_sub_le _ _).trans (add_le_add g2 g1)) g3).trans ?_)
    have e1 : (3 * S) ^ k = 3 ^ k * S ^ k := mul_pow _ _ _
    have g5 : 0 ≤ ε * S ^ k := by positivity
    unfold stopLevel
    rw [e1]
    linarith
  rw [nrm_smul, abs_of_pos (inv_pos.2 nv), inv_mul_le_iff₀ nv] at g4
  linarith

/-- **C146**: on start vectors for which `p(A) v` is never as small as that for a monic polynomial of degree less than `κ`, all runs make at least `κ` steps.  This is the
condition of C142. -/
theorem C146_steps {K : SlqKernels n} {c : MFCfg} {A : Matrix (Fin n) (Fin n) ℝ} {M ε B ω δ L H S lo hi a b : ℝ} (h : SlqInput K c A M ε B ω δ L H S lo hi a b) (κ : ℕ)
    (hκ : κ ≤ c.deg) (good : Vec n → Prop)
    (hgood : ∀ v, good v → 2 * c.tol ≤ nrm v ∧ nrm v ≤ B ∧
      ∀ k, 1 ≤ k → k < κ → ∀ p : ℝ[X], p.Monic → p.natDegree = k → stopLevel k c.tol ε (4 * k * M) * nrm v < nrm (aeval A p *ᵥ v)) : Steps K c S κ good := by
  intro t j G v hG hv s y hq i hi1 hi2
  obtain ⟨n1, n2, n3⟩ := hgood v hv
  have hI := h.flInput hG t j n1 n2
  obtain ⟨s', k, h1, h2, h3, h5, h6, h7⟩ := C146_early_stop hI c.otol
  obtain ⟨s'', k', q', r1, r2, r3, r4, r5, -, -, -, r9⟩ := hI.run c.otol
  have hs : s = s' := by
    unfold quadColFl at hq
    rw [h1] at hq
    simp only [bind, Except.bind, Except.ok.injEq, Prod.mk.injEq] at hq
    exact hq.1.symm
  have hs2 : s'' = s' := by
    rw [h1] at r1
    exact (Except.ok.inj r1).symm
  subst hs hs2
  by_contra hc
  push Not at hc
  have hk : k ≤ i := by
    by_contra hk
    exact absurd (h5 i hi1 (by omega)) (not_le.2 hc)
  have hlt : s''.beta.get k < c.tol := by
    rcases h6 with h6 | h6
    · omega
    · exact h6
  have hkk : k' = k := by
    rcases Nat.lt_trichotomy k' k with hl | hl | hl
    · rcases r4 with r4 | r4
      · exact absurd (h5 k' r2 hl) (not_le.2 r4)
      · omega
    · exact hl
    · exact absurd (r5 k h2 hl) (not_le.2 hlt)
  subst hkk
  have hM4 : M ≤ 4 * k' * M := by
    have : (1 : ℝ) ≤ k' := by exact_mod_cast h2
    have := mul_le_mul_of_nonneg_right this h.M0
    have := h.M0
    linarith
  obtain ⟨p, p1, p2, p3⟩ := h7 hlt (4 * k' * M) hM4 fun j hj => ⟨(r9 j hj).2.1, (r9 j hj).2.2⟩
  exact absurd p3 (not_le.2 (n3 k' h2 (by omega) p p1 p2))

/-- `|p(A) v|` for a symmetric matrix is at least `|p(λ)|` times the component of `v` along an eigenvector for `λ`. -/
theorem poly_component {A : Matrix (Fin n) (Fin n) ℝ} {lam : Fin n → ℝ} {U : Matrix (Fin n) (Fin n) ℝ} (hU : Eigen A lam U) (p : ℝ[X]) (v : Vec n) (i : Fin n) :
    |p.eval (lam i)| * |(Uᵀ *ᵥ v) i| ≤ nrm (aeval A p *ᵥ v) := by
  have hE := isEigh_iff_eigen.2 hU
  rw [← nrm_rotate hE.mul_transpose (aeval A p *ᵥ v)]
  have e : Uᵀ *ᵥ (aeval A p *ᵥ v) = fun j => p.eval (lam j) * (Uᵀ *ᵥ v) j := by
    rw [← hE.matFun_poly, matFun, mulVec_mulVec, Matrix.mul_assoc, ← Matrix.mul_assoc, hU.orthonormal, Matrix.one_mul, ← mulVec_mulVec]
    funext j
    rw [mulVec_diagonal]
  rw [e, ← abs_mul]
  exact abs_le_nrm (fun j => p.eval (lam j) * (Uᵀ *ᵥ v) j) i

/-- **C146**: with components of at least `τ |v|` along eigenvectors for `κ` eigenvalues with distances of at least `g`, the recurrence makes `κ` steps, if the tolerance and
the rounding errors are small compared with `τ g ^ k / (k + 1)`. -/
theorem C146_spread {K : SlqKernels n} {c : MFCfg} {A : Matrix (Fin n) (Fin n) ℝ} {M ε B ω δ L H S lo hi a b : ℝ} (h : SlqInput K c A M ε B ω δ L H S lo hi a b)
    (lam : Fin n → ℝ) (U : Matrix (Fin n) (Fin n) ℝ) (hU : Eigen A lam U) (s : Finset (Fin n)) (hs : s.card ≤ c.deg) {g τ : ℝ} (hg : 0 < g)
    (hsep : ∀ i ∈ s, ∀ j ∈ s, i ≠ j → g ≤ |lam i - lam j|) (hlev : ∀ k, 1 ≤ k → k < s.card → stopLevel k c.tol ε (4 * k * M) < τ * (g ^ k / (k + 1))) (good : Vec n → Prop)
    (hgood : ∀ v, good v → 2 * c.tol ≤ nrm v ∧ nrm v ≤ B ∧ ∀ i ∈ s, τ * nrm v ≤ |(Uᵀ *ᵥ v) i|) : Steps K c S s.card good := by
  refine C146_steps h _ hs good fun v hv => ?_
  obtain ⟨n1, n2, n3⟩ := hgood v hv
  refine ⟨n1, n2, fun k h1 h2 p hp hd => ?_⟩
  obtain ⟨s', hss, hc⟩ := Finset.exists_subset_card_eq (show k + 1 ≤ s.card by omega)
  obtain ⟨i, hi, hpi⟩ := monic_max s' lam hg (fun i hi j hj => hsep i (hss hi) j (hss hj)) p hp (by rw [hd, hc])
  rw [hd, hc] at hpi
  push_cast at hpi
  have nv : 0 < nrm v := by have := h.tol0; linarith
  have h3 := n3 i (hss hi)
  have h4 : 0 ≤ g ^ k / ((k : ℝ) + 1) := by positivity
  calc stopLevel k c.tol ε (4 * k * M) * nrm v < τ * (g ^ k / (k + 1)) * nrm v := mul_lt_mul_of_pos_right (hlev k h1 h2) nv
    _ = g ^ k / (k + 1) * (τ * nrm v) := by ring
    _ ≤ g ^ k / (k + 1) * |(Uᵀ *ᵥ v) i| := mul_le_mul_of_nonneg_left h3 h4
    _ ≤ |p.eval (lam i)| * |(Uᵀ *ᵥ v) i| := mul_le_mul_of_nonneg_right hpi (abs_nonneg _)
    _ ≤ _ := poly_component hU p v i

/-- Concrete case of C146 and C142: the matrix with the diagonal `(1, 2, 3)` and the fourth power in binary64, three steps of the recurrence and any number of passes.  The
recurrence never stops early on vectors of signs, and the estimate is near `98`, the trace of the fourth power. -/
theorem slq_example_three {fl : ℝ → ℝ} (hfl : binary64.Nearest fl) (K : SlqKernels 3) (hL : ∀ t j, LKernelsRounded fl (diagonal ![1, 2, 3]) (K.lan t j))
    (hQ : ∀ t j, QKernelsRounded fl (K.quad t j) 3 (1 / 2 ^ 40) (1 / 2 ^ 40) ((2 : ℝ) ^ (-400 : ℤ)) ((2 : ℝ) ^ (400 : ℤ)))
    (hsum : ∀ t (x : List ℝ), x ≠ [] → SumOrder fl x (K.colsum t x)) (otol : ℝ) (rng : Rng) (hu : ∀ p, 0 ≤ rng.unif p ∧ rng.unif p < 1) (k : ℕ) (hk : 0 < k)
    (hk2 : k ≤ 2 ^ 20) :
    ∃ (x : ℝ) (G' : MFFl 3), slqFl fl K ⟨fun x => x ^ 4, 3, 1 / 2 ^ 40, otol, 0⟩ rng (MFFl.init 3 3) 32 (.name "rademacher") k false (k + 1) =
      some (.ok (G', .val fun _ => x)) ∧ |x - 98| ≤ 1 / 10 ^ 3 := by
  have two : ∀ {a b : ℤ}, a ≤ b → (2 : ℝ) ^ a ≤ (2 : ℝ) ^ b := fun h => zpow_le_zpow_right₀ (by norm_num) h
  have low : (2 : ℝ) ^ (-400 : ℤ) ≤ 1 / 2 ^ 40 := by
    have h1 := two (show (-400 : ℤ) ≤ -40 by norm_num)
    have e : (2 : ℝ) ^ (-40 : ℤ) = 1 / 2 ^ 40 := by norm_num
    rwa [e] at h1
  have high : (1048576 : ℝ) ≤ (2 : ℝ) ^ (400 : ℤ) := by
    have h1 := two (show (20 : ℤ) ≤ 400 by norm_num)
    have e : (2 : ℝ) ^ (20 : ℤ) = 1048576 := by norm_num
    rwa [e] at h1
  set c : MFCfg := ⟨fun x => x ^ 4, 3, 1 / 2 ^ 40, otol, 0⟩ with hc
  have s2 : Real.sqrt (3 : ℕ) ^ 2 = 3 := by
    rw [Real.sq_sqrt (by norm_num)]
    norm_num
  have s0 := Real.sqrt_nonneg ((3 : ℕ) : ℝ)
  have s1 : 1 ≤ Real.sqrt (3 : ℕ) := by
    rw [Real.le_sqrt (by norm_num) (by norm_num)]
    norm_num
  have s3 : Real.sqrt (3 : ℕ) ≤ 2 := Real.sqrt_le_iff.2 ⟨by norm_num, by norm_num⟩
  obtain ⟨h, hmem⟩ := C142_binary64 (n := 3) (c := c) (A := diagonal ![1, 2, 3]) (M := 4) (S := 48) (lo := 1) (hi := 3) (a := 1 / 2) (b := 4) hfl (by norm_num) (by norm_num)
    (Matrix.isSymm_diagonal _) (by simp only [Fin.sum_univ_three]; simp [diagonal]; norm_num) (low.trans (by norm_num)) low hL hQ (by norm_num [hc]) (by norm_num [hc]) (by norm_num [hc])
    (le_trans (by norm_num [hc]) high) le_rfl (by norm_num [hc]) (by norm_num [hc]) (by norm_num) (by norm_num [hc]) (by norm_num [hc]) (by norm_num) (by norm_num [hc])
    (by norm_num [hc])
  have hU : Eigen (diagonal ![1, 2, 3] : Matrix (Fin 3) (Fin 3) ℝ) ![1, 2, 3] 1 := by
    constructor
    · simp
    · intro j
      ext i
      rw [mulVec_diagonal]
      by_cases e : i = j
      · subst e; simp
      · simp [Matrix.one_apply_ne e]
  have hnrm : ∀ v : Vec 3, (∀ i, v i = 1 ∨ v i = -1) → nrm v = Real.sqrt (3 : ℕ) := by
    intro v hv
    unfold nrm
    congr 1
    rw [dotProduct, ← sign_norm hv]
    exact Finset.sum_congr rfl fun i _ => (sq _).symm
  have hsteps : Steps K c 48 3 fun v => ∀ i, v i = 1 ∨ v i = -1 := by
    refine C146_spread h ![1, 2, 3] 1 hU Finset.univ (by simp [hc]) (g := 1) (τ := 1 / 2) one_pos ?_ ?_ _ fun v hv => ?_
    · intro i _ j _ hij
      fin_cases i <;> fin_cases j <;> first | exact absurd rfl hij | norm_num
    · intro k h1 h2
      rw [Finset.card_univ, Fintype.card_fin] at h2
      interval_cases k <;> norm_num [stopLevel, hc]
    · rw [hnrm v hv]
      refine ⟨le_trans (by norm_num [hc]) s1, s3.trans (le_trans (by norm_num) high), fun i _ => ?_⟩
      rw [transpose_one, one_mulVec]
      have : |v i| = 1 := by rcases hv i with e | e <;> rw [e] <;> norm_num
      rw [this]
      calc 1 / 2 * Real.sqrt (3 : ℕ) ≤ 1 / 2 * 2 := mul_le_mul_of_nonneg_left s3 (by norm_num)
        _ = 1 := by norm_num
  have hEq : flQuadErr 3 (8 * ((3 : ℕ) + 1) * (1 / 2 ^ 53)) 48 (1 / 2 ^ 40) (1 / 2 ^ 40) (1 / 2 ^ 40) (1 / 2) 4 256 0 ≤ 1 / 10 ^ 4 := by
    norm_num [flQuadErr]
  have hE0 : 0 ≤ flQuadErr 3 (8 * ((3 : ℕ) + 1) * (1 / 2 ^ 53)) 48 (1 / 2 ^ 40) (1 / 2 ^ 40) (1 / 2 ^ 40) (1 / 2) 4 256 0 := by
    norm_num [flQuadErr]
  set E := flQuadErr 3 (8 * ((3 : ℕ) + 1) * (1 / 2 ^ 53)) 48 (1 / 2 ^ 40) (1 / 2 ^ 40) (1 / 2 ^ 40) (1 / 2) 4 256 0 with hE
  have low1 : (2 : ℝ) ^ (-400 : ℤ) ≤ 1 := low.trans (by norm_num)
  obtain ⟨x, G', pdf, hp, h1, -, -, h2⟩ := C142_slq_rounding h ![1, 2, 3] 1 hU (fun i => by fin_cases i <;> norm_num) 3 le_rfl hsteps (by norm_num) (le_trans (by norm_num [hc]) s1)
    (s3.trans (le_trans (by norm_num) high)) (X ^ 4) 256 0
    ⟨low1.trans (by norm_num), le_trans (by norm_num) high, low1.trans (by norm_num), le_trans (by norm_num) high, low1.trans s1, le_trans (by linarith) high,
      low1.trans (by rw [s2]; norm_num), le_trans (by rw [s2]; norm_num) high, low1.trans (by linarith), le_trans (by linarith) high, low1.trans (by rw [s2]; norm_num),
      le_trans (by rw [s2]; norm_num) high⟩
    (by rw [natDegree_X_pow]) (fun x h1 h2 => by
      show |x ^ 4| ≤ 256
      rw [abs_of_nonneg (by positivity)]
      calc x ^ 4 ≤ 4 ^ 4 := pow_le_pow_left₀ (by linarith) h2 4
        _ = 256 := by norm_num) (fun x _ _ => by simp [hc]) hfl hsum hmem (MFFl.init 3 3) (slqState_init c 3 h.eps0 (by norm_num) (Or.inl rfl)) rng hu 32 k false 1 rfl (by omega) hk E
    rfl (binary64_fits _ (by omega) _ (le_trans (two (by norm_num : (-1022 : ℤ) ≤ 0)) (by push_cast; rw [zpow_zero]; linarith))
      (le_trans (by push_cast; linarith) (high.trans (two (by norm_num)))))
  rw [Nat.mul_one] at h1 h2
  refine ⟨x, G', h1, ?_⟩
  have hsg := rademacher_pdf_signs rng hu pdf hp
  have hq : ∀ v : Vec 3, (∀ i, v i = 1 ∨ v i = -1) → quadForm (matFun ![1, 2, 3] 1 c.f) v = 98 := by
    intro v hv
    have e0 : v 0 * v 0 = 1 := by rcases hv 0 with e | e <;> rw [e] <;> norm_num
    have e1 : v 1 * v 1 = 1 := by rcases hv 1 with e | e <;> rw [e] <;> norm_num
    have e2 : v 2 * v 2 = 1 := by rcases hv 2 with e | e <;> rw [e] <;> norm_num
    have e : quadForm (matFun ![1, 2, 3] 1 c.f) v = 1 * (v 0 * v 0) + 16 * (v 1 * v 1) + 81 * (v 2 * v 2) := by
      rw [quadForm, matFun, Matrix.one_mul, transpose_one, Matrix.mul_one]
      simp [dotProduct, mulVec_diagonal, Fin.sum_univ_three, hc]
      ring
    rw [e, e0, e1, e2]
    norm_num
  have hmean : Spec.mean ((Spec.drawn pdf 1 k).map (quadForm (matFun ![1, 2, 3] 1 c.f))) = 98 := by
    have e : (Spec.drawn pdf 1 k).map (quadForm (matFun ![1, 2, 3] 1 c.f)) = List.replicate k 98 := by
      rw [List.eq_replicate_iff, List.length_map, drawn_length, mul_one]
      refine ⟨rfl, fun b hb => ?_⟩
      obtain ⟨v, hv, rfl⟩ := List.mem_map.1 hb
      unfold Spec.drawn at hv
      obtain ⟨t, -, ht⟩ := List.mem_flatMap.1 hv
      obtain ⟨j, rfl⟩ := List.mem_ofFn.1 ht
      exact hq _ (hsg _ _ _)
    rw [e, Spec.mean, List.sum_replicate, List.length_replicate, nsmul_eq_mul, mul_div_cancel_left₀]
    exact_mod_cast hk.ne'
  rw [hmean] at h2
  refine h2.trans ?_
  have kr : (k : ℝ) ≤ 2 ^ 20 := by exact_mod_cast hk2
  have hu' : binary64.u = 1 / 2 ^ 53 := by norm_num [Fmt.u, binary64]
  rw [hu']
  push_cast
  have h3 : (k : ℝ) * (3 * (256 + E)) ≤ 2 ^ 20 * 769 := mul_le_mul kr (by linarith) (by linarith) (by norm_num)
  linarith

/-- Such operations exist. -/
example (otol : ℝ) (rng : Rng) (hu : ∀ p, 0 ≤ rng.unif p ∧ rng.unif p < 1) : ∃ (fl : ℝ → ℝ) (K : SlqKernels 3) (x : ℝ) (G' : MFFl 3),
    slqFl fl K ⟨fun x => x ^ 4, 3, 1 / 2 ^ 40, otol, 0⟩ rng (MFFl.init 3 3) 32 (.name "rademacher") 1000 false 1001 = some (.ok (G', .val fun _ => x)) ∧ |x - 98| ≤ 1 / 10 ^ 3 := by
  obtain ⟨fl, hfl⟩ := Fmt.exists_nearest (φ := binary64) (by norm_num [binary64])
  obtain ⟨L, hL⟩ := rounded_exist fl (diagonal ![1, 2, 3] : Matrix (Fin 3) (Fin 3) ℝ) (by norm_num)
  obtain ⟨E, hE⟩ := qRounded_exist (n := 3) (m := 3) fl (by norm_num) (by norm_num) (show (0 : ℝ) ≤ 1 / 2 ^ 40 by norm_num) (1 / 2 ^ 40) ((2 : ℝ) ^ (-400 : ℤ)) ((2 : ℝ) ^ (400 : ℤ))
  have h2 : ∀ l : List ℝ, ∃ s, l ≠ [] → SumOrder fl l s := by
    intro l
    by_cases h : l = []
    · exact ⟨0, fun h' => absurd h h'⟩
    · obtain ⟨s, hs⟩ := SumOrder.exists fl l h
      exact ⟨s, fun _ => hs⟩
  choose T hT using h2
  obtain ⟨x, G', h⟩ := slq_example_three hfl ⟨fun _ _ => L, fun _ _ => E, fun _ => T, fun _ _ => 0⟩ (fun _ _ => hL) (fun _ _ => hE) (fun _ => hT) otol rng hu 1000 (by norm_num)
    (by norm_num)
  exact ⟨fl, _, x, G', h⟩

end Primate
