import Verif.Props.Diagonal
import Verif.Props.XtraceMoments

/-! # Property C109: the values averaged by xdiag are unbiased for independent isotropic vectors -/

noncomputable section

namespace Primate

open Matrix

variable {n b : ℕ} {κ : Type} [Fintype κ]

theorem isProjOn_congr' {P : Matrix (Fin n) (Fin n) ℝ} {Y Y' : Matrix (Fin n) (Fin b) ℝ}
    {keep : Fin b → Prop} (h : Spec.IsProjOn P Y keep) (hY : ∀ j, keep j → ∀ i, Y i j = Y' i j) :
    Spec.IsProjOn P Y' keep := by
  obtain ⟨C, hC, hC0⟩ := h.range
  refine ⟨h.symm, h.idem, fun j hj i => ?_, C, ?_, hC0⟩
  · rw [← hY j hj, ← h.fixes j hj, mul_apply, mul_apply]
    exact Finset.sum_congr rfl fun k _ => by rw [hY j hj]
  · rw [hC]
    funext i k
    rw [mul_apply, mul_apply]
    refine Finset.sum_congr rfl fun j _ => ?_
    by_cases hk : keep j
    · rw [hY j hk]
    · rw [hC0 j hk, mul_zero, mul_zero]

/-- The expectation of one leave-one-out diagonal over its own vector. -/
theorem looDiag_expect (M P : Matrix (Fin n) (Fin n) ℝ) (q : κ → ℝ) (x : κ → Vec n) (hq : ∑ s, q s = 1)
    (hiso : ∀ a b, ∑ s, q s * (x s a * x s b) = if a = b then 1 else 0) (k : Fin n) :
    ∑ s, q s * ((P * M) k k + x s k * ((1 - P) *ᵥ (M *ᵥ x s)) k) = M k k := by
  have h1 : ∀ s, q s * ((P * M) k k + x s k * ((1 - P) *ᵥ (M *ᵥ x s)) k) =
      q s * (P * M) k k + ∑ c, ((1 - P) * M) k c * (q s * (x s k * x s c)) := by
    intro s
    rw [mulVec_mulVec, mul_add]
    congr 1
    simp only [mulVec, dotProduct, Finset.mul_sum]
    exact Finset.sum_congr rfl fun c _ => by ring
  simp only [h1, Finset.sum_add_distrib, ← Finset.sum_mul, hq, one_mul]
  rw [Finset.sum_comm]
  simp only [← Finset.mul_sum, hiso]
  simp only [mul_ite, mul_one, mul_zero, Finset.sum_ite_eq, Finset.mem_univ, if_true]
  rw [Matrix.sub_mul, Matrix.one_mul, Matrix.sub_apply]
  ring

/-- The computation succeeds when the images of the test vectors are linearly independent. -/
theorem xdiagCore_ok (qr : QRKernel n) (hq : QRKernelOk qr) (hbn : b ≤ n) (A : Matrix (Fin n) (Fin n) ℝ) (W : Matrix (Fin n) (Fin b) ℝ)
    (hind : ∀ c : Fin b → ℝ, (A * W) *ᵥ c = 0 → c = 0) :
    (∃ d, xdiagCore qr A W = .ok d) ∧ ∀ i, ∃ P, Spec.IsProjOn P (A * W) (fun j => j ≠ i) := by
  obtain ⟨horth, hfact⟩ := hq b (A * W) hbn
  have hdet : (qr b (A * W)).2.det ≠ 0 := by
    intro h0
    obtain ⟨c, hc0, hc⟩ := Matrix.exists_mulVec_eq_zero_iff.2 h0
    refine hc0 (hind c ?_)
    rw [hfact, ← mulVec_mulVec, hc, mulVec_zero]
  constructor
  · unfold xdiagCore
    dsimp only
    rw [if_neg hdet]
    exact ⟨_, rfl⟩
  · intro i
    have hinv := nonsing_inv_mul (qr b (A * W)).2 (Ne.isUnit hdet)
    exact ⟨_, looProj (⟨horth, hfact, hinv⟩ : XData A W (qr b (A * W)).1 (qr b (A * W)).2 (qr b (A * W)).2⁻¹) i⟩

/-- **C109**: let the `b` vectors drawn by `xdiag` be independent, the `j`-th with finite distribution `p j` on the vectors `x j s` and
`E[x xᵀ] = I`, such that all possible draws have linearly independent images.  Then every run succeeds and the expected value of what `xdiag`
returns is the diagonal, for any matrix and budget. -/
theorem C109_unbiased [DecidableEq κ] (hn : 1 ≤ n) (A : Matrix (Fin n) (Fin n) ℝ) (qr : QRKernel n) (hq : QRKernelOk qr) (m : Option ℤ)
    (hm : ∀ z, m = some z → 1 ≤ z) (hb : xdiagBudget n m = b)
    (p : Fin b → κ → ℝ) (x : Fin b → κ → Vec n) (hp : ∀ j, ∑ s, p j s = 1)
    (hiso : ∀ j a c, ∑ s, p j s * (x j s a * x j s c) = if a = c then 1 else 0)
    (name : String) (rngs : (Fin b → κ) → Rng) (pdfs : (Fin b → κ) → Pdf n) (hpdf : ∀ ω, isotropicPdf name (rngs ω) n = .ok (pdfs ω))
    (hdraw : ∀ (ω : Fin b → κ) j, pdfs ω [] b j = x j (ω j))
    (hind : ∀ (ω : Fin b → κ) (c : Fin b → ℝ), ∑ j, c j • (A *ᵥ x j (ω j)) = 0 → c = 0) :
    ∃ est : (Fin b → κ) → Vec n,
      (∀ ω, xdiag qr (rngs ω) A m (.name name) = .ok (.val (est ω))) ∧
      ∀ k, ∑ ω : Fin b → κ, (∏ j, p j (ω j)) * est ω k = A k k := by
  classical
  set W : (Fin b → κ) → Matrix (Fin n) (Fin b) ℝ := fun ω => Matrix.of fun a j => x j (ω j) a with hWdef
  have hbb : 1 ≤ b ∧ b ≤ n := by
    have h1 : 1 ≤ xdiagBudget n m ∧ xdiagBudget n m ≤ n := by
      rcases m with _ | z
      · rw [(C37_budget n hn).1]; omega
      · exact ((C37_budget n hn).2 z (hm z rfl)).2
    omega
  have hindW : ∀ ω (c : Fin b → ℝ), (A * W ω) *ᵥ c = 0 → c = 0 := by
    intro ω c hc
    refine hind ω c ?_
    rw [← hc]
    funext i
    simp only [Finset.sum_apply, Pi.smul_apply, smul_eq_mul]
    show _ = ∑ j, (A * W ω) i j * c j
    refine Finset.sum_congr rfl fun j _ => ?_
    rw [mul_comm]
    rfl
  have hrun := fun ω => (xdiagCore_ok qr hq hbb.2 A (W ω) (hindW ω)).1
  have hproj := fun ω => (xdiagCore_ok qr hq hbb.2 A (W ω) (hindW ω)).2
  choose est hest using hrun
  choose P hP using hproj
  refine ⟨est, fun ω => ?_, fun k => ?_⟩
  · obtain ⟨b', -, -, hb', h1⟩ := C37_call (rngs ω) hn qr A name (pdfs ω) (hpdf ω) m hm
    obtain rfl : b' = b := by omega
    rw [h1]
    have : (Matrix.of fun i (j : Fin b') => pdfs ω [] b' j i) = W ω := by
      ext i j
      simp only [of_apply, hWdef, hdraw]
    rw [this, hest]
    rfl
  · have hb0 : (b : ℝ) ≠ 0 := by
      have : 0 < b := by omega
      exact_mod_cast this.ne'
    have hP' : ∀ ω i s, P (Function.update ω i s) i = P ω i := by
      intro ω i s
      refine isProjOn_unique (hP _ i) (isProjOn_congr' (hP ω i) fun j hj a => ?_)
      rw [mul_apply, mul_apply]
      refine Finset.sum_congr rfl fun k _ => ?_
      simp only [hWdef, Matrix.of_apply, Function.update_of_ne hj]
    have hone : ∑ ω : Fin b → κ, ∏ j, p j (ω j) = 1 := by
      rw [← Fintype.prod_sum]
      exact Finset.prod_eq_one fun j _ => hp j
    have hval : ∀ ω, est ω k = (∑ i, ((P ω i * A) k k + x i (ω i) k * ((1 - P ω i) *ᵥ (A *ᵥ x i (ω i))) k)) / b :=
      fun ω => C37_leave_one_out qr hq (by omega) hbb.2 A (W ω) (est ω) (hest ω) (P ω) (hP ω) k
    have hi : ∀ i, ∑ ω : Fin b → κ, (∏ j, p j (ω j)) * ((P ω i * A) k k + x i (ω i) k * ((1 - P ω i) *ᵥ (A *ᵥ x i (ω i))) k) = A k k := by
      intro i
      rw [sum_resample p i (hp i)]
      have : ∀ ω, ∑ s, p i s * ((P (Function.update ω i s) i * A) k k + x i (Function.update ω i s i) k *
          ((1 - P (Function.update ω i s) i) *ᵥ (A *ᵥ x i (Function.update ω i s i))) k) = A k k := by
        intro ω
        simp only [hP', Function.update_self]
        exact looDiag_expect A _ _ _ (hp i) (hiso i) k
      simp only [this, ← Finset.sum_mul, hone, one_mul]
    simp only [hval, mul_div_assoc', ← Finset.sum_div, Finset.mul_sum]
    rw [Finset.sum_comm]
    simp only [hi, Finset.sum_const, Finset.card_univ, Fintype.card_fin, nsmul_eq_mul]
    field_simp

/-- **C109**, the condition is the right one: whatever the sampler, a draw whose images under `A` are linearly dependent makes `xdiag` raise
LinAlgError. -/
theorem C109_dependent_raises (hn : 1 ≤ n) (A : Matrix (Fin n) (Fin n) ℝ) (qr : QRKernel n) (hq : QRKernelOk qr) (m : Option ℤ)
    (hm : ∀ z, m = some z → 1 ≤ z) (hb : xdiagBudget n m = b) (name : String) (rng : Rng) (pdf : Pdf n)
    (hpdf : isotropicPdf name rng n = .ok pdf) (c : Fin b → ℝ) (hc : c ≠ 0) (hdep : ∑ j, c j • (A *ᵥ pdf [] b j) = 0) :
    xdiag qr rng A m (.name name) = .error .linAlg := by
  obtain ⟨b', h1, h2, h3, h4⟩ := C37_call rng hn qr A name _ hpdf m hm
  obtain rfl : b' = b := by omega
  rw [h4]
  obtain ⟨W, hWd⟩ : ∃ W : Matrix (Fin n) (Fin b') ℝ, W = Matrix.of fun i j => pdf [] b' j i := ⟨_, rfl⟩
  have : xdiagCore qr A W = .error .linAlg := by
    rw [C37_singular]
    obtain ⟨horth, hfact⟩ := hq b' (A * W) h2
    have hR : (qr b' (A * W)).2 = (qr b' (A * W)).1ᵀ * (A * W) := by
      have : (qr b' (A * W)).1ᵀ * (A * W) = (qr b' (A * W)).1ᵀ * ((qr b' (A * W)).1 * (qr b' (A * W)).2) :=
        congrArg ((qr b' (A * W)).1ᵀ * ·) hfact
      rw [this, ← Matrix.mul_assoc, horth, Matrix.one_mul]
    refine Matrix.exists_mulVec_eq_zero_iff.1 ⟨c, hc, ?_⟩
    have h0 : (A * W) *ᵥ c = 0 := by
      rw [← hdep]
      funext i
      simp only [hWd, mulVec, dotProduct, mul_apply, Finset.sum_apply, Pi.smul_apply, smul_eq_mul, of_apply]
      exact Finset.sum_congr rfl fun j _ => by ring
    rw [hR, ← mulVec_mulVec, h0, mulVec_zero]
  rw [← hWd, this]
  rfl

/-- **C109**, limits: for a budget of two or more vectors and the built-in Rademacher vectors there are streams of uniforms in `[0, 1)` for
which `xdiag` raises LinAlgError, whatever the matrix. -/
theorem C109_rademacher_raises (hn : 1 ≤ n) (A : Matrix (Fin n) (Fin n) ℝ) (qr : QRKernel n) (hq : QRKernelOk qr) (m : Option ℤ)
    (hm : ∀ z, m = some z → 1 ≤ z) (hb : xdiagBudget n m = b) (hb2 : 2 ≤ b) (rng : Rng)
    (hu : ∀ q < b * n, 0 ≤ rng.unif q ∧ rng.unif q < 1/2) :
    xdiag qr rng A m (.name "rademacher") = .error .linAlg := by
  have hW : ∀ (j : Fin b) (i : Fin n), IsoDist.rademacher.fill n b rng (([] : List ℕ).sum * n) j i = -1 := by
    intro j i
    simp only [IsoDist.fill, rawCols, List.sum_nil, zero_mul, zero_add]
    have : (j : ℕ) * n + i < b * n := by
      have h5 : ((j : ℕ) + 1) * n ≤ b * n := Nat.mul_le_mul_right n j.2
      have h6 := i.2
      nlinarith
    obtain ⟨h7, h8⟩ := hu _ this
    exact (rademacherEntry_half _).1 h7 h8
  obtain ⟨i0, hi0⟩ : ∃ i : Fin b, (i : ℕ) = 0 := ⟨⟨0, by omega⟩, rfl⟩
  obtain ⟨i1, hi1⟩ : ∃ i : Fin b, (i : ℕ) = 1 := ⟨⟨1, by omega⟩, rfl⟩
  have h01 : i0 ≠ i1 := fun h => by rw [h] at hi0; omega
  refine C109_dependent_raises hn A qr hq m hm hb "rademacher" rng _ rfl (Pi.single i0 1 - Pi.single i1 1) (fun h => ?_) ?_
  · have := congrFun h i0
    simp [h01] at this
  · have hcol : ∀ j, IsoDist.rademacher.fill n b rng (([] : List ℕ).sum * n) j = fun _ => -1 := fun j => funext (hW j)
    simp only [hcol]
    rw [← Finset.sum_smul]
    simp

/-- The stream of normal numbers that makes `pdf="normal"` return the given vectors. -/
def streamOf {b n : ℕ} (w : Fin b → Vec n) (q : ℕ) : ℝ :=
  if h : q / n < b ∧ 0 < n then w ⟨q / n, h.1⟩ ⟨q % n, Nat.mod_lt _ h.2⟩ else 0

theorem streamOf_fill {b n : ℕ} (w : Fin b → Vec n) (u : ℕ → ℝ) (j : Fin b) :
    IsoDist.normal.fill n b ⟨u, streamOf w⟩ 0 j = w j := by
  funext i
  have hn : 0 < n := i.pos
  have h1 : (0 + (j : ℕ) * n + i) / n = j := by
    rw [zero_add, Nat.add_comm, Nat.add_mul_div_right _ _ hn, Nat.div_eq_of_lt i.2, zero_add]
  have h2 : (0 + (j : ℕ) * n + i) % n = i := by
    rw [zero_add, Nat.add_comm, Nat.add_mul_mod_self_right, Nat.mod_eq_of_lt i.2]
  show streamOf w (0 + (j : ℕ) * n + i) = _
  unfold streamOf
  rw [dif_pos ⟨by rw [h1]; exact j.2, hn⟩]
  exact congr (congrArg w (Fin.ext h1)) (Fin.ext h2)

/-- `C109_unbiased` at work: two vectors, `√2 e₁` or `√2 e₂` and `(1, 1)` or `(1, -1)`, each with probability 1/2, and the matrix
`[[1, 1], [0, 1]]`. -/
example (qr : QRKernel 2) (hq : QRKernelOk qr) (u : ℕ → ℝ) : ∃ (rngs : (Fin 2 → Bool) → Rng) (est : (Fin 2 → Bool) → Vec 2),
    (∀ ω, xdiag qr (rngs ω) !![1, 1; 0, 1] none (.name "normal") = .ok (.val (est ω))) ∧
    ∀ k, ∑ ω : Fin 2 → Bool, (∏ _j : Fin 2, (1/2 : ℝ)) * est ω k = 1 := by
  have hss : Real.sqrt 2 * Real.sqrt 2 = 2 := Real.mul_self_sqrt (by norm_num)
  have hs : Real.sqrt 2 ≠ 0 := by positivity
  obtain ⟨x, hx⟩ : ∃ x : Fin 2 → Bool → Vec 2, x = fun j s =>
    if j = 0 then (if s then ![Real.sqrt 2, 0] else ![0, Real.sqrt 2]) else (if s then ![1, 1] else ![1, -1]) := ⟨_, rfl⟩
  obtain ⟨est, h1, h2⟩ := C109_unbiased (b := 2) (by norm_num) !![1, 1; 0, 1] qr hq none (by simp) rfl
    (fun _ (_ : Bool) => (1/2 : ℝ)) x (fun _ => by norm_num) (by
      intro j a b
      fin_cases j <;> fin_cases a <;> fin_cases b <;> simp [hx, hss] <;> norm_num) "normal" (fun ω => ⟨u, streamOf fun j => x j (ω j)⟩)
    _ (fun ω => rfl) (fun ω j => by
      have := streamOf_fill (fun j => x j (ω j)) u j
      simpa using this) (by
      intro ω c hc
      have g0 := congrFun hc 0
      have g1 := congrFun hc 1
      cases h0 : ω 0 <;> cases h5 : ω 1 <;> simp [hx, h0, h5, mulVec, dotProduct, Fin.sum_univ_two] at g0 g1
      all_goals
        have e0 : c 0 = 0 := by
          first
          | exact g0
          | (have : c 0 * Real.sqrt 2 = 0 := by linarith
             simpa [hs] using this)
        have e1 : c 1 = 0 := by
          first
          | exact g1
          | (rw [e0, zero_mul] at g1; linarith)
        funext i
        fin_cases i
        · exact e0
        · exact e1)
  refine ⟨_, est, h1, fun k => ?_⟩
  have := h2 k
  rw [this]
  fin_cases k <;> rfl

end Primate
