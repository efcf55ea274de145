import Verif.Lemmas.LanczosFlRun
import Verif.Lemmas.LanczosSign
import Verif.Lemmas.Perturb
import Verif.Lemmas.Float

/-! One iteration of the Lanczos recurrence in rounded arithmetic. -/

noncomputable section

namespace Primate

open Matrix

variable {n : ℕ}

/-- The vector operations have relative error `ε`: `M` bounds the operator, `τ` is the tolerance of the iteration and `B` the range of numbers for which the
operations are specified.  The absolute terms leave room for underflow. -/
structure Spec.LKernelsOk (K : LKernels n) (A : Matrix (Fin n) (Fin n) ℝ) (M ε τ B : ℝ) : Prop where
  matvec : ∀ j x, nrm x ≤ 2 → nrm (K.matvec j x - A *ᵥ x) ≤ ε * M
  axpy : ∀ j v b q, nrm v ≤ B → |b| ≤ B → nrm q ≤ 2 → nrm (K.axpy j v b q - (v - b • q)) ≤ ε * (nrm v + |b| + M)
  dot : ∀ j x y, nrm x ≤ 2 → nrm y ≤ B → |K.dot j x y - x ⬝ᵥ y| ≤ ε * (nrm y + M)
  norm : ∀ j v, nrm v ≤ B → |K.norm j v - nrm v| ≤ ε * (nrm v + τ)
  scale : ∀ j v b, nrm v ≤ B → τ ≤ b → nrm (K.scale j v b - b⁻¹ • v) ≤ ε * (nrm v / b + 1)

theorem nrm_sub_le (u v : Vec n) : nrm (u - v) ≤ nrm u + nrm v := by
  rw [sub_eq_add_neg]
  have := nrm_add_le u (-v)
  rwa [nrm_neg] at this

theorem nrm_sub_comm (u v : Vec n) : nrm (u - v) = nrm (v - u) := by
  rw [← nrm_neg, neg_sub]

/-- Removing the component along a vector that is nearly a unit vector does not increase the norm. -/
theorem nrm_proj_le (x v : Vec n) (hx : nrm x * nrm x ≤ 2) : nrm (v - (x ⬝ᵥ v) • x) ≤ nrm v := by
  rw [← abs_of_nonneg (nrm_nonneg v)]
  apply abs_le_of_sq_le_sq' _ (abs_nonneg _) |>.2
  rw [sq_abs, sq, sq, nrm_sq, nrm_sq, sub_dotProduct, dotProduct_sub, dotProduct_sub, smul_dotProduct, smul_dotProduct, dotProduct_smul, dotProduct_smul,
    dotProduct_comm v x]
  rw [nrm_sq] at hx
  simp only [smul_eq_mul]
  nlinarith [sq_nonneg (x ⬝ᵥ v), mul_self_nonneg (x ⬝ᵥ v)]

theorem near_one_sq {y e : ℝ} (h0 : 0 ≤ e) (h1 : e ≤ 1 / 100) (h : |y - 1| ≤ 5 * e) : |1 - y * y| ≤ 10.25 * e := by
  obtain ⟨h2, h3⟩ := abs_le.1 h
  rw [abs_le]
  constructor <;> nlinarith

variable {K : LKernels n} {A : Matrix (Fin n) (Fin n) ℝ} {M ε τ B : ℝ}

/-- The part of an iteration up to the residual vector. -/
theorem fl_step (hK : Spec.LKernelsOk K A M ε τ B) (hA : ∀ x, nrm (A *ᵥ x) ≤ M * nrm x) (h0 : 0 ≤ ε) (h1 : ε ≤ 1 / 100) (hM : 0 ≤ M)
    (g : FlTriple n) (j : ℕ) (hx : |nrm g.q - 1| ≤ 5 * ε) (hp : nrm g.p ≤ 1 + 5 * ε) (hb : 0 ≤ g.b) (hB : 4 * (M + g.b) ≤ B) :
    nrm (A *ᵥ g.q - g.b • g.p - g.a K j • g.q - g.w K j) ≤ ε * (6 * M + 3 * g.b + |g.a K j|) ∧
    |g.q ⬝ᵥ g.w K j| ≤ ε * (5 * M + 3 * g.b + 12 * |g.a K j|) ∧
    nrm (g.w K j) ≤ (1 + 15 * ε) * (M + g.b) ∧ |g.a K j| ≤ 2 * (M + g.b) := by
  obtain ⟨p, x, b⟩ := g
  simp only at hx hp hb hB ⊢
  set u := K.matvec j x with hu
  set v := FlTriple.v1 K j ⟨p, x, b⟩ with hv
  set a := FlTriple.a K j ⟨p, x, b⟩ with ha
  set w := FlTriple.w K j ⟨p, x, b⟩ with hw
  have hx1 := (abs_le.1 hx).1
  have hx2 := (abs_le.1 hx).2
  have nx := nrm_nonneg x
  have np := nrm_nonneg p
  have sM : 0 ≤ ε * M := mul_nonneg h0 hM
  have sb : 0 ≤ ε * b := mul_nonneg h0 hb
  have lM : ε * M ≤ 1 / 100 * M := mul_le_mul_of_nonneg_right h1 hM
  have lb : ε * b ≤ 1 / 100 * b := mul_le_mul_of_nonneg_right h1 hb
  -- the product with the operator
  have m1 : nrm (u - A *ᵥ x) ≤ ε * M := hK.matvec j x (by linarith)
  have m2 : nrm (A *ᵥ x) ≤ M * (1 + 5 * ε) := (hA x).trans (mul_le_mul_of_nonneg_left (by linarith) hM)
  have m3 : nrm u ≤ M + 6 * (ε * M) := by
    have := nrm_add_le (u - A *ᵥ x) (A *ᵥ x)
    rw [sub_add_cancel] at this
    linarith
  -- first subtraction
  have a1 : nrm (v - (u - b • p)) ≤ ε * (nrm u + |b| + M) := hK.axpy (j, 0) u b p (by linarith) (by rw [abs_of_nonneg hb]; linarith) (by linarith)
  rw [abs_of_nonneg hb] at a1
  have a2 : nrm (v - (u - b • p)) ≤ ε * (2.06 * M + b) := a1.trans (mul_le_mul_of_nonneg_left (by linarith) h0)
  have a3 : nrm (b • p) ≤ b * (1 + 5 * ε) := by
    rw [nrm_smul, abs_of_nonneg hb]
    exact mul_le_mul_of_nonneg_left hp hb
  have a4 : nrm v ≤ (1 + 9 * ε) * (M + b) := by
    have t1 := nrm_add_le (v - (u - b • p)) (u - b • p)
    rw [sub_add_cancel] at t1
    have t2 := nrm_sub_le u (b • p)
    linarith
  have a5 : nrm v ≤ 1.09 * (M + b) := by linarith
  have nv := nrm_nonneg v
  -- the inner product
  have d1 : |a - x ⬝ᵥ v| ≤ ε * (nrm v + M) := hK.dot (j, 0) x v (by linarith) (by linarith)
  have d2 : |a - x ⬝ᵥ v| ≤ ε * (2.09 * M + 1.09 * b) := d1.trans (mul_le_mul_of_nonneg_left (by linarith) h0)
  have d3 : |x ⬝ᵥ v| ≤ 1.05 * nrm v := (abs_dot_le x v).trans (mul_le_mul_of_nonneg_right (by linarith) nv)
  have d5 : |a| ≤ 1.18 * (M + b) := by
    have := abs_sub_abs_le_abs_sub a (x ⬝ᵥ v)
    linarith
  -- second subtraction
  have b1 : nrm (w - (v - a • x)) ≤ ε * (nrm v + |a| + M) := hK.axpy (j, 1) v a x (by linarith) (by linarith) (by linarith)
  have b2 : nrm (w - (v - a • x)) ≤ ε * (2.09 * M + 1.09 * b + |a|) := b1.trans (mul_le_mul_of_nonneg_left (by linarith) h0)
  have sa : 0 ≤ ε * |a| := mul_nonneg h0 (abs_nonneg a)
  refine ⟨?_, ?_, ?_, by linarith⟩
  · have e : A *ᵥ x - b • p - a • x - w = -(u - A *ᵥ x) + -(v - (u - b • p)) + -(w - (v - a • x)) := by abel
    rw [e]
    have t1 := nrm_add_le (-(u - A *ᵥ x) + -(v - (u - b • p))) (-(w - (v - a • x)))
    have t2 := nrm_add_le (-(u - A *ᵥ x)) (-(v - (u - b • p)))
    rw [nrm_neg (w - (v - a • x))] at t1
    rw [nrm_neg (u - A *ᵥ x), nrm_neg (v - (u - b • p))] at t2
    linarith
  · have e : x ⬝ᵥ w = x ⬝ᵥ (w - (v - a • x)) - (a - x ⬝ᵥ v) + a * (1 - nrm x * nrm x) := by
      rw [nrm_sq, dotProduct_sub, dotProduct_sub, dotProduct_smul, smul_eq_mul]
      ring
    have t1 : |x ⬝ᵥ (w - (v - a • x))| ≤ 1.05 * (ε * (2.09 * M + 1.09 * b + |a|)) :=
      (abs_dot_le _ _).trans (mul_le_mul (by linarith) b2 (nrm_nonneg _) (by norm_num))
    have t3 : |a * (1 - nrm x * nrm x)| ≤ |a| * (10.25 * ε) := by
      rw [abs_mul]
      exact mul_le_mul_of_nonneg_left (near_one_sq h0 h1 hx) (abs_nonneg a)
    rw [e]
    have t4 := abs_add_le (x ⬝ᵥ (w - (v - a • x)) - (a - x ⬝ᵥ v)) (a * (1 - nrm x * nrm x))
    have t5 := abs_sub (x ⬝ᵥ (w - (v - a • x))) (a - x ⬝ᵥ v)
    linarith
  · have e : w = (w - (v - a • x)) + (v - (x ⬝ᵥ v) • x) + (x ⬝ᵥ v - a) • x := by
      rw [sub_smul]
      abel
    have t1 := nrm_add_le ((w - (v - a • x)) + (v - (x ⬝ᵥ v) • x)) ((x ⬝ᵥ v - a) • x)
    have t2 := nrm_add_le (w - (v - a • x)) (v - (x ⬝ᵥ v) • x)
    rw [← e] at t1
    have t3 := nrm_proj_le x v (by
      have := (abs_le.1 (near_one_sq h0 h1 hx)).1
      linarith)
    rw [nrm_smul, abs_sub_comm] at t1
    have t4 : |a - x ⬝ᵥ v| * nrm x ≤ ε * (2.09 * M + 1.09 * b) * 1.05 := mul_le_mul d2 (by linarith) nx (by positivity)
    have t5 : ε * |a| ≤ ε * (1.18 * (M + b)) := mul_le_mul_of_nonneg_left d5 h0
    linarith

/-- The normalisation of a vector. -/
theorem fl_scale (hK : Spec.LKernelsOk K A M ε τ B) (h0 : 0 ≤ ε) (h1 : ε ≤ 1 / 100) (hτ : 0 < τ) (i j : ℕ) (w : Vec n) (hB : nrm w ≤ B) (hb : τ ≤ K.norm i w) :
    |nrm (K.scale j w (K.norm i w)) - 1| ≤ 5 * ε ∧ nrm (w - K.norm i w • K.scale j w (K.norm i w)) ≤ 3 * ε * K.norm i w ∧
      K.norm i w ≤ (1 + 2.1 * ε) * nrm w ∧ nrm w ≤ (1 + 2.1 * ε) * K.norm i w ∧
      nrm (K.scale j w (K.norm i w) - (nrm w)⁻¹ • w) ≤ 5 * ε := by
  set b := K.norm i w with hbd
  have hb0 : 0 < b := hτ.trans_le hb
  have e1 := hK.norm i w hB
  have nw := nrm_nonneg w
  obtain ⟨e2, e3⟩ := abs_le.1 e1
  have ee : ε * ε ≤ ε / 100 := by nlinarith
  have eb : ε * τ ≤ ε * b := mul_le_mul_of_nonneg_left hb h0
  have f1 : b ≤ (1 + 2.1 * ε) * nrm w := by
    have : b * (1 - ε) ≤ nrm w * (1 + ε) := by nlinarith
    have h2 : nrm w * (1 + ε) ≤ ((1 + 2.1 * ε) * nrm w) * (1 - ε) := by
      have : nrm w * (1 + ε) ≤ nrm w * ((1 + 2.1 * ε) * (1 - ε)) := mul_le_mul_of_nonneg_left (by nlinarith) nw
      linarith
    exact le_of_mul_le_mul_right (this.trans h2) (by linarith)
  have f2 : nrm w ≤ (1 + 2.1 * ε) * b := by
    have : nrm w * (1 - ε) ≤ b * (1 + ε) := by nlinarith
    have h2 : b * (1 + ε) ≤ ((1 + 2.1 * ε) * b) * (1 - ε) := by
      have : b * (1 + ε) ≤ b * ((1 + 2.1 * ε) * (1 - ε)) := mul_le_mul_of_nonneg_left (by nlinarith) hb0.le
      linarith
    exact le_of_mul_le_mul_right (this.trans h2) (by linarith)
  have f3 : nrm w / b ≤ 1 + 2.1 * ε := by rwa [div_le_iff₀ hb0]
  have f4 : 1 - 2.1 * ε ≤ nrm w / b := by
    rw [le_div_iff₀ hb0]
    nlinarith
  have s1 := hK.scale j w b hB hb
  have s2 : nrm (K.scale j w b - b⁻¹ • w) ≤ 2.1 * ε := s1.trans (by nlinarith)
  have s3 : nrm (b⁻¹ • w) = nrm w / b := by
    rw [nrm_smul, abs_of_pos (inv_pos.2 hb0), inv_mul_eq_div]
  refine ⟨?_, ?_, f1, f2, ?_⟩
  · have t1 := nrm_add_le (K.scale j w b - b⁻¹ • w) (b⁻¹ • w)
    rw [sub_add_cancel] at t1
    have t2 := nrm_sub_le (K.scale j w b) (K.scale j w b - b⁻¹ • w)
    rw [sub_sub_cancel] at t2
    rw [abs_le]
    constructor <;> linarith
  · have e : w - b • K.scale j w b = (-b) • (K.scale j w b - b⁻¹ • w) := by
      rw [smul_sub, smul_smul, neg_mul, mul_inv_cancel₀ hb0.ne', neg_smul, neg_smul, one_smul]
      abel
    rw [e, nrm_smul, abs_neg, abs_of_pos hb0]
    nlinarith
  · have hw0 : 0 < nrm w := by
      by_contra hc
      have : nrm w = 0 := le_antisymm (not_lt.1 hc) nw
      rw [this] at f1
      linarith
    have e : K.scale j w b - (nrm w)⁻¹ • w = (K.scale j w b - b⁻¹ • w) + (b⁻¹ - (nrm w)⁻¹) • w := by
      rw [sub_smul]
      abel
    have t1 := nrm_add_le (K.scale j w b - b⁻¹ • w) ((b⁻¹ - (nrm w)⁻¹) • w)
    have t2 : nrm ((b⁻¹ - (nrm w)⁻¹) • w) = |nrm w / b - 1| := by
      rw [nrm_smul, ← abs_of_pos hw0, ← abs_mul, abs_of_pos hw0, sub_mul, inv_mul_eq_div, inv_mul_cancel₀ hw0.ne']
    have t3 : |nrm w / b - 1| ≤ 2.1 * ε := by
      rw [abs_le]
      constructor <;> linarith
    rw [e]
    linarith

/-- What is known at the start of iteration `j`. -/
structure FlGood (M ε : ℝ) (j : ℕ) (g : FlTriple n) : Prop where
  q : |nrm g.q - 1| ≤ 5 * ε
  p : nrm g.p ≤ 1 + 5 * ε
  b0 : 0 ≤ g.b
  b1 : g.b ≤ M * j * (1 + 18 * ε) ^ j

theorem FlGood.b_le {j k : ℕ} {g : FlTriple n} (h : FlGood M ε j g) (h0 : 0 ≤ ε) (hM : 0 ≤ M) (hk : 36 * k * ε ≤ 1) (hj : j ≤ k) : g.b ≤ 2 * j * M := by
  have hjk : (j : ℝ) ≤ k := by exact_mod_cast hj
  have hje : (j : ℝ) * (18 * ε) ≤ 1 / 2 := by nlinarith
  have := Spec.pow_one_add_le (u := 18 * ε) (by positivity) j hje
  refine h.b1.trans ?_
  have h2 : (1 + 18 * ε) ^ j ≤ 2 := by linarith
  have h3 : 0 ≤ M * j := by positivity
  nlinarith

theorem fl_start (hK : Spec.LKernelsOk K A M ε τ B) (h0 : 0 ≤ ε) (h1 : ε ≤ 1 / 100) (hτ : 0 < τ) (v : Vec n) (hv : 2 * τ ≤ nrm v) (hB : nrm v ≤ B) :
    |nrm (normalizedFl K v) - 1| ≤ 5 * ε ∧ nrm (normalizedFl K v - (nrm v)⁻¹ • v) ≤ 5 * ε := by
  have e1 := (abs_le.1 (hK.norm 0 v hB)).1
  have hb : τ ≤ K.norm 0 v := by nlinarith
  have := fl_scale hK h0 h1 hτ 0 0 v hB hb
  unfold normalizedFl
  rw [if_pos (hτ.trans_le hb)]
  exact ⟨this.1, this.2.2.2.2⟩

theorem fl_good (hK : Spec.LKernelsOk K A M ε τ B) (hA : ∀ x, nrm (A *ᵥ x) ≤ M * nrm x) (h0 : 0 ≤ ε) (h1 : ε ≤ 1 / 100) (hM : 0 ≤ M) (hτ : 0 < τ)
    (v p0 : Vec n) (hv : 2 * τ ≤ nrm v) (hvB : nrm v ≤ B) (hp : nrm p0 ≤ 1 + 5 * ε) (k : ℕ) (hk : 36 * k * ε ≤ 1) (hB : 8 * (k + 1) * M ≤ B) (J : ℕ)
    (hJ : J < k) (hb : ∀ i < J, τ ≤ (flSeq K v p0 (i + 1)).b) : ∀ j ≤ J, FlGood M ε j (flSeq K v p0 j) := by
  intro j
  induction j with
  | zero =>
    intro _
    refine ⟨(fl_start hK h0 h1 hτ v hv hvB).1, hp, le_rfl, ?_⟩
    show (0 : ℝ) ≤ _
    simp
  | succ j ih =>
    intro hj
    have g := ih (by omega)
    have hbl := g.b_le h0 hM hk (by omega)
    have hjk : (j : ℝ) + 1 ≤ k := by exact_mod_cast (by omega : j + 1 ≤ k)
    have hjM : (j + 1 : ℝ) * M ≤ k * M := mul_le_mul_of_nonneg_right hjk hM
    obtain ⟨-, -, s3, -⟩ := fl_step hK hA h0 h1 hM (flSeq K v p0 j) j g.q g.p g.b0 (by nlinarith)
    have hw : nrm ((flSeq K v p0 j).w K j) ≤ B := by
      refine s3.trans ?_
      have := g.b0
      nlinarith
    have hbj := hb j (by omega)
    obtain ⟨t1, -, t3, -, -⟩ := fl_scale hK h0 h1 hτ (j + 1) (j + 1) _ hw hbj
    refine ⟨t1, by have := (abs_le.1 g.q).2; rw [flSeq_p]; linarith, hτ.le.trans hbj, ?_⟩
    rw [flSeq_b]
    set r := 1 + 18 * ε with hr
    have hr1 : 1 ≤ r := by linarith
    have hb0 := g.b0
    have hb1 := g.b1
    have e2 : ε * ε ≤ ε / 100 := by nlinarith
    have c1 : (1 + 2.1 * ε) * (1 + 15 * ε) ≤ r := by nlinarith
    have c2 : K.norm (j + 1) ((flSeq K v p0 j).w K j) ≤ r * (M + (flSeq K v p0 j).b) := by
      refine t3.trans ?_
      have c3 : (1 + 2.1 * ε) * nrm ((flSeq K v p0 j).w K j) ≤ (1 + 2.1 * ε) * ((1 + 15 * ε) * (M + (flSeq K v p0 j).b)) :=
        mul_le_mul_of_nonneg_left s3 (by linarith)
      refine c3.trans ?_
      rw [← mul_assoc]
      exact mul_le_mul_of_nonneg_right c1 (by linarith)
    refine c2.trans ?_
    have c4 : M ≤ M * r ^ j := le_mul_of_one_le_right hM (one_le_pow₀ hr1)
    rw [pow_succ]
    push_cast
    calc r * (M + (flSeq K v p0 j).b) ≤ r * (M * r ^ j + M * j * r ^ j) := mul_le_mul_of_nonneg_left (by linarith) (by linarith)
      _ = M * (j + 1) * (r ^ j * r) := by ring

end Primate
