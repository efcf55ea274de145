import Verif.Lemmas.QuadFlCore

/-! The operations of `MatrixFunction.quad` and `MatrixFunction._matvec` after the recurrence, every operation rounded to nearest, meet the specification of
`Spec/QuadFl.lean`; the eigenvalue solver (LAPACK) is specified, not modelled. -/

noncomputable section

namespace Primate

open Matrix Spec

variable {n m : ℕ} {φ : Fmt} {fl : ℝ → ℝ}

/-- The operations are evaluated with the rounding `fl`: sums and inner products in any order.  The eigenvalue solver is backward stable. -/
structure Spec.QKernelsRounded (fl : ℝ → ℝ) (E : QKernels n) (m : ℕ) (ω δ L H : ℝ) : Prop where
  eigh : ∀ (d e : ℕ → ℝ) (S : ℝ), L ≤ S → S ≤ H → (∀ i < m, |d i| ≤ S) → (∀ i, i + 1 < m → |e i| ≤ S) → ∃ F Y : Matrix (Fin m) (Fin m) ℝ,
    ∑ i, ∑ j, F i j ^ 2 ≤ (δ * S) ^ 2 ∧ Eigen (jacobi m d e + F) (E.eigh m d e).1 Y ∧ ∀ i j, |(E.eigh m d e).2 i j - Y i j| ≤ ω
  wsum : ∀ g y, SumOrder fl (List.ofFn fun j : Fin m => fl (g j * fl (y j * y j))) (E.wsum m g y)
  norm : ∀ x, ∃ s, DotOrder fl (List.ofFn fun i => (x i, x i)) s ∧ E.norm x = fl (Real.sqrt s)
  mul : ∀ a b, E.mul a b = fl (a * b)
  prod : ∀ c q Y g (i : Fin n), ∃ r : Fin m → ℝ, (∀ a, DotOrder fl (List.ofFn fun l : Fin m => (fl (c * q l i), Y l a)) (r a)) ∧
    DotOrder fl (List.ofFn fun a : Fin m => (r a, fl (g a * Y ⟨0, a.pos⟩ a))) (E.prod m c q Y g i)

/-- The format is large enough for numbers between `L` and `H`. -/
structure Spec.Fmt.QRoom (φ : Fmt) (n m : ℕ) (L H : ℝ) : Prop where
  exp : φ.emin ≤ φ.emax
  sizeN : 64 * n * φ.u ≤ 1
  sizeM : 64 * m * φ.u ≤ 1
  pos : 0 < L
  low : 100 * ((n + m) * φ.eta) ≤ φ.u * L
  low_sq : 8 * (n * φ.eta) ≤ φ.u * φ.u * (L * L)
  low_one : (n + m) * φ.eta ≤ φ.u
  high : 2 * (H * H) + 300 * (m ^ 2 * H) + 100 ≤ φ.top

theorem rnd (hn : φ.Nearest fl) (he : φ.emin ≤ φ.emax) {z X : ℝ} (h : |z| ≤ X) (hX : X ≤ φ.top) : |fl z - z| ≤ φ.u * X + φ.eta :=
  (hn.err he (h.trans hX)).trans (by linarith [mul_le_mul_of_nonneg_left h φ.u_pos.le])

/-- `np.sum(f * np.square(y))`. -/
theorem wsum_rounded (hn : φ.Nearest fl) (he : φ.emin ≤ φ.emax) (hm : 0 < m) (hu : 64 * m * φ.u ≤ 1) {L Φ : ℝ} (hlow : 100 * (m * φ.eta) ≤ φ.u * L) (hone : m * φ.eta ≤ φ.u)
    (hL : L ≤ Φ) (htop : 100 * Φ + 100 ≤ φ.top) (g y : Fin m → ℝ) (hg : ∀ j, |g j| ≤ Φ) (hy : ∑ j, y j ^ 2 ≤ 2) (s : ℝ)
    (hs : SumOrder fl (List.ofFn fun j : Fin m => fl (g j * fl (y j * y j))) s) : |s - ∑ j, g j * y j ^ 2| ≤ 20 * m * φ.u * Φ := by
  have up := φ.u_pos
  have ep := φ.eta_pos
  have u1 : φ.u ≤ 1 := φ.u_le_one
  have mr : (1 : ℝ) ≤ m := by exact_mod_cast hm
  have u2 : φ.u ≤ 1 / 64 := by nlinarith
  have hΦ : 0 ≤ Φ := (abs_nonneg _).trans (hg ⟨0, hm⟩)
  have em : φ.eta ≤ m * φ.eta := le_mul_of_one_le_left ep.le mr
  have hy1 : ∀ j, y j ^ 2 ≤ 2 := fun j => (Finset.single_le_sum (f := fun j => y j ^ 2) (fun i _ => sq_nonneg _) (Finset.mem_univ j)).trans hy
  have e1 : φ.eta ≤ φ.u := by linarith
  have a1 : ∀ j, |fl (y j * y j) - y j ^ 2| ≤ φ.u * y j ^ 2 + φ.eta := by
    intro j
    have h1 : |y j * y j| ≤ y j ^ 2 := by rw [← sq, abs_of_nonneg (sq_nonneg _)]
    have := rnd hn he h1 (by linarith [hy1 j])
    rw [← sq]
    rwa [← sq] at this
  have a2 : ∀ j, |fl (y j * y j)| ≤ y j ^ 2 + (φ.u * y j ^ 2 + φ.eta) := by
    intro j
    have h1 := abs_sub_abs_le_abs_sub (fl (y j * y j)) (y j ^ 2)
    rw [abs_of_nonneg (sq_nonneg (y j))] at h1
    linarith [a1 j]
  set b : Fin m → ℝ := fun j => fl (g j * fl (y j * y j)) with hb
  have hz : ∀ j, |g j * fl (y j * y j)| ≤ Φ * (y j ^ 2 + (φ.u * y j ^ 2 + φ.eta)) := by
    intro j
    rw [abs_mul]
    exact mul_le_mul (hg j) (a2 j) (abs_nonneg _) hΦ
  have hzt : ∀ j, Φ * (y j ^ 2 + (φ.u * y j ^ 2 + φ.eta)) ≤ 5 * Φ := by
    intro j
    have h1 : φ.u * y j ^ 2 ≤ 1 * 2 := mul_le_mul u1 (hy1 j) (sq_nonneg _) (by norm_num)
    have h2 : y j ^ 2 + (φ.u * y j ^ 2 + φ.eta) ≤ 5 := by linarith [hy1 j]
    have := mul_le_mul_of_nonneg_left h2 hΦ
    linarith
  have a3 : ∀ j, |b j - g j * y j ^ 2| ≤ 4 * φ.u * Φ * y j ^ 2 + (2 * Φ + 1) * φ.eta := by
    intro j
    have h1 := rnd hn he (hz j) (by linarith [hzt j])
    have h2 : |g j * fl (y j * y j) - g j * y j ^ 2| ≤ Φ * (φ.u * y j ^ 2 + φ.eta) := by
      rw [← mul_sub, abs_mul]
      exact mul_le_mul (hg j) (a1 j) (abs_nonneg _) hΦ
    have h3 := abs_sub_le (b j) (g j * fl (y j * y j)) (g j * y j ^ 2)
    have h4 : φ.u * (φ.u * (Φ * y j ^ 2)) ≤ 1 * (φ.u * (Φ * y j ^ 2)) := mul_le_mul_of_nonneg_right u1 (mul_nonneg up.le (mul_nonneg hΦ (sq_nonneg _)))
    have h5 : φ.u * (Φ * φ.eta) ≤ 1 * (Φ * φ.eta) := mul_le_mul_of_nonneg_right u1 (by positivity)
    have h6 : 0 ≤ φ.u * (Φ * y j ^ 2) := by positivity
    have h7 : |b j - g j * fl (y j * y j)| ≤ φ.u * (Φ * y j ^ 2) + φ.u * (φ.u * (Φ * y j ^ 2)) + φ.u * (Φ * φ.eta) + φ.eta := by
      refine h1.trans (le_of_eq ?_)
      ring
    linarith
  have hmΦ : m * φ.eta * Φ ≤ φ.u * Φ := mul_le_mul_of_nonneg_right hone hΦ
  have hm1 : m * φ.eta ≤ φ.u * Φ / 100 := by
    have := mul_le_mul_of_nonneg_left hL up.le
    linarith
  have a4 : |∑ j, b j - ∑ j, g j * y j ^ 2| ≤ 11 * φ.u * Φ := by
    rw [← Finset.sum_sub_distrib]
    refine (Finset.abs_sum_le_sum_abs _ _).trans ((Finset.sum_le_sum fun j _ => a3 j).trans ?_)
    rw [Finset.sum_add_distrib, ← Finset.mul_sum, Finset.sum_const, Finset.card_univ, Fintype.card_fin, nsmul_eq_mul]
    have h1 : 4 * φ.u * Φ * ∑ j, y j ^ 2 ≤ 4 * φ.u * Φ * 2 := mul_le_mul_of_nonneg_left hy (by positivity)
    have h2 : 0 ≤ φ.u * Φ := by positivity
    linarith
  have a5 : ∑ j, |b j| ≤ 3 * Φ := by
    have h0 : ∑ j, |b j| ≤ ∑ j, (Φ * y j ^ 2 + (4 * φ.u * Φ * y j ^ 2 + (2 * Φ + 1) * φ.eta)) := by
      refine Finset.sum_le_sum fun j _ => ?_
      have h1 := abs_sub_abs_le_abs_sub (b j) (g j * y j ^ 2)
      have h2 : |g j * y j ^ 2| ≤ Φ * y j ^ 2 := by
        rw [abs_mul, abs_of_nonneg (sq_nonneg (y j))]
        exact mul_le_mul_of_nonneg_right (hg j) (sq_nonneg _)
      linarith [a3 j]
    refine h0.trans ?_
    rw [Finset.sum_add_distrib, Finset.sum_add_distrib, ← Finset.mul_sum, ← Finset.mul_sum, Finset.sum_const, Finset.card_univ, Fintype.card_fin, nsmul_eq_mul]
    have h1 : Φ * ∑ j, y j ^ 2 ≤ Φ * 2 := mul_le_mul_of_nonneg_left hy hΦ
    have h2 : 4 * φ.u * Φ * ∑ j, y j ^ 2 ≤ 4 * φ.u * Φ * 2 := mul_le_mul_of_nonneg_left hy (by positivity)
    have h3 : φ.u * Φ ≤ 1 / 64 * Φ := mul_le_mul_of_nonneg_right u2 hΦ
    linarith
  have l1 : ((List.ofFn b).map abs).sum = ∑ j, |b j| := by rw [List.map_ofFn, List.sum_ofFn]; rfl
  have l2 : (List.ofFn b).sum = ∑ j, b j := List.sum_ofFn
  have hp : (1 + φ.u) ^ m ≤ 1 + 2 * (m * φ.u) := pow_one_add_le up.le m (by linarith)
  have hp1 : (1 + φ.u) ^ (m - 1) ≤ 1 + 2 * (m * φ.u) := (pow_le_pow_right₀ (by linarith) (Nat.sub_le m 1)).trans hp
  have hS0 : 0 ≤ ∑ j, |b j| := Finset.sum_nonneg fun j _ => abs_nonneg _
  obtain ⟨-, h2⟩ := hs.err hn he (fun x hx => by
      obtain ⟨j, rfl⟩ := List.mem_ofFn.1 hx
      exact (hn _ ((hz j).trans (by linarith [hzt j]))).1) (by
      rw [List.length_ofFn, l1]
      have : (1 + φ.u) ^ m * ∑ j, |b j| ≤ 2 * (3 * Φ) := mul_le_mul (by linarith) a5 hS0 (by norm_num)
      linarith)
  rw [l1, l2, List.length_ofFn] at h2
  have h3 : ((1 + φ.u) ^ (m - 1) - 1) * ∑ j, |b j| ≤ 2 * (m * φ.u) * (3 * Φ) := mul_le_mul (by linarith) a5 hS0 (by positivity)
  have h4 := abs_sub_le s (∑ j, b j) (∑ j, g j * y j ^ 2)
  have h5 : φ.u * Φ ≤ m * (φ.u * Φ) := le_mul_of_one_le_left (by positivity) mr
  have h6 : 0 ≤ m * (φ.u * Φ) := by positivity
  linarith

/-- `np.linalg.norm`. -/
theorem norm_rounded (hn : φ.Nearest fl) {L H : ℝ} (hR : φ.QRoom n m L H) (hn0 : 0 < n) (x : Vec n) (hL : L ≤ nrm x) (hH : nrm x ≤ H) (s : ℝ)
    (hs : DotOrder fl (List.ofFn fun i => (x i, x i)) s) : |fl (Real.sqrt s) - nrm x| ≤ 8 * (n * φ.u) * nrm x := by
  have up := φ.u_pos
  have ep := φ.eta_pos
  have u1 : φ.u ≤ 1 := φ.u_le_one
  have nr : (1 : ℝ) ≤ n := by exact_mod_cast hn0
  have he := hR.exp
  have hsz := hR.sizeN
  have me : 0 ≤ (m : ℝ) * φ.eta := by positivity
  have hone : n * φ.eta ≤ 1 := by linarith [hR.low_one]
  have nv := nrm_nonneg x
  have hL0 := hR.pos
  have hvv : nrm x * nrm x ≤ H * H := mul_self_le_mul_self nv hH
  have hc : ∑ i, |x i * x i| ≤ nrm x * nrm x := sum_abs_mul_le x x
  have hmH : 0 ≤ (m : ℝ) ^ 2 * H := mul_nonneg (sq_nonneg _) (nv.trans hH)
  have htop := hR.high
  obtain ⟨d1, d2⟩ := dot_err hn he hsz hone x x s _ hs hc (by linarith)
  have hs0 := d2 fun i => mul_self_nonneg _
  rw [← nrm_sq] at d1
  have sq := sqrt_err hs0 nv up hL0 (g := 2 * (n * φ.u)) (by positivity) (by linarith) d1 (by linarith [hR.low_sq])
  have ss : Real.sqrt s ≤ nrm x + (2 * (n * φ.u) * nrm x + 2 * φ.u * L) := by linarith [(abs_le.1 sq).2]
  have s0 := Real.sqrt_nonneg s
  have g1 : 2 * (n * φ.u) * nrm x ≤ 1 / 32 * nrm x := mul_le_mul_of_nonneg_right (by linarith) nv
  have g2 : φ.u * L ≤ φ.u * nrm x := mul_le_mul_of_nonneg_left hL up.le
  have u2 : φ.u ≤ 1 / 64 := by nlinarith
  have g3 : φ.u * nrm x ≤ 1 / 64 * nrm x := mul_le_mul_of_nonneg_right u2 nv
  have ss2 : Real.sqrt s ≤ 2 * nrm x := by linarith
  have h3H : 2 * nrm x ≤ φ.top := by nlinarith
  have f1 := rnd hn he (z := Real.sqrt s) (X := 2 * nrm x) (by rw [abs_of_nonneg s0]; exact ss2) h3H
  have f2 : φ.eta ≤ φ.u * nrm x := by
    have h1 : φ.eta ≤ n * φ.eta := le_mul_of_one_le_left ep.le nr
    linarith [hR.low]
  have e : fl (Real.sqrt s) - nrm x = (fl (Real.sqrt s) - Real.sqrt s) + (Real.sqrt s - nrm x) := by ring
  rw [e]
  refine (abs_add_le _ _).trans ?_
  have f3 : φ.u * nrm x ≤ n * (φ.u * nrm x) := le_mul_of_one_le_left (by positivity) nr
  linarith

/-- One entry of `c * Q @ Y @ w`, for one row of `Q`. -/
theorem prod_entry (hn : φ.Nearest fl) (he : φ.emin ≤ φ.emax) (hm : 0 < m) (hu : 64 * m * φ.u ≤ 1) (hone : m * φ.eta ≤ φ.u) (q : Fin m → ℝ) (hq : ∀ l, |q l| ≤ 2)
    (Y : Matrix (Fin m) (Fin m) ℝ) (hY : ∀ i j, |Y i j| ≤ 2) (g : Fin m → ℝ) (c C Φ : ℝ) (hc : |c| ≤ C) (hg : ∀ a, |g a| ≤ Φ) (hΦ : φ.eta ≤ φ.u * Φ)
    (htop : 100 * (m ^ 2 * (C * Φ)) + 100 * (m ^ 2 * C) + 100 * (m ^ 2 * Φ) + 100 ≤ φ.top) (r : Fin m → ℝ)
    (hr : ∀ a, DotOrder fl (List.ofFn fun l => (fl (c * q l), Y l a)) (r a)) (y : ℝ)
    (hy : DotOrder fl (List.ofFn fun a => (r a, fl (g a * Y ⟨0, hm⟩ a))) y) :
    |y - c * ∑ l, (∑ a, Y l a * (g a * Y ⟨0, hm⟩ a)) * q l| ≤
      43 * m ^ 2 * φ.u * (C * Φ) * ∑ l, |q l| + φ.eta * (2 * m + 16 * m ^ 2 * Φ + 4 * m ^ 2 * C) := by
  have up := φ.u_pos
  have ep := φ.eta_pos
  have mr : (1 : ℝ) ≤ m := by exact_mod_cast hm
  have u2 : φ.u ≤ 1 / 64 := by nlinarith
  have mu : m * φ.u ≤ 1 / 64 := by linarith
  have hC0 : 0 ≤ C := (abs_nonneg _).trans hc
  have hΦ0 : 0 ≤ Φ := (abs_nonneg _).trans (hg ⟨0, hm⟩)
  have mp : (0 : ℝ) < m := by linarith
  have m2 : (m : ℝ) ≤ m ^ 2 := by nlinarith
  have m21 : (1 : ℝ) ≤ m ^ 2 := mr.trans m2
  have me : φ.eta ≤ m * φ.eta := le_mul_of_one_le_left ep.le mr
  have me1 : m * φ.eta ≤ 1 / 64 := hone.trans u2
  have hCm : C ≤ m ^ 2 * C := le_mul_of_one_le_left hC0 m21
  have hCm1 : m * C ≤ m ^ 2 * C := mul_le_mul_of_nonneg_right m2 hC0
  have hΦm : Φ ≤ m ^ 2 * Φ := le_mul_of_one_le_left hΦ0 m21
  have hΦm1 : m * Φ ≤ m ^ 2 * Φ := mul_le_mul_of_nonneg_right m2 hΦ0
  have hCΦ0 : 0 ≤ C * Φ := mul_nonneg hC0 hΦ0
  have hCΦ1 : 0 ≤ m ^ 2 * (C * Φ) := by positivity
  set p := ∑ l, |q l| with hp
  have hp0 : 0 ≤ p := Finset.sum_nonneg fun l _ => abs_nonneg _
  have hp2 : p ≤ 2 * m := by
    refine (Finset.sum_le_sum fun l _ => hq l).trans (le_of_eq ?_)
    rw [Finset.sum_const, Finset.card_univ, Fintype.card_fin, nsmul_eq_mul]
    ring
  have cq : ∀ l, |c * q l| ≤ C * |q l| := fun l => by
    rw [abs_mul]
    exact mul_le_mul_of_nonneg_right hc (abs_nonneg _)
  have cq2 : ∀ l, C * |q l| ≤ 2 * C := fun l => by
    have := mul_le_mul_of_nonneg_left (hq l) hC0
    linarith
  -- c * Q
  have P1 : ∀ l, |fl (c * q l) - c * q l| ≤ φ.u * (C * |q l|) + φ.eta := fun l => rnd hn he (cq l) (by linarith [cq2 l])
  have P2 : ∀ l, |fl (c * q l)| ≤ 1.02 * (C * |q l|) + φ.eta := by
    intro l
    have h1 := abs_sub_abs_le_abs_sub (fl (c * q l)) (c * q l)
    have h2 := mul_le_mul_of_nonneg_right u2 (mul_nonneg hC0 (abs_nonneg (q l)))
    have h3 : 0 ≤ C * |q l| := mul_nonneg hC0 (abs_nonneg _)
    linarith [P1 l, cq l]
  have hCp : 0 ≤ C * p := mul_nonneg hC0 hp0
  have hCp2 : C * p ≤ 2 * (m * C) := by
    have := mul_le_mul_of_nonneg_left hp2 hC0
    linarith
  -- (c * Q) @ Y
  have R0 : ∀ a, ∑ l, |fl (c * q l) * Y l a| ≤ 2.04 * (C * p) + 2 * (m * φ.eta) := by
    intro a
    calc ∑ l, |fl (c * q l) * Y l a| ≤ ∑ l, (2.04 * C * |q l| + 2 * φ.eta) := by
          refine Finset.sum_le_sum fun l _ => ?_
          rw [abs_mul]
          have := mul_le_mul (P2 l) (hY l a) (abs_nonneg _) (by positivity)
          linarith
      _ = 2.04 * (C * p) + 2 * (m * φ.eta) := by
          rw [Finset.sum_add_distrib, ← Finset.mul_sum, Finset.sum_const, Finset.card_univ, Fintype.card_fin, nsmul_eq_mul]
          ring
  have R1 : ∀ a, |r a - ∑ l, fl (c * q l) * Y l a| ≤ 2 * (m * φ.u) * (2.04 * (C * p) + 2 * (m * φ.eta)) + 2 * (m * φ.eta) := fun a =>
    (dot_err hn he hu (by linarith) (fun l => fl (c * q l)) (fun l => Y l a) (r a) _ (hr a) (R0 a) (by linarith)).1
  set R : Fin m → ℝ := fun a => ∑ l, c * q l * Y l a with hR
  have R2 : ∀ a, |∑ l, fl (c * q l) * Y l a - R a| ≤ 2 * φ.u * (C * p) + 2 * (m * φ.eta) := by
    intro a
    rw [hR, ← Finset.sum_sub_distrib]
    refine (Finset.abs_sum_le_sum_abs _ _).trans ?_
    calc ∑ l, |fl (c * q l) * Y l a - c * q l * Y l a| ≤ ∑ l, (2 * φ.u * C * |q l| + 2 * φ.eta) := by
          refine Finset.sum_le_sum fun l _ => ?_
          rw [← sub_mul, abs_mul]
          have := mul_le_mul (P1 l) (hY l a) (abs_nonneg _) (by positivity)
          linarith
      _ = 2 * φ.u * (C * p) + 2 * (m * φ.eta) := by
          rw [Finset.sum_add_distrib, ← Finset.mul_sum, Finset.sum_const, Finset.card_univ, Fintype.card_fin, nsmul_eq_mul]
          ring
  have muCp : 0 ≤ m * φ.u * (C * p) := by positivity
  have uCp : φ.u * (C * p) ≤ m * φ.u * (C * p) := by
    rw [mul_assoc]
    exact le_mul_of_one_le_left (by positivity) mr
  have mume : m * φ.u * (m * φ.eta) ≤ 1 / 64 * (m * φ.eta) := mul_le_mul_of_nonneg_right mu (by positivity)
  have R3 : ∀ a, |r a - R a| ≤ 7 * (m * φ.u) * (C * p) + 5 * (m * φ.eta) := by
    intro a
    have h1 := abs_sub_le (r a) (∑ l, fl (c * q l) * Y l a) (R a)
    linarith [R1 a, R2 a]
  have R4 : ∀ a, |R a| ≤ 2 * (C * p) := by
    intro a
    refine (Finset.abs_sum_le_sum_abs _ _).trans ?_
    calc ∑ l, |c * q l * Y l a| ≤ ∑ l, 2 * C * |q l| := by
          refine Finset.sum_le_sum fun l _ => ?_
          rw [abs_mul]
          have := mul_le_mul (cq l) (hY l a) (abs_nonneg _) (by positivity)
          linarith
      _ = 2 * (C * p) := by rw [← Finset.mul_sum]; ring
  have muCp2 : m * φ.u * (C * p) ≤ 1 / 64 * (C * p) := mul_le_mul_of_nonneg_right mu hCp
  have R5 : ∀ a, |r a| ≤ 2.2 * (C * p) + 5 * (m * φ.eta) := by
    intro a
    have h1 := abs_sub_abs_le_abs_sub (r a) (R a)
    linarith [R3 a, R4 a]
  -- the vector
  have w0 : ∀ a, |g a * Y ⟨0, hm⟩ a| ≤ 2 * Φ := fun a => by
    rw [abs_mul]
    have := mul_le_mul (hg a) (hY ⟨0, hm⟩ a) (abs_nonneg _) hΦ0
    linarith
  set w : Fin m → ℝ := fun a => fl (g a * Y ⟨0, hm⟩ a) with hw
  have w1 : ∀ a, |w a - g a * Y ⟨0, hm⟩ a| ≤ 2 * φ.u * Φ + φ.eta := fun a => by
    have := rnd hn he (w0 a) (by linarith)
    linarith
  have uΦ : φ.u * Φ ≤ 1 / 64 * Φ := mul_le_mul_of_nonneg_right u2 hΦ0
  have w2 : ∀ a, |w a| ≤ 2.1 * Φ := fun a => by
    have h1 := abs_sub_abs_le_abs_sub (w a) (g a * Y ⟨0, hm⟩ a)
    linarith [w0 a, w1 a]
  -- the product
  have hΦe : 0 ≤ Φ * (m * φ.eta) := by positivity
  have hΦe1 : Φ * (m * φ.eta) ≤ Φ * (1 / 64) := mul_le_mul_of_nonneg_left me1 hΦ0
  set V := m * ((2.2 * (C * p) + 5 * (m * φ.eta)) * (2.1 * Φ)) with hV
  have y0 : ∑ a, |r a * w a| ≤ V := by
    calc ∑ a, |r a * w a| ≤ ∑ _a : Fin m, (2.2 * (C * p) + 5 * (m * φ.eta)) * (2.1 * Φ) := by
          refine Finset.sum_le_sum fun a _ => ?_
          rw [abs_mul]
          exact mul_le_mul (R5 a) (w2 a) (abs_nonneg _) (by positivity)
      _ = V := by rw [Finset.sum_const, Finset.card_univ, Fintype.card_fin, nsmul_eq_mul]
  have hVeq : V = 4.62 * (m * (C * Φ * p)) + 10.5 * (m * (Φ * (m * φ.eta))) := by rw [hV]; ring
  have hCΦp : 0 ≤ C * Φ * p := by positivity
  have k1 : m * (C * Φ * p) ≤ 2 * (m ^ 2 * (C * Φ)) := by
    have := mul_le_mul_of_nonneg_left hp2 hCΦ0
    have := mul_le_mul_of_nonneg_left this mp.le
    linarith
  have k2 : m * (Φ * (m * φ.eta)) ≤ m * (Φ * (1 / 64)) := mul_le_mul_of_nonneg_left hΦe1 mp.le
  have k3 : 0 ≤ m ^ 2 * C := by positivity
  have k4 : 0 ≤ m ^ 2 * Φ := by positivity
  have y1 := (dot_err hn he hu (by linarith) r w y V hy y0 (by rw [hVeq]; linarith)).1
  have y2 : |r ⬝ᵥ w - ∑ a, R a * (g a * Y ⟨0, hm⟩ a)| ≤
      m * ((7 * (m * φ.u) * (C * p) + 5 * (m * φ.eta)) * (2.1 * Φ) + 2 * (C * p) * (2 * φ.u * Φ + φ.eta)) := by
    rw [dotProduct, ← Finset.sum_sub_distrib]
    refine (Finset.abs_sum_le_sum_abs _ _).trans ?_
    calc ∑ a, |r a * w a - R a * (g a * Y ⟨0, hm⟩ a)| ≤
          ∑ _a : Fin m, ((7 * (m * φ.u) * (C * p) + 5 * (m * φ.eta)) * (2.1 * Φ) + 2 * (C * p) * (2 * φ.u * Φ + φ.eta)) := by
          refine Finset.sum_le_sum fun a _ => ?_
          have e : r a * w a - R a * (g a * Y ⟨0, hm⟩ a) = (r a - R a) * w a + R a * (w a - g a * Y ⟨0, hm⟩ a) := by ring
          rw [e]
          refine (abs_add_le _ _).trans ?_
          rw [abs_mul, abs_mul]
          exact add_le_add (mul_le_mul (R3 a) (w2 a) (abs_nonneg _) (by positivity)) (mul_le_mul (R4 a) (w1 a) (abs_nonneg _) (by positivity))
      _ = _ := by rw [Finset.sum_const, Finset.card_univ, Fintype.card_fin, nsmul_eq_mul]
  have e2 : ∑ a, R a * (g a * Y ⟨0, hm⟩ a) = c * ∑ l, (∑ a, Y l a * (g a * Y ⟨0, hm⟩ a)) * q l := by
    rw [hR]
    simp only [Finset.sum_mul, Finset.mul_sum]
    rw [Finset.sum_comm]
    exact Finset.sum_congr rfl fun l _ => Finset.sum_congr rfl fun a _ => by ring
  rw [e2] at y2
  refine (abs_sub_le _ (r ⬝ᵥ w) _).trans ((add_le_add y1 y2).trans ?_)
  rw [hVeq]
  have j1 : m * φ.u * (m * (C * Φ * p)) = m ^ 2 * φ.u * (C * Φ) * p := by ring
  have j2 : m * φ.u * (m * (Φ * (m * φ.eta))) ≤ 1 / 64 * (m * (Φ * (m * φ.eta))) := mul_le_mul_of_nonneg_right mu (by positivity)
  have j3 : m * (φ.u * (C * Φ * p)) ≤ m ^ 2 * (φ.u * (C * Φ * p)) := mul_le_mul_of_nonneg_right m2 (by positivity)
  have j4 : m * (φ.eta * (C * p)) ≤ m * (φ.eta * (2 * (m * C))) := mul_le_mul_of_nonneg_left (mul_le_mul_of_nonneg_left hCp2 ep.le) mp.le
  have j5 : 0 ≤ m ^ 2 * (φ.u * (C * Φ * p)) := by positivity
  have j6 : 0 ≤ m ^ 2 * (Φ * φ.eta) := by positivity
  clear y1 y2 e2 y0 R0 R1 R2 R3 R4 R5 P1 P2 cq cq2 w0 w1 w2 htop hVeq k1 k2 k3 k4 hr hy
  linarith

/-- Operations rounded to nearest have the relative error `100 (n + m + 1) u`. -/
theorem qRounded_ok (hn : φ.Nearest fl) {E : QKernels n} {ω δ L H : ℝ} (hE : QKernelsRounded fl E m ω δ L H) (hn0 : 0 < n) (hm : 0 < m) (hR : φ.QRoom n m L H)
    (hω : 100 * (n + m + 1) * φ.u ≤ ω) : QKernelsOk E m ω δ L H := by
  have up := φ.u_pos
  have ep := φ.eta_pos
  have he := hR.exp
  have hL0 := hR.pos
  have hlow := hR.low
  have hone := hR.low_one
  have htop := hR.high
  have nr : (1 : ℝ) ≤ n := by exact_mod_cast hn0
  have mr : (1 : ℝ) ≤ m := by exact_mod_cast hm
  have nu : 0 ≤ n * φ.u := by positivity
  have mu : 0 ≤ m * φ.u := by positivity
  have ne : 0 ≤ n * φ.eta := by positivity
  have me : 0 ≤ m * φ.eta := by positivity
  have m21 : (1 : ℝ) ≤ m ^ 2 := one_le_pow₀ mr
  have uL : 0 < φ.u * L := by positivity
  have toH : ∀ X : ℝ, X ≤ H → 0 ≤ X → 300 * (m ^ 2 * X) + 100 ≤ φ.top := by
    intro X hX hX0
    have h1 : m ^ 2 * X ≤ m ^ 2 * H := mul_le_mul_of_nonneg_left hX (by positivity)
    have h2 := mul_self_nonneg H
    linarith
  have scale : ∀ X a : ℝ, 0 ≤ X → a ≤ 100 * (n + m + 1) → a * φ.u * X ≤ ω * X := by
    intro X a hX ha
    exact mul_le_mul_of_nonneg_right ((mul_le_mul_of_nonneg_right ha up.le).trans hω) hX
  refine ⟨hE.eigh, ?_, ?_, ?_, ?_⟩
  · intro g y Φ h1 h2 hg hy
    have hΦ : 0 ≤ Φ := hL0.le.trans h1
    have h3 := toH Φ h2 hΦ
    have h4 : Φ ≤ m ^ 2 * Φ := le_mul_of_one_le_left hΦ m21
    exact (wsum_rounded hn he hm hR.sizeM (L := L) (by linarith) (by linarith) h1 (by linarith) g y hg hy _ (hE.wsum g y)).trans (scale Φ (20 * m) hΦ (by linarith))
  · intro x h1 h2
    obtain ⟨s, hs, hx⟩ := hE.norm x
    rw [hx]
    refine (norm_rounded hn hR hn0 x h1 h2 s hs).trans ?_
    rw [← mul_assoc]
    exact scale (nrm x) (8 * n) (nrm_nonneg x) (by linarith)
  · intro a b X h1 h2 hX
    have hX0 : 0 ≤ X := hL0.le.trans h1
    have h3 := toH X h2 hX0
    have h4 : X ≤ m ^ 2 * X := le_mul_of_one_le_left hX0 m21
    rw [hE.mul]
    refine (rnd hn he hX (by linarith)).trans (le_trans ?_ (scale X 2 hX0 (by linarith)))
    have h5 : φ.u * L ≤ φ.u * X := mul_le_mul_of_nonneg_left h1 up.le
    have h6 : φ.eta ≤ n * φ.eta := le_mul_of_one_le_left ep.le nr
    linarith
  · intro c q Y g C Φ c1 c2 c3 c4 c5 c6 hc hq hY hg
    have hC0 : 0 ≤ C := hL0.le.trans c1
    have hΦ0 : 0 ≤ Φ := hL0.le.trans c2
    have hCΦ0 : 0 ≤ C * Φ := mul_nonneg hC0 hΦ0
    set p : Vec n := fun i => ∑ l : Fin m, |q l i| with hp
    set k := φ.eta * (2 * m + 16 * m ^ 2 * Φ + 4 * m ^ 2 * C) with hk
    have hk0 : 0 ≤ k := by positivity
    have he1 : φ.eta ≤ φ.u * Φ := by
      have h5 : φ.u * L ≤ φ.u * Φ := mul_le_mul_of_nonneg_left c2 up.le
      have h6 : φ.eta ≤ n * φ.eta := le_mul_of_one_le_left ep.le nr
      linarith
    have hent : ∀ i, |(E.prod m c q Y g - c • ∑ l : Fin m, (∑ a, Y l a * (g a * Y ⟨0, l.pos⟩ a)) • q l) i| ≤
        ((43 * m ^ 2 * φ.u * (C * Φ)) • p + fun _ => k : Vec n) i := by
      intro i
      obtain ⟨r, hr, hy⟩ := hE.prod c q Y g i
      have h1 := prod_entry hn he hm hR.sizeM (by linarith) (fun l : Fin m => q l i) (fun l => (abs_le_nrm _ i).trans (hq l l.2)) Y hY g c C Φ hc hg he1
        (by linarith [toH C c4 hC0, toH Φ c5 hΦ0, toH (C * Φ) c6 hCΦ0]) r hr _ hy
      simp only [Pi.sub_apply, Pi.add_apply, Pi.smul_apply, smul_eq_mul, Finset.sum_apply]
      exact h1
    refine (nrm_le_of_abs hent).trans ((nrm_add_le _ _).trans ?_)
    rw [nrm_smul, abs_of_nonneg (by positivity)]
    have h2 := nrm_const (n := n) k hk0
    have hpn : nrm p ≤ 2 * m := by
      have e : p = ∑ l : Fin m, fun i => |q l i| := by
        funext i
        rw [hp, Finset.sum_apply]
      rw [e]
      refine (nrm_sum_le _ _).trans ?_
      calc ∑ l : Fin m, nrm (fun i => |q l i|) ≤ ∑ _l : Fin m, 2 := Finset.sum_le_sum fun l _ => by
            refine le_trans (le_of_eq ?_) (hq l l.2)
            unfold nrm
            congr 1
            exact Finset.sum_congr rfl fun i _ => abs_mul_abs_self _
        _ = 2 * m := by
            rw [Finset.sum_const, Finset.card_univ, Fintype.card_fin, nsmul_eq_mul]
            ring
    have h3 : 43 * m ^ 2 * φ.u * (C * Φ) * nrm p ≤ 43 * m ^ 2 * φ.u * (C * Φ) * (2 * m) := mul_le_mul_of_nonneg_left hpn (by positivity)
    have n1 : n * φ.eta ≤ φ.u * L / 100 := by linarith
    have n2 : n * φ.eta ≤ φ.u * (C * Φ) / 100 := by
      have := mul_le_mul_of_nonneg_left c3 up.le
      linarith
    have n3 : n * φ.eta * Φ ≤ φ.u * (C * Φ) / 100 := by
      have h5 := mul_le_mul_of_nonneg_right n1 hΦ0
      have h6 := mul_le_mul_of_nonneg_right (mul_le_mul_of_nonneg_left c1 up.le) hΦ0
      linarith
    have n4 : n * φ.eta * C ≤ φ.u * (C * Φ) / 100 := by
      have h5 := mul_le_mul_of_nonneg_right n1 hC0
      have h6 := mul_le_mul_of_nonneg_right (mul_le_mul_of_nonneg_left c2 up.le) hC0
      linarith
    have m3 : (m : ℝ) ≤ m ^ 2 := by nlinarith
    have h4 : n * k ≤ m ^ 2 * (φ.u * (C * Φ)) := by
      have a1 : m ^ 2 * (n * φ.eta) ≤ m ^ 2 * (φ.u * (C * Φ) / 100) := mul_le_mul_of_nonneg_left n2 (by positivity)
      have a2 : m ^ 2 * (n * φ.eta * Φ) ≤ m ^ 2 * (φ.u * (C * Φ) / 100) := mul_le_mul_of_nonneg_left n3 (by positivity)
      have a3 : m ^ 2 * (n * φ.eta * C) ≤ m ^ 2 * (φ.u * (C * Φ) / 100) := mul_le_mul_of_nonneg_left n4 (by positivity)
      have a4 : m * (n * φ.eta) ≤ m ^ 2 * (n * φ.eta) := mul_le_mul_of_nonneg_right m3 ne
      have a5 : 0 ≤ m ^ 2 * (φ.u * (C * Φ)) := by positivity
      have e : n * k = 2 * (m * (n * φ.eta)) + 16 * (m ^ 2 * (n * φ.eta * Φ)) + 4 * (m ^ 2 * (n * φ.eta * C)) := by rw [hk]; ring
      rw [e]
      linarith
    have h5 := scale (m ^ 2 * (C * Φ)) (86 * m + 1) (by positivity) (by linarith)
    have e : (86 * (m : ℝ) + 1) * φ.u * (m ^ 2 * (C * Φ)) = 43 * m ^ 2 * φ.u * (C * Φ) * (2 * m) + m ^ 2 * (φ.u * (C * Φ)) := by ring
    rw [e] at h5
    linarith

theorem binary64_qroom (n m : ℕ) (hn : n ≤ 2 ^ 40) (hm : m ≤ 2 ^ 40) : binary64.QRoom n m ((2 : ℝ) ^ (-400 : ℤ)) ((2 : ℝ) ^ (400 : ℤ)) := by
  have hn' : (n : ℝ) ≤ (2 : ℝ) ^ (40 : ℤ) := by
    have : (n : ℝ) ≤ ((2 ^ 40 : ℕ) : ℝ) := by exact_mod_cast hn
    refine this.trans (le_of_eq ?_)
    norm_num
  have hm' : (m : ℝ) ≤ (2 : ℝ) ^ (40 : ℤ) := by
    have : (m : ℝ) ≤ ((2 ^ 40 : ℕ) : ℝ) := by exact_mod_cast hm
    refine this.trans (le_of_eq ?_)
    norm_num
  have two : (0 : ℝ) < 2 := by norm_num
  have mono : ∀ {a b : ℤ}, a ≤ b → (2 : ℝ) ^ a ≤ (2 : ℝ) ^ b := fun h => zpow_le_zpow_right₀ (by norm_num) h
  have pos : ∀ a : ℤ, (0 : ℝ) < (2 : ℝ) ^ a := fun a => zpow_pos two a
  have add : ∀ a b : ℤ, (2 : ℝ) ^ a * (2 : ℝ) ^ b = (2 : ℝ) ^ (a + b) := fun a b => (zpow_add₀ two.ne' a b).symm
  have htop : (2 : ℝ) ^ (1000 : ℤ) ≤ binary64.top := by
    unfold Fmt.top binary64
    have e : (2 : ℝ) ^ (1000 : ℤ) = 2 ^ 29 * (2 : ℝ) ^ (971 : ℤ) := by
      rw [show (1000 : ℤ) = 29 + 971 by norm_num, zpow_add₀ two.ne']
      norm_num
    rw [e]
    exact mul_le_mul_of_nonneg_right (by norm_num) (pos _).le
  have hu : binary64.u = (2 : ℝ) ^ (-53 : ℤ) := rfl
  have heta : binary64.eta = (2 : ℝ) ^ (-1075 : ℤ) := rfl
  have small : ∀ k : ℕ, (k : ℝ) ≤ (2 : ℝ) ^ (40 : ℤ) → 64 * k * binary64.u ≤ 1 := by
    intro k hk
    rw [hu]
    have : (k : ℝ) * (2 : ℝ) ^ (-53 : ℤ) ≤ (2 : ℝ) ^ (-13 : ℤ) := by
      refine (mul_le_mul_of_nonneg_right hk (pos _).le).trans (le_of_eq ?_)
      rw [add]; norm_num
    have e : (2 : ℝ) ^ (-13 : ℤ) = 1 / 8192 := by norm_num
    rw [e] at this
    rw [mul_assoc]
    generalize (k : ℝ) * (2 : ℝ) ^ (-53 : ℤ) = z at this
    linarith
  have hne : (n : ℝ) * binary64.eta ≤ (2 : ℝ) ^ (-1035 : ℤ) := by
    rw [heta]
    refine (mul_le_mul_of_nonneg_right hn' (pos _).le).trans (le_of_eq ?_)
    rw [add]; norm_num
  have hme : (m : ℝ) * binary64.eta ≤ (2 : ℝ) ^ (-1035 : ℤ) := by
    rw [heta]
    refine (mul_le_mul_of_nonneg_right hm' (pos _).le).trans (le_of_eq ?_)
    rw [add]; norm_num
  have h256 : (256 : ℝ) * (2 : ℝ) ^ (-1035 : ℤ) = (2 : ℝ) ^ (-1027 : ℤ) := by
    have e : (256 : ℝ) = (2 : ℝ) ^ (8 : ℤ) := by norm_num
    rw [e, add]; norm_num
  have p0 := pos (-1035)
  refine ⟨by norm_num [binary64], small n hn', small m hm', pos _, ?_, ?_, ?_, ?_⟩
  · rw [hu, add]
    have h1 : (2 : ℝ) ^ (-1027 : ℤ) ≤ (2 : ℝ) ^ (-53 + -400 : ℤ) := mono (by norm_num)
    rw [add_mul]
    generalize (2 : ℝ) ^ (-1035 : ℤ) = X at *
    generalize (2 : ℝ) ^ (-1027 : ℤ) = Z at *
    linarith
  · rw [hu, add, add, add]
    have h1 : (2 : ℝ) ^ (-1027 : ℤ) ≤ (2 : ℝ) ^ (-53 + -53 + (-400 + -400) : ℤ) := mono (by norm_num)
    generalize (2 : ℝ) ^ (-1035 : ℤ) = X at *
    generalize (2 : ℝ) ^ (-1027 : ℤ) = Z at *
    linarith
  · rw [hu]
    have h1 : (2 : ℝ) ^ (-1027 : ℤ) ≤ (2 : ℝ) ^ (-53 : ℤ) := mono (by norm_num)
    rw [add_mul]
    generalize (2 : ℝ) ^ (-1035 : ℤ) = X at *
    generalize (2 : ℝ) ^ (-1027 : ℤ) = Z at *
    linarith
  · rw [add]
    have h1 : (m : ℝ) ^ 2 * (2 : ℝ) ^ (400 : ℤ) ≤ (2 : ℝ) ^ (480 : ℤ) := by
      have h2 : (m : ℝ) ^ 2 ≤ (2 : ℝ) ^ (80 : ℤ) := by
        have := mul_le_mul hm' hm' (Nat.cast_nonneg m) (pos _).le
        rw [add] at this
        rw [sq]
        exact this.trans (le_of_eq (by norm_num))
      refine (mul_le_mul_of_nonneg_right h2 (pos _).le).trans (le_of_eq ?_)
      rw [add]; norm_num
    have h2 : (2 : ℝ) ^ (480 : ℤ) ≤ (2 : ℝ) ^ (400 + 400 : ℤ) := mono (by norm_num)
    have h3 : (1 : ℝ) ≤ (2 : ℝ) ^ (400 + 400 : ℤ) := by
      have := mono (show (0 : ℤ) ≤ 400 + 400 by norm_num)
      simpa using this
    have h4 : (1024 : ℝ) * (2 : ℝ) ^ (400 + 400 : ℤ) ≤ (2 : ℝ) ^ (1000 : ℤ) := by
      have e : (1024 : ℝ) = (2 : ℝ) ^ (10 : ℤ) := by norm_num
      rw [e, add]
      exact mono (by norm_num)
    clear hne hme h256 p0 small
    generalize (2 : ℝ) ^ (400 + 400 : ℤ) = X at *
    generalize (2 : ℝ) ^ (480 : ℤ) = Y at *
    generalize (2 : ℝ) ^ (1000 : ℤ) = Z at *
    generalize (m : ℝ) ^ 2 * (2 : ℝ) ^ (400 : ℤ) = W at *
    linarith

/-- There are such operations for every rounding. -/
theorem qRounded_exist (fl : ℝ → ℝ) (hn0 : 0 < n) (hm : 0 < m) {ω : ℝ} (hω : 0 ≤ ω) (δ L H : ℝ) : ∃ E : QKernels n, QKernelsRounded fl E m ω δ L H := by
  have h1 : ∀ (k : ℕ) (f : Fin k → ℝ × ℝ), ∃ s, 0 < k → DotOrder fl (List.ofFn f) s := fun k f => by
    rcases Nat.eq_zero_or_pos k with h | h
    · exact ⟨0, fun h' => absurd h' (by omega)⟩
    · obtain ⟨s, hs⟩ := DotOrder.exists fl (List.ofFn f) (by simp only [ne_eq, List.ofFn_eq_nil_iff]; omega)
      exact ⟨s, fun _ => hs⟩
  have h2 : ∀ (k : ℕ) (f : Fin k → ℝ), ∃ s, 0 < k → SumOrder fl (List.ofFn f) s := fun k f => by
    rcases Nat.eq_zero_or_pos k with h | h
    · exact ⟨0, fun h' => absurd h' (by omega)⟩
    · obtain ⟨s, hs⟩ := SumOrder.exists fl (List.ofFn f) (by simp only [ne_eq, List.ofFn_eq_nil_iff]; omega)
      exact ⟨s, fun _ => hs⟩
  have hj : ∀ (k : ℕ) (d e : ℕ → ℝ), ∃ r : (Fin k → ℝ) × Matrix (Fin k) (Fin k) ℝ, IsEigh (jacobi k d e) r.1 r.2 := by
    intro k d e
    obtain ⟨w, V, h⟩ := exists_isEigh (jacobi k d e) (jac_symm d (fun i => e (i - 1)) k)
    exact ⟨(w, V), h⟩
  choose D hD using h1
  choose T hT using h2
  choose ei hei using hj
  refine ⟨⟨ei, fun k g y => T k fun j => fl (g j * fl (y j * y j)), fun x => fl (Real.sqrt (D n fun i => (x i, x i))), fun a b => fl (a * b),
    fun k c q Y g i => D k fun a => (D k fun l => (fl (c * q l i), Y l a), fl (g a * Y ⟨0, a.pos⟩ a))⟩, ?_, fun g y => hT m _ hm, fun x => ⟨_, hD n _ hn0, rfl⟩,
    fun _ _ => rfl, fun c q Y g i => ⟨_, fun a => hD m _ hm, hD m _ hm⟩⟩
  intro d e S _ _ _ _
  refine ⟨0, (ei m d e).2, ?_, ?_, ?_⟩
  · simp only [Matrix.zero_apply, ne_eq, OfNat.ofNat_ne_zero, not_false_eq_true, zero_pow, Finset.sum_const_zero]
    exact sq_nonneg _
  · rw [add_zero]
    exact isEigh_iff_eigen.1 (hei m d e)
  · intro i j
    simpa using hω

end Primate
