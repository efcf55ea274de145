import Verif.Spec.TqliFl
import Verif.Lemmas.Tqli
import Verif.Lemmas.QuadPad

/-!
# Rounding errors of the implicit QL sweep
-/

set_option linter.unusedSimpArgs false

noncomputable section

namespace Primate

open Matrix Spec

/-! ## Scalars -/

/-- Rounding an approximation. -/
theorem fl_near {fl : ℝ → ℝ} {ε : ℝ} (h : ∀ x, |fl x - x| ≤ ε * |x|) (h0 : 0 ≤ ε) {x y a b : ℝ} (hx : |x - y| ≤ a) (hy : |y| ≤ b) : |fl x - y| ≤ a + ε * (b + a) := by
  have h1 := h x
  have h2 : |x| ≤ b + a := by
    calc |x| = |y + (x - y)| := by ring_nf
      _ ≤ |y| + |x - y| := abs_add_le _ _
      _ ≤ b + a := add_le_add hy hx
  calc |fl x - y| = |(fl x - x) + (x - y)| := by ring_nf
    _ ≤ |fl x - x| + |x - y| := abs_add_le _ _
    _ ≤ ε * (b + a) + a := add_le_add (h1.trans (mul_le_mul_of_nonneg_left h2 h0)) hx
    _ = _ := by ring

theorem mul_near {x y x0 y0 a b X Y : ℝ} (hx : |x - x0| ≤ a) (hy : |y - y0| ≤ b) (hX : |x0| ≤ X) (hY : |y0| ≤ Y) :
    |x * y - x0 * y0| ≤ a * Y + X * b + a * b := by
  have ha : 0 ≤ a := (abs_nonneg _).trans hx
  have hX0 : 0 ≤ X := (abs_nonneg _).trans hX
  calc |x * y - x0 * y0| = |(x - x0) * y0 + x0 * (y - y0) + (x - x0) * (y - y0)| := by ring_nf
    _ ≤ |x - x0| * |y0| + |x0| * |y - y0| + |x - x0| * |y - y0| := by
      rw [← abs_mul, ← abs_mul, ← abs_mul]; exact abs_add_three _ _ _
    _ ≤ a * Y + X * b + a * b := by gcongr

theorem hypot_lip (x x' y : ℝ) : |hypot x y - hypot x' y| ≤ |x - x'| := by
  have key : ∀ x x', hypot x y ≤ hypot x' y + |x - x'| := by
    intro x x'
    have h1 : 0 ≤ hypot x' y := Real.sqrt_nonneg _
    have h2 := hypot_sq x' y
    have h3 : |x'| ≤ hypot x' y := by
      unfold hypot; rw [← Real.sqrt_sq_eq_abs]; exact Real.sqrt_le_sqrt (by nlinarith [sq_nonneg y])
    have h4 := abs_nonneg (x - x')
    unfold hypot at *
    refine Real.sqrt_le_iff.2 ⟨by positivity, ?_⟩
    have h5 : x ^ 2 ≤ (|x'| + |x - x'|) ^ 2 := by
      rw [← sq_abs x]
      refine pow_le_pow_left₀ (abs_nonneg _) ?_ 2
      calc |x| = |x' + (x - x')| := by ring_nf
        _ ≤ _ := abs_add_le _ _
    have h6 := sq_abs x'
    nlinarith [mul_le_mul_of_nonneg_right h3 h4, sq_abs (x - x')]
  rw [abs_le]
  have a := key x x'
  have b := key x' x
  rw [abs_sub_comm x' x] at b
  constructor <;> linarith

theorem abs_le_hypot_left (x y : ℝ) : |x| ≤ hypot x y := by
  unfold hypot; rw [← Real.sqrt_sq_eq_abs]; exact Real.sqrt_le_sqrt (by nlinarith [sq_nonneg y])

theorem abs_le_hypot_right (x y : ℝ) : |y| ≤ hypot x y := by
  unfold hypot; rw [← Real.sqrt_sq_eq_abs]; exact Real.sqrt_le_sqrt (by nlinarith [sq_nonneg x])

theorem hypot_le_add (x y : ℝ) : hypot x y ≤ |x| + |y| := by
  unfold hypot
  refine Real.sqrt_le_iff.2 ⟨by positivity, ?_⟩
  nlinarith [sq_abs x, sq_abs y, mul_nonneg (abs_nonneg x) (abs_nonneg y)]

/-- The computed rotation is near the exact one. -/
theorem rot_near {K : TqliKernels} {ε : ℝ} (hK : TqliOk K ε) (h0 : 0 ≤ ε) (h1 : ε ≤ 1 / 100) (φ γ : ℝ) (hφ : φ ≠ 0) :
    K.hyp (K.fl φ) γ ≠ 0 ∧ |K.hyp (K.fl φ) γ - hypot φ γ| ≤ 201 / 100 * ε * hypot φ γ ∧
      |K.fl (K.fl φ / K.hyp (K.fl φ) γ) - φ / hypot φ γ| ≤ 5 * ε ∧ |K.fl (γ / K.hyp (K.fl φ) γ) - γ / hypot φ γ| ≤ 5 * ε := by
  have hρ : 0 < hypot φ γ := lt_of_le_of_ne (Real.sqrt_nonneg _) (hypot_ne_zero γ hφ).symm
  have hf := hK.round φ
  have hh : |K.hyp (K.fl φ) γ - hypot (K.fl φ) γ| ≤ ε * hypot (K.fl φ) γ := hK.hyp _ _
  generalize K.hyp (K.fl φ) γ = r at *
  generalize K.fl φ = f at *
  have hl := hypot_lip f φ γ
  have hφρ := abs_le_hypot_left φ γ
  have hγρ := abs_le_hypot_right φ γ
  generalize hypot f γ = ρ' at *
  generalize hypot φ γ = ρ at *
  have a1 : |f - φ| ≤ ε * ρ := hf.trans (mul_le_mul_of_nonneg_left hφρ h0)
  have a2 : |ρ' - ρ| ≤ ε * ρ := hl.trans a1
  have hεερ : ε * (ε * ρ) ≤ 1 / 100 * (ε * ρ) := mul_le_mul_of_nonneg_right h1 (by positivity)
  have a3 : |r - ρ| ≤ 201 / 100 * ε * ρ := by
    have : ρ' ≤ ρ + ε * ρ := by linarith [(abs_le.1 a2).2]
    calc |r - ρ| = |(r - ρ') + (ρ' - ρ)| := by ring_nf
      _ ≤ |r - ρ'| + |ρ' - ρ| := abs_add_le _ _
      _ ≤ ε * (ρ + ε * ρ) + ε * ρ := add_le_add (hh.trans (mul_le_mul_of_nonneg_left this h0)) a2
      _ ≤ _ := by linarith
  have hr : 979 / 1000 * ρ ≤ r := by
    have := (abs_le.1 a3).1
    nlinarith
  have hr0 : 0 < r := lt_of_lt_of_le (by positivity) hr
  have key : ∀ z z', |z' - z| ≤ ε * |z| → |z| ≤ ρ → |K.fl (z' / r) - z / ρ| ≤ 5 * ε := by
    intro z z' hz hzρ
    have hzr : |z / ρ| ≤ 1 := by rw [abs_div, abs_of_pos hρ, div_le_one hρ]; exact hzρ
    have b1 : |z' / r - z / ρ| ≤ 308 / 100 * ε := by
      have e : z' / r - z / ρ = ((z' - z) + z / ρ * (ρ - r)) / r := by field_simp; ring
      rw [e, abs_div, abs_of_pos hr0, div_le_iff₀ hr0]
      calc |(z' - z) + z / ρ * (ρ - r)| ≤ |z' - z| + |z / ρ| * |ρ - r| := by rw [← abs_mul]; exact abs_add_le _ _
        _ ≤ ε * ρ + 1 * (201 / 100 * ε * ρ) := by
          refine add_le_add (hz.trans (mul_le_mul_of_nonneg_left hzρ h0)) (mul_le_mul hzr ?_ (abs_nonneg _) zero_le_one)
          rw [abs_sub_comm]; exact a3
        _ ≤ 308 / 100 * ε * (979 / 1000 * ρ) := by nlinarith [mul_nonneg h0 hρ.le]
        _ ≤ _ := mul_le_mul_of_nonneg_left hr (by positivity)
    have b2 := fl_near hK.round h0 b1 hzr
    nlinarith
  refine ⟨hr0.ne', a3, key φ f hf hφρ, key γ γ ?_ hγρ⟩
  rw [sub_self, abs_zero]; positivity

/-- The numbers computed by one rotation, compared with exact arithmetic. -/
theorem step_near {fl : ℝ → ℝ} {ε M : ℝ} (hfl : ∀ x, |fl x - x| ≤ ε * |x|) (h0 : 0 ≤ ε) (h1 : ε ≤ 1 / 100) {s c s' c' a0 a1 β : ℝ}
    (hs : |s' - s| ≤ 5 * ε) (hc : |c' - c| ≤ 5 * ε) (hs1 : |s| ≤ 1) (hc1 : |c| ≤ 1) (ha0 : |a0| ≤ M) (ha1 : |a1| ≤ M) (hβ : |β| ≤ M) :
    |fl (s' * fl (fl (fl (a0 - fl a1) * s') + fl (fl (2 * c') * fl β))) - s * ((a0 - a1) * s + 2 * c * β)| ≤ 66 * (ε * M) ∧
      |fl (fl a1 + fl (s' * fl (fl (fl (a0 - fl a1) * s') + fl (fl (2 * c') * fl β)))) - (a1 + s * ((a0 - a1) * s + 2 * c * β))| ≤ 75 * (ε * M) ∧
      |fl (fl (c' * fl (fl (fl (a0 - fl a1) * s') + fl (fl (2 * c') * fl β))) - fl β) - (c * ((a0 - a1) * s + 2 * c * β) - β)| ≤ 75 * (ε * M) := by
  have hM : 0 ≤ M := (abs_nonneg _).trans ha0
  have hu : 0 ≤ ε * M := mul_nonneg h0 hM
  have hee : ε * ε ≤ 1 / 100 * ε := mul_le_mul_of_nonneg_right h1 h0
  have heu : ε * (ε * M) ≤ 1 / 100 * (ε * M) := mul_le_mul_of_nonneg_right h1 hu
  have hg : |fl a1 - a1| ≤ ε * M := (hfl a1).trans (mul_le_mul_of_nonneg_left ha1 h0)
  have hb : |fl β - β| ≤ ε * M := (hfl β).trans (mul_le_mul_of_nonneg_left hβ h0)
  have hd : |a0 - a1| ≤ 2 * M := (abs_sub _ _).trans (by linarith)
  generalize fl a1 = g at *
  generalize fl β = b at *
  have t1 : |fl (a0 - g) - (a0 - a1)| ≤ 31 / 10 * (ε * M) := by
    have h : |(a0 - g) - (a0 - a1)| ≤ ε * M := by rw [show (a0 - g) - (a0 - a1) = -(g - a1) by ring, abs_neg]; exact hg
    have := fl_near hfl h0 h hd
    linarith
  generalize fl (a0 - g) = x1 at *
  have t2 : |fl (x1 * s') - (a0 - a1) * s| ≤ 16 * (ε * M) := by
    have h := mul_near t1 hs hd hs1
    have hds : |(a0 - a1) * s| ≤ 2 * M := by rw [abs_mul]; simpa using mul_le_mul hd hs1 (abs_nonneg _) (by linarith)
    have := fl_near hfl h0 h hds
    have e1 : 31 / 10 * (ε * M) * 1 + 2 * M * (5 * ε) + 31 / 10 * (ε * M) * (5 * ε) ≤ 133 / 10 * (ε * M) := by linarith
    have e2 : ε * (2 * M + (31 / 10 * (ε * M) * 1 + 2 * M * (5 * ε) + 31 / 10 * (ε * M) * (5 * ε))) ≤ ε * (2 * M + 133 / 10 * (ε * M)) :=
      mul_le_mul_of_nonneg_left (by linarith) h0
    linarith
  generalize fl (x1 * s') = x2 at *
  have t3 : |fl (2 * c') - 2 * c| ≤ 13 * ε := by
    have h : |2 * c' - 2 * c| ≤ 10 * ε := by rw [← mul_sub, abs_mul, abs_of_pos two_pos]; linarith
    have hc2 : |2 * c| ≤ 2 := by rw [abs_mul, abs_of_pos two_pos]; linarith
    have := fl_near hfl h0 h hc2
    linarith
  generalize fl (2 * c') = x3 at *
  have hc2 : |2 * c| ≤ 2 := by rw [abs_mul, abs_of_pos two_pos]; linarith
  have t4 : |fl (x3 * b) - 2 * c * β| ≤ 18 * (ε * M) := by
    have h := mul_near t3 hb hc2 hβ
    have hds : |2 * c * β| ≤ 2 * M := by rw [abs_mul]; exact mul_le_mul hc2 hβ (abs_nonneg _) zero_le_two
    have := fl_near hfl h0 h hds
    have e1 : 13 * ε * M + 2 * (ε * M) + 13 * ε * (ε * M) ≤ 1513 / 100 * (ε * M) := by linarith
    have e2 : ε * (2 * M + (13 * ε * M + 2 * (ε * M) + 13 * ε * (ε * M))) ≤ ε * (2 * M + 1513 / 100 * (ε * M)) := mul_le_mul_of_nonneg_left (by linarith) h0
    linarith
  generalize fl (x3 * b) = x4 at *
  have hR : |(a0 - a1) * s + 2 * c * β| ≤ 4 * M := by
    have i1 : |(a0 - a1) * s| ≤ 2 * M := by rw [abs_mul]; simpa using mul_le_mul hd hs1 (abs_nonneg _) (by linarith)
    have i2 : |2 * c * β| ≤ 2 * M := by rw [abs_mul]; exact mul_le_mul hc2 hβ (abs_nonneg _) zero_le_two
    exact (abs_add_le _ _).trans (by linarith)
  have t5 : |fl (x2 + x4) - ((a0 - a1) * s + 2 * c * β)| ≤ 39 * (ε * M) := by
    have h : |x2 + x4 - ((a0 - a1) * s + 2 * c * β)| ≤ 34 * (ε * M) := by
      rw [show x2 + x4 - ((a0 - a1) * s + 2 * c * β) = (x2 - (a0 - a1) * s) + (x4 - 2 * c * β) by ring]
      exact (abs_add_le _ _).trans (by linarith)
    have := fl_near hfl h0 h hR
    linarith
  generalize fl (x2 + x4) = r at *
  generalize (a0 - a1) * s + 2 * c * β = R at *
  have prod : ∀ w w', |w' - w| ≤ 5 * ε → |w| ≤ 1 → |fl (w' * r) - w * R| ≤ 66 * (ε * M) ∧ |w * R| ≤ 4 * M := by
    intro w w' hw hw1
    have h := mul_near hw t5 hw1 hR
    have hds : |w * R| ≤ 4 * M := by rw [abs_mul]; simpa using mul_le_mul hw1 hR (abs_nonneg _) zero_le_one
    have := fl_near hfl h0 h hds
    have e1 : 5 * ε * (4 * M) + 1 * (39 * (ε * M)) + 5 * ε * (39 * (ε * M)) ≤ 61 * (ε * M) := by linarith
    have e2 : ε * (4 * M + (5 * ε * (4 * M) + 1 * (39 * (ε * M)) + 5 * ε * (39 * (ε * M)))) ≤ ε * (4 * M + 61 * (ε * M)) := mul_le_mul_of_nonneg_left (by linarith) h0
    exact ⟨by linarith, hds⟩
  obtain ⟨p1, p2⟩ := prod s s' hs hs1
  obtain ⟨q1, q2⟩ := prod c c' hc hc1
  refine ⟨p1, ?_, ?_⟩
  · have h : |g + fl (s' * r) - (a1 + s * R)| ≤ 67 * (ε * M) := by
      rw [show g + fl (s' * r) - (a1 + s * R) = (g - a1) + (fl (s' * r) - s * R) by ring]
      exact (abs_add_le _ _).trans (by linarith)
    have hb2 : |a1 + s * R| ≤ 5 * M := (abs_add_le _ _).trans (by linarith)
    have := fl_near hfl h0 h hb2
    linarith
  · have h : |fl (c' * r) - b - (c * R - β)| ≤ 67 * (ε * M) := by
      rw [show fl (c' * r) - b - (c * R - β) = (fl (c' * r) - c * R) - (b - β) by ring]
      exact (abs_sub _ _).trans (by linarith)
    have hb2 : |c * R - β| ≤ 5 * M := (abs_sub _ _).trans (by linarith)
    have := fl_near hfl h0 h hb2
    linarith

/-! ## Matrices -/

/-- The Frobenius norm. -/
def frob {p q : ℕ} (A : Matrix (Fin p) (Fin q) ℝ) : ℝ := Real.sqrt (frobSq A)

theorem frob_nonneg {p q : ℕ} (A : Matrix (Fin p) (Fin q) ℝ) : 0 ≤ frob A := Real.sqrt_nonneg _

theorem frob_add {p q : ℕ} (A B : Matrix (Fin p) (Fin q) ℝ) : frob (A + B) ≤ frob A + frob B := frob_add_le A B

theorem frob_neg {p q : ℕ} (A : Matrix (Fin p) (Fin q) ℝ) : frob (-A) = frob A := by
  unfold frob frobSq
  simp

theorem frob_sub_comm {p q : ℕ} (A B : Matrix (Fin p) (Fin q) ℝ) : frob (A - B) = frob (B - A) := by
  rw [← frob_neg, neg_sub]

theorem frob_tri {p q : ℕ} (A B C : Matrix (Fin p) (Fin q) ℝ) : frob (A - C) ≤ frob (A - B) + frob (B - C) := by
  have := frob_add (A - B) (B - C)
  rwa [sub_add_sub_cancel] at this

theorem frob_le_add_sub {p q : ℕ} (A B : Matrix (Fin p) (Fin q) ℝ) : frob A ≤ frob B + frob (A - B) := by
  have := frob_add B (A - B)
  rwa [add_sub_cancel] at this

theorem frob_sim {n : ℕ} (A G : Matrix (Fin n) (Fin n) ℝ) (hG : Gᵀ * G = 1) : frob (Gᵀ * A * G) = frob A := by
  have hG' := mul_eq_one_comm.1 hG
  unfold frob
  rw [frobSq_rotate A G G hG' hG']

theorem frob_mul_orth {p n : ℕ} (A : Matrix (Fin p) (Fin n) ℝ) (G : Matrix (Fin n) (Fin n) ℝ) (hG : Gᵀ * G = 1) : frob (A * G) = frob A := by
  have hG' := mul_eq_one_comm.1 hG
  have := frobSq_rotate' A 1 G (by simp) hG'
  rw [Matrix.transpose_one, Matrix.one_mul] at this
  unfold frob
  rw [this]

theorem abs_le_frob {p q : ℕ} (A : Matrix (Fin p) (Fin q) ℝ) (i : Fin p) (j : Fin q) : |A i j| ≤ frob A := by
  unfold frob frobSq
  rw [← Real.sqrt_sq_eq_abs]
  refine Real.sqrt_le_sqrt ?_
  refine (Finset.single_le_sum (f := fun j => A i j ^ 2) (fun _ _ => sq_nonneg _) (Finset.mem_univ j)).trans ?_
  exact Finset.single_le_sum (f := fun i => ∑ j, A i j ^ 2) (fun _ _ => Finset.sum_nonneg fun _ _ => sq_nonneg _) (Finset.mem_univ i)

theorem corner_sub (n : ℕ) (S S' : ℕ → ℕ → ℝ) : corner n S - corner n S' = corner n fun a b => S a b - S' a b := rfl

theorem window_card (n lo : ℕ) : ∑ a : Fin n, (if lo ≤ (a : ℕ) ∧ (a : ℕ) < lo + 4 then (1 : ℝ) else 0) ≤ 4 := by
  rw [Fin.sum_univ_eq_sum_range (fun a => if lo ≤ a ∧ a < lo + 4 then (1 : ℝ) else 0) n, ← Finset.sum_filter, Finset.sum_const, nsmul_eq_mul, mul_one]
  have : (Finset.filter (fun a => lo ≤ a ∧ a < lo + 4) (Finset.range n)).card ≤ 4 := by
    refine (Finset.card_le_card (t := Finset.Ico lo (lo + 4)) fun a ha => ?_).trans (by simp)
    rw [Finset.mem_filter] at ha
    exact Finset.mem_Ico.2 ha.2
  exact_mod_cast this

/-- An array that vanishes outside of four consecutive rows and columns. -/
theorem frob_window (n lo : ℕ) (E : ℕ → ℕ → ℝ) (κ : ℝ) (hκ : 0 ≤ κ) (hb : ∀ a < n, ∀ b < n, |E a b| ≤ κ)
    (h0 : ∀ a b, ¬ (lo ≤ a ∧ a < lo + 4 ∧ lo ≤ b ∧ b < lo + 4) → E a b = 0) : frob (corner n E) ≤ 4 * κ := by
  unfold frob
  refine Real.sqrt_le_iff.2 ⟨by positivity, ?_⟩
  unfold frobSq
  have h1 : ∀ a b : Fin n, corner n E a b ^ 2 ≤
      κ ^ 2 * ((if lo ≤ (a : ℕ) ∧ (a : ℕ) < lo + 4 then (1 : ℝ) else 0) * (if lo ≤ (b : ℕ) ∧ (b : ℕ) < lo + 4 then (1 : ℝ) else 0)) := by
    intro a b
    change E a b ^ 2 ≤ _
    by_cases ha : lo ≤ (a : ℕ) ∧ (a : ℕ) < lo + 4
    · by_cases hb' : lo ≤ (b : ℕ) ∧ (b : ℕ) < lo + 4
      · rw [if_pos ha, if_pos hb', one_mul, mul_one, ← sq_abs]
        exact pow_le_pow_left₀ (abs_nonneg _) (hb a a.2 b b.2) 2
      · rw [h0 a b (fun h => hb' ⟨h.2.2.1, h.2.2.2⟩), if_neg hb']; simp
    · rw [h0 a b (fun h => ha ⟨h.1, h.2.1⟩), if_neg ha]; simp
  refine (Finset.sum_le_sum fun a _ => Finset.sum_le_sum fun b _ => h1 a b).trans ?_
  simp_rw [← Finset.mul_sum]
  rw [← Finset.sum_mul]
  have hw := window_card n lo
  have hw0 : 0 ≤ ∑ a : Fin n, (if lo ≤ (a : ℕ) ∧ (a : ℕ) < lo + 4 then (1 : ℝ) else 0) := Finset.sum_nonneg fun _ _ => by split_ifs <;> norm_num
  have := mul_le_mul hw hw hw0 (by norm_num : (0 : ℝ) ≤ 4)
  nlinarith [sq_nonneg κ]

/-- Two arrays given by diagonals that differ in four consecutive rows only. -/
theorem frob_band_sub (n i : ℕ) (U U' : ℕ → ℕ → ℝ) (κ : ℝ) (hκ : 0 ≤ κ) (hb : ∀ j t, j + t < n → |U j t - U' j t| ≤ κ)
    (h0 : ∀ j t, ¬ (i ≤ j + 1 ∧ j + t ≤ i + 2) → U j t = U' j t) : frob (corner n (band U) - corner n (band U')) ≤ 4 * κ := by
  rw [corner_sub]
  refine frob_window n (i - 1) _ κ hκ ?_ ?_
  · intro a ha b hb'
    unfold band
    split_ifs with h
    · exact hb a (b - a) (by omega)
    · exact hb b (a - b) (by omega)
  · intro a b hab
    unfold band
    split_ifs with h
    · rw [h0 a (b - a) (by omega), sub_self]
    · rw [h0 b (a - b) (by omega), sub_self]

theorem bulge_sub (n m i : ℕ) (hi : i < m) (y z : SweepState) (κ : ℝ) (hκ : 0 ≤ κ) (hd : ∀ j, j ≠ i + 1 → y.t.d j = z.t.d j)
    (hd1 : |y.t.d (i + 1) - z.t.d (i + 1)| ≤ κ) (he : ∀ j, j ≠ i + 1 → y.t.e j = z.t.e j) (he1 : i + 1 ≠ m → |y.t.e (i + 1) - z.t.e (i + 1)| ≤ κ)
    (hp : |y.p - z.p| ≤ κ) (hg : |y.g - z.g| ≤ κ) (hc : ∀ j, j + 1 = i → |y.c - z.c| * |z.t.e j| ≤ κ) (hs : ∀ j, j + 1 = i → |y.s - z.s| * |z.t.e j| ≤ κ) :
    frob (corner n (band (bulge m i y)) - corner n (band (bulge m i z))) ≤ 4 * κ := by
  refine frob_band_sub n i _ _ κ hκ ?_ ?_
  · intro j t _
    unfold bulge
    by_cases t0 : t = 0
    · simp only [if_pos t0]
      by_cases hj : j = i
      · rw [if_pos hj, if_pos hj, hd j (by omega), show z.t.d j - y.p - (z.t.d j - z.p) = -(y.p - z.p) by ring, abs_neg]
        exact hp
      · rw [if_neg hj, if_neg hj]
        by_cases hj1 : j = i + 1
        · rw [hj1]; exact hd1
        · rw [hd j hj1, sub_self, abs_zero]; exact hκ
    · simp only [if_neg t0]
      by_cases t1 : t = 1
      · simp only [if_pos t1]
        by_cases hjm : j = m
        · rw [if_pos hjm, if_pos hjm, sub_self, abs_zero]; exact hκ
        · rw [if_neg hjm, if_neg hjm]
          by_cases hj : j = i
          · rw [if_pos hj, if_pos hj]; exact hg
          · rw [if_neg hj, if_neg hj]
            by_cases hj1 : j + 1 = i
            · rw [if_pos hj1, if_pos hj1, he j (by omega), ← sub_mul, abs_mul]
              exact hc j hj1
            · rw [if_neg hj1, if_neg hj1]
              by_cases hj2 : j = i + 1
              · rw [hj2]; exact he1 (by omega)
              · rw [he j hj2, sub_self, abs_zero]; exact hκ
      · simp only [if_neg t1]
        by_cases t2 : t = 2
        · simp only [if_pos t2]
          by_cases hj1 : j + 1 = i ∧ i < m
          · rw [if_pos hj1, if_pos hj1, he j (by omega), ← sub_mul, abs_mul]
            exact hs j hj1.1
          · rw [if_neg hj1, if_neg hj1, sub_self, abs_zero]; exact hκ
        · simp only [if_neg t2, sub_self, abs_zero]; exact hκ
  · intro j t hjt
    unfold bulge
    by_cases t0 : t = 0
    · simp only [if_pos t0]
      rw [if_neg (by omega), if_neg (by omega), hd j (by omega)]
    · simp only [if_neg t0]
      by_cases t1 : t = 1
      · simp only [if_pos t1]
        rw [if_neg (by omega : ¬ j = i), if_neg (by omega : ¬ j + 1 = i), if_neg (by omega : ¬ j = i), if_neg (by omega : ¬ j + 1 = i), he j (by omega)]
      · simp only [if_neg t1]
        by_cases t2 : t = 2
        · simp only [if_pos t2]
          rw [if_neg (by omega), if_neg (by omega)]
        · simp only [if_neg t2]

/-! ## One rotation -/

/-- One iteration of the inner loop with rounding and a nonzero `r`. -/
def sweepNextFl (K : TqliKernels) (n : ℕ) (withZ : Bool) (i : ℕ) (x : SweepState) : SweepState :=
  let f := K.fl (x.s * x.t.e i)
  let b := K.fl (x.c * x.t.e i)
  let r := K.hyp f x.g
  let e := Function.update x.t.e (i + 1) r
  let s := K.fl (f / r)
  let c := K.fl (x.g / r)
  let g := K.fl (x.t.d (i + 1) - x.p)
  let r := K.fl (K.fl (K.fl (x.t.d i - g) * s) + K.fl (K.fl (2 * c) * b))
  let p := K.fl (s * r)
  let d := Function.update x.t.d (i + 1) (K.fl (g + p))
  let g := K.fl (K.fl (c * r) - b)
  ⟨⟨d, e, if withZ then rotZFl K n x.t.Z i s c else x.t.Z⟩, s, c, p, g, r, i⟩

theorem sweepNext_d (n : ℕ) (withZ : Bool) (i : ℕ) (x : SweepState) {j : ℕ} (h : j ≠ i + 1) : (sweepNext n withZ i x).t.d j = x.t.d j :=
  Function.update_of_ne h _ _

theorem sweepNext_e (n : ℕ) (withZ : Bool) (i : ℕ) (x : SweepState) {j : ℕ} (h : j ≠ i + 1) : (sweepNext n withZ i x).t.e j = x.t.e j :=
  Function.update_of_ne h _ _

theorem sweepNextFl_d (K : TqliKernels) (n : ℕ) (withZ : Bool) (i : ℕ) (x : SweepState) {j : ℕ} (h : j ≠ i + 1) : (sweepNextFl K n withZ i x).t.d j = x.t.d j :=
  Function.update_of_ne h _ _

theorem sweepNextFl_e (K : TqliKernels) (n : ℕ) (withZ : Bool) (i : ℕ) (x : SweepState) {j : ℕ} (h : j ≠ i + 1) : (sweepNextFl K n withZ i x).t.e j = x.t.e j :=
  Function.update_of_ne h _ _

theorem sweepNext_e_self (n : ℕ) (withZ : Bool) (i : ℕ) (x : SweepState) : (sweepNext n withZ i x).t.e (i + 1) = hypot (x.s * x.t.e i) x.g :=
  Function.update_self _ _ _

theorem sweepNextFl_e_self (K : TqliKernels) (n : ℕ) (withZ : Bool) (i : ℕ) (x : SweepState) :
    (sweepNextFl K n withZ i x).t.e (i + 1) = K.hyp (K.fl (x.s * x.t.e i)) x.g :=
  Function.update_self _ _ _

theorem sweepNext_d_self (n : ℕ) (withZ : Bool) (i : ℕ) (x : SweepState) :
    (sweepNext n withZ i x).t.d (i + 1) = (x.t.d (i + 1) - x.p) + (sweepNext n withZ i x).p :=
  Function.update_self _ _ _

theorem sweepNextFl_d_self (K : TqliKernels) (n : ℕ) (withZ : Bool) (i : ℕ) (x : SweepState) :
    (sweepNextFl K n withZ i x).t.d (i + 1) = K.fl (K.fl (x.t.d (i + 1) - x.p) + (sweepNextFl K n withZ i x).p) :=
  Function.update_self _ _ _

theorem tqliSweepFl_succ (K : TqliKernels) (n : ℕ) (withZ : Bool) (m it k : ℕ) (x : SweepState) (hr : K.hyp (K.fl (x.s * x.t.e (it + k))) x.g ≠ 0) :
    tqliSweepFl K n withZ m it (k + 1) x = tqliSweepFl K n withZ m it k (sweepNextFl K n withZ (it + k) x) := by
  rw [tqliSweepFl]
  simp only
  rw [if_neg hr]
  rfl

theorem fl_ne_zero {fl : ℝ → ℝ} {ε : ℝ} (hfl : ∀ x, |fl x - x| ≤ ε * |x|) (h1 : ε ≤ 1 / 100) {x : ℝ} (hx : x ≠ 0) : fl x ≠ 0 := by
  intro h
  have := hfl x
  rw [h, zero_sub, abs_neg] at this
  have hp := abs_pos.2 hx
  nlinarith

/-- The rotation of the columns of `Z`. -/
theorem rotZ_near {K : TqliKernels} {ε : ℝ} (hK : TqliOk K ε) (h0 : 0 ≤ ε) (h1 : ε ≤ 1 / 100) (n i : ℕ) {s c s' c' : ℝ} (hs : |s' - s| ≤ 5 * ε) (hc : |c' - c| ≤ 5 * ε)
    (hs1 : |s| ≤ 1) (hc1 : |c| ≤ 1) (hi : i + 1 < n) (Z : ℕ → ℕ → ℝ) :
    frob (corner n (rotZFl K n Z i s' c') - corner n (rotZ n Z i s c)) ≤ 18 * ε * frob (corner n Z) := by
  have hee : ε * ε ≤ 1 / 100 * ε := mul_le_mul_of_nonneg_right h1 h0
  have one : ∀ w w' z, |w' - w| ≤ 5 * ε → |w| ≤ 1 → |K.fl (w' * z) - w * z| ≤ 7 * (ε * |z|) ∧ |w * z| ≤ |z| := by
    intro w w' z hw hw1
    have a : |w' * z - w * z| ≤ 5 * ε * |z| := by rw [← sub_mul, abs_mul]; exact mul_le_mul_of_nonneg_right hw (abs_nonneg _)
    have b : |w * z| ≤ |z| := by rw [abs_mul]; simpa using mul_le_mul_of_nonneg_right hw1 (abs_nonneg z)
    have := fl_near hK.round h0 a b
    have hz : ε * ε * |z| ≤ 1 / 100 * ε * |z| := mul_le_mul_of_nonneg_right hee (abs_nonneg z)
    have hz0 : 0 ≤ ε * |z| := by positivity
    exact ⟨by nlinarith, b⟩
  have sum : ∀ u u' v v' A B : ℝ, |u' - u| ≤ 7 * (ε * A) → |v' - v| ≤ 7 * (ε * B) → |u| ≤ A → |v| ≤ B →
      |K.fl (u' + v') - (u + v)| ≤ 9 * ε * (A + B) ∧ |K.fl (u' - v') - (u - v)| ≤ 9 * ε * (A + B) := by
    intro u u' v v' A B hu hv hA hB
    have hA0 : 0 ≤ A := (abs_nonneg _).trans hA
    have hB0 : 0 ≤ B := (abs_nonneg _).trans hB
    have hz : ε * ε * (A + B) ≤ 1 / 100 * ε * (A + B) := mul_le_mul_of_nonneg_right hee (by positivity)
    have hz0 : 0 ≤ ε * (A + B) := by positivity
    have a1 : |u' + v' - (u + v)| ≤ 7 * (ε * A) + 7 * (ε * B) := by
      rw [show u' + v' - (u + v) = (u' - u) + (v' - v) by ring]; exact (abs_add_le _ _).trans (add_le_add hu hv)
    have a2 : |u' - v' - (u - v)| ≤ 7 * (ε * A) + 7 * (ε * B) := by
      rw [show u' - v' - (u - v) = (u' - u) - (v' - v) by ring]; exact (abs_sub _ _).trans (add_le_add hu hv)
    have b1 : |u + v| ≤ A + B := (abs_add_le _ _).trans (add_le_add hA hB)
    have b2 : |u - v| ≤ A + B := (abs_sub _ _).trans (add_le_add hA hB)
    have c1 := fl_near hK.round h0 a1 b1
    have c2 := fl_near hK.round h0 a2 b2
    exact ⟨by linarith, by linarith⟩
  have row : ∀ a : Fin n, ∑ b : Fin n, (corner n (rotZFl K n Z i s' c') - corner n (rotZ n Z i s c)) a b ^ 2 ≤ (18 * ε) ^ 2 * ∑ b : Fin n, corner n Z a b ^ 2 := by
    intro a
    have e0 : ∀ b : Fin n, (corner n (rotZFl K n Z i s' c') - corner n (rotZ n Z i s c)) a b = rotZFl K n Z i s' c' a b - rotZ n Z i s c a b := fun _ => rfl
    simp only [e0]
    have h01 : (⟨i, by omega⟩ : Fin n) ≠ ⟨i + 1, hi⟩ := by simp
    have hsub : ∑ b : Fin n, (rotZFl K n Z i s' c' a b - rotZ n Z i s c a b) ^ 2 =
        ∑ b ∈ ({⟨i, by omega⟩, ⟨i + 1, hi⟩} : Finset (Fin n)), (rotZFl K n Z i s' c' a b - rotZ n Z i s c a b) ^ 2 := by
      refine (Finset.sum_subset (Finset.subset_univ _) ?_).symm
      intro b _ hb
      simp only [Finset.mem_insert, Finset.mem_singleton, Fin.ext_iff, not_or] at hb
      unfold rotZFl rotZ
      rw [if_pos a.2, if_pos a.2, if_neg hb.2, if_neg hb.2, if_neg hb.1, if_neg hb.1, sub_self]
      norm_num
    rw [hsub, Finset.sum_pair h01]
    have hZ : corner n Z a ⟨i, by omega⟩ ^ 2 + corner n Z a ⟨i + 1, hi⟩ ^ 2 ≤ ∑ b : Fin n, corner n Z a b ^ 2 := by
      rw [← Finset.sum_pair (f := fun b => corner n Z a b ^ 2) h01]
      exact Finset.sum_le_sum_of_subset_of_nonneg (Finset.subset_univ _) fun _ _ _ => sq_nonneg _
    change Z a i ^ 2 + Z a (i + 1) ^ 2 ≤ _ at hZ
    refine le_trans ?_ (mul_le_mul_of_nonneg_left hZ (by positivity))
    obtain ⟨p1, p2⟩ := one s s' (Z a i) hs hs1
    obtain ⟨q1, q2⟩ := one c c' (Z a (i + 1)) hc hc1
    obtain ⟨r1, r2⟩ := one c c' (Z a i) hc hc1
    obtain ⟨u1, u2⟩ := one s s' (Z a (i + 1)) hs hs1
    have v1 := (sum _ _ _ _ _ _ p1 q1 p2 q2).1
    have v2 := (sum _ _ _ _ _ _ r1 u1 r2 u2).2
    have f1 : rotZFl K n Z i s' c' a (i + 1) - rotZ n Z i s c a (i + 1) =
        K.fl (K.fl (s' * Z a i) + K.fl (c' * Z a (i + 1))) - (s * Z a i + c * Z a (i + 1)) := by
      unfold rotZFl rotZ; rw [if_pos a.2, if_pos a.2, if_pos rfl, if_pos rfl]
    have f2 : rotZFl K n Z i s' c' a i - rotZ n Z i s c a i =
        K.fl (K.fl (c' * Z a i) - K.fl (s' * Z a (i + 1))) - (c * Z a i - s * Z a (i + 1)) := by
      have hne : ¬ i = i + 1 := by omega
      unfold rotZFl rotZ; rw [if_pos a.2, if_pos a.2, if_neg hne, if_neg hne, if_pos rfl, if_pos rfl]
    change (rotZFl K n Z i s' c' a i - rotZ n Z i s c a i) ^ 2 + (rotZFl K n Z i s' c' a (i + 1) - rotZ n Z i s c a (i + 1)) ^ 2 ≤ _
    rw [f1, f2]
    have w1 := pow_le_pow_left₀ (abs_nonneg _) v1 2
    have w2 := pow_le_pow_left₀ (abs_nonneg _) v2 2
    rw [sq_abs] at w1 w2
    have hsq : (|Z a i| + |Z a (i + 1)|) ^ 2 ≤ 2 * (Z a i ^ 2 + Z a (i + 1) ^ 2) := by
      nlinarith [sq_nonneg (|Z a i| - |Z a (i + 1)|), sq_abs (Z a i), sq_abs (Z a (i + 1))]
    calc _ ≤ (9 * ε * (|Z a i| + |Z a (i + 1)|)) ^ 2 + (9 * ε * (|Z a i| + |Z a (i + 1)|)) ^ 2 := add_le_add w2 w1
      _ = 2 * (9 * ε) ^ 2 * (|Z a i| + |Z a (i + 1)|) ^ 2 := by ring
      _ ≤ 2 * (9 * ε) ^ 2 * (2 * (Z a i ^ 2 + Z a (i + 1) ^ 2)) := mul_le_mul_of_nonneg_left hsq (by positivity)
      _ = _ := by ring
  unfold frob
  refine Real.sqrt_le_iff.2 ⟨by positivity, ?_⟩
  rw [mul_pow, Real.sq_sqrt (frobSq_nonneg _)]
  unfold frobSq
  rw [Finset.mul_sum]
  exact Finset.sum_le_sum fun a _ => row a

/-- One rotation in rounded arithmetic is near an exact one. -/
theorem step_fl {K : TqliKernels} {ε : ℝ} (hK : TqliOk K ε) (h0 : 0 ≤ ε) (h1 : ε ≤ 1 / 100) (n m i : ℕ) (hi : i < m) (hm : m < n) (x : SweepState)
    (hx : x.s * x.t.e i ≠ 0) {M : ℝ} (hM : frob (corner n (band (bulge m (i + 1) x))) ≤ M) :
    ∃ G : Matrix (Fin n) (Fin n) ℝ, Gᵀ * G = 1 ∧ K.hyp (K.fl (x.s * x.t.e i)) x.g ≠ 0 ∧ (sweepNextFl K n true i x).s ≠ 0 ∧
      |(sweepNextFl K n true i x).s| ≤ 105 / 100 ∧ |(sweepNextFl K n true i x).c| ≤ 105 / 100 ∧
      frob (corner n (band (bulge m i (sweepNextFl K n true i x))) - Gᵀ * corner n (band (bulge m (i + 1) x)) * G) ≤ 300 * ε * M ∧
      frob (corner n (sweepNextFl K n true i x).t.Z - corner n x.t.Z * G) ≤ 18 * ε * frob (corner n x.t.Z) := by
  obtain ⟨r0, r1, rs, rc⟩ := rot_near hK h0 h1 (x.s * x.t.e i) x.g hx
  have hr := hypot_ne_zero x.g hx
  have hst := bulge_step n true m i hi x hr
  have hρ : 0 < hypot (x.s * x.t.e i) x.g := lt_of_le_of_ne (Real.sqrt_nonneg _) hr.symm
  have hs1 : |x.s * x.t.e i / hypot (x.s * x.t.e i) x.g| ≤ 1 := by
    rw [abs_div, abs_of_pos hρ, div_le_one hρ]; exact abs_le_hypot_left _ _
  have hc1 : |x.g / hypot (x.s * x.t.e i) x.g| ≤ 1 := by
    rw [abs_div, abs_of_pos hρ, div_le_one hρ]; exact abs_le_hypot_right _ _
  have hM0 : 0 ≤ M := (frob_nonneg _).trans hM
  have hu : 0 ≤ ε * M := mul_nonneg h0 hM0
  have ent : ∀ j t, j + t < n → |bulge m (i + 1) x j t| ≤ M := by
    intro j t hj
    have := abs_le_frob (corner n (band (bulge m (i + 1) x))) ⟨j, by omega⟩ ⟨j + t, hj⟩
    change |band (bulge m (i + 1) x) j (j + t)| ≤ _ at this
    rw [band_add] at this
    exact this.trans hM
  have ha0 : |x.t.d i| ≤ M := by
    have := ent i 0 (by omega)
    unfold bulge at this
    rwa [if_pos rfl, if_neg (by omega)] at this
  have ha1 : |x.t.d (i + 1) - x.p| ≤ M := by
    have := ent (i + 1) 0 (by omega)
    unfold bulge at this
    rwa [if_pos rfl, if_pos rfl] at this
  have hβ : |x.c * x.t.e i| ≤ M := by
    have := ent i 1 (by omega)
    unfold bulge at this
    rwa [if_neg one_ne_zero, if_pos rfl, if_neg (by omega), if_neg (by omega), if_pos rfl] at this
  have hδ : ∀ j, j + 1 = i → |x.t.e j| ≤ M := by
    intro j hj
    have := ent j 1 (by omega)
    unfold bulge at this
    rwa [if_neg one_ne_zero, if_pos rfl, if_neg (by omega), if_neg (by omega), if_neg (by omega)] at this
  have hφ : i + 1 ≠ m → |x.s * x.t.e i| ≤ M := by
    intro h
    have := ent i 2 (by omega)
    unfold bulge at this
    rwa [if_neg two_ne_zero, if_neg (by norm_num), if_pos rfl, if_pos ⟨rfl, by omega⟩] at this
  have hγ : i + 1 ≠ m → |x.g| ≤ M := by
    intro h
    have := ent (i + 1) 1 (by omega)
    unfold bulge at this
    rwa [if_neg one_ne_zero, if_pos rfl, if_neg h, if_pos rfl] at this
  obtain ⟨n1, n2, n3⟩ := step_near hK.round h0 h1 rs rc hs1 hc1 ha0 ha1 hβ
  have near_one : ∀ w w' : ℝ, |w' - w| ≤ 5 * ε → |w| ≤ 1 → |w'| ≤ 105 / 100 := by
    intro w w' h h'
    calc |w'| = |w + (w' - w)| := by ring_nf
      _ ≤ |w| + |w' - w| := abs_add_le _ _
      _ ≤ _ := by linarith
  have h5 : ∀ w : ℝ, w ≤ 5 * ε → ∀ v : ℝ, 0 ≤ v → v ≤ M → w * v ≤ 75 * (ε * M) := by
    intro w hw v hv hvM
    calc w * v ≤ 5 * ε * v := mul_le_mul_of_nonneg_right hw hv
      _ ≤ 5 * ε * M := mul_le_mul_of_nonneg_left hvM (by positivity)
      _ ≤ _ := by linarith
  refine ⟨givens n i (sweepNext n true i x).s (sweepNext n true i x).c, givens_orth n i (by omega) _ _ (rot_unit _ _ hr), r0, ?_, near_one _ _ rs hs1, near_one _ _ rc hc1, ?_, ?_⟩
  · exact fl_ne_zero hK.round h1 (div_ne_zero (fl_ne_zero hK.round h1 hx) r0)
  · rw [← corner_rotS n i (by omega), hst]
    have := bulge_sub n m i hi (sweepNextFl K n true i x) (sweepNext n true i x) (75 * (ε * M)) (by positivity)
      (fun j hj => by rw [sweepNextFl_d K n true i x hj, sweepNext_d n true i x hj])
      (by rw [sweepNextFl_d_self, sweepNext_d_self]; exact n2)
      (fun j hj => by rw [sweepNextFl_e K n true i x hj, sweepNext_e n true i x hj])
      (fun h => by
        rw [sweepNextFl_e_self, sweepNext_e_self]
        have hh := hypot_le_add (x.s * x.t.e i) x.g
        have h2 : hypot (x.s * x.t.e i) x.g ≤ 2 * M := by linarith [hφ h, hγ h]
        refine r1.trans ?_
        calc 201 / 100 * ε * hypot (x.s * x.t.e i) x.g ≤ 201 / 100 * ε * (2 * M) := mul_le_mul_of_nonneg_left h2 (by positivity)
          _ ≤ _ := by linarith)
      (n1.trans (by linarith)) n3
      (fun j hj => by
        rw [sweepNext_e n true i x (by omega)]
        exact h5 _ rc _ (abs_nonneg _) (hδ j hj))
      (fun j hj => by
        rw [sweepNext_e n true i x (by omega)]
        exact h5 _ rs _ (abs_nonneg _) (hδ j hj))
    linarith
  · rw [← corner_rotZ n i (by omega)]
    exact rotZ_near hK h0 h1 n i rs rc hs1 hc1 (by omega) x.t.Z

/-! ## Sweeps, passes -/

theorem sweep_fl {K : TqliKernels} {ε : ℝ} (hK : TqliOk K ε) (h0 : 0 ≤ ε) (h1 : ε ≤ 1 / 100) (n m it : ℕ) (hm : m < n) {M N : ℝ} (hM0 : 0 ≤ M) (hN0 : 0 ≤ N) :
    ∀ (k : ℕ) (x : SweepState), it + k ≤ m → x.s ≠ 0 → |x.s| ≤ 105 / 100 → |x.c| ≤ 105 / 100 → (∀ j, it ≤ j → j < it + k → x.t.e j ≠ 0) →
    frob (corner n (band (bulge m (it + k) x))) + 300 * ε * M * k ≤ M → frob (corner n x.t.Z) + 18 * ε * N * k ≤ N →
    ∃ G : Matrix (Fin n) (Fin n) ℝ, Gᵀ * G = 1 ∧
      frob (corner n (band (bulge m it (tqliSweepFl K n true m it k x))) - Gᵀ * corner n (band (bulge m (it + k) x)) * G) ≤ 300 * ε * M * k ∧
      frob (corner n (tqliSweepFl K n true m it k x).t.Z - corner n x.t.Z * G) ≤ 18 * ε * N * k ∧
      |(tqliSweepFl K n true m it k x).s| ≤ 105 / 100 ∧ |(tqliSweepFl K n true m it k x).c| ≤ 105 / 100 ∧
      (∀ j, j < it → (tqliSweepFl K n true m it k x).t.e j = x.t.e j)
  | 0, x, _, _, hs, hc, _, _, _ => by
    refine ⟨1, by simp, ?_, ?_, hs, hc, fun _ _ => rfl⟩
    · simp [tqliSweepFl, frob, frobSq]
    · simp [tqliSweepFl, frob, frobSq]
  | k + 1, x, hk, hs0, hs, hc, he, hB, hZ => by
    have he0 : x.t.e (it + k) ≠ 0 := he _ (by omega) (by omega)
    push_cast at hB hZ
    have hεM : 0 ≤ ε * M := mul_nonneg h0 hM0
    have hεN : 0 ≤ ε * N := mul_nonneg h0 hN0
    have hkp : (0 : ℝ) ≤ k := Nat.cast_nonneg k
    have hkM : 0 ≤ 300 * ε * M * k := by positivity
    have hkN : 0 ≤ 18 * ε * N * k := by positivity
    have hB' : frob (corner n (band (bulge m (it + k + 1) x))) ≤ M := by
      have : frob (corner n (band (bulge m (it + k + 1) x))) + 300 * ε * M * (k + 1) ≤ M := hB
      nlinarith
    obtain ⟨G1, g1, g2, g3, g4, g5, g6, g7⟩ := step_fl hK h0 h1 n m (it + k) (by omega) hm x (mul_ne_zero hs0 he0) hB'
    rw [tqliSweepFl_succ K n true m it k x g2]
    obtain ⟨y, hy⟩ : ∃ y, y = sweepNextFl K n true (it + k) x := ⟨_, rfl⟩
    have hye : ∀ j, j ≤ it + k → y.t.e j = x.t.e j := fun j hj => by rw [hy]; exact sweepNextFl_e K n true _ x (by omega)
    rw [← hy] at g3 g4 g5 g6 g7 ⊢
    have n1 : frob (corner n (band (bulge m (it + k) y))) ≤ frob (corner n (band (bulge m (it + (k + 1)) x))) + 300 * ε * M := by
      have := frob_le_add_sub (corner n (band (bulge m (it + k) y))) (G1ᵀ * corner n (band (bulge m (it + k + 1) x)) * G1)
      rw [frob_sim _ _ g1] at this
      exact this.trans (add_le_add le_rfl g6)
    have hZN : frob (corner n x.t.Z) ≤ N := by nlinarith
    have g7' : frob (corner n y.t.Z - corner n x.t.Z * G1) ≤ 18 * ε * N := g7.trans (mul_le_mul_of_nonneg_left hZN (by positivity))
    have n2 : frob (corner n y.t.Z) ≤ frob (corner n x.t.Z) + 18 * ε * N := by
      have := frob_le_add_sub (corner n y.t.Z) (corner n x.t.Z * G1)
      rw [frob_mul_orth _ _ g1] at this
      exact this.trans (add_le_add le_rfl g7')
    obtain ⟨G, q1, q2, q3, q4, q5, q6⟩ := sweep_fl hK h0 h1 n m it hm hM0 hN0 k y (by omega) g3 g4 g5
      (fun j hj hj' => by rw [hye j (by omega)]; exact he j hj (by omega)) (by linarith) (by linarith)
    refine ⟨G1 * G, ?_, ?_, ?_, q4, q5, ?_⟩
    · rw [Matrix.transpose_mul, Matrix.mul_assoc, ← Matrix.mul_assoc G1ᵀ, g1, Matrix.one_mul, q1]
    · push_cast
      refine (frob_tri _ (Gᵀ * corner n (band (bulge m (it + k) y)) * G) _).trans ?_
      have e : Gᵀ * corner n (band (bulge m (it + k) y)) * G - (G1 * G)ᵀ * corner n (band (bulge m (it + (k + 1)) x)) * (G1 * G) =
          Gᵀ * (corner n (band (bulge m (it + k) y)) - G1ᵀ * corner n (band (bulge m (it + k + 1) x)) * G1) * G := by
        rw [Matrix.transpose_mul, Matrix.mul_sub, Matrix.sub_mul]
        simp only [Matrix.mul_assoc, Nat.add_assoc]
      rw [e, frob_sim _ _ q1]
      linarith
    · push_cast
      refine (frob_tri _ (corner n y.t.Z * G) _).trans ?_
      have e : corner n y.t.Z * G - corner n x.t.Z * (G1 * G) = (corner n y.t.Z - corner n x.t.Z * G1) * G := by
        rw [Matrix.sub_mul, Matrix.mul_assoc]
      rw [e, frob_mul_orth _ _ q1]
      linarith
    · intro j hj
      rw [q6 j hj, hye j (by omega)]

/-- The state in which the inner loop of a pass starts. -/
def startFl (K : TqliKernels) (m it : ℕ) (t : TriState) : SweepState :=
  let r := K.hyp (K.fl (K.fl (t.d (it + 1) - t.d it) / K.fl (2 * t.e it))) 1
  let g := K.fl (t.d m - t.d it)
  ⟨t, 1, 1, 0, K.fl (g + K.fl (t.e it / K.fl (g + tqliSign r g))), r, m⟩

theorem passFl_eq {K : TqliKernels} {n : ℕ} {withZ : Bool} {m it : ℕ} {t t' : TriState} (h : tqliPassFl K n withZ m it t = some t') (hr : lastR K n withZ m it t ≠ 0) :
    t' = ⟨Function.update (tqliSweepFl K n withZ m it (m - it) (startFl K m it t)).t.d it
        (K.fl ((tqliSweepFl K n withZ m it (m - it) (startFl K m it t)).t.d it - (tqliSweepFl K n withZ m it (m - it) (startFl K m it t)).p)),
      Function.update (Function.update (tqliSweepFl K n withZ m it (m - it) (startFl K m it t)).t.e it (tqliSweepFl K n withZ m it (m - it) (startFl K m it t)).g) m 0,
      (tqliSweepFl K n withZ m it (m - it) (startFl K m it t)).t.Z⟩ := by
  unfold tqliPassFl at h
  simp only at h
  split_ifs at h with h1 h2
  · exact absurd h2.1 hr
  · exact (Option.some.inj h).symm

theorem pass_fl {K : TqliKernels} {ε : ℝ} (hK : TqliOk K ε) (h0 : 0 ≤ ε) (h1 : ε ≤ 1 / 100) (n m it : ℕ) (hm : m < n) (hit : it < m) {M N : ℝ} (hM0 : 0 ≤ M) (hN0 : 0 ≤ N)
    (t t' : TriState) (h : tqliPassFl K n true m it t = some t') (hr : lastR K n true m it t ≠ 0) (hem : m + 1 < n → |t.e m| ≤ 3 * (ε * M))
    (hep : ∀ j, j + 1 = it → |t.e j| ≤ 3 * (ε * M)) (hne : ∀ j, it ≤ j → j < m → t.e j ≠ 0)
    (hB : frob (t.mat n) + 300 * ε * M * n ≤ M) (hZ : frob (corner n t.Z) + 18 * ε * N * n ≤ N) :
    ∃ G : Matrix (Fin n) (Fin n) ℝ, Gᵀ * G = 1 ∧ frob (t'.mat n - Gᵀ * t.mat n * G) ≤ 300 * ε * M * n ∧
      frob (corner n t'.Z - corner n t.Z * G) ≤ 18 * ε * N * n ∧ ∀ j, j < it → t'.e j = t.e j := by
  have hu : 0 ≤ ε * M := mul_nonneg h0 hM0
  have huN : 0 ≤ ε * N := mul_nonneg h0 hN0
  have hk : ((m - it : ℕ) : ℝ) + 1 ≤ n := by
    have : m - it + 1 ≤ n := by omega
    exact_mod_cast this
  have hkM : 300 * ε * M * (m - it : ℕ) + 300 * (ε * M) ≤ 300 * ε * M * n := by
    have := mul_le_mul_of_nonneg_left hk (by positivity : 0 ≤ 300 * (ε * M))
    linarith
  have hkN : 18 * ε * N * (m - it : ℕ) ≤ 18 * ε * N * n := by
    have := mul_le_mul_of_nonneg_left hk (by positivity : 0 ≤ 18 * (ε * N))
    linarith
  have hst : frob (corner n (band (bulge m m (startFl K m it t))) - t.mat n) ≤ 12 * (ε * M) := by
    have := frob_band_sub n m (bulge m m (startFl K m it t)) (triBand t.d t.e) (3 * (ε * M)) (by positivity) ?_ ?_
    · exact this.trans (by linarith)
    · intro j u hju
      unfold bulge triBand startFl
      simp only [sub_zero, one_mul, lt_irrefl, and_false, if_false, ite_self]
      by_cases u0 : u = 0
      · rw [if_pos u0, if_pos u0, sub_self, abs_zero]; positivity
      · rw [if_neg u0, if_neg u0]
        by_cases u1 : u = 1
        · rw [if_pos u1, if_pos u1]
          by_cases hj : j = m
          · rw [if_pos hj, zero_sub, abs_neg, hj]; exact hem (by omega)
          · rw [if_neg hj, if_neg hj, sub_self, abs_zero]; positivity
        · rw [if_neg u1, if_neg u1, sub_self, abs_zero]; positivity
    · intro j u hju
      unfold bulge triBand startFl
      simp only [sub_zero, one_mul, lt_irrefl, and_false, if_false, ite_self]
      by_cases u0 : u = 0
      · rw [if_pos u0, if_pos u0]
      · rw [if_neg u0, if_neg u0]
        by_cases u1 : u = 1
        · rw [if_pos u1, if_pos u1, if_neg (by omega), if_neg (by omega)]
        · rw [if_neg u1, if_neg u1]
  have hBs : frob (corner n (band (bulge m m (startFl K m it t)))) ≤ frob (t.mat n) + 12 * (ε * M) :=
    (frob_le_add_sub _ (t.mat n)).trans (add_le_add le_rfl hst)
  obtain ⟨G, g1, g2, g3, g4, g5, g6⟩ := sweep_fl hK h0 h1 n m it hm hM0 hN0 (m - it) (startFl K m it t) (by omega) one_ne_zero
    (by show |(1 : ℝ)| ≤ _; norm_num) (by show |(1 : ℝ)| ≤ _; norm_num) (fun j hj hj' => hne j hj (by omega))
    (by rw [show it + (m - it) = m by omega]; linarith) (by show frob (corner n t.Z) + _ ≤ N; linarith)
  rw [show it + (m - it) = m by omega] at g2
  have ht' := passFl_eq h hr
  generalize tqliSweepFl K n true m it (m - it) (startFl K m it t) = x at *
  change ∀ j, j < it → x.t.e j = t.e j at g6
  change frob (corner n x.t.Z - corner n t.Z * G) ≤ _ at g3
  have hBx : frob (corner n (band (bulge m it x))) ≤ M := by
    have := frob_le_add_sub (corner n (band (bulge m it x))) (Gᵀ * corner n (band (bulge m m (startFl K m it t))) * G)
    rw [frob_sim _ _ g1] at this
    linarith
  have hdp : |x.t.d it - x.p| ≤ M := by
    have := abs_le_frob (corner n (band (bulge m it x))) ⟨it, by omega⟩ ⟨it, by omega⟩
    change |band (bulge m it x) it (it + 0)| ≤ _ at this
    rw [band_add] at this
    unfold bulge at this
    rw [if_pos rfl, if_pos rfl] at this
    exact this.trans hBx
  have hen : frob (t'.mat n - corner n (band (bulge m it x))) ≤ 28 * (ε * M) := by
    have := frob_band_sub n it (triBand t'.d t'.e) (bulge m it x) (7 * (ε * M)) (by positivity) ?_ ?_
    · exact this.trans (by linarith)
    · intro j u hju
      rw [ht']
      unfold bulge triBand
      simp only
      by_cases u0 : u = 0
      · rw [if_pos u0, if_pos u0]
        by_cases hj : j = it
        · rw [if_pos hj, hj, Function.update_self]
          refine (hK.round _).trans ?_
          have := mul_le_mul_of_nonneg_left hdp h0
          linarith
        · rw [if_neg hj, Function.update_of_ne hj, sub_self, abs_zero]; positivity
      · rw [if_neg u0, if_neg u0]
        have hsm : ∀ j, j + 1 = it → ∀ w : ℝ, |w| ≤ 205 / 100 → |w * x.t.e j| ≤ 7 * (ε * M) := by
          intro j hj w hw
          rw [g6 j (by omega), abs_mul]
          refine (mul_le_mul hw (hep j hj) (abs_nonneg _) (by norm_num)).trans ?_
          linarith
        by_cases u1 : u = 1
        · rw [if_pos u1, if_pos u1]
          by_cases hj : j = m
          · rw [if_pos hj, hj, Function.update_self, sub_self, abs_zero]; positivity
          · rw [if_neg hj, Function.update_of_ne hj]
            by_cases hb : j = it
            · rw [if_pos hb, hb, Function.update_self, sub_self, abs_zero]; positivity
            · rw [if_neg hb, Function.update_of_ne hb]
              by_cases hc : j + 1 = it
              · rw [if_pos hc, show x.t.e j - x.c * x.t.e j = (1 - x.c) * x.t.e j by ring]
                refine hsm j hc _ ((abs_sub _ _).trans ?_)
                rw [abs_one]; linarith
              · rw [if_neg hc, sub_self, abs_zero]; positivity
        · rw [if_neg u1, if_neg u1]
          split_ifs with q1 q2
          · rw [zero_sub, abs_neg]
            exact hsm j q2.1 _ (by linarith)
          · rw [sub_self, abs_zero]; positivity
          · rw [sub_self, abs_zero]; positivity
    · intro j u hju
      rw [ht']
      unfold bulge triBand
      simp only
      by_cases u0 : u = 0
      · rw [if_pos u0, if_pos u0, if_neg (by omega), Function.update_of_ne (by omega)]
      · rw [if_neg u0, if_neg u0]
        by_cases u1 : u = 1
        · rw [if_pos u1, if_pos u1]
          by_cases hj : j = m
          · rw [if_pos hj, hj, Function.update_self]
          · rw [if_neg hj, Function.update_of_ne hj, if_neg (by omega), Function.update_of_ne (by omega), if_neg (by omega)]
        · rw [if_neg u1, if_neg u1]
          split_ifs with q1 q2
          · omega
          · rfl
          · rfl
  refine ⟨G, g1, ?_, ?_, ?_⟩
  · refine (frob_tri _ (corner n (band (bulge m it x))) _).trans ?_
    have h2 := frob_tri (corner n (band (bulge m it x))) (Gᵀ * corner n (band (bulge m m (startFl K m it t))) * G) (Gᵀ * t.mat n * G)
    have e : Gᵀ * corner n (band (bulge m m (startFl K m it t))) * G - Gᵀ * t.mat n * G = Gᵀ * (corner n (band (bulge m m (startFl K m it t))) - t.mat n) * G := by
      rw [Matrix.mul_sub, Matrix.sub_mul]
    rw [e, frob_sim _ _ g1] at h2
    linarith
  · have : corner n t'.Z = corner n x.t.Z := by rw [ht']
    rw [this]
    exact g3.trans hkN
  · intro j hj
    rw [ht']
    simp only
    rw [Function.update_of_ne (by omega), Function.update_of_ne (by omega)]
    exact g6 j hj

end Primate
