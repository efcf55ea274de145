import Verif.Lemmas.OrthPass
import Verif.Lemmas.PaigeInterval

/-! With re-orthogonalisation against all earlier vectors the Lanczos vectors stay nearly orthogonal. -/

noncomputable section

namespace Primate

open Matrix

variable {n : ℕ}

/-- What is used about the iterations `0, ..., J`: `w0` is the vector before and `w` the one after a pass of `T` steps. -/
structure OrthData (A : Matrix (Fin n) (Fin n) ℝ) (ε S otol : ℝ) (T J : ℕ) (a b : ℕ → ℝ) (q w0 w : ℕ → Vec n) : Prop where
  b0 : b 0 = 0
  bnn : ∀ j ≤ J, 0 ≤ b j
  bS : ∀ j ≤ J, b j ≤ S
  aS : ∀ j ≤ J, |a j| ≤ S
  unit : ∀ j ≤ J, |nrm (q j) - 1| ≤ 5 * ε
  step : ∀ j ≤ J, nrm (A *ᵥ q j - b j • q (j - 1) - a j • q j - w0 j) ≤ 10 * (ε * S)
  own : ∀ j ≤ J, |q j ⬝ᵥ w0 j| ≤ 20 * (ε * S)
  scale : ∀ j, j < J → nrm (w j - b (j + 1) • q (j + 1)) ≤ 3 * (ε * S)
  pass : ∀ j ≤ J, ∀ δ G P : ℝ, 0 ≤ δ → 0 ≤ G → (∀ i ≤ j, ∀ l ≤ j, i ≠ l → |q i ⬝ᵥ q l| ≤ δ) → (∀ i ≤ j, |q i ⬝ᵥ w0 j| ≤ P) →
    P + T * (G * δ + 280 * (ε * S)) + 140 * (ε * S) ≤ G →
    (∀ i ≤ j, j < i + T → |q i ⬝ᵥ w j| ≤ otol + 280 * (ε * S) + T * (G * δ + 280 * (ε * S))) ∧
    (∀ (x : Vec n) (ξ : ℝ), 0 ≤ ξ → (∀ i ≤ j, |x ⬝ᵥ q i| ≤ ξ) → |x ⬝ᵥ (w0 j - w j)| ≤ T * (G * ξ + 21 * (ε * S) * nrm x)) ∧
    nrm (w0 j - w j) ≤ T * (1.05 * G + 21 * (ε * S))

variable {A : Matrix (Fin n) (Fin n) ℝ} {ε S otol : ℝ} {T J : ℕ} {a b : ℕ → ℝ} {q w0 w : ℕ → Vec n}

/-- The components of the next vector along the earlier ones, before the pass. -/
theorem OrthData.before (h : OrthData A ε S otol T J a b q w0 w) (hA : A.IsSymm) (h0 : 0 ≤ ε) (h1 : ε ≤ 1 / 100) (hS : 0 ≤ S) (hT : 1 ≤ T) {δ G : ℝ} (hδ : 0 ≤ δ) (hG : 0 ≤ G)
    {j : ℕ} (hj : j ≤ J) (ho : ∀ i ≤ j, ∀ l ≤ j, i ≠ l → |q i ⬝ᵥ q l| ≤ δ)
    (hd : ∀ i < j, ∀ (x : Vec n) (ξ : ℝ), 0 ≤ ξ → (∀ l ≤ i, |x ⬝ᵥ q l| ≤ ξ) → |x ⬝ᵥ (w0 i - w i)| ≤ T * (G * ξ + 21 * (ε * S) * nrm x)) (i : ℕ) (hi : i ≤ j) :
    |q i ⬝ᵥ w0 j| ≤ 5 * (S * δ) + T * (G * δ) + 67 * (T * (ε * S)) := by
  have eS : 0 ≤ ε * S := mul_nonneg h0 hS
  have Tr : (1 : ℝ) ≤ T := by exact_mod_cast hT
  have TeS : ε * S ≤ T * (ε * S) := le_mul_of_one_le_left eS Tr
  have Sδ : 0 ≤ S * δ := mul_nonneg hS hδ
  have un : ∀ l ≤ J, nrm (q l) ≤ 1.05 := fun l hl => by linarith [(abs_le.1 (h.unit l hl)).2]
  rcases Nat.lt_or_ge i j with hij | hij
  swap
  · obtain rfl : i = j := by omega
    have hx := h.own i hj
    have : 0 ≤ T * (G * δ) := by positivity
    linarith
  have hiJ : i < J := by omega
  have d1 := hd i hij (q j) δ hδ fun l hl => ho j le_rfl l (by omega) (by omega)
  have dot_le : ∀ l ≤ J, ∀ z : Vec n, ∀ c : ℝ, nrm z ≤ c → |q l ⬝ᵥ z| ≤ 1.05 * c := fun l hl z c hz =>
    (abs_dot_le _ _).trans (mul_le_mul (un l hl) hz (nrm_nonneg _) (by norm_num))
  have d2 := dot_le j hj _ _ (h.step i (by omega))
  have d3 := dot_le j hj _ _ (h.scale i hiJ)
  have d4 := dot_le i (by omega) _ _ (h.step j hj)
  have m1 : |b i * (q j ⬝ᵥ q (i - 1))| ≤ S * δ := by
    rcases Nat.eq_zero_or_pos i with hz | hz
    · rw [hz, h.b0, zero_mul, abs_zero]; exact Sδ
    · rw [abs_mul, abs_of_nonneg (h.bnn i (by omega))]
      exact mul_le_mul (h.bS i (by omega)) (ho j le_rfl (i - 1) (by omega) (by omega)) (abs_nonneg _) hS
  have m2 : |a i * (q j ⬝ᵥ q i)| ≤ S * δ := by
    rw [abs_mul]
    exact mul_le_mul (h.aS i (by omega)) (ho j le_rfl i (by omega) (by omega)) (abs_nonneg _) hS
  have m3 : |a j * (q i ⬝ᵥ q j)| ≤ S * δ := by
    rw [abs_mul]
    exact mul_le_mul (h.aS j hj) (ho i (by omega) j le_rfl (by omega)) (abs_nonneg _) hS
  have m4 : |b (i + 1) * (q j ⬝ᵥ q (i + 1)) - b j * (q i ⬝ᵥ q (j - 1))| ≤ 2 * (S * δ) + 20.5 * (ε * S) := by
    by_cases hc : i + 1 = j
    · subst hc
      rw [Nat.add_sub_cancel, ← mul_sub, abs_mul, abs_of_nonneg (h.bnn _ hj)]
      have t1 := near_one_sq h0 h1 (h.unit (i + 1) hj)
      have t2 := near_one_sq h0 h1 (h.unit i (by omega))
      rw [nrm_sq] at t1 t2
      have t3 : |q (i + 1) ⬝ᵥ q (i + 1) - q i ⬝ᵥ q i| ≤ 20.5 * ε := by
        have := abs_sub_le (q (i + 1) ⬝ᵥ q (i + 1)) 1 (q i ⬝ᵥ q i)
        rw [abs_sub_comm _ (1 : ℝ)] at this
        linarith
      have := mul_le_mul (h.bS _ hj) t3 (abs_nonneg _) hS
      linarith
    · have t1 : |b (i + 1) * (q j ⬝ᵥ q (i + 1))| ≤ S * δ := by
        rw [abs_mul, abs_of_nonneg (h.bnn _ (by omega))]
        exact mul_le_mul (h.bS _ (by omega)) (ho j le_rfl (i + 1) (by omega) (by omega)) (abs_nonneg _) hS
      have t2 : |b j * (q i ⬝ᵥ q (j - 1))| ≤ S * δ := by
        rw [abs_mul, abs_of_nonneg (h.bnn _ hj)]
        exact mul_le_mul (h.bS _ hj) (ho i (by omega) (j - 1) (by omega) (by omega)) (abs_nonneg _) hS
      have := abs_sub (b (i + 1) * (q j ⬝ᵥ q (i + 1))) (b j * (q i ⬝ᵥ q (j - 1)))
      linarith
  set Ei := A *ᵥ q i - b i • q (i - 1) - a i • q i - w0 i with hEi
  set Ej := A *ᵥ q j - b j • q (j - 1) - a j • q j - w0 j with hEj
  set di := w0 i - w i with hdi
  set si := w i - b (i + 1) • q (i + 1) with hsi
  have e1 : q i ⬝ᵥ w0 j = q i ⬝ᵥ (A *ᵥ q j) - b j * (q i ⬝ᵥ q (j - 1)) - a j * (q i ⬝ᵥ q j) - q i ⬝ᵥ Ej := by
    rw [hEj]
    simp only [dotProduct_sub, dotProduct_smul, smul_eq_mul]
    ring
  have e2 : q i ⬝ᵥ (A *ᵥ q j) = q j ⬝ᵥ (A *ᵥ q i) := by
    rw [dotProduct_mulVec, ← mulVec_transpose, hA.eq, dotProduct_comm]
  have e3 : q j ⬝ᵥ (A *ᵥ q i) = b i * (q j ⬝ᵥ q (i - 1)) + a i * (q j ⬝ᵥ q i) + b (i + 1) * (q j ⬝ᵥ q (i + 1)) + q j ⬝ᵥ Ei + q j ⬝ᵥ di + q j ⬝ᵥ si := by
    rw [hEi, hdi, hsi]
    simp only [dotProduct_sub, dotProduct_smul, smul_eq_mul]
    ring
  have d1' : |q j ⬝ᵥ di| ≤ T * (G * δ) + 22.05 * (T * (ε * S)) := by
    refine d1.trans ?_
    have := mul_le_mul_of_nonneg_left (mul_le_mul_of_nonneg_left (un j hj) (by linarith : 0 ≤ 21 * (ε * S))) (by linarith : (0 : ℝ) ≤ T)
    linarith
  rw [e1, e2, e3]
  rw [abs_le] at *
  constructor <;> linarith [m1.1, m1.2, m2.1, m2.2, m3.1, m3.2, m4.1, m4.2, d1'.1, d1'.2, d2.1, d2.2, d3.1, d3.2, d4.1, d4.2]

/-- The bound for a coefficient of the pass. -/
def passG (ε S δ : ℝ) (T : ℕ) : ℝ := 6.05 * (S * δ) + 560 * (T * (ε * S))

/-- The vectors stay nearly orthogonal. -/
theorem OrthData.ortho (h : OrthData A ε S otol T J a b q w0 w) (hA : A.IsSymm) (h0 : 0 ≤ ε) (h1 : ε ≤ 1 / 100) (hT : 1 ≤ T) (hTJ : J ≤ T) (ht : 0 ≤ otol) {δ β : ℝ}
    (hβ : 0 < β) (hβS : β ≤ S) (hβb : ∀ j, 1 ≤ j → j ≤ J → β ≤ b j) (hδ1 : 2 * (otol + 600 * (T * (ε * S))) ≤ δ * β) (hδ2 : 20 * (T * (S * δ)) ≤ β) :
    (∀ i ≤ J, ∀ l ≤ J, i ≠ l → |q i ⬝ᵥ q l| ≤ δ) ∧ (∀ j ≤ J, |q j ⬝ᵥ w j| ≤ S * δ) ∧
      ∀ j ≤ J, nrm (w0 j - w j) ≤ T * (1.05 * passG ε S δ T + 21 * (ε * S)) := by
  have hS : 0 ≤ S := hβ.le.trans hβS
  have hS1 : 0 < S := hβ.trans_le hβS
  have eS : 0 ≤ ε * S := mul_nonneg h0 hS
  have Tr : (1 : ℝ) ≤ T := by exact_mod_cast hT
  have TeS0 : 0 ≤ T * (ε * S) := by positivity
  have TeS : ε * S ≤ T * (ε * S) := le_mul_of_one_le_left eS Tr
  have hδ : 0 ≤ δ := by
    by_contra hc
    have := mul_neg_of_neg_of_pos (not_le.1 hc) hβ
    linarith
  have Sδ : 0 ≤ S * δ := mul_nonneg hS hδ
  have hTδ : T * δ ≤ 1 / 20 := by
    have h2 : 20 * (T * δ) * S ≤ 1 * S := by linarith
    have := le_of_mul_le_mul_right h2 hS1
    linarith
  set G := passG ε S δ T with hG
  have hG0 : 0 ≤ G := by
    rw [hG, passG]
    linarith
  have hTG : T * (G * δ) ≤ 1 / 20 * G := by
    have := mul_le_mul_of_nonneg_right hTδ hG0
    linarith
  have hTG2 : T * (G * δ) ≤ 28 * (T * (ε * S)) + 6.05 * (T * (S * δ) * δ) := by
    rw [hG, passG]
    have := mul_le_mul_of_nonneg_right hTδ (by linarith : 0 ≤ 560 * (T * (ε * S)))
    linarith
  have hsq : 12.1 * (T * (S * δ) * δ) ≤ δ * β := by
    have := mul_le_mul_of_nonneg_right hδ2 hδ
    have h2 : 0 ≤ T * (S * δ) * δ := by positivity
    linarith
  have hδβ : δ * β ≤ S * δ := by
    have := mul_le_mul_of_nonneg_left hβS hδ
    linarith
  -- one pass
  have fin : ∀ j ≤ J, (∀ i ≤ j, ∀ l ≤ j, i ≠ l → |q i ⬝ᵥ q l| ≤ δ) →
      (∀ i < j, ∀ (x : Vec n) (ξ : ℝ), 0 ≤ ξ → (∀ l ≤ i, |x ⬝ᵥ q l| ≤ ξ) → |x ⬝ᵥ (w0 i - w i)| ≤ T * (G * ξ + 21 * (ε * S) * nrm x)) →
      (∀ i ≤ j, j < i + T → |q i ⬝ᵥ w j| ≤ δ * β - 12 * (ε * S)) ∧
      (∀ (x : Vec n) (ξ : ℝ), 0 ≤ ξ → (∀ i ≤ j, |x ⬝ᵥ q i| ≤ ξ) → |x ⬝ᵥ (w0 j - w j)| ≤ T * (G * ξ + 21 * (ε * S) * nrm x)) ∧
      nrm (w0 j - w j) ≤ T * (1.05 * G + 21 * (ε * S)) := by
    intro j hj k1 k2
    have hGe : G = 6.05 * (S * δ) + 560 * (T * (ε * S)) := rfl
    obtain ⟨p1, p2, p3⟩ := h.pass j hj δ G (5.5 * (S * δ) + 100 * (T * (ε * S))) hδ hG0 k1
      (fun i hi => (h.before hA h0 h1 hS hT hδ hG0 hj k1 k2 i hi).trans (by linarith)) (by linarith)
    exact ⟨fun i hi hv => by linarith [p1 i hi hv], p2, p3⟩
  -- the induction
  have key : ∀ j ≤ J, (∀ i ≤ j, ∀ l ≤ j, i ≠ l → |q i ⬝ᵥ q l| ≤ δ) ∧
      (∀ i < j, ∀ (x : Vec n) (ξ : ℝ), 0 ≤ ξ → (∀ l ≤ i, |x ⬝ᵥ q l| ≤ ξ) → |x ⬝ᵥ (w0 i - w i)| ≤ T * (G * ξ + 21 * (ε * S) * nrm x)) := by
    intro j
    induction j with
    | zero => exact fun _ => ⟨fun i hi l hl hne => by omega, fun i hi => by omega⟩
    | succ j ih =>
      intro hj
      obtain ⟨k1, k2⟩ := ih (by omega)
      obtain ⟨v1, v2, -⟩ := fin j (by omega) k1 k2
      have new : ∀ i ≤ j, |q i ⬝ᵥ q (j + 1)| ≤ δ := by
        intro i hi
        have t1 := v1 i hi (by omega)
        have hb := hβb (j + 1) (by omega) hj
        have hb0 : 0 < b (j + 1) := hβ.trans_le hb
        have t2 : |q i ⬝ᵥ (w j - b (j + 1) • q (j + 1))| ≤ 1.05 * (3 * (ε * S)) :=
          (abs_dot_le _ _).trans (mul_le_mul (by linarith [(abs_le.1 (h.unit i (by omega))).2]) (h.scale j (by omega)) (nrm_nonneg _) (by norm_num))
        have t3 : b (j + 1) * |q i ⬝ᵥ q (j + 1)| ≤ b (j + 1) * δ := by
          rw [← abs_of_pos hb0, ← abs_mul, abs_of_pos hb0]
          have e : b (j + 1) * (q i ⬝ᵥ q (j + 1)) = q i ⬝ᵥ w j - q i ⬝ᵥ (w j - b (j + 1) • q (j + 1)) := by
            rw [dotProduct_sub, dotProduct_smul, smul_eq_mul]
            ring
          rw [e]
          have t4 := abs_sub (q i ⬝ᵥ w j) (q i ⬝ᵥ (w j - b (j + 1) • q (j + 1)))
          have t5 := mul_le_mul_of_nonneg_right hb hδ
          linarith
        exact le_of_mul_le_mul_left t3 hb0
      refine ⟨fun i hi l hl hne => ?_, fun i hi => ?_⟩
      · by_cases hi1 : i = j + 1
        · subst hi1
          rw [dotProduct_comm]
          exact new l (by omega)
        · by_cases hl1 : l = j + 1
          · subst hl1
            exact new i (by omega)
          · exact k1 i (by omega) l (by omega) hne
      · by_cases hij : i = j
        · subst hij; exact v2
        · exact k2 i (by omega)
  have fin' := fun j (hj : j ≤ J) => fin j hj (key j hj).1 (key j hj).2
  refine ⟨(key J le_rfl).1, fun j hj => ?_, fun j hj => (fin' j hj).2.2⟩
  have := (fin' j hj).1 j le_rfl (by omega)
  linarith

/-- The three-term recurrence with the errors of the passes. -/
theorem OrthData.nearS (h : OrthData A ε S otol T J a b q w0 w) (hA : A.IsSymm) (h0 : 0 ≤ ε) (h1 : ε ≤ 1 / 100) (hT : 1 ≤ T) (hTJ : J ≤ T) (ht : 0 ≤ otol) {δ β : ℝ}
    (hβ : 0 < β) (hβS : β ≤ S) (hβb : ∀ j, 1 ≤ j → j ≤ J → β ≤ b j) (hδ1 : 2 * (otol + 600 * (T * (ε * S))) ≤ δ * β) (hδ2 : 20 * (T * (S * δ)) ≤ β) :
    NearS A (T * δ) S (J + 1) a b q (w J) := by
  obtain ⟨o1, o2, o3⟩ := h.ortho hA h0 h1 hT hTJ ht hβ hβS hβb hδ1 hδ2
  have hS : 0 ≤ S := hβ.le.trans hβS
  have hS1 : 0 < S := hβ.trans_le hβS
  have eS : 0 ≤ ε * S := mul_nonneg h0 hS
  have Tr : (1 : ℝ) ≤ T := by exact_mod_cast hT
  have TeS : ε * S ≤ T * (ε * S) := le_mul_of_one_le_left eS Tr
  have hδ : 0 ≤ δ := by
    by_contra hc
    have := mul_neg_of_neg_of_pos (not_le.1 hc) hβ
    have : 0 ≤ T * (ε * S) := by positivity
    linarith
  have Sδ : 0 ≤ S * δ := mul_nonneg hS hδ
  have hTδ0 : δ ≤ T * δ := le_mul_of_one_le_left hδ Tr
  have hTSδ : S * δ ≤ T * δ * S := by
    have := mul_le_mul_of_nonneg_right hTδ0 hS
    linarith
  have hε : 1200 * (T * ε) ≤ δ := by
    have hδβ : δ * β ≤ S * δ := by
      have := mul_le_mul_of_nonneg_left hβS hδ
      linarith
    have h2 : 1200 * (T * ε) * S ≤ δ * S := by linarith
    exact le_of_mul_le_mul_right h2 hS1
  have hε2 : ε ≤ T * ε := le_mul_of_one_le_left h0 Tr
  have hd : T * (1.05 * passG ε S δ T + 21 * (ε * S)) + 13 * (ε * S) ≤ 13 * (T * δ * S) := by
    unfold passG
    have e1 : 1200 * (T * (T * (ε * S))) ≤ T * δ * S := by
      have := mul_le_mul_of_nonneg_left hε (by positivity : 0 ≤ T * S)
      linarith
    have e2 : T * (ε * S) ≤ T * (T * (ε * S)) := le_mul_of_one_le_left (by positivity) Tr
    have e3 : 0 ≤ T * δ * S := by positivity
    linarith
  refine ⟨h.b0, fun j hj => h.bnn j (by omega), fun j hj => h.bS j (by omega), fun j hj => (h.unit j (by omega)).trans ?_, fun j hj => ?_, fun j hj => ?_, fun j hj => ?_,
    fun j hj => ?_⟩
  · linarith
  · have e : A *ᵥ q j - b j • q (j - 1) - a j • q j - b (j + 1) • q (j + 1) =
        (A *ᵥ q j - b j • q (j - 1) - a j • q j - w0 j) + (w0 j - w j) + (w j - b (j + 1) • q (j + 1)) := by abel
    rw [e]
    have t1 := nrm_add_le ((A *ᵥ q j - b j • q (j - 1) - a j • q j - w0 j) + (w0 j - w j)) (w j - b (j + 1) • q (j + 1))
    have t2 := nrm_add_le (A *ᵥ q j - b j • q (j - 1) - a j • q j - w0 j) (w0 j - w j)
    linarith [h.step j (by omega), h.scale j (by omega), o3 j (by omega)]
  · obtain rfl : j = J := by omega
    have e : A *ᵥ q j - b j • q (j - 1) - a j • q j - w j = (A *ᵥ q j - b j • q (j - 1) - a j • q j - w0 j) + (w0 j - w j) := by abel
    rw [e]
    have t2 := nrm_add_le (A *ᵥ q j - b j • q (j - 1) - a j • q j - w0 j) (w0 j - w j)
    linarith [h.step j le_rfl, o3 j le_rfl]
  · have t1 := mul_le_mul (h.bS (j + 1) (by omega)) (o1 j (by omega) (j + 1) (by omega) (by omega)) (abs_nonneg _) hS
    linarith
  · obtain rfl : j = J := by omega
    linarith [o2 j le_rfl]

end Primate
