import Verif.Lemmas.LanczosFlOrth

/-! One pass of the re-orthogonalisation in rounded arithmetic. -/

noncomputable section

namespace Primate

open Matrix

variable {n : ℕ}

/-- The vector operations of `orth_vector` have relative error `ε`; `M` leaves room for underflow. -/
structure Spec.OKernelsOk (K : LKernels n) (M ε B : ℝ) : Prop where
  dot : ∀ j v u, nrm v ≤ B → nrm u ≤ 2 → |K.dot j v u - v ⬝ᵥ u| ≤ ε * (nrm v + M)
  sqnorm : ∀ j u, 1 / 2 ≤ nrm u → nrm u ≤ 3 / 2 → |K.sqnorm j u - u ⬝ᵥ u| ≤ ε
  sqnorm_zero : ∀ j, K.sqnorm j 0 = 0
  div : ∀ a b, |a| ≤ B → 1 / 2 ≤ b → |K.div a b - a / b| ≤ ε * (|a| / b + M)

variable {K : LKernels n} {A : Matrix (Fin n) (Fin n) ℝ} {M ε τ B : ℝ}

/-- The coefficient of a projection. -/
theorem coef_err {X s σ g ε N M : ℝ} (h0 : 0 ≤ ε) (h1 : ε ≤ 1 / 100) (hN : 0 ≤ N) (hM : M ≤ N) (hX : |X| ≤ 1.05 * N) (hs : |s - X| ≤ ε * N)
    (hσ : |σ - 1| ≤ 11.25 * ε) (hg : |g - s / σ| ≤ ε * (|s| / σ + M)) : |g - X| ≤ 17 * (ε * N) := by
  obtain ⟨c1, c2⟩ := abs_le.1 hσ
  have hσ0 : 0.8875 ≤ σ := by linarith
  have hp : 0 < σ := by linarith
  have e0 : 0 ≤ ε * N := mul_nonneg h0 hN
  have e1 : ε * N ≤ 1 / 100 * N := mul_le_mul_of_nonneg_right h1 hN
  have hs1 : |s| ≤ 1.06 * N := by
    have := abs_sub_abs_le_abs_sub s X
    linarith
  have d1 : |s| / σ ≤ 1.2 * N := by
    rw [div_le_iff₀ hp]
    have := mul_le_mul_of_nonneg_left hσ0 hN
    linarith
  have d2 : |g - s / σ| ≤ 2.2 * (ε * N) := by
    refine hg.trans ?_
    have := mul_le_mul_of_nonneg_left (by linarith : |s| / σ + M ≤ 2.2 * N) h0
    linarith
  have d3 : |s / σ - X| ≤ 14.5 * (ε * N) := by
    have e : s / σ - X = ((s - X) + X * (1 - σ)) / σ := by
      field_simp
      ring
    rw [e, abs_div, abs_of_pos hp, div_le_iff₀ hp]
    have t1 : |X * (1 - σ)| ≤ 1.05 * N * (11.25 * ε) := by
      rw [abs_mul, abs_sub_comm 1 σ]
      exact mul_le_mul hX hσ (abs_nonneg _) (by linarith)
    have t2 := abs_add_le (s - X) (X * (1 - σ))
    have t3 := mul_le_mul_of_nonneg_left hσ0 e0
    linarith
  have := abs_sub_le g (s / σ) X
  linarith

open Classical in
/-- Removing the component along one column. -/
theorem orth_step (hK : Spec.LKernelsOk K A M ε τ B) (hO : Spec.OKernelsOk K M ε B) (h0 : 0 ≤ ε) (h1 : ε ≤ 1 / 100) (hM : 0 ≤ M) (p : ℕ × ℕ) (v u : Vec n)
    {N otol : ℝ} (hu : |nrm u - 1| ≤ 5 * ε) (hN : nrm v + M ≤ N) (hB : 2 * N ≤ B) (ht0 : 0 ≤ otol) (ht1 : otol ≤ 1 / 2) :
    ∃ (g : ℝ) (e : Vec n), (if otol < K.sqnorm p u ∧ otol < |K.dot p v u| then K.axpy p v (K.div (K.dot p v u) (K.sqnorm p u)) u else v) = v - g • u + e ∧
      nrm e ≤ 3 * (ε * N) ∧ |g| ≤ |u ⬝ᵥ v| + 20 * (ε * N) ∧ |u ⬝ᵥ (v - g • u + e)| ≤ |u ⬝ᵥ v| + 40 * (ε * N) ∧
      |u ⬝ᵥ (v - g • u + e)| ≤ otol + 40 * (ε * N) ∧ nrm (v - g • u + e) ≤ nrm v + 25 * (ε * N) := by
  have nv := nrm_nonneg v
  have hN0 : 0 ≤ N := by linarith
  have eN : 0 ≤ ε * N := mul_nonneg h0 hN0
  obtain ⟨u1, u2⟩ := abs_le.1 hu
  have hX : |u ⬝ᵥ v| ≤ 1.05 * N := (abs_dot_le u v).trans (mul_le_mul (by linarith) (by linarith) nv (by norm_num))
  have hd := hO.dot p v u (by linarith) (by linarith)
  rw [dotProduct_comm v u] at hd
  have hd' : |K.dot p v u - u ⬝ᵥ v| ≤ ε * N := hd.trans (mul_le_mul_of_nonneg_left hN h0)
  have hr := near_one_sq h0 h1 hu
  rw [nrm_sq] at hr
  have hsq := hO.sqnorm p u (by linarith) (by linarith)
  have hσ : |K.sqnorm p u - 1| ≤ 11.25 * ε := by
    have := abs_sub_le (K.sqnorm p u) (u ⬝ᵥ u) 1
    rw [abs_sub_comm (u ⬝ᵥ u) 1] at this
    linarith
  have hσ2 := (abs_le.1 hσ).1
  have hσ0 : 0.8875 ≤ K.sqnorm p u := by linarith
  set s := K.dot p v u with hs
  set σ := K.sqnorm p u with hσd
  set X := u ⬝ᵥ v with hXd
  have e1 : ε * N ≤ 1 / 100 * N := mul_le_mul_of_nonneg_right h1 hN0
  by_cases hc : otol < σ ∧ otol < |s|
  · rw [if_pos hc]
    have hs1 : |s| ≤ 1.06 * N := by
      have := abs_sub_abs_le_abs_sub s X
      linarith
    have hg := coef_err h0 h1 hN0 (by linarith) hX hd' hσ (hO.div s σ (by linarith) (by linarith))
    set g := K.div s σ with hgd
    have hg1 : |g| ≤ |X| + 17 * (ε * N) := by
      have := abs_sub_abs_le_abs_sub g X
      linarith
    have hax := hK.axpy p v g u (by linarith) (by linarith) (by linarith)
    have hax' : nrm (K.axpy p v g u - (v - g • u)) ≤ 3 * (ε * N) := by
      refine hax.trans ?_
      have := mul_le_mul_of_nonneg_left (by linarith : nrm v + |g| + M ≤ 3 * N) h0
      linarith
    have ee : v - g • u + (K.axpy p v g u - (v - g • u)) = K.axpy p v g u := by abel
    refine ⟨g, K.axpy p v g u - (v - g • u), ee.symm, hax', by linarith, ?_⟩
    set e := K.axpy p v g u - (v - g • u) with hed
    have b1 : |u ⬝ᵥ (v - g • u + e)| ≤ 40 * (ε * N) := by
      have e2 : u ⬝ᵥ (v - g • u + e) = X * (1 - u ⬝ᵥ u) - (g - X) * (u ⬝ᵥ u) + u ⬝ᵥ e := by
        rw [dotProduct_add, dotProduct_sub, dotProduct_smul, smul_eq_mul]
        ring
      have t1 : |X * (1 - u ⬝ᵥ u)| ≤ 1.05 * N * (10.25 * ε) := by
        rw [abs_mul]
        exact mul_le_mul hX hr (abs_nonneg _) (by linarith)
      have huu : |u ⬝ᵥ u| ≤ 1.1025 := by
        have := abs_le.1 hr
        exact abs_le.2 ⟨by linarith [this.2], by linarith [this.1]⟩
      have t2 : |(g - X) * (u ⬝ᵥ u)| ≤ 17 * (ε * N) * 1.1025 := by
        rw [abs_mul]
        exact mul_le_mul hg huu (abs_nonneg _) (by linarith)
      have t3 : |u ⬝ᵥ e| ≤ 1.05 * (3 * (ε * N)) := (abs_dot_le u e).trans (mul_le_mul (by linarith) hax' (nrm_nonneg _) (by norm_num))
      rw [e2]
      have t4 := abs_add_le (X * (1 - u ⬝ᵥ u) - (g - X) * (u ⬝ᵥ u)) (u ⬝ᵥ e)
      have t5 := abs_sub (X * (1 - u ⬝ᵥ u)) ((g - X) * (u ⬝ᵥ u))
      linarith
    refine ⟨by linarith [abs_nonneg X], by linarith, ?_⟩
    · have e3 : v - g • u + e = (v - X • u) + ((X - g) • u + e) := by
        rw [sub_smul]
        abel
      rw [e3]
      have t1 := nrm_proj_le u v (by
        rw [nrm_sq]
        have := (abs_le.1 hr).1
        linarith)
      have t2 := nrm_add_le (v - X • u) ((X - g) • u + e)
      have t3 := nrm_add_le ((X - g) • u) e
      have t4 : nrm ((X - g) • u) ≤ 17 * (ε * N) * 1.05 := by
        rw [nrm_smul, abs_sub_comm]
        exact mul_le_mul hg (by linarith) (nrm_nonneg _) (by linarith)
      linarith
  · rw [if_neg hc]
    have hX2 : |X| ≤ otol + ε * N := by
      have hs2 : |s| ≤ otol := by
        by_contra hcc
        exact hc ⟨by linarith, not_le.1 hcc⟩
      have := abs_sub_abs_le_abs_sub X s
      rw [abs_sub_comm] at this
      linarith
    have ez : v - (0 : ℝ) • u + 0 = v := by rw [zero_smul, sub_zero, add_zero]
    refine ⟨0, 0, ez.symm, by rw [nrm_zero]; linarith, by rw [abs_zero]; linarith [abs_nonneg X], ?_⟩
    rw [ez]
    exact ⟨by linarith, by linarith, by linarith⟩

/-- A pass over `c` columns, backwards from column `i`. -/
theorem orth_pass (hK : Spec.LKernelsOk K A M ε τ B) (hO : Spec.OKernelsOk K M ε B) (h0 : 0 ≤ ε) (h1 : ε ≤ 1 / 100) (hM : 0 ≤ M) (j : ℕ) (U : Buf (Vec n))
    {N otol δ G : ℝ} (hN0 : 0 ≤ N) (hG0 : 0 ≤ G) (hB : 2 * N ≤ B) (ht0 : 0 ≤ otol) (ht1 : otol ≤ 1 / 2) (hδ : 0 ≤ δ) (hcol : ∀ m < U.len, U.get m = 0 ∨ |nrm (U.get m) - 1| ≤ 5 * ε)
    (horth : ∀ m < U.len, ∀ m' < U.len, m ≠ m' → |U.get m ⬝ᵥ U.get m'| ≤ δ) (c : ℕ) :
    ∀ (i : ℕ) (v : Vec n) (P : ℝ), i < U.len → (∀ m < U.len, |U.get m ⬝ᵥ v| ≤ P) → P + c * (G * δ + 40 * (ε * N)) + 20 * (ε * N) ≤ G →
      nrm v + M + 25 * c * (ε * N) ≤ N →
      ∃ v', orthLoopFl K j otol U (-1) c i v = .ok v' ∧ nrm v' ≤ nrm v + 25 * c * (ε * N) ∧
        (∀ m < U.len, |U.get m ⬝ᵥ v'| ≤ |U.get m ⬝ᵥ v| + c * (G * δ + 40 * (ε * N))) ∧
        (∀ m ≤ i, i < m + c → |U.get m ⬝ᵥ v'| ≤ otol + 40 * (ε * N) + c * (G * δ + 40 * (ε * N))) ∧
        (∀ (x : Vec n) (ξ : ℝ), 0 ≤ ξ → (∀ m < U.len, |x ⬝ᵥ U.get m| ≤ ξ) → |x ⬝ᵥ (v - v')| ≤ c * (G * ξ + 3 * (ε * N) * nrm x)) ∧
        nrm (v - v') ≤ c * (1.05 * G + 3 * (ε * N)) := by
  induction c with
  | zero =>
    intro i v P hi hP hG hNv
    refine ⟨v, rfl, by simp, fun m hm => by simp, fun m h1 h2 => by omega, fun x ξ _ _ => by simp, by simp [nrm_zero]⟩
  | succ c ih =>
    intro i v P hi hP hG hNv
    have nv := nrm_nonneg v
    push_cast at hG hNv
    have hP0 : 0 ≤ P := (abs_nonneg _).trans (hP i hi)
    have hc0 : (0 : ℝ) ≤ c := Nat.cast_nonneg c
    have eN : 0 ≤ ε * N := mul_nonneg h0 hN0
    have hGδ : 0 ≤ G * δ := mul_nonneg hG0 hδ
    set h := G * δ + 40 * (ε * N) with hh
    have hh0 : 0 ≤ h := by linarith
    have hch : 0 ≤ c * h := mul_nonneg hc0 hh0
    have hcN : 0 ≤ c * (ε * N) := mul_nonneg hc0 eN
    have hp : (0 : ℤ) < U.len := by omega
    -- the next column
    obtain ⟨i', hi', hnext, hprev⟩ : ∃ i' : ℕ, i' < U.len ∧ cmod ((i : ℤ) + -1) U.len = i' ∧ (0 < i → i' = i - 1) := by
      rcases Nat.eq_zero_or_pos i with hz | hz
      · refine ⟨U.len - 1, by omega, ?_, fun h => by omega⟩
        rw [cmod_eq _ _ hp, hz, show ((0 : ℕ) : ℤ) + -1 = ((U.len : ℤ) - 1) + U.len * (-1) by push_cast; ring, Int.add_mul_emod_self_left,
          Int.emod_eq_of_lt (by omega) (by omega)]
        omega
      · refine ⟨i - 1, by omega, ?_, fun _ => rfl⟩
        rw [cmod_eq _ _ hp, Int.emod_eq_of_lt (by omega) (by omega)]
        omega
    unfold orthLoopFl
    simp only [U.read_ok i hi, bind, Except.bind]
    rw [hnext]
    -- one step
    obtain ⟨w, hw, s1, s2, s3, s4, s5⟩ : ∃ w : Vec n,
        (if otol < K.sqnorm (j, c + 2) (U.get i) ∧ otol < |K.dot (j, c + 2) v (U.get i)| then
          K.axpy (j, c + 2) v (K.div (K.dot (j, c + 2) v (U.get i)) (K.sqnorm (j, c + 2) (U.get i))) (U.get i) else v) = w ∧
        nrm w ≤ nrm v + 25 * (ε * N) ∧ (∀ m < U.len, |U.get m ⬝ᵥ w| ≤ |U.get m ⬝ᵥ v| + h) ∧ |U.get i ⬝ᵥ w| ≤ otol + 40 * (ε * N) ∧
        (∀ (x : Vec n) (ξ : ℝ), 0 ≤ ξ → (∀ m < U.len, |x ⬝ᵥ U.get m| ≤ ξ) → |x ⬝ᵥ (v - w)| ≤ G * ξ + 3 * (ε * N) * nrm x) ∧
        nrm (v - w) ≤ 1.05 * G + 3 * (ε * N) := by
      rcases hcol i hi with hz | hu
      · rw [hz, hO.sqnorm_zero, if_neg (by intro hc; linarith [hc.1])]
        refine ⟨v, rfl, by linarith, fun m hm => by linarith, by rw [zero_dotProduct, abs_zero]; linarith, fun x ξ hξ _ => ?_, ?_⟩
        · rw [sub_self, dotProduct_zero, abs_zero]
          have := nrm_nonneg x
          positivity
        · rw [sub_self, nrm_zero]
          linarith
      · obtain ⟨g, e, hge, he, hg, hd1, hd2, hn⟩ := orth_step hK hO h0 h1 hM (j, c + 2) v (U.get i) hu (by linarith) hB ht0 ht1
        have hgG : |g| ≤ G := by
          have := hP i hi
          linarith
        obtain ⟨u1, u2⟩ := abs_le.1 hu
        refine ⟨_, hge, hn, fun m hm => ?_, hd2, fun x ξ hξ hx => ?_, ?_⟩
        · by_cases hmi : m = i
          · rw [hmi]
            linarith
          · have nm : nrm (U.get m) ≤ 1.05 := by
              rcases hcol m hm with hz | hu
              · rw [hz, nrm_zero]; norm_num
              · linarith [(abs_le.1 hu).2]
            have e1 : U.get m ⬝ᵥ (v - g • U.get i + e) = U.get m ⬝ᵥ v - g * (U.get m ⬝ᵥ U.get i) + U.get m ⬝ᵥ e := by
              rw [dotProduct_add, dotProduct_sub, dotProduct_smul, smul_eq_mul]
            have t1 : |g * (U.get m ⬝ᵥ U.get i)| ≤ G * δ := by
              rw [abs_mul]
              exact mul_le_mul hgG (horth m hm i hi hmi) (abs_nonneg _) hG0
            have t2 : |U.get m ⬝ᵥ e| ≤ 1.05 * (3 * (ε * N)) := (abs_dot_le _ _).trans (mul_le_mul nm he (nrm_nonneg _) (by norm_num))
            have t3 := abs_add_le (U.get m ⬝ᵥ v - g * (U.get m ⬝ᵥ U.get i)) (U.get m ⬝ᵥ e)
            have t4 := abs_sub (U.get m ⬝ᵥ v) (g * (U.get m ⬝ᵥ U.get i))
            rw [e1]
            linarith
        · have e1 : x ⬝ᵥ (v - (v - g • U.get i + e)) = g * (x ⬝ᵥ U.get i) - x ⬝ᵥ e := by
            rw [show v - (v - g • U.get i + e) = g • U.get i - e by abel, dotProduct_sub, dotProduct_smul, smul_eq_mul]
          rw [e1]
          have t1 : |g * (x ⬝ᵥ U.get i)| ≤ G * ξ := by
            rw [abs_mul]
            exact mul_le_mul hgG (hx i hi) (abs_nonneg _) hG0
          have t2 : |x ⬝ᵥ e| ≤ nrm x * (3 * (ε * N)) := (abs_dot_le _ _).trans (mul_le_mul_of_nonneg_left he (nrm_nonneg _))
          have t3 := abs_sub (g * (x ⬝ᵥ U.get i)) (x ⬝ᵥ e)
          linarith
        · rw [show v - (v - g • U.get i + e) = g • U.get i - e by abel]
          have t1 := nrm_sub_le (g • U.get i) e
          rw [nrm_smul] at t1
          have t2 : |g| * nrm (U.get i) ≤ G * 1.05 := mul_le_mul hgG (by linarith) (nrm_nonneg _) hG0
          linarith
    rw [hw]
    obtain ⟨v', r1, r2, r3, r4, r5, r6⟩ := ih i' w (P + h) hi' (fun m hm => by linarith [s2 m hm, hP m hm]) (by linarith) (by linarith)
    refine ⟨v', r1, by push_cast; linarith, fun m hm => by push_cast; linarith [r3 m hm, s2 m hm], fun m hm hmc => ?_, fun x ξ hξ hx => ?_, ?_⟩
    · push_cast
      by_cases hmi : m = i
      · subst hmi
        linarith [r3 m hi]
      · have := hprev (by omega)
        have := r4 m (by omega) (by omega)
        linarith
    · have e1 : x ⬝ᵥ (v - v') = x ⬝ᵥ (v - w) + x ⬝ᵥ (w - v') := by rw [← dotProduct_add, sub_add_sub_cancel]
      rw [e1]
      push_cast
      have := abs_add_le (x ⬝ᵥ (v - w)) (x ⬝ᵥ (w - v'))
      linarith [s4 x ξ hξ hx, r5 x ξ hξ hx]
    · have := nrm_add_le (v - w) (w - v')
      rw [sub_add_sub_cancel] at this
      push_cast
      linarith

end Primate
