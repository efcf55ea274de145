import Verif.Lemmas.TqliFl

/-!
# Rounding errors of the rows of `tqli`
-/

noncomputable section

namespace Primate

open Matrix Spec

/-- Where the search stops. -/
theorem scanFl_spec (K : TqliKernels) (t : TriState) : ∀ rem m,
    m ≤ tqliScanFl K t rem m ∧ tqliScanFl K t rem m ≤ m + rem ∧
      (∀ j, m ≤ j → j < tqliScanFl K t rem m → K.fl (|t.e j| + K.fl (|t.d j| + |t.d (j + 1)|)) ≠ K.fl (|t.d j| + |t.d (j + 1)|)) ∧
      ∀ j, j = tqliScanFl K t rem m → j < m + rem → K.fl (|t.e j| + K.fl (|t.d j| + |t.d (j + 1)|)) = K.fl (|t.d j| + |t.d (j + 1)|)
  | 0, m => ⟨le_rfl, le_rfl, fun j h h' => absurd (lt_of_le_of_lt h h') (lt_irrefl _), fun j h h' => by
      unfold tqliScanFl at h; omega⟩
  | rem + 1, m => by
    unfold tqliScanFl
    simp only
    split_ifs with h
    · exact ⟨le_rfl, by omega, fun j h h' => by omega, fun j hj _ => by rw [hj]; exact h⟩
    · obtain ⟨h1, h2, h3, h4⟩ := scanFl_spec K t rem (m + 1)
      refine ⟨by omega, by omega, ?_, fun j hj hj' => h4 j hj (by omega)⟩
      intro j hj hj'
      rcases (by omega : j = m ∨ m + 1 ≤ j) with h5 | h5
      · rw [h5]; exact h
      · exact h3 j h5 hj'

/-- An element that is not negligible is not zero. -/
theorem absorb_ne {K : TqliKernels} {ε : ℝ} (hK : TqliOk K ε) {t : TriState} {j : ℕ}
    (h : K.fl (|t.e j| + K.fl (|t.d j| + |t.d (j + 1)|)) ≠ K.fl (|t.d j| + |t.d (j + 1)|)) : t.e j ≠ 0 := by
  intro h0
  apply h
  rw [h0, abs_zero, zero_add, hK.idem]

/-- A negligible element is small. -/
theorem absorb_small {K : TqliKernels} {ε M : ℝ} (hK : TqliOk K ε) (h0 : 0 ≤ ε) (h1 : ε ≤ 1 / 100) (hM : 0 ≤ M) {t : TriState} {j : ℕ}
    (h : K.fl (|t.e j| + K.fl (|t.d j| + |t.d (j + 1)|)) = K.fl (|t.d j| + |t.d (j + 1)|)) (hd : |t.d j| ≤ M) (hd' : |t.d (j + 1)| ≤ M) :
    |t.e j| ≤ 3 * (ε * M) := by
  have a1 := hK.round (|t.d j| + |t.d (j + 1)|)
  have a2 := hK.round (|t.e j| + K.fl (|t.d j| + |t.d (j + 1)|))
  rw [h] at a2
  have e0 := abs_nonneg (t.e j)
  have d0 := abs_nonneg (t.d j)
  have d1 := abs_nonneg (t.d (j + 1))
  generalize K.fl (|t.d j| + |t.d (j + 1)|) = D at *
  generalize |t.e j| = e at *
  generalize |t.d j| = x at *
  generalize |t.d (j + 1)| = y at *
  rw [abs_of_nonneg (add_nonneg d0 d1)] at a1
  have hD : |D| ≤ 202 / 100 * M := by
    have b1 : ε * (x + y) ≤ 1 / 100 * (x + y) := mul_le_mul_of_nonneg_right h1 (by linarith)
    have b2 := abs_le.1 (a1.trans b1)
    rw [abs_le]
    constructor <;> linarith [b2.1, b2.2]
  rw [show D - (e + D) = -e by ring, abs_neg, abs_of_nonneg e0] at a2
  have b3 : |e + D| ≤ e + 202 / 100 * M := (abs_add_le _ _).trans (by rw [abs_of_nonneg e0]; linarith)
  have b4 := mul_le_mul_of_nonneg_left b3 h0
  have b5 : ε * e ≤ 1 / 100 * e := mul_le_mul_of_nonneg_right h1 e0
  have b6 : 0 ≤ ε * M := mul_nonneg h0 hM
  have b7 : ε * (e + 202 / 100 * M) = ε * e + 202 / 100 * (ε * M) := by ring
  linarith

/-- What holds after `P` passes: an orthogonal similarity of the input up to the errors of the passes. -/
def TqliFlInv (n : ℕ) (T : Matrix (Fin n) (Fin n) ℝ) (A B κ : ℝ) (it : ℕ) (P : ℕ) (t : TriState) : Prop :=
  (∃ Q : Matrix (Fin n) (Fin n) ℝ, Qᵀ * Q = 1 ∧ frob (t.mat n - Qᵀ * T * Q) ≤ P * A ∧ frob (corner n t.Z - Q) ≤ P * B) ∧ ∀ j, j < it → j + 1 < n → |t.e j| ≤ κ

theorem TqliFlInv.mono {n : ℕ} {T : Matrix (Fin n) (Fin n) ℝ} {A B κ : ℝ} {it P P' : ℕ} {t : TriState} (hA : 0 ≤ A) (hB : 0 ≤ B) (h : TqliFlInv n T A B κ it P t)
    (hP : P ≤ P') : TqliFlInv n T A B κ it P' t := by
  obtain ⟨⟨Q, q1, q2, q3⟩, q4⟩ := h
  have : (P : ℝ) ≤ P' := by exact_mod_cast hP
  exact ⟨⟨Q, q1, q2.trans (mul_le_mul_of_nonneg_right this hA), q3.trans (mul_le_mul_of_nonneg_right this hB)⟩, q4⟩

theorem frob_one (n : ℕ) : frob (1 : Matrix (Fin n) (Fin n) ℝ) = Real.sqrt n := by
  unfold frob
  rw [frobSq_trace]
  simp

theorem frob_orth {n : ℕ} (Q : Matrix (Fin n) (Fin n) ℝ) (h : Qᵀ * Q = 1) : frob Q = Real.sqrt n := by
  rw [← frob_one, ← frob_mul_orth 1 Q h, Matrix.one_mul]

theorem TqliFlInv.norm {n : ℕ} {T : Matrix (Fin n) (Fin n) ℝ} {A B κ : ℝ} {it P : ℕ} {t : TriState} (h : TqliFlInv n T A B κ it P t) :
    frob (t.mat n) ≤ frob T + P * A ∧ frob (corner n t.Z) ≤ Real.sqrt n + P * B := by
  obtain ⟨⟨Q, q1, q2, q3⟩, -⟩ := h
  have h1 := frob_le_add_sub (t.mat n) (Qᵀ * T * Q)
  have h2 := frob_le_add_sub (corner n t.Z) Q
  rw [frob_sim _ _ q1] at h1
  rw [frob_orth Q q1] at h2
  exact ⟨h1.trans (by linarith), h2.trans (by linarith)⟩

theorem abs_d_le (n : ℕ) (t : TriState) (j : ℕ) (hj : j < n) : |t.d j| ≤ frob (t.mat n) := by
  have := abs_le_frob (t.mat n) ⟨j, hj⟩ ⟨j, hj⟩
  change |band (triBand t.d t.e) j (j + 0)| ≤ _ at this
  rw [band_add] at this
  unfold triBand at this
  rwa [if_pos rfl] at this

/-- The loop for one row. -/
theorem rowFl_inv {K : TqliKernels} {ε : ℝ} (hK : TqliOk K ε) (h0 : 0 ≤ ε) (h1 : ε ≤ 1 / 100) (n maxIter it R : ℕ) (hit : it < n) (T : Matrix (Fin n) (Fin n) ℝ) {M N : ℝ}
    (hM0 : 0 ≤ M) (hN0 : 0 ≤ N) (hM : frob T + R * (300 * ε * M * n) ≤ M) (hN : Real.sqrt n + R * (18 * ε * N * n) ≤ N) :
    ∀ (fuel ii P : ℕ) (t t' : TriState), TqliFlInv n T (300 * ε * M * n) (18 * ε * N * n) (3 * (ε * M)) it P t → P + (maxIter + 1 - ii) ≤ R →
      RowConverges K n true maxIter it fuel ii t → tqliRowFl K n true maxIter it fuel ii t = some (some t') →
      TqliFlInv n T (300 * ε * M * n) (18 * ε * N * n) (3 * (ε * M)) (it + 1) (P + (maxIter + 1 - ii)) t'
  | 0, ii, P, t, t', _, _, hc, _ => hc.elim
  | fuel + 1, ii, P, t, t', hI, hR, hc, h => by
    have hA : 0 ≤ 300 * ε * M * n := by positivity
    have hB : 0 ≤ 18 * ε * N * n := by positivity
    rw [tqliRowFl] at h
    rw [RowConverges] at hc
    obtain ⟨hs1, hs2, hs3, hs4⟩ := scanFl_spec K t (n - 1 - it) it
    generalize tqliScanFl K t (n - 1 - it) it = m at h hs1 hs2 hs3 hs4 hc
    have hnorm := hI.norm
    have hPR : (P : ℝ) ≤ R := by exact_mod_cast (by omega : P ≤ R)
    have hmM : frob (t.mat n) ≤ M := by
      have := mul_le_mul_of_nonneg_right hPR hA
      linarith [hnorm.1]
    have hsm : ∀ j, j = m → j + 1 < n → |t.e j| ≤ 3 * (ε * M) := fun j hj hjn =>
      absorb_small hK h0 h1 hM0 (hs4 j hj (by omega)) ((abs_d_le n t j (by omega)).trans hmM) ((abs_d_le n t (j + 1) hjn).trans hmM)
    split_ifs at h with q1 q2
    · obtain rfl := Option.some.inj (Option.some.inj h)
      refine TqliFlInv.mono hA hB ⟨hI.1, fun j hj hjn => ?_⟩ (Nat.le_add_right _ _)
      rcases (by omega : j = it ∨ j < it) with h3 | h3
      · exact hsm j (by omega) hjn
      · exact hI.2 j h3 hjn
    · rcases hc with hc | ⟨hc, -, -⟩
      · exact absurd hc q1
      · rcases q2 with q2 | q2
        · omega
        · exact absurd q2 (absorb_ne hK (hs3 it le_rfl (by omega)))
    · rcases hc with hc | ⟨hii, hlr, hc⟩
      · exact absurd hc q1
      · rcases hp : tqliPassFl K n true m it t with _ | t1
        · rw [hp] at h; cases h
        · rw [hp] at h
          have hP1 : ((P : ℝ) + 1) ≤ R := by exact_mod_cast (by omega : P + 1 ≤ R)
          have c1 : frob (t.mat n) + 300 * ε * M * n ≤ M := by
            have := mul_le_mul_of_nonneg_right hP1 hA
            linarith [hnorm.1]
          have c2 : frob (corner n t.Z) + 18 * ε * N * n ≤ N := by
            have := mul_le_mul_of_nonneg_right hP1 hB
            linarith [hnorm.2]
          obtain ⟨G, g1, g2, g3, g4⟩ := pass_fl hK h0 h1 n m it (by omega) (by omega) hM0 hN0 t t1 hp hlr (fun hm => hsm m rfl hm)
            (fun j hj => hI.2 j (by omega) (by omega)) (fun j hj hj' => absorb_ne hK (hs3 j hj hj')) c1 c2
          obtain ⟨⟨Q, k1, k2, k3⟩, k4⟩ := hI
          have hI1 : TqliFlInv n T (300 * ε * M * n) (18 * ε * N * n) (3 * (ε * M)) it (P + 1) t1 := by
            refine ⟨⟨Q * G, ?_, ?_, ?_⟩, fun j hj hjn => by rw [g4 j hj]; exact k4 j hj hjn⟩
            · rw [Matrix.transpose_mul, Matrix.mul_assoc, ← Matrix.mul_assoc Qᵀ, k1, Matrix.one_mul, g1]
            · have e : Gᵀ * t.mat n * G - (Q * G)ᵀ * T * (Q * G) = Gᵀ * (t.mat n - Qᵀ * T * Q) * G := by
                rw [Matrix.mul_sub, Matrix.sub_mul, Matrix.transpose_mul]
                simp only [Matrix.mul_assoc]
              have := frob_tri (t1.mat n) (Gᵀ * t.mat n * G) ((Q * G)ᵀ * T * (Q * G))
              rw [e, frob_sim _ _ g1] at this
              push_cast
              linarith
            · have := frob_tri (corner n t1.Z) (corner n t.Z * G) (Q * G)
              rw [← Matrix.sub_mul, frob_mul_orth _ _ g1] at this
              push_cast
              linarith
          have := rowFl_inv hK h0 h1 n maxIter it R hit T hM0 hN0 hM hN fuel (ii + 1) (P + 1) t1 t' hI1 (by omega) (hc t1 hp) h
          rwa [show P + 1 + (maxIter + 1 - (ii + 1)) = P + (maxIter + 1 - ii) by omega] at this

/-- The loop over the rows. -/
theorem rowsFl_inv {K : TqliKernels} {ε : ℝ} (hK : TqliOk K ε) (h0 : 0 ≤ ε) (h1 : ε ≤ 1 / 100) (n maxIter fuel R : ℕ) (T : Matrix (Fin n) (Fin n) ℝ) {M N : ℝ}
    (hM0 : 0 ≤ M) (hN0 : 0 ≤ N) (hM : frob T + R * (300 * ε * M * n) ≤ M) (hN : Real.sqrt n + R * (18 * ε * N * n) ≤ N) :
    ∀ (rem it P : ℕ) (t t' : TriState), it + rem = n → TqliFlInv n T (300 * ε * M * n) (18 * ε * N * n) (3 * (ε * M)) it P t → P + rem * (maxIter + 1) ≤ R →
      RowsConverge K n true maxIter fuel rem it t → tqliRowsFl K n true maxIter fuel rem it t = some (some t') →
      TqliFlInv n T (300 * ε * M * n) (18 * ε * N * n) (3 * (ε * M)) n (P + rem * (maxIter + 1)) t'
  | 0, it, P, t, t', hn, hI, hR, _, h => by
    obtain rfl := Option.some.inj (Option.some.inj h)
    rw [zero_mul, add_zero]
    rwa [show it = n by omega] at hI
  | rem + 1, it, P, t, t', hn, hI, hR, hc, h => by
    rw [tqliRowsFl] at h
    obtain ⟨hc1, hc2⟩ := hc
    rcases hr : tqliRowFl K n true maxIter it fuel 0 t with _ | _ | t1
    · rw [hr] at h; cases h
    · rw [hr] at h; cases h
    · rw [hr] at h
      rw [show P + (rem + 1) * (maxIter + 1) = P + (maxIter + 1 - 0) + rem * (maxIter + 1) by rw [Nat.add_mul]; omega] at hR ⊢
      have hI1 := rowFl_inv hK h0 h1 n maxIter it R (by omega) T hM0 hN0 hM hN fuel 0 P t t1 hI (by omega) hc1 hr
      exact rowsFl_inv hK h0 h1 n maxIter fuel R T hM0 hN0 hM hN rem (it + 1) _ t1 t' (by omega) hI1 hR (hc2 t1 hr) h

end Primate
