import Verif.Lemmas.TqliFlRows
import Verif.Props.Tridiag
import Verif.Props.Quadrature
import Verif.Lemmas.Paige
import Verif.Lemmas.RoundP

/-!
# C147: `tqli` in rounded arithmetic is backward stable
-/

set_option linter.unusedSimpArgs false

noncomputable section

namespace Primate

open Matrix Spec

theorem tqliFl_ok {K : TqliKernels} {d e : Buf ℝ} {Z : ℕ → ℕ → ℝ} {withZ : Bool} {maxIter fuel : ℕ} {r : Option TriState}
    (h : tqliFl K d e Z withZ maxIter fuel = some (.ok r)) :
    d.len = e.len ∧ 0 < d.len ∧ |e.get 0| ≤ 1e-8 ∧ tqliRowsFl K d.len withZ maxIter fuel d.len 0 (tqliStart d e Z) = some r := by
  unfold tqliFl at h
  split_ifs at h with h1 h2 h3
  · cases h
  · cases h
  · refine ⟨not_not.1 h1, by omega, h3, ?_⟩
    change (tqliRowsFl K d.len withZ maxIter fuel d.len 0 (tqliStart d e Z)).map Except.ok = _ at h
    rcases hr : tqliRowsFl K d.len withZ maxIter fuel d.len 0 (tqliStart d e Z) with _ | r'
    · rw [hr] at h; cases h
    · rw [hr] at h
      simp only [Option.map_some, Option.some.injEq, Except.ok.injEq] at h
      rw [h]
  · cases h

theorem frob_entries {p q : ℕ} (A : Matrix (Fin p) (Fin q) ℝ) {κ : ℝ} (h : ∀ i j, |A i j| ≤ κ) : frobSq A ≤ p * q * κ ^ 2 := by
  unfold frobSq
  calc ∑ i, ∑ j, A i j ^ 2 ≤ ∑ _i : Fin p, ∑ _j : Fin q, κ ^ 2 := Finset.sum_le_sum fun i _ => Finset.sum_le_sum fun j _ => by
        rw [← sq_abs]; exact pow_le_pow_left₀ (abs_nonneg _) (h i j) 2
    _ = p * q * κ ^ 2 := by simp [mul_assoc]

/-- What is left of the subdiagonal at the end. -/
theorem mat_near_diag (n : ℕ) (t : TriState) {κ : ℝ} (hκ : 0 ≤ κ) (h : ∀ j, j < n → j + 1 < n → |t.e j| ≤ κ) :
    frob (Matrix.diagonal (fun i : Fin n => t.d i) - t.mat n) ≤ n * κ := by
  unfold frob
  refine Real.sqrt_le_iff.2 ⟨by positivity, (frob_entries _ (κ := κ) ?_).trans (le_of_eq (by ring))⟩
  intro a b
  have ha := a.2
  have hb := b.2
  show |Matrix.diagonal _ a b - band (triBand _ _) (a : ℕ) (b : ℕ)| ≤ κ
  unfold band triBand
  rw [Matrix.diagonal_apply]
  simp only [Fin.ext_iff]
  rcases lt_trichotomy (a : ℕ) (b : ℕ) with q | q | q
  · have q1 : ¬ ((b : ℕ) - a = 0) := by omega
    have q2 : ¬ ((a : ℕ) = b) := by omega
    simp only [if_pos q.le, q1, q2, if_false, zero_sub, abs_neg]
    split_ifs with h1
    · exact h a ha (by omega)
    · rw [abs_zero]; exact hκ
  · simp [q, hκ]
  · have q0 : ¬ ((a : ℕ) ≤ b) := by omega
    have q1 : ¬ ((a : ℕ) - b = 0) := by omega
    have q2 : ¬ ((a : ℕ) = b) := by omega
    simp only [q0, q1, q2, if_false, zero_sub, abs_neg]
    split_ifs with h1
    · exact h b hb (by omega)
    · rw [abs_zero]; exact hκ

/-- C147: in floating point arithmetic with relative errors `ε` per operation, when `tqli` finds every off-diagonal negligible within `max_iter` passes per row, the values and
vectors it returns are those of a matrix close to the input: the values are the exact eigenvalues of `T + F` with `‖F‖ ≤ 606 n² (max_iter + 1) ε ‖T‖`, and `Z` differs from a
matrix of orthonormal eigenvectors of `T + F` by at most `36 n² (max_iter + 1) ε √n` (Frobenius norms). -/
theorem C147_backward_stable {K : TqliKernels} {ε : ℝ} (hK : TqliOk K ε) (h0 : 0 ≤ ε) (d e : Buf ℝ) (maxIter fuel : ℕ)
    (hsmall : 600 * d.len ^ 2 * (maxIter + 1) * ε ≤ 1) (t' : TriState) (h : tqliFl K d e eyeN true maxIter fuel = some (.ok (some t')))
    (hc : RowsConverge K d.len true maxIter fuel d.len 0 (tqliStart d e eyeN)) :
    ∃ F Q : Matrix (Fin d.len) (Fin d.len) ℝ,
      ∑ i, ∑ j, F i j ^ 2 ≤ (606 * d.len ^ 2 * (maxIter + 1) * ε) ^ 2 * ∑ i, ∑ j, jacobi d.len d.get (fun i => e.get (i + 1)) i j ^ 2 ∧
      Eigen (jacobi d.len d.get (fun i => e.get (i + 1)) + F) (fun i => t'.d i) Q ∧
      ∑ i : Fin d.len, ∑ j : Fin d.len, (t'.Z i j - Q i j) ^ 2 ≤ (36 * d.len ^ 2 * (maxIter + 1) * ε) ^ 2 * d.len := by
  obtain ⟨-, hpos, -, hr⟩ := tqliFl_ok h
  obtain ⟨T, hT⟩ : ∃ T, T = jacobi d.len d.get (fun i => e.get (i + 1)) := ⟨_, rfl⟩
  rw [← hT]
  have hstart : (tqliStart d e eyeN).mat d.len = T := by rw [start_mat, triMat_jacobi, hT]
  have hZ0 : corner d.len (tqliStart d e eyeN).Z = 1 := corner_eye _
  generalize tqliStart d e eyeN = t0 at hr hc hstart hZ0
  generalize d.len = n at *
  have hn1 : (1 : ℝ) ≤ n := by exact_mod_cast hpos
  have hm1 : (1 : ℝ) ≤ (maxIter : ℝ) + 1 := by have : (0 : ℝ) ≤ maxIter := Nat.cast_nonneg _; linarith
  have hρ : (1 : ℝ) ≤ n ^ 2 * (maxIter + 1) := one_le_mul_of_one_le_of_one_le (one_le_pow₀ hn1) hm1
  have h1 : ε ≤ 1 / 100 := by
    have : 1 * ε ≤ n ^ 2 * (maxIter + 1) * ε := mul_le_mul_of_nonneg_right hρ h0
    linarith
  have hT0 := frob_nonneg T
  have hs0 := Real.sqrt_nonneg (n : ℝ)
  have key := rowsFl_inv hK h0 h1 n maxIter fuel (n * (maxIter + 1)) T (M := 2 * frob T) (N := 2 * Real.sqrt n) (by positivity) (by positivity) ?_ ?_ n 0 0 t0 t' (by omega) ?_
    (by omega) hc hr
  · rw [zero_add] at key
    obtain ⟨⟨Q, q1, q2, q3⟩, q4⟩ := key
    have q1' := mul_eq_one_comm.1 q1
    have hd := mat_near_diag n t' (by positivity) q4
    have hF : frob (Matrix.diagonal (fun i : Fin n => t'.d i) - Qᵀ * T * Q) ≤ 606 * n ^ 2 * (maxIter + 1) * ε * frob T := by
      refine (frob_tri _ (t'.mat n) _).trans ((add_le_add hd q2).trans ?_)
      push_cast
      have : (n : ℝ) * (ε * frob T) ≤ n ^ 2 * (maxIter + 1) * (ε * frob T) := by
        refine mul_le_mul_of_nonneg_right ?_ (by positivity)
        nlinarith
      calc (n : ℝ) * (3 * (ε * (2 * frob T))) + n * (maxIter + 1) * (300 * ε * (2 * frob T) * n)
          = 6 * (n * (ε * frob T)) + 600 * (n ^ 2 * (maxIter + 1) * (ε * frob T)) := by ring
        _ ≤ 6 * (n ^ 2 * (maxIter + 1) * (ε * frob T)) + 600 * (n ^ 2 * (maxIter + 1) * (ε * frob T)) := by linarith
        _ = _ := by ring
    have hTF : T + Q * (Matrix.diagonal (fun i : Fin n => t'.d i) - Qᵀ * T * Q) * Qᵀ = Q * Matrix.diagonal (fun i : Fin n => t'.d i) * Qᵀ := by
      rw [Matrix.mul_sub, Matrix.sub_mul]
      have : Q * (Qᵀ * T * Q) * Qᵀ = T := by
        rw [Matrix.mul_assoc Qᵀ, ← Matrix.mul_assoc Q, q1', Matrix.one_mul, Matrix.mul_assoc, q1', Matrix.mul_one]
      rw [this]; abel
    refine ⟨Q * (Matrix.diagonal (fun i : Fin n => t'.d i) - Qᵀ * T * Q) * Qᵀ, Q, ?_, ⟨q1, ?_⟩, ?_⟩
    · have e1 : frob (Q * (Matrix.diagonal (fun i : Fin n => t'.d i) - Qᵀ * T * Q) * Qᵀ) = frob (Matrix.diagonal (fun i : Fin n => t'.d i) - Qᵀ * T * Q) := by
        have := frob_sim (Matrix.diagonal (fun i : Fin n => t'.d i) - Qᵀ * T * Q) Qᵀ (by rw [Matrix.transpose_transpose]; exact q1')
        rwa [Matrix.transpose_transpose] at this
      have e2 := pow_le_pow_left₀ (frob_nonneg _) (e1.le.trans hF) 2
      unfold frob at e2
      rw [Real.sq_sqrt (frobSq_nonneg _), mul_pow, Real.sq_sqrt (frobSq_nonneg _)] at e2
      exact e2
    · intro j
      rw [hTF]
      have : (fun i => Q i j) = Q *ᵥ Pi.single j 1 := by
        ext i; simp
      rw [this, Matrix.mulVec_mulVec, Matrix.mul_assoc, q1, Matrix.mul_one, ← Matrix.mulVec_mulVec, ← Matrix.mulVec_smul]
      congr 1
      ext i
      by_cases hij : i = j
      · rw [hij]; simp [Matrix.mulVec_diagonal]
      · simp [Matrix.mulVec_diagonal, hij]
    · have e2 := pow_le_pow_left₀ (frob_nonneg _) q3 2
      unfold frob at e2
      rw [Real.sq_sqrt (frobSq_nonneg _)] at e2
      refine le_trans (le_of_eq rfl) (e2.trans (le_of_eq ?_))
      push_cast
      have := Real.sq_sqrt (Nat.cast_nonneg n : (0 : ℝ) ≤ n)
      calc ((n : ℝ) * (maxIter + 1) * (18 * ε * (2 * Real.sqrt n) * n)) ^ 2 = (36 * n ^ 2 * (maxIter + 1) * ε) ^ 2 * Real.sqrt n ^ 2 := by ring
        _ = _ := by rw [this]
  · push_cast
    have := mul_le_mul_of_nonneg_right hsmall hT0
    calc frob T + n * (maxIter + 1) * (300 * ε * (2 * frob T) * n) = frob T + 600 * n ^ 2 * (maxIter + 1) * ε * frob T := by ring
      _ ≤ 2 * frob T := by linarith
  · push_cast
    have h2 := mul_le_mul_of_nonneg_right hsmall hs0
    have h3 : 0 ≤ 600 * n ^ 2 * (maxIter + 1) * ε * Real.sqrt n := by positivity
    calc Real.sqrt n + n * (maxIter + 1) * (18 * ε * (2 * Real.sqrt n) * n) = Real.sqrt n + 36 / 600 * (600 * n ^ 2 * (maxIter + 1) * ε * Real.sqrt n) := by ring
      _ ≤ 2 * Real.sqrt n := by linarith
  · refine ⟨⟨1, by simp, ?_, ?_⟩, fun j hj => by omega⟩
    · rw [hstart]
      simp [frob, frobSq]
    · rw [hZ0]
      simp [frob, frobSq]

/-- An eigenvalue of a perturbed matrix is close to one of the matrix. -/
theorem eigen_pert {n : ℕ} {T F : Matrix (Fin n) (Fin n) ℝ} {lam mu : Fin n → ℝ} {U Q : Matrix (Fin n) (Fin n) ℝ} (hT : Eigen T lam U) (hQ : Eigen (T + F) mu Q)
    (i : Fin n) : ∃ j, |mu i - lam j| ≤ Real.sqrt (frobSq F) := by
  have hqq : (fun k => Q k i) ⬝ᵥ (fun k => Q k i) = 1 := by
    have := congrFun (congrFun hQ.orthonormal i) i
    rwa [Matrix.one_apply_eq] at this
  obtain ⟨j, hj⟩ := eigen_near hT i.pos (mu i) fun k => Q k i
  have hn : nrm (fun k => Q k i) = 1 := by unfold nrm; rw [hqq, Real.sqrt_one]
  have he := hQ.eigen i
  rw [Matrix.add_mulVec] at he
  have h2 : nrm (T *ᵥ (fun k => Q k i) - mu i • fun k => Q k i) ≤ Real.sqrt (frobSq F) := by
    rw [← he, show T *ᵥ (fun k => Q k i) - (T *ᵥ (fun k => Q k i) + F *ᵥ fun k => Q k i) = -(F *ᵥ fun k => Q k i) by abel]
    unfold nrm
    rw [neg_dotProduct_neg]
    refine Real.sqrt_le_sqrt ?_
    have := frobSq_mulVec F fun k => Q k i
    rwa [hqq, mul_one] at this
  rw [hn, mul_one] at hj
  exact ⟨j, by rw [abs_sub_comm]; exact hj.trans h2⟩

/-- C147: every value that `tqli` returns is within `606 n² (max_iter + 1) ε ‖T‖` of an eigenvalue of the input. -/
theorem C147_values {K : TqliKernels} {ε : ℝ} (hK : TqliOk K ε) (h0 : 0 ≤ ε) (d e : Buf ℝ) (maxIter fuel : ℕ)
    (hsmall : 600 * d.len ^ 2 * (maxIter + 1) * ε ≤ 1) (t' : TriState) (h : tqliFl K d e eyeN true maxIter fuel = some (.ok (some t')))
    (hc : RowsConverge K d.len true maxIter fuel d.len 0 (tqliStart d e eyeN)) {lam : Fin d.len → ℝ} {U : Matrix (Fin d.len) (Fin d.len) ℝ}
    (hT : Eigen (jacobi d.len d.get (fun i => e.get (i + 1))) lam U) (i : Fin d.len) :
    ∃ j, |t'.d i - lam j| ≤ 606 * d.len ^ 2 * (maxIter + 1) * ε * Real.sqrt (∑ i, ∑ j, jacobi d.len d.get (fun i => e.get (i + 1)) i j ^ 2) := by
  obtain ⟨F, Q, hF, hQ, -⟩ := C147_backward_stable hK h0 d e maxIter fuel hsmall t' h hc
  obtain ⟨j, hj⟩ := eigen_pert hT hQ i
  refine ⟨j, hj.trans (Real.sqrt_le_iff.2 ⟨by positivity, hF.trans (le_of_eq ?_)⟩)⟩
  rw [mul_pow _ (Real.sqrt _), Real.sq_sqrt (by positivity)]

theorem jacobi_frob (m : ℕ) (d e : ℕ → ℝ) {S : ℝ} (hd : ∀ i < m, |d i| ≤ S) (he : ∀ i, i + 1 < m → |e i| ≤ S) : frobSq (jacobi m d e) ≤ 3 * m * S ^ 2 := by
  have sq_le : ∀ x : ℝ, |x| ≤ S → x ^ 2 ≤ S ^ 2 := fun x hx => by rw [← sq_abs]; exact pow_le_pow_left₀ (abs_nonneg _) hx 2
  have hcount : ∀ a : ℕ, ∑ j : Fin m, (if (j : ℕ) = a then S ^ 2 else 0) ≤ S ^ 2 := by
    intro a
    by_cases ha : a < m
    · rw [Finset.sum_eq_single (⟨a, ha⟩ : Fin m)]
      · rw [if_pos rfl]
      · intro j _ hj
        rw [if_neg fun h => hj (Fin.ext h)]
      · intro h; exact absurd (Finset.mem_univ _) h
    · rw [Finset.sum_eq_zero fun j _ => if_neg (by have := j.2; omega)]
      positivity
  have hrow : ∀ i : Fin m, ∑ j, jacobi m d e i j ^ 2 ≤ 3 * S ^ 2 := by
    intro i
    calc ∑ j, jacobi m d e i j ^ 2 ≤ ∑ j : Fin m, ((if (j : ℕ) = i then S ^ 2 else 0) + (if (j : ℕ) = i + 1 then S ^ 2 else 0) + (if (j : ℕ) = i - 1 then S ^ 2 else 0)) := by
          refine Finset.sum_le_sum fun j _ => ?_
          have hs : 0 ≤ S ^ 2 := sq_nonneg _
          have hz : ∀ (p : Prop) [Decidable p], 0 ≤ (if p then S ^ 2 else 0) := fun p _ => by split_ifs <;> simp [hs]
          unfold jacobi
          simp only [Matrix.of_apply, Fin.ext_iff]
          have hj := j.2
          have hi := i.2
          split_ifs with h1 h2 h3 <;> first
            | omega
            | linarith [sq_le _ (hd i hi), hs]
            | linarith [sq_le _ (he i (by omega)), hs]
            | linarith [sq_le _ (he j (by omega)), hs]
      _ ≤ 3 * S ^ 2 := by
          rw [Finset.sum_add_distrib, Finset.sum_add_distrib]
          linarith [hcount i, hcount (i + 1), hcount (i - 1)]
  unfold frobSq
  calc ∑ i, ∑ j, jacobi m d e i j ^ 2 ≤ ∑ _i : Fin m, 3 * S ^ 2 := Finset.sum_le_sum fun i _ => hrow i
    _ = 3 * m * S ^ 2 := by simp; ring

/-- C147: the result of `tqli` for a matrix with entries up to `S` meets the accuracy that the theorems on Lanczos quadrature (C136-C146) require of the solver (`QKernelsOk.eigh`) with
`δ = 606 m² (max_iter + 1) ε √(3 m)` and `ω = 36 m² (max_iter + 1) ε √m`. -/
theorem C147_solver {K : TqliKernels} {ε : ℝ} (hK : TqliOk K ε) (h0 : 0 ≤ ε) (m : ℕ) (d e : ℕ → ℝ) (S : ℝ) (hd : ∀ i < m, |d i| ≤ S) (he : ∀ i, i + 1 < m → |e i| ≤ S)
    (maxIter fuel : ℕ) (hsmall : 600 * m ^ 2 * (maxIter + 1) * ε ≤ 1) (t' : TriState)
    (h : tqliFl K ⟨m, d⟩ ⟨m, fun i => if i = 0 then 0 else e (i - 1)⟩ eyeN true maxIter fuel = some (.ok (some t')))
    (hc : RowsConverge K m true maxIter fuel m 0 (tqliStart ⟨m, d⟩ ⟨m, fun i => if i = 0 then 0 else e (i - 1)⟩ eyeN)) :
    ∃ F Y : Matrix (Fin m) (Fin m) ℝ, ∑ i, ∑ j, F i j ^ 2 ≤ (606 * m ^ 2 * (maxIter + 1) * ε * Real.sqrt (3 * m) * S) ^ 2 ∧ Eigen (jacobi m d e + F) (fun i => t'.d i) Y ∧
      ∀ i j : Fin m, |t'.Z i j - Y i j| ≤ 36 * m ^ 2 * (maxIter + 1) * ε * Real.sqrt m := by
  obtain ⟨F, Y, h1, h2, h3⟩ := C147_backward_stable hK h0 ⟨m, d⟩ ⟨m, fun i => if i = 0 then 0 else e (i - 1)⟩ maxIter fuel hsmall t' h hc
  simp only [Nat.add_eq_zero_iff, one_ne_zero, and_false, if_false, Nat.add_sub_cancel] at h1 h2 h3
  refine ⟨F, Y, h1.trans ?_, h2, fun i j => ?_⟩
  · rw [mul_pow _ S, mul_pow _ (Real.sqrt _), Real.sq_sqrt (by positivity), mul_assoc]
    refine (mul_le_mul_of_nonneg_left (jacobi_frob m d e hd he) (sq_nonneg _)).trans (le_of_eq (by ring))
  · refine abs_le_of_sq_le_sq ?_ (by positivity)
    rw [mul_pow _ (Real.sqrt _), Real.sq_sqrt (by positivity)]
    refine le_trans ?_ h3
    exact (Finset.single_le_sum (f := fun j : Fin m => (t'.Z i j - Y i j) ^ 2) (fun j _ => sq_nonneg _) (Finset.mem_univ j)).trans
      (Finset.single_le_sum (f := fun i : Fin m => ∑ j : Fin m, (t'.Z i j - Y i j) ^ 2) (fun i _ => Finset.sum_nonneg fun j _ => sq_nonneg _) (Finset.mem_univ i))

/-! ## Without the vectors -/

/-- The state without `Z`. -/
def TriState.er (t : TriState) : TriState := ⟨t.d, t.e, fun _ _ => 0⟩

/-- The variables of the inner loop without `Z`. -/
def SweepState.er (x : SweepState) : SweepState := ⟨x.t.er, x.s, x.c, x.p, x.g, x.r, x.i⟩

theorem scanFl_er (K : TqliKernels) (t : TriState) : ∀ rem m, tqliScanFl K t.er rem m = tqliScanFl K t rem m
  | 0, m => rfl
  | rem + 1, m => by
    unfold tqliScanFl
    rw [scanFl_er K t rem (m + 1)]
    rfl

theorem sweepFl_er (K : TqliKernels) (n : ℕ) (w : Bool) (m it : ℕ) : ∀ (k : ℕ) (x : SweepState),
    tqliSweepFl K n false m it k x.er = (tqliSweepFl K n w m it k x).er
  | 0, x => rfl
  | k + 1, x => by
    by_cases hr : K.hyp (K.fl (x.s * x.t.e (it + k))) x.g = 0
    · unfold tqliSweepFl
      simp only
      rw [if_pos (show K.hyp (K.fl (x.er.s * x.er.t.e (it + k))) x.er.g = 0 from hr), if_pos hr]
      rfl
    · rw [tqliSweepFl_succ K n false m it k x.er hr, tqliSweepFl_succ K n w m it k x hr, ← sweepFl_er K n w m it k]
      rfl

theorem passFl_er (K : TqliKernels) (n : ℕ) (w : Bool) (m it : ℕ) (t : TriState) : tqliPassFl K n false m it t.er = (tqliPassFl K n w m it t).map TriState.er := by
  unfold tqliPassFl
  simp only
  change (if K.fl (K.fl (t.d m - t.d it) + tqliSign (K.hyp (K.fl (K.fl (t.d (it + 1) - t.d it) / K.fl (2 * t.e it))) 1) (K.fl (t.d m - t.d it))) = 0 then none else _) = _
  split_ifs with h1 h2 h3 h3
  · rfl
  · have := sweepFl_er K n w m it (m - it) (startFl K m it t)
    change tqliSweepFl K n false m it (m - it) _ = _ at this
    simp only [Option.map_some]
    exact congrArg some (congrArg SweepState.t this)
  · have := sweepFl_er K n w m it (m - it) (startFl K m it t)
    have e1 := congrArg SweepState.r this
    have e2 := congrArg SweepState.i this
    refine absurd ⟨?_, ?_⟩ h3
    · exact e1.symm.trans h2.1
    · exact h2.2.trans (le_of_eq e2)
  · have := sweepFl_er K n w m it (m - it) (startFl K m it t)
    have e1 := congrArg SweepState.r this
    have e2 := congrArg SweepState.i this
    refine absurd ⟨?_, ?_⟩ h2
    · exact e1.trans h3.1
    · exact h3.2.trans (le_of_eq e2.symm)
  · have := sweepFl_er K n w m it (m - it) (startFl K m it t)
    change tqliSweepFl K n false m it (m - it) ⟨t.er, 1, 1, 0, _, _, m⟩ = _ at this
    simp only [Option.map_some]
    refine congrArg some ?_
    change _ = TriState.mk _ _ _
    have key : ∀ y z : SweepState, y = z.er → (⟨Function.update y.t.d it (K.fl (y.t.d it - y.p)), Function.update (Function.update y.t.e it y.g) m 0, y.t.Z⟩ : TriState) =
        TriState.er ⟨Function.update z.t.d it (K.fl (z.t.d it - z.p)), Function.update (Function.update z.t.e it z.g) m 0, z.t.Z⟩ := by
      intro y z h; rw [h]; rfl
    exact key _ _ this

theorem rowFl_er (K : TqliKernels) (n : ℕ) (w : Bool) (maxIter it : ℕ) : ∀ (fuel ii : ℕ) (t : TriState),
    tqliRowFl K n false maxIter it fuel ii t.er = (tqliRowFl K n w maxIter it fuel ii t).map (Option.map TriState.er)
  | 0, _, _ => rfl
  | fuel + 1, ii, t => by
    rw [tqliRowFl, tqliRowFl, scanFl_er]
    generalize tqliScanFl K t (n - 1 - it) it = m
    change (if m = it then _ else if maxIter < ii ∨ t.e it = 0 then _ else _) = _
    split_ifs with h1 h2
    · rfl
    · rfl
    · rw [passFl_er K n w m it t]
      rcases tqliPassFl K n w m it t with _ | t1
      · rfl
      · exact rowFl_er K n w maxIter it fuel (ii + 1) t1

theorem rowsFl_er (K : TqliKernels) (n : ℕ) (w : Bool) (maxIter fuel : ℕ) : ∀ (rem it : ℕ) (t : TriState),
    tqliRowsFl K n false maxIter fuel rem it t.er = (tqliRowsFl K n w maxIter fuel rem it t).map (Option.map TriState.er)
  | 0, _, _ => rfl
  | rem + 1, it, t => by
    rw [tqliRowsFl, tqliRowsFl, rowFl_er K n w maxIter it fuel 0 t]
    rcases tqliRowFl K n w maxIter it fuel 0 t with _ | _ | t1
    · rfl
    · rfl
    · exact rowsFl_er K n w maxIter fuel rem (it + 1) t1

/-- C147: without the vectors (`eigvalsh_tridiag`) `tqli` computes the same values, whatever the rounding. -/
theorem C147_values_only (K : TqliKernels) (d e : Buf ℝ) (Z Z' : ℕ → ℕ → ℝ) (maxIter fuel : ℕ) (t : TriState)
    (h : tqliFl K d e Z false maxIter fuel = some (.ok (some t))) :
    ∃ t', tqliFl K d e Z' true maxIter fuel = some (.ok (some t')) ∧ t'.d = t.d ∧ t'.e = t.e := by
  obtain ⟨h1, h2, h3, hr⟩ := tqliFl_ok h
  have e1 := rowsFl_er K d.len false maxIter fuel d.len 0 (tqliStart d e Z)
  have e2 := rowsFl_er K d.len true maxIter fuel d.len 0 (tqliStart d e Z')
  rw [show (tqliStart d e Z').er = (tqliStart d e Z).er from rfl, e1, hr] at e2
  rcases hr' : tqliRowsFl K d.len true maxIter fuel d.len 0 (tqliStart d e Z') with _ | _ | t1
  · rw [hr'] at e2; cases e2
  · rw [hr'] at e2; cases e2
  · rw [hr'] at e2
    have e3 := Option.some.inj (Option.some.inj e2)
    refine ⟨t1, ?_, (congrArg TriState.d e3).symm, (congrArg TriState.e e3).symm⟩
    unfold tqliFl
    rw [if_neg (not_not.2 h1), if_neg (by omega), if_neg (not_not.2 h3)]
    change (tqliRowsFl K d.len true maxIter fuel d.len 0 (tqliStart d e Z')).map Except.ok = _
    rw [hr']
    rfl

/-! ## Exact arithmetic -/

open Classical in
/-- `x + y == y` in exact arithmetic. -/
def exactAbsorb (x y : ℝ) : Bool := decide (x + y = y)

theorem exactAbsorb_ok : ExactAbsorb exactAbsorb := by
  intro x y _
  unfold exactAbsorb
  simp

theorem exact_ok {ε : ℝ} (h : 0 ≤ ε) : TqliOk TqliKernels.exact ε where
  round := fun x => by
    show |id x - x| ≤ _
    rw [id, sub_self, abs_zero]; positivity
  idem := fun x => rfl
  hyp := fun x y => by
    show |hypot x y - hypot x y| ≤ _
    rw [sub_self, abs_zero]; positivity

theorem scan_exact (t : TriState) : ∀ rem m, tqliScanFl TqliKernels.exact t rem m = tqliScan exactAbsorb t rem m
  | 0, m => rfl
  | rem + 1, m => by
    rw [tqliScanFl, tqliScan]
    simp only [scan_exact t rem (m + 1)]
    simp [TqliKernels.exact, exactAbsorb]

theorem sweep_exact (n : ℕ) (w : Bool) (m it : ℕ) : ∀ (k : ℕ) (x : SweepState),
    tqliSweepFl TqliKernels.exact n w m it k x = tqliSweep n w m it k x
  | 0, x => rfl
  | k + 1, x => by
    rw [tqliSweepFl, tqliSweep]
    simp only [sweep_exact n w m it k]
    rfl

theorem pass_exact (n : ℕ) (w : Bool) (m it : ℕ) (t : TriState) : tqliPassFl TqliKernels.exact n w m it t = tqliPass n w m it t := by
  unfold tqliPassFl tqliPass
  simp only [sweep_exact]
  rfl

theorem row_exact (n : ℕ) (w : Bool) (maxIter it : ℕ) : ∀ (fuel ii : ℕ) (t : TriState),
    tqliRowFl TqliKernels.exact n w maxIter it fuel ii t = tqliRow exactAbsorb n w maxIter it fuel ii t
  | 0, _, _ => rfl
  | fuel + 1, ii, t => by
    rw [tqliRowFl, tqliRow]
    simp only [scan_exact, pass_exact, row_exact n w maxIter it fuel]
    rcases tqliPass n w (tqliScan exactAbsorb t (n - 1 - it) it) it t with _ | t' <;> rfl

theorem rows_exact (n : ℕ) (w : Bool) (maxIter fuel : ℕ) : ∀ (rem it : ℕ) (t : TriState),
    tqliRowsFl TqliKernels.exact n w maxIter fuel rem it t = tqliRows exactAbsorb n w maxIter fuel rem it t
  | 0, _, _ => rfl
  | rem + 1, it, t => by
    rw [tqliRowsFl, tqliRows]
    simp only [row_exact, rows_exact n w maxIter fuel rem]
    rcases tqliRow exactAbsorb n w maxIter it fuel 0 t with _ | _ | t' <;> rfl

/-- C147: without rounding errors the model is the one of C53-C55. -/
theorem C147_exact (d e : Buf ℝ) (Z : ℕ → ℕ → ℝ) (w : Bool) (maxIter fuel : ℕ) :
    tqliFl TqliKernels.exact d e Z w maxIter fuel = tqli exactAbsorb d e Z w maxIter fuel := by
  unfold tqliFl tqli
  simp only [rows_exact]

/-! ## Cases that meet the hypotheses -/

/-- The hypotheses of `C147_backward_stable` hold for `[[a, b], [b, a]]` in exact arithmetic (`ε = 0`), where `tqli` needs one pass. -/
theorem tqliFl_swap (a b : ℝ) (hb : b ≠ 0) :
    ∃ t', tqliFl TqliKernels.exact ⟨2, fun _ => a⟩ ⟨2, fun i => if i = 0 then 0 else b⟩ eyeN true 30 32 = some (.ok (some t')) ∧
      RowsConverge TqliKernels.exact 2 true 30 32 2 0 (tqliStart ⟨2, fun _ => a⟩ ⟨2, fun i => if i = 0 then 0 else b⟩ eyeN) ∧ t'.d 0 = a - b ∧ t'.d 1 = a + b := by
  obtain ⟨t', h1, -, -, h4, h5⟩ := tqli_swap exactAbsorb exactAbsorb_ok a b hb
  refine ⟨t', by rw [C147_exact]; exact h1, ?_, h4, h5⟩
  obtain ⟨t, ht⟩ : ∃ t, t = tqliStart ⟨2, fun _ => a⟩ ⟨2, fun i => if i = 0 then 0 else b⟩ eyeN := ⟨_, rfl⟩
  have g0 : t.d 0 = a := by rw [ht]; simp [tqliStart]
  have g1 : t.d 1 = a := by rw [ht]; simp [tqliStart]
  have g2 : t.e 0 = b := by rw [ht]; simp [tqliStart]
  rw [← ht]
  obtain ⟨hr, t1, hp, e0, -, -, -⟩ := swap_pass a b hb t g0 g1 g2
  refine ⟨?_, fun t2 _ => ⟨Or.inl ?_, fun _ _ => trivial⟩⟩
  · rw [RowConverges, scan_exact, (scan_two exactAbsorb exactAbsorb_ok t).1 (by rw [g2]; exact hb)]
    refine Or.inr ⟨by omega, ?_, ?_⟩
    · unfold lastR
      simp only [sweep_exact]
      exact hr
    · intro t2 h2
      rw [pass_exact, hp] at h2
      obtain rfl := Option.some.inj h2
      rw [RowConverges, scan_exact, (scan_two exactAbsorb exactAbsorb_ok t1).2 e0]
      exact Or.inl rfl
  · rfl

example (a b : ℝ) (hb : b ≠ 0) : ∃ t', tqliFl TqliKernels.exact ⟨2, fun _ => a⟩ ⟨2, fun i => if i = 0 then 0 else b⟩ eyeN true 30 32 = some (.ok (some t')) ∧
    ∃ F Q : Matrix (Fin 2) (Fin 2) ℝ, ∑ i, ∑ j, F i j ^ 2 ≤ 0 ∧ Eigen (jacobi 2 (fun _ => a) (fun _ => b) + F) (fun i => t'.d i) Q ∧
      ∑ i : Fin 2, ∑ j : Fin 2, (t'.Z i j - Q i j) ^ 2 ≤ 0 := by
  obtain ⟨t', h1, h2, -, -⟩ := tqliFl_swap a b hb
  obtain ⟨F, Q, f1, f2, f3⟩ := C147_backward_stable (exact_ok le_rfl) le_rfl ⟨2, fun _ => a⟩ ⟨2, fun i => if i = 0 then 0 else b⟩ 30 32 (by simp) t' h1 h2
  refine ⟨t', h1, F, Q, ?_, ?_, ?_⟩
  · simpa using f1
  · simpa using f2
  · simpa using f3

theorem roundP_two (η : ℝ) (h0 : 0 ≤ η) (h1 : η ≤ 2⁻¹ ^ 53) : roundP 53 (η + 2) = 2 := by
  have hp : 0 < |η + 2| := abs_pos.2 (by linarith)
  have hη : η ≤ 1 := h1.trans (by norm_num)
  have hlog : Int.log 2 |η + 2| = 1 := by
    rw [abs_of_pos (by linarith)] at hp ⊢
    have a1 := (Int.zpow_le_iff_le_log (R := ℝ) (b := 2) (x := 1) (by norm_num) hp).1 (by norm_num; linarith)
    have a2 := (Int.lt_zpow_iff_log_lt (R := ℝ) (b := 2) (x := 2) (by norm_num) hp).1 (by norm_num; linarith)
    omega
  unfold roundP
  rw [hlog]
  have hr : round ((η + 2) / (2 : ℝ) ^ ((1 : ℤ) + 1 - ((53 : ℕ) : ℤ))) = 2 ^ 52 := by
    rw [round_eq, Int.floor_eq_iff]
    push_cast
    norm_num at h1 ⊢
    constructor <;> linarith
  rw [hr]
  push_cast
  norm_num

/-- The hypotheses of `C147_backward_stable` hold for `[[1, η], [η, 1]]` with a tiny `η`, rounding to 53 bits: `tqli` takes the matrix for a diagonal one. -/
theorem tqliFl_tiny (η : ℝ) (h0 : 0 ≤ η) (h1 : η ≤ 2⁻¹ ^ 53) :
    (∃ t', tqliFl (TqliKernels.bits 53) ⟨2, fun _ => 1⟩ ⟨2, fun i => if i = 0 then 0 else η⟩ eyeN true 30 32 = some (.ok (some t')) ∧ t'.d 0 = 1 ∧ t'.d 1 = 1) ∧
      RowsConverge (TqliKernels.bits 53) 2 true 30 32 2 0 (tqliStart ⟨2, fun _ => 1⟩ ⟨2, fun i => if i = 0 then 0 else η⟩ eyeN) := by
  obtain ⟨t, ht⟩ : ∃ t, t = tqliStart ⟨2, fun _ => (1 : ℝ)⟩ ⟨2, fun i => if i = 0 then 0 else η⟩ eyeN := ⟨_, rfl⟩
  have g0 : t.d 0 = 1 := by rw [ht]; simp [tqliStart]
  have g1 : t.d 1 = 1 := by rw [ht]; simp [tqliStart]
  have g2 : t.e 0 = η := by rw [ht]; simp [tqliStart]
  have hs : tqliScanFl (TqliKernels.bits 53) t (2 - 1 - 0) 0 = 0 := by
    have r2 := roundP_two 0 le_rfl (by positivity)
    rw [zero_add] at r2
    have r3 := roundP_two η h0 h1
    rw [show 2 - 1 - 0 = 0 + 1 from rfl, tqliScanFl, zero_add, g0, g1, g2, abs_one, abs_of_nonneg h0, one_add_one_eq_two]
    change (if roundP 53 (η + roundP 53 2) = roundP 53 2 then _ else _) = _
    rw [r2, r3, if_pos rfl]
  have hrow : tqliRowFl (TqliKernels.bits 53) 2 true 30 0 32 0 t = some (some t) := by
    rw [tqliRowFl, hs, if_pos rfl]
  have hrow1 : tqliRowFl (TqliKernels.bits 53) 2 true 30 1 32 0 t = some (some t) := by
    rw [tqliRowFl]
    simp [tqliScanFl]
  refine ⟨⟨t, ?_, g0, g1⟩, ?_⟩
  · unfold tqliFl
    simp only [ne_eq, not_true_eq_false, if_false, if_true, abs_zero]
    rw [if_neg (by norm_num), if_neg (by norm_num)]
    change (tqliRowsFl (TqliKernels.bits 53) 2 true 30 32 2 0 (tqliStart ⟨2, fun _ => 1⟩ ⟨2, fun i => if i = 0 then 0 else η⟩ eyeN)).map Except.ok = _
    rw [← ht]
    simp only [tqliRowsFl, hrow, hrow1]
    rfl
  · rw [← ht]
    refine ⟨?_, fun t2 _ => ⟨Or.inl rfl, fun _ _ => trivial⟩⟩
    rw [RowConverges, hs]
    exact Or.inl rfl

/-- The computed values, both `1`, are those of a matrix within the bound of the theorem of `[[1, η], [η, 1]]`, whose eigenvalues are `1 - η` and `1 + η`. -/
example (η : ℝ) (h0 : 0 ≤ η) (h1 : η ≤ 2⁻¹ ^ 53) : ∃ t', tqliFl (TqliKernels.bits 53) ⟨2, fun _ => 1⟩ ⟨2, fun i => if i = 0 then 0 else η⟩ eyeN true 30 32 = some (.ok (some t')) ∧
    ∃ F Q : Matrix (Fin 2) (Fin 2) ℝ, Eigen (jacobi 2 (fun _ => 1) (fun _ => η) + F) (fun i => t'.d i) Q := by
  obtain ⟨⟨t', h, -, -⟩, hc⟩ := tqliFl_tiny η h0 h1
  obtain ⟨F, Q, -, f2, -⟩ := C147_backward_stable (bits_ok 53 (by norm_num)) (by positivity) ⟨2, fun _ => (1 : ℝ)⟩ ⟨2, fun i => if i = 0 then 0 else η⟩ 30 32 (by norm_num) t' h hc
  exact ⟨t', h, F, Q, by simpa using f2⟩

end Primate
