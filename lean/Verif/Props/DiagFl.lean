import Verif.Model.DiagFl
import Verif.Props.HutchFl
import Verif.Props.DiagProb

/-! # Property C143: diag in floating point arithmetic -/

noncomputable section

namespace Primate

open Spec StatsFl

variable {N : ℕ} {φ : Fmt} {fl : ℝ → ℝ}

/-- The products `u * v` of the passes as they are computed. -/
def flProd (fl : ℝ → ℝ) (K : FlKernels N) (A : Matrix (Fin N) (Fin N) ℝ) (pdf : Pdf N) (t : ℕ) (i : Fin N) : ℝ :=
  fl (K.matvec t 0 A (Spec.draw1 pdf t) i * Spec.draw1 pdf t i)

/-- What is known of the running sums before pass `t`: `numer` is a sum of the products in some order of additions, `denom` counts the passes. -/
structure DInv (fl : ℝ → ℝ) (K : FlKernels N) (A : Matrix (Fin N) (Fin N) ℝ) (pdf : Pdf N) (t : ℕ) (s : DiagFlState N) : Prop where
  zero : t = 0 → ∀ i, s.numer i = 0
  numer : 0 < t → ∀ i, SumOrder fl ((List.range t).map fun l => flProd fl K A pdf l i) (s.numer i)
  denom : ∀ i, s.denom i = t

/-- One product. -/
theorem flProd_err (hn : φ.Nearest fl) (he : φ.emin ≤ φ.emax) {K : FlKernels N} (hK : FlKernelsOk fl K) (A : Matrix (Fin N) (Fin N) ℝ) (hA : ∀ i j, φ.Mem (A i j))
    (pdf : Pdf N) (hsg : ∀ t i, Spec.draw1 pdf t i = 1 ∨ Spec.draw1 pdf t i = -1) (M : ℝ) (hM : ∀ i, ∑ j, |A i j| ≤ M) (htop : (1 + φ.u) ^ N * M ≤ φ.top) (t : ℕ)
    (i : Fin N) :
    φ.Mem (flProd fl K A pdf t i) ∧ |flProd fl K A pdf t i - A.mulVec (Spec.draw1 pdf t) i * Spec.draw1 pdf t i| ≤ ((1 + φ.u) ^ N - 1) * M := by
  have hu := φ.u_pos
  have hr : 1 ≤ (1 + φ.u) ^ N := one_le_pow₀ (by linarith)
  obtain ⟨h1, h2⟩ := sign_dot hn he (A i) (Spec.draw1 pdf t) (hsg t) (hA i) (K.matvec t 0 A (Spec.draw1 pdf t) i) _ (by rw [List.map_ofFn]; rfl)
    (hK.matvec t 0 A _ i) (le_trans (mul_le_mul_of_nonneg_left (hM i) (by linarith)) htop)
  have h3 : |K.matvec t 0 A (Spec.draw1 pdf t) i - A.mulVec (Spec.draw1 pdf t) i| ≤ ((1 + φ.u) ^ N - 1) * M :=
    h2.trans (mul_le_mul_of_nonneg_left (hM i) (by linarith))
  unfold flProd
  rcases hsg t i with h | h <;> rw [h]
  · rw [mul_one, mul_one, hn.eq_self h1]
    exact ⟨h1, h3⟩
  · rw [mul_neg_one, mul_neg_one, hn.eq_self h1.neg, neg_sub_neg, abs_sub_comm]
    exact ⟨h1.neg, h3⟩

/-- The running sums of one more pass. -/
theorem DInv.step (hn : φ.Nearest fl) {K : FlKernels N} (A : Matrix (Fin N) (Fin N) ℝ) (pdf : Pdf N)
    (hsg : ∀ t i, Spec.draw1 pdf t i = 1 ∨ Spec.draw1 pdf t i = -1) {t : ℕ} (hmem : ∀ i, φ.Mem (flProd fl K A pdf t i)) (h1 : φ.Mem 1)
    (ht : φ.Mem ((t + 1 : ℕ) : ℝ)) {s : DiagFlState N} (inv : DInv fl K A pdf t s) (acc : Mean ℝ N) :
    DInv fl K A pdf (t + 1) ⟨fun i => fl (s.numer i + flProd fl K A pdf t i), fun i => fl (s.denom i + fl (Spec.draw1 pdf t i ^ 2)), acc⟩ := by
  refine ⟨by omega, fun _ i => ?_, fun i => ?_⟩
  · rw [List.range_succ, List.map_append]
    rcases Nat.eq_zero_or_pos t with rfl | h
    · simp only [inv.zero rfl i, zero_add, hn.eq_self (hmem i)]
      exact .single _
    · exact .node (inv.numer h i) (.single _)
  · have h2 : Spec.draw1 pdf t i ^ 2 = 1 := by rcases hsg t i with h | h <;> rw [h] <;> norm_num
    show fl (s.denom i + fl (Spec.draw1 pdf t i ^ 2)) = _
    rw [h2, hn.eq_self h1, inv.denom i, ← Nat.cast_succ, hn.eq_self ht]

/-- The ratio computed in a pass. -/
theorem DInv.ratio (hn : φ.Nearest fl) {K : FlKernels N} (hK : FlKernelsOk fl K) (A : Matrix (Fin N) (Fin N) ℝ) (hA : ∀ i j, φ.Mem (A i j)) (pdf : Pdf N)
    (hsg : ∀ t i, Spec.draw1 pdf t i = 1 ∨ Spec.draw1 pdf t i = -1) {M : ℝ} (hM : ∀ i, ∑ j, |A i j| ≤ M) {k : ℕ} (hNu : N * φ.u ≤ 1 / 64) (hfit : φ.Fits k (2 * M))
    {t : ℕ} (h0 : 0 < t) (ht : t ≤ k) {s : DiagFlState N} (inv : DInv fl K A pdf t s) (i : Fin N) :
    φ.Mem (fl (s.numer i / s.denom i)) ∧ |fl (s.numer i / s.denom i)| ≤ 2 * M ∧
      |fl (s.numer i / s.denom i) - Spec.bks A.mulVec (Spec.draw1 pdf) t i| ≤ (2 * N + 2 * k + 4) * φ.u * M := by
  have hu := φ.u_pos
  have he := hfit.exp
  have hM0 : 0 < M := by have := M_pos hfit; linarith
  have ht1 : (1 : ℝ) ≤ t := by exact_mod_cast h0
  have htk : (t : ℝ) ≤ k := by exact_mod_cast ht
  have htu : (t : ℝ) * φ.u ≤ k * φ.u := mul_le_mul_of_nonneg_right htk hu.le
  have hk256 := hfit.small
  have hu1 : φ.u ≤ 1 / 256 := by nlinarith
  have hr1 : 1 ≤ (1 + φ.u) ^ N := one_le_pow₀ (by linarith)
  have hq1 : 1 ≤ (1 + φ.u) ^ t := one_le_pow₀ (by linarith)
  have hrq : (1 + φ.u) ^ N * (1 + φ.u) ^ t ≤ 1 + 2 * ((N + t : ℕ) * φ.u) := by
    rw [← pow_add]
    exact pow_one_add_le hu.le (N + t) (by push_cast; nlinarith)
  push_cast at hrq
  set r := (1 + φ.u) ^ N with hr
  set q := (1 + φ.u) ^ t with hq
  have hrq2 : r * q ≤ 5 / 4 := by nlinarith
  have hr2 : r ≤ 5 / 4 := by nlinarith
  have htop : 8 * k * M ≤ φ.top := by have := hfit.top; linarith
  have hMt : t * M ≤ k * M := mul_le_mul_of_nonneg_right htk hM0.le
  have hMk : M ≤ k * M := by nlinarith
  have hrM : r * M ≤ φ.top := by
    have : r * M ≤ 5 / 4 * M := mul_le_mul_of_nonneg_right hr2 hM0.le
    linarith
  -- the products
  have hp : ∀ l, φ.Mem (flProd fl K A pdf l i) ∧ |flProd fl K A pdf l i - A.mulVec (Spec.draw1 pdf l) i * Spec.draw1 pdf l i| ≤ (r - 1) * M :=
    fun l => flProd_err hn he hK A hA pdf hsg M hM hrM l i
  have hex : ∀ l, |A.mulVec (Spec.draw1 pdf l) i * Spec.draw1 pdf l i| ≤ M := by
    intro l
    have hab : ∀ (j : Fin N) (x : ℝ), |x * Spec.draw1 pdf l j| = |x| := by
      intro j x
      rcases hsg l j with h | h <;> rw [h] <;> simp
    rw [hab]
    show |∑ j, A i j * Spec.draw1 pdf l j| ≤ M
    refine le_trans ((Finset.abs_sum_le_sum_abs _ _).trans (le_of_eq (Finset.sum_congr rfl fun j _ => ?_))) (hM i)
    exact hab j _
  have hpb : ∀ l, |flProd fl K A pdf l i| ≤ r * M := by
    intro l
    have := abs_le_of_close (hp l).2 (hex l)
    linarith
  -- their sum
  set W := (List.range t).map fun l => flProd fl K A pdf l i with hW
  have hWl : W.length = t := by simp [hW]
  have hWa : (W.map abs).sum ≤ t * (r * M) := by
    have := List.sum_le_card_nsmul (W.map abs) (r * M) (by
      intro y hy
      simp only [hW, List.map_map, List.mem_map, Function.comp] at hy
      obtain ⟨l, -, rfl⟩ := hy
      exact hpb l)
    simpa [hWl] using this
  have hWa0 := sum_abs_nonneg W
  obtain ⟨hm, h3⟩ := (inv.numer h0 i).err hn he (by
    intro x hx
    simp only [List.mem_map] at hx
    obtain ⟨l, -, rfl⟩ := hx
    exact (hp l).1) (by
    rw [hWl]
    have h5 : q * (W.map abs).sum ≤ q * (t * (r * M)) := mul_le_mul_of_nonneg_left hWa (by linarith)
    have h6 : q * (t * (r * M)) = (r * q) * (t * M) := by ring
    have h7 : (r * q) * (t * M) ≤ 5 / 4 * (t * M) := mul_le_mul_of_nonneg_right hrq2 (by positivity)
    linarith)
  rw [hWl] at h3
  have h4 : |s.numer i - W.sum| ≤ (q - 1) * (t * (r * M)) := by
    refine h3.trans (mul_le_mul ?_ hWa hWa0 (by linarith))
    have : (1 + φ.u) ^ (t - 1) ≤ (1 + φ.u) ^ t := pow_le_pow_right₀ (by linarith) (by omega)
    linarith
  have hWs : W.sum = ∑ l ∈ Finset.range t, flProd fl K A pdf l i := list_sum_range _ _
  have h5 : |W.sum - ∑ l ∈ Finset.range t, A.mulVec (Spec.draw1 pdf l) i * Spec.draw1 pdf l i| ≤ t * ((r - 1) * M) := by
    rw [hWs, ← Finset.sum_sub_distrib]
    refine (Finset.abs_sum_le_sum_abs _ _).trans ((Finset.sum_le_sum fun l _ => (hp l).2).trans (le_of_eq ?_))
    simp
  have hden : ∑ l ∈ Finset.range t, Spec.draw1 pdf l i ^ 2 = t := by
    have : ∀ l ∈ Finset.range t, Spec.draw1 pdf l i ^ 2 = 1 := by
      intro l _
      rcases hsg l i with h | h <;> rw [h] <;> norm_num
    rw [Finset.sum_congr rfl this]
    simp
  have htp : (0 : ℝ) < t := by linarith
  have hb : |Spec.bks A.mulVec (Spec.draw1 pdf) t i| ≤ M := by
    unfold Spec.bks
    rw [hden, abs_div, abs_of_pos htp, div_le_iff₀ htp]
    refine (Finset.abs_sum_le_sum_abs _ _).trans ((Finset.sum_le_sum fun l _ => hex l).trans (le_of_eq ?_))
    simp [mul_comm]
  have h6 : |s.numer i / t - Spec.bks A.mulVec (Spec.draw1 pdf) t i| ≤ (r * q - 1) * M := by
    unfold Spec.bks
    rw [hden, ← sub_div, abs_div, abs_of_pos htp, div_le_iff₀ htp]
    refine (abs_sub_le _ W.sum _).trans ((add_le_add h4 h5).trans (le_of_eq ?_))
    ring
  have h7 : |s.numer i / t - Spec.bks A.mulVec (Spec.draw1 pdf) t i| ≤ (2 * N + 2 * t) * φ.u * M := by
    refine h6.trans (mul_le_mul_of_nonneg_right ?_ hM0.le)
    linarith
  have h8 : |s.numer i / t| ≤ 5 / 4 * M := by
    have h13 := abs_le_of_close h6 hb
    have h14 : (r * q) * M ≤ 5 / 4 * M := mul_le_mul_of_nonneg_right hrq2 hM0.le
    linarith
  have h9 := hn.err he (x := s.numer i / t) (by linarith)
  have h10 : φ.Mem (fl (s.numer i / t)) := (hn _ (by linarith)).1
  have heta := hfit.eta
  have h11 : φ.u * |s.numer i / t| ≤ φ.u * (5 / 4 * M) := mul_le_mul_of_nonneg_left h8 hu.le
  rw [inv.denom i]
  have huM : 0 < φ.u * M := mul_pos hu hM0
  have h12 : |fl (s.numer i / t) - s.numer i / t| ≤ 4 * (φ.u * M) := by linarith
  refine ⟨h10, ?_, ?_⟩
  · have h13 := abs_le_of_close h12 h8
    have h14 : φ.u * M ≤ 1 / 256 * M := mul_le_mul_of_nonneg_right hu1 hM0.le
    linarith
  · refine (abs_sub_le _ (s.numer i / t) _).trans ((add_le_add h12 h7).trans ?_)
    have : t * (φ.u * M) ≤ k * (φ.u * M) := mul_le_mul_of_nonneg_right htk huM.le
    linarith

/-- The ratios entering the mean, as computed, are known only through their distance from the exact ones. -/
theorem diagLoopFl_run (hn : φ.Nearest fl) {K : FlKernels N} (hK : FlKernelsOk fl K) (A : Matrix (Fin N) (Fin N) ℝ) (hA : ∀ i j, φ.Mem (A i j)) (pdf : Pdf N)
    (hsg : ∀ t i, Spec.draw1 pdf t i = 1 ∨ Spec.draw1 pdf t i = -1) {M : ℝ} (hM : ∀ i, ∑ j, |A i j| ≤ M) {k : ℕ} (hNu : N * φ.u ≤ 1 / 64) (hfit : φ.Fits k (2 * M))
    (hint : ∀ m : ℕ, m ≤ k → φ.Mem (m : ℝ)) (t : ℕ) (ht : t ≤ k) :
    ∀ (s : DiagFlState N) (xs : List (Fin N → ℝ)), s.acc.nan = false → DInv fl K A pdf t s → xs.length = t → FInv φ (2 * M) s.acc.n s.acc.mu xs →
    (∀ i, |(xs.map fun x => x i).sum - ∑ l ∈ Finset.range t, Spec.bks A.mulVec (Spec.draw1 pdf) (l + 1) i| ≤ t * ((2 * N + 2 * k + 4) * φ.u * M)) →
    ∃ s' ys, diagLoopFl fl K A pdf k (k - t + 1) t s = some (.ok s') ∧ s'.acc.nan = false ∧ ys.length = k ∧ FInv φ (2 * M) s'.acc.n s'.acc.mu ys ∧
      ∀ i, |(ys.map fun x => x i).sum - ∑ l ∈ Finset.range k, Spec.bks A.mulVec (Spec.draw1 pdf) (l + 1) i| ≤ k * ((2 * N + 2 * k + 4) * φ.u * M) := by
  obtain ⟨m, hm⟩ : ∃ m, k - t = m := ⟨_, rfl⟩
  induction m generalizing t with
  | zero =>
    intro s xs hs inv hl hF hsum
    obtain rfl : t = k := by omega
    refine ⟨s, xs, ?_, hs, hl, hF, hsum⟩
    rw [hm, diagLoopFl, if_pos (by rw [hF.count, hl])]
  | succ m ih =>
    intro s xs hs inv hl hF hsum
    have hu := φ.u_pos
    have hM0 : 0 < M := by have := M_pos hfit; linarith
    have hmem : ∀ i, φ.Mem (flProd fl K A pdf t i) := by
      intro i
      refine (flProd_err hn hfit.exp hK A hA pdf hsg M hM ?_ t i).1
      have h1 := pow_one_add_le hu.le N (by linarith)
      have h2 : (1 : ℝ) ≤ k := by exact_mod_cast (show 1 ≤ k by omega)
      have h3 := hfit.top
      have h4 : (1 + φ.u) ^ N * M ≤ 2 * M := mul_le_mul_of_nonneg_right (by linarith) hM0.le
      nlinarith
    have inv' := fun acc => inv.step hn A pdf hsg hmem (by simpa using hint 1 (by omega)) (hint (t + 1) (by omega)) acc
    set numer : Vec N := fun i => fl (s.numer i + flProd fl K A pdf t i) with hnum
    set denom : Vec N := fun i => fl (s.denom i + fl (Spec.draw1 pdf t i ^ 2)) with hden
    set x : Fin N → ℝ := fun i => fl (numer i / denom i) with hx
    have hr := fun i => (inv' s.acc).ratio hn hK A hA pdf hsg hM hNu hfit (Nat.succ_pos t) (by omega) i
    have hstep := hF.step (X := [x]) (s := x) hn hfit (by simp) (fun i => .single _) (by
      intro y hy i
      obtain rfl := List.mem_singleton.1 hy
      exact ⟨(hr i).1, (hr i).2.1⟩) (by rw [hF.count, hl, List.length_singleton]; omega)
    obtain ⟨acc', h1, h2, h3⟩ : ∃ acc', s.acc.updateRowsFl fl [x] x = .ok acc' ∧ acc'.nan = false ∧ FInv φ (2 * M) acc'.n acc'.mu (xs ++ [x]) := by
      unfold Mean.updateRowsFl
      simp only [List.length_singleton, Nat.add_eq_zero_iff, one_ne_zero, and_false, if_false]
      exact ⟨_, rfl, hs, hstep⟩
    obtain ⟨s'', ys, h4, h5⟩ := ih (t + 1) (by omega) (by omega) ⟨numer, denom, acc'⟩ (xs ++ [x]) h2 (inv' acc') (by simp [hl]) h3 (by
      intro i
      rw [List.map_append, List.sum_append, Finset.sum_range_succ]
      have h6 := hsum i
      have h7 := (hr i).2.2
      simp only [List.map_singleton, List.sum_singleton]
      rw [add_sub_add_comm]
      refine (abs_add_le _ _).trans ((add_le_add h6 h7).trans (le_of_eq ?_))
      push_cast
      ring)
    refine ⟨s'', ys, ?_, h5⟩
    rw [show k - t = (k - (t + 1)) + 1 by omega, diagLoopFl, if_neg (by rw [hF.count, hl]; omega)]
    have hb : diagBodyFl fl K A pdf t s = .ok ⟨numer, denom, acc'⟩ := by
      have h8 : diagBodyFl fl K A pdf t s = match s.acc.updateRowsFl fl [x] x with
          | .error e => .error e
          | .ok acc => .ok ⟨numer, denom, acc⟩ := rfl
      rw [h8, h1]
    rw [hb]
    exact h4

/-- **C143**.  `diag` on a dense array with Rademacher vectors and `CountCriterion(k)`, evaluated in floating point arithmetic: whatever the order of evaluation of the
matrix products, every entry returned differs from the one that exact arithmetic returns for the same vectors by at most `(2 N + 34 k + 4) u M`, where `M` bounds the
sum of the absolute values of each row. -/
theorem C143_diag_rounding (tppf : ℝ → ℕ → ℝ) (zscore : ℝ → ℝ) (hn : φ.Nearest fl) {K : FlKernels N} (hK : FlKernelsOk fl K) (rng : Rng)
    (hu : ∀ p, 0 ≤ rng.unif p ∧ rng.unif p < 1) (A : Matrix (Fin N) (Fin N) ℝ) (hN : N ≠ 0) (hA : ∀ i j, φ.Mem (A i j)) (M : ℝ) (hM : ∀ i, ∑ j, |A i j| ≤ M)
    (k : ℕ) (hk : 0 < k) (hNu : N * φ.u ≤ 1 / 64) (hfit : φ.Fits k (2 * M)) (hint : ∀ m : ℕ, m ≤ k → φ.Mem (m : ℝ)) :
    ∃ x y : Fin N → ℝ,
      diagFl fl K rng A (.name "rademacher") k (k + 1) = some (.ok (.val x)) ∧
      diag tppf zscore rng (diagArgs A "rademacher" k) (k + 1) = some (.ok (.arr (.val y), [])) ∧
      ∀ i, φ.Mem (x i) ∧ |x i - y i| ≤ (2 * N + 34 * k + 4) * φ.u * M := by
  obtain ⟨pdf, hp⟩ : ∃ pdf : Pdf N, isotropicPdf "rademacher" rng N = .ok pdf := ⟨_, rfl⟩
  have hsg : ∀ t i, Spec.draw1 pdf t i = 1 ∨ Spec.draw1 pdf t i = -1 := fun t i => rademacher_pdf_signs rng hu pdf hp _ _ _ i
  have hk' : (0 : ℝ) < k := by exact_mod_cast hk
  obtain ⟨s, ys, h1, h2, h3, h4, h5⟩ := diagLoopFl_run hn hK A hA pdf hsg hM hNu hfit hint 0 (by omega) ⟨fun _ => 0, fun _ => 0, Mean.init ℝ N⟩ [] rfl
    ⟨fun _ _ => rfl, by omega, by simp⟩ rfl (FInv.init hfit.exp) (by simp)
  have hne : ys ≠ [] := by
    rintro rfl
    simp at h3
    omega
  have hsn : s.acc.n ≠ 0 := by rw [h4.count, h3]; omega
  have hex := diag_count tppf zscore rng (diagArgs A "rademacher" k) hN "rademacher" rfl pdf hp k rfl rfl rfl
  rw [destAt_estimate, if_neg (by omega)] at hex
  refine ⟨s.acc.mu, _, ?_, hex, fun i => ⟨h4.mem i, ?_⟩⟩
  · unfold diagFl
    rw [Nat.sub_zero] at h1
    simp only [hp, hN, if_false, h1]
    congr 2
    simp [Mean.mean, hsn, h2]
  · have h6 := h4.mean_err hne i
    rw [h3] at h6
    have h7 : Spec.sampleMean ys i = (ys.map fun x => x i).sum / k := by
      unfold Spec.sampleMean
      rw [h3]
    have h8 : |(ys.map fun x => x i).sum / k - (∑ l ∈ Finset.range k, Spec.bks A.mulVec (Spec.draw1 pdf) (l + 1) i) / k| ≤ (2 * N + 2 * k + 4) * φ.u * M := by
      rw [← sub_div, abs_div, abs_of_pos hk', div_le_iff₀ hk']
      refine (h5 i).trans (le_of_eq ?_)
      ring
    rw [h7] at h6
    refine (abs_sub_le _ ((ys.map fun x => x i).sum / k) _).trans ((add_le_add h6 h8).trans (le_of_eq ?_))
    ring

open MeasureTheory in
/-- **C143** end to end: with an ideal generator the probability that the entry computed in floating point arithmetic misses the diagonal entry by more than `ε` and the
rounding error is bounded as in C121.  The order of evaluation may be different in every execution. -/
theorem C143_tail {Ω : Type*} [MeasurableSpace Ω] {P : Measure Ω} [IsProbabilityMeasure P] (hn : φ.Nearest fl) (K : Ω → FlKernels N)
    (hK : ∀ ω, FlKernelsOk fl (K ω)) (A : Matrix (Fin N) (Fin N) ℝ) (hN : N ≠ 0) (hA : ∀ i j, φ.Mem (A i j)) (M : ℝ) (hM : ∀ i, ∑ j, |A i j| ≤ M)
    (k : ℕ) (hk : 0 < k) (hNu : N * φ.u ≤ 1 / 64) (hfit : φ.Fits k (2 * M)) (hint : ∀ m : ℕ, m ≤ k → φ.Mem (m : ℝ)) (u X : ℕ → Ω → ℝ) (hu : Spec.IidUniform P u) :
    ∃ est : Ω → Fin N → ℝ,
      (∀ᵐ ω ∂P, diagFl fl (K ω) ⟨fun q => u q ω, fun q => X q ω⟩ A (.name "rademacher") k (k + 1) = some (.ok (.val (est ω)))) ∧
      ∀ i, ∀ B, B = (∑ j, if j = i then 0 else |A i j|) → 0 < B → ∀ ε : ℝ, 0 < ε →
        P.real {ω | ε + (2 * N + 34 * k + 4) * φ.u * M ≤ |est ω i - A i i|} ≤
          2 * Real.exp (-((k : ℝ) ^ 2 * ε ^ 2 / (2 * B ^ 2 * (2 * k - ∑ m ∈ Finset.range k, 1 / ((m : ℝ) + 1))))) := by
  obtain ⟨y, hy, htail⟩ := C121_rademacher (fun _ _ => 0) (fun _ => 0) A hN k hk u X hu
  have hr : ∀ᵐ ω ∂P, ∀ q, u q ω ∈ Set.Ico (0 : ℝ) 1 := by
    rw [ae_all_iff]
    intro q
    have h1 : ∀ᵐ x ∂(volume.restrict (Set.Ico (0 : ℝ) 1)), x ∈ Set.Ico (0 : ℝ) 1 := ae_restrict_mem measurableSet_Ico
    rw [← (hu.law q).map_eq] at h1
    exact ae_of_ae_map (hu.law q).aemeasurable h1
  have key : ∀ ω, ∃ x : Fin N → ℝ, (∀ q, u q ω ∈ Set.Ico (0 : ℝ) 1) →
      diag (fun _ _ => 0) (fun _ => 0) ⟨fun q => u q ω, fun q => X q ω⟩ (diagArgs A "rademacher" k) (k + 1) = some (.ok (.arr (.val (y ω)), [])) →
      diagFl fl (K ω) ⟨fun q => u q ω, fun q => X q ω⟩ A (.name "rademacher") k (k + 1) = some (.ok (.val x)) ∧
        ∀ i, |x i - y ω i| ≤ (2 * N + 34 * k + 4) * φ.u * M := by
    intro ω
    by_cases h : ∀ q, u q ω ∈ Set.Ico (0 : ℝ) 1
    · obtain ⟨x, y', h1, h2, h3⟩ := C143_diag_rounding (fun _ _ => 0) (fun _ => 0) hn (hK ω) ⟨fun q => u q ω, fun q => X q ω⟩ h A hN hA M hM k hk hNu hfit hint
      refine ⟨x, fun _ h5 => ⟨h1, fun i => ?_⟩⟩
      rw [h5] at h2
      simp only [Option.some.injEq, Except.ok.injEq, Prod.mk.injEq, DiagOut.arr.injEq, NumArr.val.injEq, and_true] at h2
      rw [h2]
      exact (h3 i).2
    · exact ⟨0, fun h' => absurd h' h⟩
  choose est hest using key
  refine ⟨est, ?_, fun i B hB hB0 ε hε => le_trans ?_ ((htail i).2.2 B hB hB0 ε hε)⟩
  · filter_upwards [hr, hy] with ω h1 h2
    exact (hest ω h1 h2).1
  · refine ENNReal.toReal_mono (measure_ne_top _ _) (measure_mono_ae ?_)
    filter_upwards [hr, hy] with ω h1 h2 h3
    have h4 := (hest ω h1 h2).2 i
    have h5 : ε + (2 * N + 34 * k + 4) * φ.u * M ≤ |est ω i - A i i| := h3
    have h6 := abs_sub_le (est ω i) (y ω i) (A i i)
    show ε ≤ |y ω i - A i i|
    linarith

/-- Concrete case of **C143**: the matrix `[[1, 2], [3, 4]]` in double precision, thirty-two vectors: the error of each entry is below `2 ^ -39`. -/
example (tppf : ℝ → ℕ → ℝ) (zscore : ℝ → ℝ) (fl : ℝ → ℝ) (hn : binary64.Nearest fl) (K : FlKernels 2) (hK : FlKernelsOk fl K) (rng : Rng)
    (hu : ∀ p, 0 ≤ rng.unif p ∧ rng.unif p < 1) :
    ∃ x y : Fin 2 → ℝ,
      diagFl fl K rng !![1, 2; 3, 4] (.name "rademacher") 32 33 = some (.ok (.val x)) ∧
      diag tppf zscore rng (diagArgs !![1, 2; 3, 4] "rademacher" 32) 33 = some (.ok (.arr (.val y), [])) ∧ ∀ i, |x i - y i| ≤ 2 ^ (-39 : ℤ) := by
  obtain ⟨x, y, h1, h2, h3⟩ := C143_diag_rounding tppf zscore hn hK rng hu !![1, 2; 3, 4] (by omega)
    (by
      intro i j
      fin_cases i <;> fin_cases j
      · simpa using binary64_mem_int 1 (by norm_num)
      · simpa using binary64_mem_int 2 (by norm_num)
      · simpa using binary64_mem_int 3 (by norm_num)
      · simpa using binary64_mem_int 4 (by norm_num)) 7 (by intro i; fin_cases i <;> norm_num [Fin.sum_univ_two]) 32 (by omega)
    (by norm_num [binary64, Fmt.u]) (binary64_fits _ (by norm_num) _
      ((zpow_le_one_of_nonpos₀ (by norm_num) (by norm_num)).trans (by norm_num))
      (le_trans (by norm_num) (zpow_le_zpow_right₀ (by norm_num) (by norm_num : (4 : ℤ) ≤ 900))))
    (fun m hm => by
      have := binary64_mem_int m (by rw [abs_of_nonneg (by positivity)]; exact_mod_cast hm.trans (by norm_num))
      exact_mod_cast this)
  refine ⟨x, y, h1, h2, fun i => (h3 i).2.trans ?_⟩
  norm_num [binary64, Fmt.u]

/-- There are such roundings and kernels. -/
example : ∃ (fl : ℝ → ℝ) (K : FlKernels 2), binary64.Nearest fl ∧ FlKernelsOk fl K := by
  obtain ⟨fl, hn⟩ := Fmt.exists_nearest (φ := binary64) (by norm_num [binary64])
  obtain ⟨K, hK⟩ := flKernels_exist (N := 2) fl (by omega)
  exact ⟨fl, K, hn, hK⟩

end Primate
