import Verif.Model.StatsFl
import Verif.Lemmas.Float
import Verif.Lemmas.Stats
import Verif.Prelude

/-! # C106, C107: the streaming mean and covariance in floating point arithmetic -/

namespace Primate

open Spec

variable {d : ℕ} {φ : Fmt} {fl : ℝ → ℝ}

/-- The data fit the format: `N` observations bounded by `M`, far from overflow, and `M` large compared to the subnormal numbers. -/
structure Spec.Fmt.Fits (φ : Fmt) (N : ℕ) (M : ℝ) : Prop where
  exp : φ.emin ≤ φ.emax
  small : N * φ.u ≤ 1 / 256
  one : 1 ≤ φ.top
  top : 4 * N * M ≤ φ.top
  eta : φ.eta ≤ φ.u * M
  etaN : N * φ.eta ≤ φ.u

namespace StatsFl

theorem u_small {N : ℕ} {M : ℝ} (h : φ.Fits N M) (hN : 0 < N) : φ.u ≤ 1 / 256 := by
  have h1 : (1 : ℝ) ≤ N := by exact_mod_cast hN
  have := h.small
  have := φ.u_pos
  nlinarith

theorem M_pos {N : ℕ} {M : ℝ} (h : φ.Fits N M) : 0 < M := by
  have h1 := h.eta
  have h2 := φ.eta_pos
  have h3 := φ.u_pos
  by_contra hc
  nlinarith

/-- Error of the batch mean. -/
theorem batch_err (hn : φ.Nearest fl) {N : ℕ} {M : ℝ} (h : φ.Fits N M) {xs : List ℝ} {s : ℝ} (hs : SumOrder fl xs s)
    (hF : ∀ x ∈ xs, φ.Mem x ∧ |x| ≤ M) (hN : xs.length ≤ N) :
    φ.Mem (fl (s / xs.length)) ∧ |fl (s / xs.length) - xs.sum / xs.length| ≤ (2 * xs.length + 1) * (φ.u * M) := by
  have hl := hs.length_pos
  have hu := φ.u_pos
  have hM := M_pos h
  have hus := u_small h (by omega)
  have hl1 : (1 : ℝ) ≤ xs.length := by exact_mod_cast hl
  have hlN : (xs.length : ℝ) ≤ N := by exact_mod_cast hN
  have hlu : (xs.length : ℝ) * φ.u ≤ 1 / 256 := by nlinarith [h.small]
  have hsum : (xs.map abs).sum ≤ xs.length * M := by
    have := List.sum_le_card_nsmul (xs.map abs) M (by
      intro y hy
      obtain ⟨x, hx, rfl⟩ := List.mem_map.1 hy
      exact (hF x hx).2)
    simpa using this
  have hs0 := sum_abs_nonneg xs
  have hp := pow_one_add_le hu.le xs.length (by linarith)
  have hp' := pow_one_add_le hu.le (xs.length - 1) (by
    have : ((xs.length - 1 : ℕ) : ℝ) = xs.length - 1 := by push_cast [Nat.cast_sub (show 1 ≤ xs.length from hl)]; ring
    rw [this]; nlinarith)
  have hc1 : ((xs.length - 1 : ℕ) : ℝ) = xs.length - 1 := by push_cast [Nat.cast_sub (show 1 ≤ xs.length from hl)]; ring
  rw [hc1] at hp'
  have htop : (1 + φ.u) ^ xs.length * (xs.map abs).sum ≤ φ.top := by
    have h1 : (1 + φ.u) ^ xs.length * (xs.map abs).sum ≤ 2 * (xs.length * M) := by
      apply mul_le_mul (by linarith) hsum hs0 (by norm_num)
    have h2 : 2 * (xs.length * M) ≤ 4 * N * M := by nlinarith
    linarith [h.top]
  obtain ⟨-, hb⟩ := hs.err hn h.exp (fun x hx => (hF x hx).1) htop
  have hb2 : |s - xs.sum| ≤ (2 * (xs.length - 1) * φ.u) * (xs.length * M) := by
    refine hb.trans (mul_le_mul (by linarith) hsum hs0 ?_)
    have : 0 ≤ (xs.length : ℝ) - 1 := by linarith
    positivity
  have hlp : (0 : ℝ) < xs.length := by linarith
  have hb3 : |s / xs.length - xs.sum / xs.length| ≤ (2 * (xs.length - 1)) * (φ.u * M) := by
    rw [← sub_div, abs_div, abs_of_pos hlp, div_le_iff₀ hlp]
    linarith
  have hx : |xs.sum / xs.length| ≤ M := by
    rw [abs_div, abs_of_pos hlp, div_le_iff₀ hlp]
    have := abs_sum_le xs
    linarith
  have huM : 0 < φ.u * M := by positivity
  have hluM : (xs.length : ℝ) * (φ.u * M) ≤ 1 / 256 * M := by nlinarith
  have hsb : |s / xs.length| ≤ M + 2 * (1 / 256 * M) := by
    have := abs_sub_abs_le_abs_sub (s / xs.length) (xs.sum / xs.length)
    nlinarith
  have hr : |s / xs.length| ≤ φ.top := by
    have : 4 * N * M ≥ 4 * M := by nlinarith
    linarith [h.top]
  refine ⟨(hn _ hr).1, ?_⟩
  have e1 := hn.err h.exp hr
  have e2 := abs_sub_le (fl (s / xs.length)) (s / xs.length) (xs.sum / xs.length)
  have e3 : φ.u * |s / xs.length| ≤ φ.u * (M + 2 * (1 / 256 * M)) := mul_le_mul_of_nonneg_left hsb hu.le
  have e4 := h.eta
  nlinarith

theorem prod_err (a b a' b' : ℝ) : |a' * b' - a * b| ≤ |a' - a| * |b'| + |a| * |b' - b| := by
  rw [← abs_mul, ← abs_mul, show a' * b' - a * b = (a' - a) * b' + a * (b' - b) by ring]
  exact abs_add_le _ _

theorem abs_le_of_close {a b e m : ℝ} (h : |a - b| ≤ e) (hb : |b| ≤ m) : |a| ≤ m + e := by
  have := abs_sub_abs_le_abs_sub a b
  linarith

/-- Local error of one update of the mean. -/
theorem step_err (hn : φ.Nearest fl) {N : ℕ} {M : ℝ} (h : φ.Fits N M) {n b : ℕ} (hb : 0 < b) (hN : n + b ≤ N) {mu bm : ℝ}
    (h1 : φ.Mem mu) (h2 : φ.Mem bm) (h1' : |mu| ≤ 5 / 4 * M) (h2' : |bm| ≤ 5 / 4 * M) :
    φ.Mem (meanStepFl fl n b mu bm) ∧
      |meanStepFl fl n b mu bm - (mu + (b : ℝ) / ((n + b : ℕ) : ℝ) * (bm - mu))| ≤ 13 * (φ.u * M) := by
  have hu := φ.u_pos
  have hM := M_pos h
  have hN0 : 0 < N := by omega
  have hus := u_small h hN0
  have hb1 : (1 : ℝ) ≤ b := by exact_mod_cast hb
  have hnb : (0 : ℝ) < ((n + b : ℕ) : ℝ) := by exact_mod_cast (by omega : 0 < n + b)
  have hnbN : ((n + b : ℕ) : ℝ) ≤ N := by exact_mod_cast hN
  have hN1 : (1 : ℝ) ≤ N := by exact_mod_cast hN0
  have htop : 4 * M ≤ φ.top := by nlinarith [h.top]
  set U := φ.u * M with hU
  have hU0 : 0 < U := by positivity
  have hUM : U ≤ 1 / 256 * M := by nlinarith
  set c := (b : ℝ) / ((n + b : ℕ) : ℝ) with hc
  have hc0 : 0 < c := by positivity
  have hc1 : c ≤ 1 := by
    rw [hc, div_le_one hnb]
    push_cast
    linarith [(Nat.cast_nonneg n : (0 : ℝ) ≤ n)]
  have hetac : φ.eta ≤ φ.u * c := by
    have h3 : 1 / ((n + b : ℕ) : ℝ) ≤ c := by rw [hc]; gcongr
    have h4 : φ.eta ≤ φ.u / N := by rw [le_div_iff₀ (by linarith)]; linarith [h.etaN]
    have h5 : φ.u / N ≤ φ.u * (1 / ((n + b : ℕ) : ℝ)) := by
      rw [mul_one_div]
      exact div_le_div_of_nonneg_left hu.le hnb hnbN
    nlinarith
  have hcr : |c| ≤ φ.top := by rw [abs_of_pos hc0]; linarith [h.one]
  have ec : |fl c - c| ≤ 2 * φ.u * c := by
    have := hn.err h.exp hcr
    rw [abs_of_pos hc0] at this
    linarith
  set D := bm - mu with hD
  have hDM : |D| ≤ 5 / 2 * M := by
    have := abs_sub bm mu
    rw [← hD] at this
    linarith
  have hDr : |D| ≤ φ.top := by linarith
  have ed : |fl D - D| ≤ 5 / 2 * U := by
    have := hn.err_sub h.exp h2 h1 hDr
    rw [← hD] at this
    nlinarith
  have edM : |fl D| ≤ 5 / 2 * M + 5 / 2 * U := abs_le_of_close ed hDM
  have ecM : |fl c| ≤ 1 + 2 * φ.u := by
    refine abs_le_of_close (b := c) (ec.trans ?_) (by rw [abs_of_pos hc0]; exact hc1)
    nlinarith
  have ep : |fl c * fl D - c * D| ≤ 8 * U := by
    refine (prod_err c D (fl c) (fl D)).trans ?_
    have q1 : |fl c - c| * |fl D| ≤ (2 * φ.u) * (5 / 2 * M + 5 / 2 * U) :=
      mul_le_mul (ec.trans (by nlinarith)) edM (abs_nonneg _) (by linarith)
    have q2 : |c| * |fl D - D| ≤ 1 * (5 / 2 * U) :=
      mul_le_mul (by rw [abs_of_pos hc0]; exact hc1) ed (abs_nonneg _) (by norm_num)
    nlinarith
  have epM : |fl c * fl D| ≤ 26 / 10 * M := by
    rw [abs_mul]
    have : |fl c| * |fl D| ≤ (1 + 2 * φ.u) * (5 / 2 * M + 5 / 2 * U) := mul_le_mul ecM edM (abs_nonneg _) (by linarith)
    nlinarith
  have hpr : |fl c * fl D| ≤ φ.top := by linarith
  have epp : |fl (fl c * fl D) - fl c * fl D| ≤ 36 / 10 * U := by
    have := hn.err h.exp hpr
    have h3 := h.eta
    nlinarith
  have epc : |fl (fl c * fl D) - c * D| ≤ 116 / 10 * U := by
    have := abs_sub_le (fl (fl c * fl D)) (fl c * fl D) (c * D)
    linarith
  have hconv : |mu + c * D| ≤ 5 / 4 * M := by
    rw [show mu + c * D = (1 - c) * mu + c * bm by rw [hD]; ring]
    have q := abs_add_le ((1 - c) * mu) (c * bm)
    rw [abs_mul, abs_mul, abs_of_pos hc0, abs_of_nonneg (by linarith : 0 ≤ 1 - c)] at q
    nlinarith
  have em : |mu + fl (fl c * fl D)| ≤ 13 / 10 * M := by
    have : |mu + fl (fl c * fl D) - (mu + c * D)| ≤ 116 / 10 * U := by rw [add_sub_add_left_eq_sub]; exact epc
    have := abs_le_of_close this hconv
    linarith
  have hmr : |mu + fl (fl c * fl D)| ≤ φ.top := by linarith
  have ef := hn.err_add h.exp h1 (hn _ hpr).1 hmr
  refine ⟨(hn _ hmr).1, ?_⟩
  change |fl (mu + fl (fl c * fl D)) - (mu + c * D)| ≤ 13 * U
  have e1 := abs_sub_le (fl (mu + fl (fl c * fl D))) (mu + fl (fl c * fl D)) (mu + c * D)
  have e2 : |mu + fl (fl c * fl D) - (mu + c * D)| ≤ 116 / 10 * U := by rw [add_sub_add_left_eq_sub]; exact epc
  have e3 : φ.u * |mu + fl (fl c * fl D)| ≤ φ.u * (13 / 10 * M) := mul_le_mul_of_nonneg_left em hu.le
  linarith

/-- One coordinate of one update: from the error before to the error after.  `t` and `xs` are the sum of the old observations and the new ones. -/
theorem coord_step (hn : φ.Nearest fl) {N : ℕ} {M : ℝ} (h : φ.Fits N M) {n : ℕ} {mu t : ℝ} {xs : List ℝ} {s : ℝ} (hs : SumOrder fl xs s)
    (hF : ∀ x ∈ xs, φ.Mem x ∧ |x| ≤ M) (hN : n + xs.length ≤ N) (h1 : φ.Mem mu) (h0 : n = 0 → mu = 0) (ht : |t| ≤ n * M)
    (he : |n * mu - t| ≤ 16 * n ^ 2 * (φ.u * M)) :
    |mu| ≤ 17 / 16 * M ∧ |fl (s / xs.length)| ≤ 17 / 16 * M ∧ φ.Mem (fl (s / xs.length)) ∧
    φ.Mem (meanStepFl fl n xs.length mu (fl (s / xs.length))) ∧
      |((n + xs.length : ℕ) : ℝ) * meanStepFl fl n xs.length mu (fl (s / xs.length)) - (t + xs.sum)| ≤
        16 * ((n + xs.length : ℕ) : ℝ) ^ 2 * (φ.u * M) := by
  have hl := hs.length_pos
  have hu := φ.u_pos
  have hM := M_pos h
  have hl1 : (1 : ℝ) ≤ xs.length := by exact_mod_cast hl
  have hn0 : (0 : ℝ) ≤ n := Nat.cast_nonneg n
  have hNr : (n : ℝ) + xs.length ≤ N := by exact_mod_cast hN
  set U := φ.u * M with hU
  have hU0 : 0 < U := by positivity
  have hNU : N * U ≤ 1 / 256 * M := by nlinarith [h.small]
  obtain ⟨hb1, hb2⟩ := batch_err hn h hs hF (by omega)
  have hsum : |xs.sum / xs.length| ≤ M := by
    have hlp : (0 : ℝ) < xs.length := by linarith
    rw [abs_div, abs_of_pos hlp, div_le_iff₀ hlp]
    refine (abs_sum_le xs).trans ?_
    have := List.sum_le_card_nsmul (xs.map abs) M (by
      intro y hy
      obtain ⟨x, hx, rfl⟩ := List.mem_map.1 hy
      exact (hF x hx).2)
    simp at this
    linarith
  have hbM : |fl (s / xs.length)| ≤ 17 / 16 * M := by
    have := abs_le_of_close hb2 hsum
    nlinarith
  have hmuM : |mu| ≤ 17 / 16 * M := by
    rcases Nat.eq_zero_or_pos n with hz | hz
    · rw [h0 hz, abs_zero]; positivity
    · have hn1 : (1 : ℝ) ≤ n := by exact_mod_cast hz
      have h3 : |n * mu| ≤ n * M + 16 * n ^ 2 * U := abs_le_of_close he ht
      rw [abs_mul, abs_of_nonneg hn0] at h3
      have h4 : |mu| ≤ M + 16 * n * U := by
        have : n * |mu| ≤ n * (M + 16 * n * U) := by nlinarith
        exact le_of_mul_le_mul_left this (by linarith)
      nlinarith
  obtain ⟨hm, hstep⟩ := step_err hn h hl hN h1 hb1 (by linarith) (by linarith)
  refine ⟨hmuM, hbM, hb1, hm, ?_⟩
  set r := meanStepFl fl n xs.length mu (fl (s / xs.length)) with hr
  set bm := fl (s / xs.length) with hbm
  push_cast at hstep ⊢
  set L : ℝ := (xs.length : ℝ) with hL
  have hnL : 0 < (n : ℝ) + L := by linarith
  have e1 : ((n : ℝ) + L) * r - (t + xs.sum) =
      ((n : ℝ) + L) * (r - (mu + L / (n + L) * (bm - mu))) + (n * mu - t) + L * (bm - xs.sum / L) := by
    have : L ≠ 0 := by linarith
    field_simp
    ring
  rw [e1]
  refine (abs_add_le _ _).trans ?_
  have e2 := abs_add_le (((n : ℝ) + L) * (r - (mu + L / (n + L) * (bm - mu)))) (n * mu - t)
  rw [abs_mul, abs_of_pos hnL] at e2
  rw [abs_mul L, abs_of_pos (by linarith : 0 < L)]
  have e3 : ((n : ℝ) + L) * |r - (mu + L / (n + L) * (bm - mu))| ≤ (n + L) * (13 * U) := mul_le_mul_of_nonneg_left hstep hnL.le
  have e4 : L * |bm - xs.sum / L| ≤ L * ((2 * L + 1) * U) := mul_le_mul_of_nonneg_left hb2 (by linarith)
  have e5 : (n + L) * (13 * U) + 16 * n ^ 2 * U + L * ((2 * L + 1) * U) ≤ 16 * (n + L) ^ 2 * U := by
    have : (n + L) * 13 + 16 * n ^ 2 + L * (2 * L + 1) ≤ 16 * (n + L) ^ 2 := by nlinarith [mul_nonneg hn0 (by linarith : 0 ≤ L - 1)]
    nlinarith
  linarith

/-- What is known after the observations `xs`. -/
structure FInv (φ : Fmt) (M : ℝ) (n : ℕ) (mu : Fin d → ℝ) (xs : List (Fin d → ℝ)) : Prop where
  count : n = xs.length
  bound : ∀ x ∈ xs, ∀ i, |x i| ≤ M
  mem : ∀ i, φ.Mem (mu i)
  mu0 : n = 0 → ∀ i, mu i = 0
  mu : ∀ i, |n * mu i - (xs.map fun x => x i).sum| ≤ 16 * n ^ 2 * (φ.u * M)

theorem abs_sum_le_of_bound {M : ℝ} (xs : List (Fin d → ℝ)) (i : Fin d) (h : ∀ x ∈ xs, ∀ i, |x i| ≤ M) :
    |(xs.map fun x => x i).sum| ≤ xs.length * M := by
  refine (abs_sum_le _).trans ?_
  have := List.sum_le_card_nsmul ((xs.map fun x => x i).map abs) M (by
    intro y hy
    simp only [List.map_map, List.mem_map, Function.comp] at hy
    obtain ⟨x, hx, rfl⟩ := hy
    exact h x hx i)
  simpa using this

theorem FInv.coord (hn : φ.Nearest fl) {N : ℕ} {M : ℝ} (h : φ.Fits N M) {n : ℕ} {mu : Fin d → ℝ} {xs X : List (Fin d → ℝ)} {s : Fin d → ℝ}
    (inv : FInv φ M n mu xs) (hs : ∀ i, SumOrder fl (X.map fun x => x i) (s i)) (hF : ∀ x ∈ X, ∀ i, φ.Mem (x i) ∧ |x i| ≤ M)
    (hN : n + X.length ≤ N) (i : Fin d) :
    |mu i| ≤ 17 / 16 * M ∧ |batchMeanFl fl X s i| ≤ 17 / 16 * M ∧ φ.Mem (batchMeanFl fl X s i) ∧
    φ.Mem (meanStepFl fl n X.length (mu i) (batchMeanFl fl X s i)) ∧
      |((n + X.length : ℕ) : ℝ) * meanStepFl fl n X.length (mu i) (batchMeanFl fl X s i) -
        ((xs.map fun x => x i).sum + (X.map fun x => x i).sum)| ≤ 16 * ((n + X.length : ℕ) : ℝ) ^ 2 * (φ.u * M) := by
  have ht : |(xs.map fun x => x i).sum| ≤ n * M := by
    rw [inv.count]
    exact abs_sum_le_of_bound xs i inv.bound
  have := coord_step hn h (n := n) (mu := mu i) (t := (xs.map fun x => x i).sum) (hs i)
    (by
      intro y hy
      obtain ⟨x, hx, rfl⟩ := List.mem_map.1 hy
      exact hF x hx i)
    (by simpa using hN) (inv.mem i) (fun h0 => inv.mu0 h0 i) ht (inv.mu i)
  simp only [List.length_map] at this
  exact this

theorem FInv.step (hn : φ.Nearest fl) {N : ℕ} {M : ℝ} (h : φ.Fits N M) {n : ℕ} {mu : Fin d → ℝ} {xs X : List (Fin d → ℝ)} {s : Fin d → ℝ}
    (inv : FInv φ M n mu xs) (hX : X ≠ []) (hs : ∀ i, SumOrder fl (X.map fun x => x i) (s i)) (hF : ∀ x ∈ X, ∀ i, φ.Mem (x i) ∧ |x i| ≤ M)
    (hN : n + X.length ≤ N) :
    FInv φ M (n + X.length) (fun i => meanStepFl fl n X.length (mu i) (batchMeanFl fl X s i)) (xs ++ X) := by
  have hl : 0 < X.length := List.length_pos_iff.2 hX
  refine ⟨by simp [inv.count], ?_, fun i => (inv.coord hn h hs hF hN i).2.2.2.1, by omega, ?_⟩
  · intro x hx i
    rcases List.mem_append.1 hx with hx | hx
    · exact inv.bound x hx i
    · exact (hF x hx i).2
  · intro i
    rw [List.map_append, List.sum_append]
    exact (inv.coord hn h hs hF hN i).2.2.2.2

theorem FInv.init {M : ℝ} (he : φ.emin ≤ φ.emax) : FInv (d := d) φ M 0 (fun _ => 0) [] :=
  ⟨rfl, by simp, fun _ => Fmt.mem_zero he, by simp, by simp⟩

theorem mean_history (hn : φ.Nearest fl) {N : ℕ} {M : ℝ} (h : φ.Fits N M) (H : List (List (Fin d → ℝ) × (Fin d → ℝ)))
    (hne : ∀ B ∈ H, B.1 ≠ []) (hs : ∀ B ∈ H, ∀ i, SumOrder fl (B.1.map fun x => x i) (B.2 i))
    (hF : ∀ B ∈ H, ∀ x ∈ B.1, ∀ i, φ.Mem (x i) ∧ |x i| ≤ M) (m : Mean ℝ d) (xs : List (Fin d → ℝ)) (hm : m.nan = false)
    (inv : FInv φ M m.n m.mu xs) (hN : m.n + (H.map fun B => B.1).flatten.length ≤ N) :
    ∃ m', m.updatesFl fl H = .ok m' ∧ m'.nan = false ∧ FInv φ M m'.n m'.mu (xs ++ (H.map fun B => B.1).flatten) := by
  induction H generalizing m xs with
  | nil => exact ⟨m, rfl, hm, by simpa using inv⟩
  | cons B H ih =>
    have hX := hne B (by simp)
    have hl : 0 < B.1.length := List.length_pos_iff.2 hX
    simp only [List.map_cons, List.flatten_cons, List.length_append] at hN
    have hstep : m.updateRowsFl fl B.1 B.2 =
        .ok ⟨m.n + B.1.length, fun i => meanStepFl fl m.n B.1.length (m.mu i) (batchMeanFl fl B.1 B.2 i), m.nan⟩ := by
      unfold Mean.updateRowsFl
      rw [if_neg (by omega), if_neg (by omega)]
    obtain ⟨m', h1, h2, h3⟩ := ih (fun B hB => hne B (by simp [hB])) (fun B hB => hs B (by simp [hB])) (fun B hB => hF B (by simp [hB]))
      ⟨m.n + B.1.length, fun i => meanStepFl fl m.n B.1.length (m.mu i) (batchMeanFl fl B.1 B.2 i), m.nan⟩ (xs ++ B.1) hm
      (inv.step hn h hX (hs B (by simp)) (hF B (by simp)) (by omega)) (by simp only; omega)
    refine ⟨m', ?_, h2, by simpa using h3⟩
    rw [Mean.updatesFl, List.foldlM_cons, hstep]
    exact h1

theorem FInv.mean_err {M : ℝ} {n : ℕ} {mu : Fin d → ℝ} {xs : List (Fin d → ℝ)} (inv : FInv φ M n mu xs) (hx : xs ≠ []) (i : Fin d) :
    |mu i - sampleMean xs i| ≤ 16 * xs.length * φ.u * M := by
  have hl : (0 : ℝ) < xs.length := by exact_mod_cast List.length_pos_iff.2 hx
  have := inv.mu i
  rw [inv.count] at this
  unfold sampleMean
  rw [show mu i - (xs.map fun x => x i).sum / xs.length = (xs.length * mu i - (xs.map fun x => x i).sum) / xs.length by field_simp, abs_div,
    abs_of_pos hl, div_le_iff₀ hl]
  linarith

end StatsFl

open StatsFl

/-- **C106**.  In floating point arithmetic with rounding to nearest, whatever the batches and whatever the order of summation inside a batch, the streaming
mean of `N` observations of size at most `M` differs from their exact mean by at most `16 N u M`, and never becomes NaN or infinite. -/
theorem C106_mean_rounding (hn : φ.Nearest fl) (H : List (List (Fin d → ℝ) × (Fin d → ℝ))) (M : ℝ)
    (h : φ.Fits (H.map fun B => B.1).flatten.length M) (hH : H ≠ []) (hne : ∀ B ∈ H, B.1 ≠ [])
    (hs : ∀ B ∈ H, ∀ i, SumOrder fl (B.1.map fun x => x i) (B.2 i))
    (hF : ∀ B ∈ H, ∀ x ∈ B.1, ∀ i, φ.Mem (x i) ∧ |x i| ≤ M) :
    ∃ m mu, (Mean.init ℝ d).updatesFl fl H = .ok m ∧ m.n = (H.map fun B => B.1).flatten.length ∧ m.mean = .val mu ∧
      ∀ i, φ.Mem (mu i) ∧ |mu i - sampleMean (H.map fun B => B.1).flatten i| ≤ 16 * (H.map fun B => B.1).flatten.length * φ.u * M := by
  obtain ⟨m, h1, h2, h3⟩ := mean_history hn h H hne hs hF (Mean.init ℝ d) [] rfl (FInv.init h.exp) (by simp [Mean.init])
  rw [List.nil_append] at h3
  have hx : (H.map fun B => B.1).flatten ≠ [] := by
    obtain ⟨B, H', rfl⟩ := List.exists_cons_of_ne_nil hH
    have := hne B (by simp)
    simp [this]
  have hn0 : m.n ≠ 0 := by rw [h3.count]; exact (List.length_pos_iff.2 hx).ne'
  exact ⟨m, m.mu, h1, h3.count, by simp [Mean.mean, hn0, h2], fun i => ⟨h3.mem i, h3.mean_err hx i⟩⟩

theorem SumOrder.eq_of_single {x s : ℝ} {xs : List ℝ} (h : SumOrder fl xs s) (hx : xs = [x]) : s = x := by
  induction h with
  | single y => simpa using hx
  | node h1 h2 _ _ =>
    have l1 := h1.length_pos
    have l2 := h2.length_pos
    have := congrArg List.length hx
    simp at this
    omega
  | perm p _ ih => exact ih (by rw [hx] at p; exact List.perm_singleton.1 p)

/-- **C106**, constant samples: a number observed again and again is returned without any rounding error. -/
theorem C106_constant_exact (hn : φ.Nearest fl) (he : φ.emin ≤ φ.emax) (h1 : φ.Mem 1) (x : Fin d → ℝ) (hx : ∀ i, φ.Mem (x i))
    (H : List (Fin d → ℝ)) (hs : ∀ s ∈ H, ∀ i, SumOrder fl [x i] (s i)) (hH : H ≠ []) :
    ∃ m, (Mean.init ℝ d).updatesFl fl (H.map fun s => ([x], s)) = .ok m ∧ m.n = H.length ∧ m.mean = .val x := by
  have hstep : ∀ (n : ℕ) (mu : ℝ) (i : Fin d), (n = 0 → mu = 0) → (n ≠ 0 → mu = x i) →
      meanStepFl fl n 1 mu (fl (x i / ((1 : ℕ) : ℝ))) = x i := by
    intro n mu i h0 h0'
    have hb : fl (x i / ((1 : ℕ) : ℝ)) = x i := by rw [Nat.cast_one, div_one]; exact hn.eq_self (hx i)
    unfold meanStepFl
    rw [hb]
    by_cases hz : n = 0
    · rw [h0 hz, hz]
      simp [hn.eq_self (hx i), hn.eq_self h1]
    · rw [h0' hz]
      simp [hn.zero he, hn.eq_self (hx i)]
  have key : ∀ (H : List (Fin d → ℝ)) (m : Mean ℝ d), (∀ s ∈ H, ∀ i, SumOrder fl [x i] (s i)) → m.nan = false →
      (m.n = 0 → ∀ i, m.mu i = 0) → (m.n ≠ 0 → ∀ i, m.mu i = x i) →
      ∃ m', m.updatesFl fl (H.map fun s => ([x], s)) = .ok m' ∧ m'.n = m.n + H.length ∧ m'.nan = false ∧ (m'.n ≠ 0 → ∀ i, m'.mu i = x i) := by
    intro H
    induction H with
    | nil => exact fun m _ h2 _ h4 => ⟨m, rfl, rfl, h2, h4⟩
    | cons s H ih =>
      intro m hs h2 h3 h4
      have hss : ∀ i, s i = x i := fun i => SumOrder.eq_of_single (hs s (by simp) i) rfl
      obtain ⟨m', e1, e2, e3, e4⟩ := ih ⟨m.n + 1, x, m.nan⟩ (fun s hs' => hs s (by simp [hs'])) h2 (by simp) (by simp)
      refine ⟨m', ?_, by simp [e2]; omega, e3, e4⟩
      rw [List.map_cons, Mean.updatesFl, List.foldlM_cons]
      have : m.updateRowsFl fl [x] s = .ok ⟨m.n + 1, x, m.nan⟩ := by
        unfold Mean.updateRowsFl
        rw [if_neg (by simp), if_neg (by simp)]
        congr 2
        funext i
        unfold batchMeanFl
        rw [hss i]
        exact hstep m.n (m.mu i) i (fun h => h3 h i) (fun h => h4 h i)
      rw [this]
      exact e1
  obtain ⟨m, e1, e2, e3, e4⟩ := key H (Mean.init ℝ d) hs rfl (by simp [Mean.init]) (by simp [Mean.init])
  have hl := List.length_pos_iff.2 hH
  have hn0 : m.n ≠ 0 := by rw [e2]; simp [Mean.init]; exact hH
  refine ⟨m, e1, by simp [e2, Mean.init], ?_⟩
  simp only [Mean.mean, hn0, e3, if_false, Bool.false_eq_true]
  congr 1
  funext i
  exact e4 hn0 i

/-- The bounds hold for up to `2 ^ 45` double precision numbers of ordinary size. -/
theorem binary64_fits (N : ℕ) (hN : N ≤ 2 ^ 45) (M : ℝ) (h1 : (2 : ℝ) ^ (-1022 : ℤ) ≤ M) (h2 : M ≤ (2 : ℝ) ^ (900 : ℤ)) : binary64.Fits N M := by
  have hNr : (N : ℝ) ≤ (2 : ℝ) ^ (45 : ℤ) := by
    have : (N : ℝ) ≤ ((2 ^ 45 : ℕ) : ℝ) := by exact_mod_cast hN
    refine this.trans (le_of_eq ?_)
    norm_num
  have hM0 : 0 < M := lt_of_lt_of_le (by positivity) h1
  have hz : ∀ a b : ℤ, a ≤ b → (2 : ℝ) ^ a ≤ (2 : ℝ) ^ b := fun a b h => zpow_le_zpow_right₀ (by norm_num) h
  have ha : ∀ a b : ℤ, (2 : ℝ) ^ a * (2 : ℝ) ^ b = (2 : ℝ) ^ (a + b) := fun a b => (zpow_add₀ (by norm_num) a b).symm
  have htop : (2 : ℝ) ^ (1000 : ℤ) ≤ binary64.top := by
    unfold Fmt.top binary64
    have h3 : (2 : ℝ) ^ (1000 : ℤ) = (2 : ℝ) ^ (29 : ℤ) * (2 : ℝ) ^ (971 : ℤ) := by rw [ha]; norm_num
    rw [h3]
    refine mul_le_mul_of_nonneg_right ?_ (by positivity)
    norm_num
  have hu : binary64.u = (2 : ℝ) ^ (-53 : ℤ) := rfl
  have heta : binary64.eta = (2 : ℝ) ^ (-1075 : ℤ) := rfl
  refine ⟨by norm_num [binary64], ?_, ?_, ?_, ?_, ?_⟩
  · rw [hu]
    refine (mul_le_mul_of_nonneg_right hNr (by positivity)).trans ?_
    rw [ha]
    norm_num
  · refine le_trans ?_ htop
    have := hz 0 1000 (by norm_num)
    simpa using this
  · refine le_trans ?_ htop
    have h4 : (4 : ℝ) * N * M ≤ (2 : ℝ) ^ (2 : ℤ) * (2 : ℝ) ^ (45 : ℤ) * (2 : ℝ) ^ (900 : ℤ) := by
      refine mul_le_mul ?_ h2 hM0.le (by positivity)
      refine mul_le_mul (by norm_num) hNr (by positivity) (by positivity)
    refine h4.trans ?_
    rw [ha, ha]
    exact hz _ _ (by norm_num)
  · rw [hu, heta]
    refine le_trans ?_ (mul_le_mul_of_nonneg_left h1 (by positivity))
    rw [ha]
    exact hz _ _ (by norm_num)
  · rw [hu, heta]
    refine (mul_le_mul_of_nonneg_right hNr (by positivity)).trans ?_
    rw [ha]
    exact hz _ _ (by norm_num)

/-- `1` and other small integers are double precision numbers. -/
theorem binary64_mem_int (m : ℤ) (h : |m| ≤ 2 ^ 53) : binary64.Mem m :=
  Fmt.mem_int (by norm_num [binary64]) (by norm_num [binary64]) (by norm_num [binary64]) m h

/-- There is a rounding to nearest of double precision. -/
example : ∃ fl, binary64.Nearest fl := Fmt.exists_nearest (by norm_num [binary64])

/-- Concrete case of **C106**: three double precision observations 1, 2, 4 in batches of two and one. -/
example (fl : ℝ → ℝ) (hn : binary64.Nearest fl) :
    ∃ m mu, (Mean.init ℝ 1).updatesFl fl [([fun _ => 1, fun _ => 2], fun _ => fl (1 + 2)), ([fun _ => 4], fun _ => 4)] = .ok m ∧
      m.n = 3 ∧ m.mean = .val mu ∧ |mu 0 - 7 / 3| ≤ 16 * 3 * (2 : ℝ) ^ (-53 : ℤ) * 4 := by
  have hM : (2 : ℝ) ^ (-1022 : ℤ) ≤ 4 := by
    have : (2 : ℝ) ^ (-1022 : ℤ) ≤ (2 : ℝ) ^ (0 : ℤ) := zpow_le_zpow_right₀ (by norm_num) (by norm_num)
    rw [zpow_zero] at this
    linarith
  have hM' : (4 : ℝ) ≤ (2 : ℝ) ^ (900 : ℤ) := by
    have : (2 : ℝ) ^ (2 : ℤ) ≤ (2 : ℝ) ^ (900 : ℤ) := zpow_le_zpow_right₀ (by norm_num) (by norm_num)
    refine le_trans (le_of_eq (by norm_num)) this
  obtain ⟨m, mu, h1, h2, h3, h4⟩ := C106_mean_rounding hn
    [([fun _ => 1, fun _ => 2], fun _ => fl (1 + 2)), ([fun _ => 4], fun _ => 4)] 4 (binary64_fits 3 (by norm_num) 4 hM hM') (by simp) (by simp)
    (by
      intro B hB i
      simp only [List.mem_cons, List.not_mem_nil, or_false] at hB
      rcases hB with rfl | rfl
      · exact SumOrder.node (SumOrder.single 1) (SumOrder.single 2)
      · exact SumOrder.single 4)
    (by
      have m1 := binary64_mem_int 1 (by norm_num)
      have m2 := binary64_mem_int 2 (by norm_num)
      have m4 := binary64_mem_int 4 (by norm_num)
      push_cast at m1 m2 m4
      intro B hB x hx i
      simp only [List.mem_cons, List.not_mem_nil, or_false] at hB
      rcases hB with rfl | rfl
      · simp only [List.mem_cons, List.not_mem_nil, or_false] at hx
        rcases hx with rfl | rfl
        · exact ⟨m1, by norm_num⟩
        · exact ⟨m2, by norm_num⟩
      · simp only [List.mem_cons, List.not_mem_nil, or_false] at hx
        subst hx
        exact ⟨m4, by norm_num⟩)
  refine ⟨m, mu, h1, h2, h3, ?_⟩
  have := (h4 0).2
  have e : sampleMean ([[fun _ => 1, fun _ => 2], [fun _ => 4]] : List (List (Fin 1 → ℝ))).flatten 0 = 7 / 3 := by
    norm_num [sampleMean]
  simp only [List.map_cons, List.map_nil, List.flatten_cons, List.flatten_nil] at this e
  rw [e] at this
  simpa [Fmt.u, binary64] using this

end Primate
