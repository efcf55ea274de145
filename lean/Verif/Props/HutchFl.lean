import Verif.Model.HutchFl
import Verif.Props.StatsFl
import Verif.Props.HutchMoments
import Verif.Props.Prob

/-! # Property C116: hutch in floating point arithmetic -/

noncomputable section

namespace Primate

open Spec StatsFl

variable {N : ℕ} {φ : Fmt} {fl : ℝ → ℝ}

/-- The kernels evaluate sums and inner products in some order, every operation rounded. -/
structure Spec.FlKernelsOk (fl : ℝ → ℝ) (K : FlKernels N) : Prop where
  matvec : ∀ t j A v i, DotOrder fl (List.ofFn fun l => (A i l, v l)) (K.matvec t j A v i)
  dot : ∀ t j v w, DotOrder fl (List.ofFn fun i => (v i, w i)) (K.dot t j v w)
  colsum : ∀ t xs, xs ≠ [] → SumOrder fl xs (K.colsum t xs)

theorem ofFn_sum_abs (f : Fin N → ℝ) : ((List.ofFn f).map abs).sum = ∑ i, |f i| := by
  rw [List.map_ofFn, List.sum_ofFn]
  rfl

/-- An inner product with a vector of signs. -/
theorem sign_dot (hn : φ.Nearest fl) (he : φ.emin ≤ φ.emax) (a v : Vec N) (hv : ∀ i, v i = 1 ∨ v i = -1) (ha : ∀ i, φ.Mem (a i)) (s : ℝ)
    (l : List (ℝ × ℝ)) (hl : l.map (fun q => q.1 * q.2) = List.ofFn fun i => a i * v i)
    (h : DotOrder fl l s) (htop : (1 + φ.u) ^ N * ∑ i, |a i| ≤ φ.top) :
    φ.Mem s ∧ |s - ∑ i, a i * v i| ≤ ((1 + φ.u) ^ N - 1) * ∑ i, |a i| := by
  have hm : ∀ i, φ.Mem (a i * v i) := by
    intro i
    rcases hv i with h | h <;> rw [h]
    · rw [mul_one]; exact ha i
    · rw [mul_neg_one]; exact (ha i).neg
  have hab : ∀ i, |a i * v i| = |a i| := by
    intro i
    rcases hv i with h | h <;> rw [h] <;> simp
  have h1 := h.sumOrder hn (by
    intro q hq
    have : q.1 * q.2 ∈ l.map fun q => q.1 * q.2 := List.mem_map.2 ⟨q, hq, rfl⟩
    rw [hl, List.mem_ofFn] at this
    obtain ⟨i, hi⟩ := this
    rw [← hi]
    exact hm i)
  rw [hl] at h1
  have hu := φ.u_pos
  obtain ⟨h2, h3⟩ := h1.err hn he (by
    intro x hx
    rw [List.mem_ofFn] at hx
    obtain ⟨i, rfl⟩ := hx
    exact hm i) (by rw [ofFn_sum_abs, List.length_ofFn]; simpa only [hab] using htop)
  refine ⟨h2, ?_⟩
  rw [ofFn_sum_abs, List.length_ofFn, List.sum_ofFn] at h3
  simp only [hab] at h3
  refine h3.trans ?_
  have : (1 + φ.u) ^ (N - 1) ≤ (1 + φ.u) ^ N := pow_le_pow_right₀ (by linarith) (by omega)
  have h0 : 0 ≤ ∑ i, |a i| := Finset.sum_nonneg fun i _ => abs_nonneg _
  nlinarith

/-- The quadratic form of a vector of signs, evaluated in floating point arithmetic. -/
theorem sign_quad (hn : φ.Nearest fl) (he : φ.emin ≤ φ.emax) {K : FlKernels N} (hK : FlKernelsOk fl K) (A : Matrix (Fin N) (Fin N) ℝ)
    (hA : ∀ i j, φ.Mem (A i j)) (M : ℝ) (hM : ∑ i, ∑ j, |A i j| ≤ M) (hNu : N * φ.u ≤ 1 / 64) (htop : 2 * M ≤ φ.top) (t j : ℕ) (v : Vec N)
    (hv : ∀ i, v i = 1 ∨ v i = -1) :
    φ.Mem (K.dot t j v (K.matvec t j A v)) ∧ |K.dot t j v (K.matvec t j A v) - Spec.quad A v| ≤ 4 * N * φ.u * M := by
  have hu := φ.u_pos
  set r := (1 + φ.u) ^ N with hr
  have hr1 : 1 ≤ r := one_le_pow₀ (by linarith)
  have hr2 : r * r ≤ 1 + 2 * ((2 * N : ℕ) * φ.u) := by
    rw [hr, ← pow_add, ← two_mul]
    exact pow_one_add_le hu.le (2 * N) (by push_cast; linarith)
  push_cast at hr2
  have hrr : r * r ≤ 2 := by linarith
  set w := K.matvec t j A v with hw
  have hM0 : 0 ≤ M := le_trans (Finset.sum_nonneg fun i _ => Finset.sum_nonneg fun j _ => abs_nonneg _) hM
  have hrow : ∀ i, ∑ j, |A i j| ≤ M := by
    intro i
    refine le_trans ?_ hM
    exact Finset.single_le_sum (f := fun i => ∑ j, |A i j|) (fun i _ => Finset.sum_nonneg fun j _ => abs_nonneg _) (Finset.mem_univ i)
  have hrow0 : ∀ i, 0 ≤ ∑ j, |A i j| := fun i => Finset.sum_nonneg fun j _ => abs_nonneg _
  have hrM : r * M ≤ φ.top := by nlinarith
  have h1 : ∀ i, φ.Mem (w i) ∧ |w i - ∑ l, A i l * v l| ≤ (r - 1) * ∑ l, |A i l| := by
    intro i
    refine sign_dot hn he (A i) v hv (hA i) (w i) _ ?_ (hK.matvec t j A v i) ?_
    · rw [List.map_ofFn]; rfl
    · have := hrow i
      have := hrow0 i
      nlinarith
  have hab : ∀ i (x : ℝ), |x * v i| = |x| := by
    intro i x
    rcases hv i with h | h <;> rw [h] <;> simp
  have h2 : ∀ i, |w i| ≤ r * ∑ l, |A i l| := by
    intro i
    have h3 : |∑ l, A i l * v l| ≤ ∑ l, |A i l| := (Finset.abs_sum_le_sum_abs _ _).trans (le_of_eq (Finset.sum_congr rfl fun l _ => hab l _))
    have := abs_le_of_close (h1 i).2 h3
    linarith
  have h3 : ∑ i, |w i| ≤ r * M := by
    refine (Finset.sum_le_sum fun i _ => h2 i).trans ?_
    rw [← Finset.mul_sum]
    exact mul_le_mul_of_nonneg_left hM (by linarith)
  obtain ⟨h4, h5⟩ := sign_dot hn he w v hv (fun i => (h1 i).1) (K.dot t j v w) _ (by rw [List.map_ofFn]; congr 1; funext i; exact mul_comm _ _) (hK.dot t j v w) (by nlinarith)
  refine ⟨h4, ?_⟩
  have h6 : |∑ i, w i * v i - Spec.quad A v| ≤ (r - 1) * M := by
    have : ∑ i, w i * v i - Spec.quad A v = ∑ i, (w i - ∑ l, A i l * v l) * v i := by
      unfold Spec.quad
      rw [← Finset.sum_sub_distrib]
      refine Finset.sum_congr rfl fun i _ => ?_
      rw [sub_mul, Finset.sum_mul]
      congr 1
      exact Finset.sum_congr rfl fun l _ => by ring
    rw [this]
    refine (Finset.abs_sum_le_sum_abs _ _).trans ?_
    simp only [hab]
    refine (Finset.sum_le_sum fun i _ => (h1 i).2).trans ?_
    rw [← Finset.mul_sum]
    exact mul_le_mul_of_nonneg_left hM (by linarith)
  have h7 : |K.dot t j v w - Spec.quad A v| ≤ (r - 1) * ∑ i, |w i| + (r - 1) * M := by
    refine (abs_sub_le _ (∑ i, w i * v i) _).trans (add_le_add h5 h6)
  refine h7.trans ?_
  have h8 : (r - 1) * ∑ i, |w i| ≤ (r - 1) * (r * M) := mul_le_mul_of_nonneg_left h3 (by linarith)
  have h9 : (r * r - 1) * M ≤ (2 * (2 * N * φ.u)) * M := mul_le_mul_of_nonneg_right (by linarith) hM0
  linarith

/-- The samples of the first `k` passes as they are computed. -/
def flSamples (K : FlKernels N) (A : Matrix (Fin N) (Fin N) ℝ) (pdf : Pdf N) (b k : ℕ) : List ℝ :=
  (List.range k).flatMap fun t => quadFormFl K A t (pdf (List.replicate t b) b)

theorem flSamples_succ (K : FlKernels N) (A : Matrix (Fin N) (Fin N) ℝ) (pdf : Pdf N) (b k : ℕ) :
    flSamples K A pdf b (k + 1) = flSamples K A pdf b k ++ quadFormFl K A k (pdf (List.replicate k b) b) := by
  simp [flSamples, List.range_succ]

theorem flSamples_length (K : FlKernels N) (A : Matrix (Fin N) (Fin N) ℝ) (pdf : Pdf N) (b k : ℕ) : (flSamples K A pdf b k).length = k * b := by
  induction k with
  | zero => simp [flSamples]
  | succ k ih => rw [flSamples_succ, List.length_append, ih]; simp [quadFormFl]; ring

theorem hutchLoopFl_run (hn : φ.Nearest fl) {K : FlKernels N} (hK : FlKernelsOk fl K) (A : Matrix (Fin N) (Fin N) ℝ) (pdf : Pdf N) {b k : ℕ} (hb : 0 < b) {M : ℝ}
    (hfit : φ.Fits (k * b) M) (hq : ∀ t, ∀ x ∈ quadFormFl K A t (pdf (List.replicate t b) b), φ.Mem x ∧ |x| ≤ M) (t : ℕ) (ht : t ≤ k) :
    ∀ c : Covariance ℝ 1, c.nan = false → FInv φ M c.n c.mu ((flSamples K A pdf b t).map fun x _ => x) →
    ∃ c', hutchLoopFl fl K A pdf b (k * b) (k - t + 1) t c = some (.ok c') ∧ c'.nan = false ∧
      FInv φ M c'.n c'.mu ((flSamples K A pdf b k).map fun x _ => x) := by
  obtain ⟨m, hm⟩ : ∃ m, k - t = m := ⟨_, rfl⟩
  induction m generalizing t with
  | zero =>
    intro c hc inv
    obtain rfl : t = k := by omega
    have : c.n = t * b := by rw [inv.count]; simp [flSamples_length]
    refine ⟨c, ?_, hc, inv⟩
    rw [hm, hutchLoopFl, if_pos this.ge]
  | succ m ih =>
    intro c hc inv
    have hn' : c.n = t * b := by rw [inv.count]; simp [flSamples_length]
    have hlt : t * b + b ≤ k * b := by
      rw [← Nat.succ_mul]
      exact Nat.mul_le_mul_right b (by omega)
    set x := quadFormFl K A t (pdf (List.replicate t b) b) with hx
    have hxl : x.length = b := by simp [hx, quadFormFl]
    have hx0 : x ≠ [] := by intro h; rw [h] at hxl; simp at hxl; omega
    have hstep := inv.step (X := x.map fun y _ => y) (s := fun _ => K.colsum t x) hn hfit (by simpa using hx0) (by
        intro i
        simp only [List.map_map, Function.comp_def, List.map_id']
        exact hK.colsum t x hx0) (by
        intro y hy i
        obtain ⟨z, hz, rfl⟩ := List.mem_map.1 hy
        exact hq t z hz) (by rw [List.length_map, hxl, hn']; exact hlt)
    have hne : (x.map fun y (_ : Fin 1) => y).length ≠ 0 := by simpa using hx0
    obtain ⟨c', h1, h2, h3⟩ : ∃ c', c.updateRowsFl fl (x.map fun y _ => y) (fun _ => K.colsum t x) (fun _ _ => K.gram t x) = .ok c' ∧ c'.nan = false ∧
        FInv φ M c'.n c'.mu ((flSamples K A pdf b (t + 1)).map fun x _ => x) := by
      unfold Covariance.updateRowsFl
      simp only [hne, if_false, show ¬ (c.n + (x.map fun y (_ : Fin 1) => y).length = 0) by omega]
      refine ⟨_, rfl, hc, ?_⟩
      rw [flSamples_succ, List.map_append]
      exact hstep
    obtain ⟨c'', h4, h5, h6⟩ := ih (t + 1) (by omega) (by omega) c' h2 h3
    refine ⟨c'', ?_, h5, h6⟩
    rw [show k - t = (k - (t + 1)) + 1 by omega, hutchLoopFl, if_neg (by omega)]
    simp only [← hx, h1]
    exact h4

theorem sum_flatMap_sub {ι : Type} (l : List ι) (b : ℕ) (f g : ι → Fin b → ℝ) (e : ℝ) (h : ∀ i j, |f i j - g i j| ≤ e) :
    |(l.flatMap fun i => List.ofFn (f i)).sum - (l.flatMap fun i => List.ofFn (g i)).sum| ≤ l.length * b * e := by
  induction l with
  | nil => simp
  | cons a l ih =>
    simp only [List.flatMap_cons, List.sum_append, List.length_cons, List.sum_ofFn]
    rw [show ∑ i, f a i + (l.flatMap fun i => List.ofFn (f i)).sum - (∑ i, g a i + (l.flatMap fun i => List.ofFn (g i)).sum) =
      ∑ i, (f a i - g a i) + ((l.flatMap fun i => List.ofFn (f i)).sum - (l.flatMap fun i => List.ofFn (g i)).sum) by rw [Finset.sum_sub_distrib]; ring]
    have h1 : |∑ i, (f a i - g a i)| ≤ b * e := by
      refine (Finset.abs_sum_le_sum_abs _ _).trans ((Finset.sum_le_sum fun i _ => h a i).trans (le_of_eq ?_))
      simp
    refine (abs_add_le _ _).trans ((add_le_add h1 ih).trans (le_of_eq ?_))
    push_cast
    ring

/-- **C116**.  `hutch` on a dense array with Rademacher vectors, evaluated in floating point arithmetic: whatever the batch size and the order of evaluation of matrix
products and sums, the number returned differs from the one that exact arithmetic returns for the same vectors by at most `(4 N + 32 n) u M`, where `n` is the number
of samples and `M` bounds the sum of the absolute values of the entries. -/
theorem C116_hutch_rounding (tppf : ℝ → ℕ → ℝ) (zscore : ℝ → ℝ) (hn : φ.Nearest fl) {K : FlKernels N} (hK : FlKernelsOk fl K) (rng : Rng)
    (hu : ∀ p, 0 ≤ rng.unif p ∧ rng.unif p < 1) (A : Matrix (Fin N) (Fin N) ℝ) (hN : N ≠ 0) (hA : ∀ i j, φ.Mem (A i j)) (M : ℝ) (hM : ∑ i, ∑ j, |A i j| ≤ M)
    (batch k : ℕ) (full : Bool) (b : ℕ) (hb : b = if full then batch else 1) (hb0 : 0 < b) (hk : 0 < k) (hNu : N * φ.u ≤ 1 / 64) (hfit : φ.Fits (k * b) (2 * M)) :
    ∃ (x y : ℝ) (out : HutchOut) (calls : List (MeanEst 1)),
      hutchFl fl K rng A batch (.name "rademacher") (k * b) full (k + 1) = some (.ok (.val fun _ => x)) ∧
      hutch tppf zscore rng ⟨.ofMatrix A, batch, .name "rademacher", .obj (.count ((k * b : ℕ) : ℤ)), full, false, false, []⟩ (k + 1) = some (.ok (out, calls)) ∧
      out.estimate = .val (fun _ => y) ∧ φ.Mem x ∧ |x - y| ≤ (4 * N + 32 * (k * b : ℕ)) * φ.u * M := by
  have hup := φ.u_pos
  obtain ⟨pdf, hp⟩ : ∃ pdf : Pdf N, isotropicPdf "rademacher" rng N = .ok pdf := ⟨_, rfl⟩
  have hsg := rademacher_pdf_signs rng hu pdf hp
  have h2M := M_pos hfit
  have hkb : 0 < k * b := Nat.mul_pos hk hb0
  have htop : 2 * M ≤ φ.top := by
    have h1 := hfit.top
    have h2 : (1 : ℝ) ≤ (k * b : ℕ) := by exact_mod_cast hkb
    nlinarith
  have hqq : ∀ t (j : Fin b), φ.Mem (K.dot t j (pdf (List.replicate t b) b j) (K.matvec t j A (pdf (List.replicate t b) b j))) ∧
      |K.dot t j (pdf (List.replicate t b) b j) (K.matvec t j A (pdf (List.replicate t b) b j)) - Spec.quad A (pdf (List.replicate t b) b j)| ≤ 4 * N * φ.u * M :=
    fun t j => sign_quad hn hfit.exp hK A hA M hM hNu htop t j _ (hsg _ _ _)
  have hex : ∀ v : Vec N, (∀ i, v i = 1 ∨ v i = -1) → |Spec.quad A v| ≤ M := by
    intro v hv
    refine le_trans ?_ hM
    unfold Spec.quad
    refine (Finset.abs_sum_le_sum_abs _ _).trans (Finset.sum_le_sum fun i _ => (Finset.abs_sum_le_sum_abs _ _).trans (Finset.sum_le_sum fun j _ => le_of_eq ?_))
    rcases hv i with h | h <;> rcases hv j with h' | h' <;> rw [h, h'] <;> simp
  have hq : ∀ t, ∀ x ∈ quadFormFl K A t (pdf (List.replicate t b) b), φ.Mem x ∧ |x| ≤ 2 * M := by
    intro t x hx
    rw [quadFormFl, List.mem_ofFn] at hx
    obtain ⟨j, rfl⟩ := hx
    obtain ⟨h1, h2⟩ := hqq t j
    refine ⟨h1, (abs_le_of_close h2 (hex _ (hsg _ _ _))).trans ?_⟩
    nlinarith
  obtain ⟨c, h1, h2, h3⟩ := hutchLoopFl_run hn hK A pdf hb0 hfit hq 0 (by omega) (Covariance.init ℝ 1) rfl (by simpa [flSamples, Covariance.init] using FInv.init (d := 1) (M := 2 * M) hfit.exp)
  have hne : (flSamples K A pdf b k).map (fun x (_ : Fin 1) => x) ≠ [] := by
    intro h
    have := congrArg List.length h
    simp [flSamples_length] at this
    omega
  have h4 := h3.mean_err hne 0
  have hcn : c.n ≠ 0 := by
    rw [h3.count]
    simpa using hne
  have hmean : c.mean = .val fun _ => c.mu 0 := by
    unfold Covariance.mean
    rw [if_neg (by omega)]
    simp only [h2, Bool.false_eq_true, if_false]
    congr 1
    funext i
    rw [Subsingleton.elim i 0]
  have hex := hutch_count tppf zscore rng ⟨.ofMatrix A, batch, .name "rademacher", .obj (.count ((k * b : ℕ) : ℤ)), full, false, false, []⟩ hN
    (by simp [HutchArgs.cols, ← hb]; exact hb0) pdf hp k hk (by simp [HutchArgs.cols, ← hb])
  have hcols : HutchArgs.cols ⟨Operand.ofMatrix A, batch, .name "rademacher", .obj (.count ((k * b : ℕ) : ℤ)), full, false, false, []⟩ = b := by
    simp [HutchArgs.cols, ← hb]
  rw [hcols] at hex
  refine ⟨c.mu 0, Spec.mean ((Spec.drawn pdf b k).map (Operand.ofMatrix A).quadForm), _, _, ?_, hex, ?_, h3.mem 0, ?_⟩
  · unfold hutchFl
    simp only [PdfArg.resolve, hp, hN, if_false, ← hb]
    rw [Nat.sub_zero] at h1
    rw [h1]
    simp only [hmean]
  · cases full <;> rfl
  · have hl : (0 : ℝ) < ((k * b : ℕ) : ℝ) := by exact_mod_cast hkb
    have h5 : |(flSamples K A pdf b k).sum - ((Spec.drawn pdf b k).map (Operand.ofMatrix A).quadForm).sum| ≤ k * b * (4 * N * φ.u * M) := by
      have := sum_flatMap_sub (List.range k) b (fun t j => K.dot t j (pdf (List.replicate t b) b j) (K.matvec t j A (pdf (List.replicate t b) b j)))
        (fun t j => Spec.quad A (pdf (List.replicate t b) b j)) (4 * N * φ.u * M) fun t j => (hqq t j).2
      rw [List.length_range] at this
      have e : (Spec.drawn pdf b k).map (Operand.ofMatrix A).quadForm = (List.range k).flatMap fun t => List.ofFn fun j => Spec.quad A (pdf (List.replicate t b) b j) := by
        simp only [Spec.drawn, List.map_flatMap, List.map_ofFn, Function.comp_def, (C20_quadForm A (fun _ => 0) id _).1]
      rw [e]
      exact this
    have h6 : |(flSamples K A pdf b k).sum / (k * b : ℕ) - Spec.mean ((Spec.drawn pdf b k).map (Operand.ofMatrix A).quadForm)| ≤ 4 * N * φ.u * M := by
      unfold Spec.mean
      rw [List.length_map, drawn_length, ← sub_div, abs_div, abs_of_pos hl, div_le_iff₀ hl]
      refine h5.trans (le_of_eq ?_)
      push_cast
      ring
    have h7 : Spec.sampleMean ((flSamples K A pdf b k).map fun x (_ : Fin 1) => x) 0 = (flSamples K A pdf b k).sum / (k * b : ℕ) := by
      simp [Spec.sampleMean, Function.comp_def, flSamples_length]
    rw [h7, List.length_map, flSamples_length] at h4
    refine (abs_sub_le _ ((flSamples K A pdf b k).sum / (k * b : ℕ)) _).trans ((add_le_add h4 h6).trans (le_of_eq ?_))
    ring

theorem DotOrder.exists (fl : ℝ → ℝ) : ∀ l : List (ℝ × ℝ), l ≠ [] → ∃ s, DotOrder fl l s
  | [], h => absurd rfl h
  | [(a, b)], _ => ⟨_, .single a b⟩
  | (a, b) :: q :: l, _ => by
    obtain ⟨t, ht⟩ := DotOrder.exists fl (q :: l) (by simp)
    exact ⟨_, .fma ht⟩

theorem SumOrder.exists (fl : ℝ → ℝ) : ∀ l : List ℝ, l ≠ [] → ∃ s, SumOrder fl l s
  | [], h => absurd rfl h
  | [x], _ => ⟨_, .single x⟩
  | x :: y :: l, _ => by
    obtain ⟨t, ht⟩ := SumOrder.exists fl (y :: l) (by simp)
    exact ⟨_, .node (.single x) ht⟩

/-- There are such kernels for every rounding and size. -/
theorem flKernels_exist (fl : ℝ → ℝ) (hN : N ≠ 0) : ∃ K : FlKernels N, FlKernelsOk fl K := by
  have h1 : ∀ f : Fin N → ℝ × ℝ, ∃ s, DotOrder fl (List.ofFn f) s := fun f => DotOrder.exists fl _ (by simpa [List.ofFn_eq_nil_iff] using hN)
  choose D hD using h1
  have h2 : ∀ l : List ℝ, ∃ s, l ≠ [] → SumOrder fl l s := by
    intro l
    by_cases h : l = []
    · exact ⟨0, fun h' => absurd h h'⟩
    · obtain ⟨s, hs⟩ := SumOrder.exists fl l h
      exact ⟨s, fun _ => hs⟩
  choose S hS using h2
  exact ⟨⟨fun _ _ A v i => D fun l => (A i l, v l), fun _ _ v w => D fun i => (v i, w i), fun _ => S, fun _ _ => 0⟩,
    fun _ _ _ _ _ => hD _, fun _ _ _ _ => hD _, fun _ => hS⟩

open MeasureTheory in
/-- **C116** end to end: with an ideal generator the number computed in floating point arithmetic misses the trace by more than `ε` and the rounding error with a
probability that falls exponentially with the number of samples.  The order of evaluation may be different in every execution. -/
theorem C116_tail {Ω : Type*} [MeasurableSpace Ω] {P : Measure Ω} [IsProbabilityMeasure P] (hn : φ.Nearest fl) (K : Ω → FlKernels N)
    (hK : ∀ ω, FlKernelsOk fl (K ω)) (A : Matrix (Fin N) (Fin N) ℝ) (hN : N ≠ 0) (hA : ∀ i j, φ.Mem (A i j)) (M : ℝ) (hM : ∑ i, ∑ j, |A i j| ≤ M)
    (k : ℕ) (hk : 0 < k) (hNu : N * φ.u ≤ 1 / 64) (hfit : φ.Fits k (2 * M)) (u X : ℕ → Ω → ℝ) (hu : Spec.IidUniform P u)
    (B : ℝ) (hB : 0 < B) (hdev : ∀ x : Vec N, (∀ i, x i = 1 ∨ x i = -1) → |Spec.quad A x - A.trace| ≤ B) (ε : ℝ) (hε : 0 < ε) :
    ∃ est : Ω → ℝ,
      (∀ᵐ ω ∂P, hutchFl fl (K ω) ⟨fun q => u q ω, fun q => X q ω⟩ A 32 (.name "rademacher") k false (k + 1) = some (.ok (.val fun _ => est ω))) ∧
      P.real {ω | ε + (4 * N + 32 * k) * φ.u * M ≤ |est ω - A.trace|} ≤ 2 * Real.exp (-(k * ε ^ 2 / (2 * B ^ 2))) := by
  obtain ⟨y, hy, -, -, -, -, htail⟩ := C112_rademacher (fun _ _ => 0) (fun _ => 0) A hN k hk u X hu
  have hr : ∀ᵐ ω ∂P, ∀ q, u q ω ∈ Set.Ico (0 : ℝ) 1 := by
    rw [ae_all_iff]
    intro q
    have h1 : ∀ᵐ x ∂(volume.restrict (Set.Ico (0 : ℝ) 1)), x ∈ Set.Ico (0 : ℝ) 1 := ae_restrict_mem measurableSet_Ico
    rw [← (hu.law q).map_eq] at h1
    exact ae_of_ae_map (hu.law q).aemeasurable h1
  have key : ∀ ω, ∃ x : ℝ, (∀ q, u q ω ∈ Set.Ico (0 : ℝ) 1) →
      hutch (fun _ _ => 0) (fun _ => 0) ⟨fun q => u q ω, fun q => X q ω⟩ (scalarArgs A (.name "rademacher") k) (k + 1) = some (.ok (.scalar (.val fun _ => y ω), [])) →
      hutchFl fl (K ω) ⟨fun q => u q ω, fun q => X q ω⟩ A 32 (.name "rademacher") k false (k + 1) = some (.ok (.val fun _ => x)) ∧
        |x - y ω| ≤ (4 * N + 32 * k) * φ.u * M := by
    intro ω
    by_cases h : ∀ q, u q ω ∈ Set.Ico (0 : ℝ) 1
    · obtain ⟨x, y', out, calls, h1, h2, h3, -, h4⟩ := C116_hutch_rounding (fun _ _ => 0) (fun _ => 0) hn (hK ω) ⟨fun q => u q ω, fun q => X q ω⟩ h A hN hA M hM 32 k
        false 1 rfl (by omega) hk hNu (by simpa using hfit)
      rw [Nat.mul_one] at h1 h2 h4
      refine ⟨x, fun _ h5 => ⟨h1, ?_⟩⟩
      have h6 : hutch (fun _ _ => 0) (fun _ => 0) ⟨fun q => u q ω, fun q => X q ω⟩ (scalarArgs A (.name "rademacher") k) (k + 1) = some (.ok (out, calls)) := h2
      rw [h5] at h6
      cases h6
      have : y' = y ω := by
        simp only [HutchOut.estimate, NumArr.val.injEq] at h3
        exact (congrFun h3 0).symm
      rw [← this]
      exact h4
    · exact ⟨0, fun h' => absurd h' h⟩
  choose est hest using key
  refine ⟨est, ?_, le_trans ?_ (htail B hB hdev ε hε)⟩
  · filter_upwards [hr, hy] with ω h1 h2
    exact (hest ω h1 h2).1
  · refine ENNReal.toReal_mono (measure_ne_top _ _) (measure_mono_ae ?_)
    filter_upwards [hr, hy] with ω h1 h2 h3
    have h4 := (hest ω h1 h2).2
    have h5 : ε + (4 * N + 32 * k) * φ.u * M ≤ |est ω - A.trace| := h3
    have h6 := abs_sub_le (est ω) (y ω) A.trace
    show ε ≤ |y ω - A.trace|
    linarith

/-- Concrete case of **C116**: the matrix `[[1, 2], [3, 4]]` in double precision, four passes of eight vectors: the error is below `2 ^ -38`. -/
example (tppf : ℝ → ℕ → ℝ) (zscore : ℝ → ℝ) (fl : ℝ → ℝ) (hn : binary64.Nearest fl) (K : FlKernels 2) (hK : FlKernelsOk fl K) (rng : Rng)
    (hu : ∀ p, 0 ≤ rng.unif p ∧ rng.unif p < 1) :
    ∃ (x y : ℝ) (out : HutchOut) (calls : List (MeanEst 1)),
      hutchFl fl K rng !![1, 2; 3, 4] 8 (.name "rademacher") 32 true 5 = some (.ok (.val fun _ => x)) ∧
      hutch tppf zscore rng ⟨.ofMatrix !![1, 2; 3, 4], 8, .name "rademacher", .obj (.count 32), true, false, false, []⟩ 5 = some (.ok (out, calls)) ∧
      out.estimate = .val (fun _ => y) ∧ |x - y| ≤ 2 ^ (-38 : ℤ) := by
  obtain ⟨x, y, out, calls, h1, h2, h3, -, h4⟩ := C116_hutch_rounding tppf zscore hn hK rng hu !![1, 2; 3, 4] (by omega)
    (by
      intro i j
      fin_cases i <;> fin_cases j
      · simpa using binary64_mem_int 1 (by norm_num)
      · simpa using binary64_mem_int 2 (by norm_num)
      · simpa using binary64_mem_int 3 (by norm_num)
      · simpa using binary64_mem_int 4 (by norm_num)) 10 (by simp [Fin.sum_univ_two]; norm_num) 8 4 true 8 rfl (by omega) (by omega)
    (by norm_num [binary64, Fmt.u]) (binary64_fits _ (by norm_num) _
      ((zpow_le_one_of_nonpos₀ (by norm_num) (by norm_num)).trans (by norm_num))
      (le_trans (by norm_num) (zpow_le_zpow_right₀ (by norm_num) (by norm_num : (5 : ℤ) ≤ 900))))
  refine ⟨x, y, out, calls, h1, h2, h3, h4.trans ?_⟩
  norm_num [binary64, Fmt.u]

end Primate
