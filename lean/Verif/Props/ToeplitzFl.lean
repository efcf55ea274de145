import Verif.Model.ToeplitzFl
import Verif.Props.Toeplitz
import Verif.Lemmas.RoundP
import Mathlib.Analysis.InnerProductSpace.PiL2

/-!
# C152: Toeplitz operators in rounded arithmetic
-/

noncomputable section

namespace Primate

open Finset Complex

/-- The Euclidean norm of the first `m` entries. -/
def Spec.cnrm (m : ℕ) (v : ℕ → ℂ) : ℝ := Real.sqrt (∑ k ∈ range m, ‖v k‖ ^ 2)

open Spec

/-- The transforms of length `m` have a relative error of at most `ε` in the Euclidean norm, products of at most `ε`. -/
structure Spec.FftRounded (K : FftKernels) (m : ℕ) (ε : ℝ) : Prop where
  ε0 : 0 ≤ ε
  fft : ∀ z, cnrm m (K.fft m z - npFft m z) ≤ ε * cnrm m (npFft m z)
  ifft : ∀ z, cnrm m (K.ifft m z - npIfft m z) ≤ ε * cnrm m (npIfft m z)
  mul : ∀ a z, ‖K.mul a z - a * z‖ ≤ ε * (|a| * ‖z‖)

variable {m : ℕ}

theorem cnrm_eq (v : ℕ → ℂ) : cnrm m v = ‖(WithLp.toLp 2 fun k : Fin m => v k : EuclideanSpace ℂ (Fin m))‖ := by
  rw [EuclideanSpace.norm_eq, cnrm, sum_range]

theorem cnrm_nonneg (v : ℕ → ℂ) : 0 ≤ cnrm m v := Real.sqrt_nonneg _

theorem cnrm_add_le (v w : ℕ → ℂ) : cnrm m (v + w) ≤ cnrm m v + cnrm m w := by
  rw [cnrm_eq, cnrm_eq, cnrm_eq]
  exact norm_add_le (WithLp.toLp 2 (fun k : Fin m => v k) : EuclideanSpace ℂ (Fin m)) (WithLp.toLp 2 fun k : Fin m => w k)

theorem cnrm_sub_le (u v w : ℕ → ℂ) : cnrm m (u - w) ≤ cnrm m (u - v) + cnrm m (v - w) := by
  rw [← sub_add_sub_cancel u v w]
  exact cnrm_add_le _ _

theorem cnrm_mono {v w : ℕ → ℂ} {A : ℝ} (hA : 0 ≤ A) (h : ∀ k < m, ‖v k‖ ≤ A * ‖w k‖) : cnrm m v ≤ A * cnrm m w := by
  unfold cnrm
  rw [← Real.sqrt_sq hA, ← Real.sqrt_mul (sq_nonneg A), mul_sum]
  refine Real.sqrt_le_sqrt (sum_le_sum fun k hk => ?_)
  rw [← mul_pow]
  exact pow_le_pow_left₀ (norm_nonneg _) (h k (mem_range.1 hk)) 2

theorem le_cnrm (v : ℕ → ℂ) {k : ℕ} (hk : k < m) : ‖v k‖ ≤ cnrm m v := by
  unfold cnrm
  refine Real.le_sqrt_of_sq_le ?_
  exact single_le_sum (f := fun k => ‖v k‖ ^ 2) (fun i _ => sq_nonneg _) (mem_range.2 hk)

theorem cnrm_le_sum (v : ℕ → ℂ) : cnrm m v ≤ ∑ k ∈ range m, ‖v k‖ := by
  unfold cnrm
  refine Real.sqrt_le_iff.2 ⟨sum_nonneg fun k _ => norm_nonneg _, ?_⟩
  exact sum_sq_le_sq_sum_of_nonneg fun k _ => norm_nonneg _

/-- Parseval's identity. -/
theorem cnrm_fft (hm : m ≠ 0) (z : ℕ → ℂ) : cnrm m (npFft m z) = Real.sqrt m * cnrm m z := by
  unfold cnrm
  rw [← Real.sqrt_mul (Nat.cast_nonneg m)]
  congr 1
  have hc : ((∑ k ∈ range m, ‖npFft m z k‖ ^ 2 : ℝ) : ℂ) = ((m * ∑ k ∈ range m, ‖z k‖ ^ 2 : ℝ) : ℂ) := by
    push_cast
    have h1 : ∀ k, (‖npFft m z k‖ : ℂ) ^ 2 = ∑ j ∈ range m, ∑ p ∈ range m, z j * (starRingEnd ℂ) (z p) * exp (2 * Real.pi * I * ((p : ℤ) - (j : ℤ) : ℤ) * k / m) := by
      intro k
      rw [← Complex.mul_conj', npFft, map_sum, sum_mul_sum]
      refine sum_congr rfl fun j _ => sum_congr rfl fun p _ => ?_
      rw [map_mul, ← exp_conj]
      have e : (starRingEnd ℂ) (-(2 * Real.pi * I * p * k / m)) = 2 * Real.pi * I * p * k / m := by
        simp [map_neg, map_div₀, map_mul, conj_I, conj_ofReal, show (starRingEnd ℂ) 2 = 2 from map_ofNat _ 2]
        ring
      rw [e, mul_mul_mul_comm, ← exp_add]
      congr 2
      push_cast
      ring
    simp only [h1]
    rw [sum_comm, mul_sum]
    refine sum_congr rfl fun j hj => ?_
    rw [sum_comm]
    have h2 : ∀ p ∈ range m, ∑ k ∈ range m, z j * (starRingEnd ℂ) (z p) * exp (2 * Real.pi * I * ((p : ℤ) - (j : ℤ) : ℤ) * k / m) = if p = j then (m : ℂ) * (‖z j‖ : ℂ) ^ 2 else 0 := by
      intro p hp
      rw [← mul_sum, sum_exp m (Nat.pos_of_ne_zero hm)]
      have hj' := mem_range.1 hj
      have hp' := mem_range.1 hp
      by_cases h : p = j
      · subst h
        rw [if_pos rfl, if_pos (by simp), Complex.mul_conj', mul_comm]
      · rw [if_neg h, if_neg, mul_zero]
        intro hd
        have := Int.eq_zero_of_abs_lt_dvd hd (by rw [abs_lt]; omega)
        omega
    rw [sum_congr rfl h2, sum_ite_eq' (range m) j, if_pos hj]
  exact_mod_cast hc

theorem cnrm_ifft (hm : m ≠ 0) (D : ℕ → ℂ) : Real.sqrt m * cnrm m (npIfft m D) = cnrm m D := by
  have m0 : (0 : ℝ) < m := by exact_mod_cast Nat.pos_of_ne_zero hm
  have h1 : ∀ j, ‖npIfft m D j‖ = (1 / m) * ‖npFft m (fun k => (starRingEnd ℂ) (D k)) j‖ := by
    intro j
    have e : npIfft m D j = (starRingEnd ℂ) (npFft m (fun k => (starRingEnd ℂ) (D k)) j) / m := by
      unfold npIfft npFft
      rw [map_sum]
      congr 1
      refine sum_congr rfl fun k _ => ?_
      rw [map_mul, ← exp_conj, conj_conj]
      congr 2
      simp [map_neg, map_div₀, map_mul, conj_I, conj_ofReal, show (starRingEnd ℂ) 2 = 2 from map_ofNat _ 2]
      ring
    rw [e, norm_div, norm_conj, Complex.norm_natCast]
    ring
  have h2 : cnrm m (npIfft m D) = (1 / m) * cnrm m (npFft m fun k => (starRingEnd ℂ) (D k)) := by
    refine le_antisymm (cnrm_mono (by positivity) fun k _ => (h1 k).le) ?_
    have : cnrm m (npFft m fun k => (starRingEnd ℂ) (D k)) ≤ m * cnrm m (npIfft m D) := cnrm_mono m0.le fun k _ => by
      rw [h1]
      field_simp
      exact le_rfl
    rw [one_div, inv_mul_le_iff₀ m0]
    exact this
  have h3 : cnrm m (fun k => (starRingEnd ℂ) (D k)) = cnrm m D := by simp [cnrm]
  rw [h2, cnrm_fft hm, h3]
  have e : Real.sqrt m * Real.sqrt m = m := Real.mul_self_sqrt m0.le
  calc Real.sqrt m * (1 / m * (Real.sqrt m * cnrm m D)) = (Real.sqrt m * Real.sqrt m) / m * cnrm m D := by ring
    _ = cnrm m D := by rw [e, div_self m0.ne', one_mul]

theorem npIfft_sub (D E : ℕ → ℂ) : npIfft m (D - E) = npIfft m D - npIfft m E := by
  funext j
  simp only [npIfft, Pi.sub_apply, sub_mul, sum_sub_distrib, sub_div]

theorem norm_fft_le (d : ℕ → ℂ) (k : ℕ) : ‖npFft m d k‖ ≤ ∑ j ∈ range m, ‖d j‖ := by
  unfold npFft
  refine (norm_sum_le _ _).trans (sum_le_sum fun j _ => ?_)
  have e : -(2 * Real.pi * I * j * k / m) = ((-(2 * Real.pi * j * k / m) : ℝ) : ℂ) * I := by
    push_cast
    ring
  rw [norm_mul, e, Complex.norm_exp_ofReal_mul_I, mul_one]

/-- The rounded product of transforms. -/
theorem conv_rounded {K : FftKernels} {ε : ℝ} (h : FftRounded K m ε) (hm : m ≠ 0) (hε : 16 * (Real.sqrt m * ε) ≤ 1) (d z : ℕ → ℂ) (L : ℝ) (hL : ∑ j ∈ range m, ‖d j‖ ≤ L) :
    cnrm m (K.ifft m (fun k => K.mul (K.fft m d k).re (K.fft m z k)) - npIfft m (fun k => ((npFft m d k).re : ℂ) * npFft m z k)) ≤ 6 * (Real.sqrt m * ε) * (L * cnrm m z) := by
  have ε0 := h.ε0
  set s := Real.sqrt m with hs
  have s1 : 1 ≤ s := by
    rw [hs]
    exact Real.one_le_sqrt.2 (by exact_mod_cast Nat.one_le_iff_ne_zero.2 hm)
  have sε : 0 ≤ s * ε := by positivity
  have εs : ε ≤ s * ε := by nlinarith
  set X := cnrm m z with hX
  have X0 : 0 ≤ X := cnrm_nonneg z
  have L0 : 0 ≤ L := (sum_nonneg fun j _ => norm_nonneg _).trans hL
  set D : ℕ → ℝ := fun k => (npFft m d k).re with hD
  set Dh : ℕ → ℝ := fun k => (K.fft m d k).re with hDh
  set F := npFft m z with hF
  set Fh := K.fft m z with hFh
  have hFn : cnrm m F = s * X := cnrm_fft hm z
  have d1 : ∀ k, |D k| ≤ L := fun k => (Complex.abs_re_le_norm _).trans ((norm_fft_le d k).trans hL)
  have d2 : ∀ k < m, |Dh k - D k| ≤ s * ε * L := fun k hk => by
    have e1 : |Dh k - D k| ≤ ‖(K.fft m d - npFft m d) k‖ := by
      rw [hDh, hD]
      simp only [← Complex.sub_re]
      exact Complex.abs_re_le_norm _
    have e2 := h.fft d
    rw [cnrm_fft hm] at e2
    have e3 : cnrm m d ≤ L := (cnrm_le_sum d).trans hL
    have e4 := mul_le_mul_of_nonneg_left e3 sε
    have e5 : ε * (Real.sqrt m * cnrm m d) = s * ε * cnrm m d := by rw [hs]; ring
    linarith [le_cnrm (K.fft m d - npFft m d) hk]
  have d3 : ∀ k < m, |Dh k| ≤ 17 / 16 * L := fun k hk => by
    have := abs_sub_abs_le_abs_sub (Dh k) (D k)
    have e : s * ε * L ≤ 1 / 16 * L := mul_le_mul_of_nonneg_right (by linarith) L0
    linarith [d1 k, d2 k hk]
  have f1 : cnrm m (Fh - F) ≤ ε * (s * X) := by
    have := h.fft z
    rwa [cnrm_fft hm] at this
  have sX0 : 0 ≤ s * X := by positivity
  have LsX : 0 ≤ L * (s * X) := by positivity
  have f2 : cnrm m Fh ≤ 17 / 16 * (s * X) := by
    have e1 := cnrm_add_le (m := m) (Fh - F) F
    rw [sub_add_cancel, hFn] at e1
    have e2 : ε * (s * X) ≤ 1 / 16 * (s * X) := mul_le_mul_of_nonneg_right (by linarith) sX0
    linarith
  -- the product
  set P : ℕ → ℂ := fun k => (D k : ℂ) * F k with hP
  set Ph : ℕ → ℂ := fun k => K.mul (Dh k) (Fh k) with hPh
  have hPn : cnrm m P ≤ L * (s * X) := by
    rw [← hFn]
    refine cnrm_mono L0 fun k _ => ?_
    rw [hP]
    simp only [norm_mul, Complex.norm_real, Real.norm_eq_abs]
    exact mul_le_mul_of_nonneg_right (d1 k) (norm_nonneg _)
  have p1 : cnrm m (Ph - fun k => (Dh k : ℂ) * Fh k) ≤ (ε * (17 / 16 * L)) * cnrm m Fh := cnrm_mono (by positivity) fun k hk => by
    refine (h.mul (Dh k) (Fh k)).trans ?_
    rw [mul_assoc]
    exact mul_le_mul_of_nonneg_left (mul_le_mul_of_nonneg_right (d3 k hk) (norm_nonneg _)) ε0
  have p2 : cnrm m ((fun k => (Dh k : ℂ) * Fh k) - fun k => (Dh k : ℂ) * F k) ≤ 17 / 16 * L * cnrm m (Fh - F) := cnrm_mono (by positivity) fun k hk => by
    simp only [Pi.sub_apply]
    rw [← mul_sub, norm_mul, Complex.norm_real, Real.norm_eq_abs]
    exact mul_le_mul_of_nonneg_right (d3 k hk) (norm_nonneg _)
  have p3 : cnrm m ((fun k => (Dh k : ℂ) * F k) - P) ≤ s * ε * L * cnrm m F := cnrm_mono (by positivity) fun k hk => by
    rw [hP]
    simp only [Pi.sub_apply]
    rw [← sub_mul, norm_mul, ← Complex.ofReal_sub, Complex.norm_real, Real.norm_eq_abs]
    exact mul_le_mul_of_nonneg_right (d2 k hk) (norm_nonneg _)
  have p4 : cnrm m (Ph - P) ≤ 17 / 4 * (s * ε) * (L * (s * X)) := by
    have e1 := cnrm_sub_le (m := m) Ph (fun k => (Dh k : ℂ) * Fh k) P
    have e2 := cnrm_sub_le (m := m) (fun k => (Dh k : ℂ) * Fh k) (fun k => (Dh k : ℂ) * F k) P
    have e3 := mul_le_mul_of_nonneg_left f2 (by positivity : 0 ≤ ε * (17 / 16 * L))
    have e4 := mul_le_mul_of_nonneg_left f1 (by positivity : 0 ≤ 17 / 16 * L)
    rw [hFn] at p3
    have e5 := mul_le_mul_of_nonneg_right εs LsX
    linarith [mul_nonneg sε LsX]
  -- the inverse transform
  have s0 : 0 < s := by linarith
  have q1 := h.ifft Ph
  have q2 : s * cnrm m (npIfft m Ph - npIfft m P) = cnrm m (Ph - P) := by
    rw [← npIfft_sub]
    exact cnrm_ifft hm _
  have q3 : s * cnrm m (npIfft m Ph) = cnrm m Ph := cnrm_ifft hm _
  have q4 : cnrm m Ph ≤ 21 / 16 * (L * (s * X)) := by
    have e1 := cnrm_add_le (m := m) (Ph - P) P
    rw [sub_add_cancel] at e1
    have e2 := mul_le_mul_of_nonneg_right (show s * ε ≤ 1 / 16 by linarith) LsX
    linarith
  have q5 : cnrm m (npIfft m Ph) ≤ 21 / 16 * (L * X) := by
    refine le_of_mul_le_mul_left ?_ s0
    linarith
  have q6 : cnrm m (npIfft m Ph - npIfft m P) ≤ 17 / 4 * (s * ε) * (L * X) := by
    refine le_of_mul_le_mul_left ?_ s0
    linarith
  have q7 := mul_le_mul_of_nonneg_left q5 ε0
  have LX : 0 ≤ L * X := mul_nonneg L0 X0
  have q8 := mul_le_mul_of_nonneg_right εs LX
  linarith [cnrm_sub_le (m := m) (K.ifft m Ph) (npIfft m Ph) (npIfft m P), mul_nonneg sε LX]

theorem toep_afterFl (K : FftKernels) (c : List ℝ) (r : Option (List ℝ)) (xs : List (List ℝ)) :
    ((Toep.initFl K c r).afterFl K xs).c = c ∧ ((Toep.initFl K c r).afterFl K xs).d = (Toep.initFl K c r).d ∧
    ((Toep.initFl K c r).afterFl K xs).dfft = (Toep.initFl K c r).dfft ∧ ∀ i, c.length ≤ i → ((Toep.initFl K c r).afterFl K xs).z i = 0 := by
  unfold Toep.afterFl
  induction xs using List.reverseRecOn with
  | nil => exact ⟨rfl, rfl, rfl, fun _ _ => rfl⟩
  | append_singleton xs x ih =>
    rw [List.foldl_append, List.foldl_cons, List.foldl_nil]
    obtain ⟨T, hT⟩ : ∃ T, T = List.foldl (fun T x => (Toep.matvecFl K T x).1) (Toep.initFl K c r) xs := ⟨_, rfl⟩
    rw [← hT] at ih ⊢
    obtain ⟨h1, h2, h3, h4⟩ := ih
    unfold Toep.matvecFl
    by_cases hx : x.length ≠ T.c.length
    · rw [if_pos hx]
      exact ⟨h1, h2, h3, h4⟩
    · rw [if_neg hx]
      have hz : ∀ i, c.length ≤ i → (if i < T.c.length then x.getD i 0 else T.z i) = 0 := fun i hi => by
        rw [if_neg (by rw [h1]; omega)]
        exact h4 i hi
      by_cases hd : T.d.length ≠ 2 * T.c.length
      · simp only [if_pos hd]
        exact ⟨h1, h2, h3, hz⟩
      · simp only [if_neg hd]
        exact ⟨h1, h2, h3, hz⟩

/-- The Euclidean norm of the first `n` numbers of a sequence. -/
def Spec.rnrm (n : ℕ) (v : ℕ → ℝ) : ℝ := Real.sqrt (∑ i ∈ range n, v i ^ 2)

/-- **C152**: `Toeplitz(c, r) @ x` in rounded arithmetic, after every call history: the error is small relative to `sum |c| + sum |r|` times the norm of `x`.  What is
computed is the product with the symmetric part of the matrix (C66). -/
theorem C152_matvec {K : FftKernels} {ε : ℝ} (c r : List ℝ) (h : FftRounded K (2 * c.length) ε) (hr : r.length = c.length) (hc : c ≠ []) (hε : 16 * (Real.sqrt (2 * c.length) * ε) ≤ 1) (xs : List (List ℝ))
    (x : List ℝ) (hx : x.length = c.length) :
    ∃ y, (((Toep.initFl K c (some r)).afterFl K xs).matvecFl K x).2 = .ok y ∧ y.length = c.length ∧
      rnrm c.length (fun i => y.getD i 0 - ∑ j ∈ range c.length, (toeplitz c r i j + toeplitz c r j i) / 2 * x.getD j 0) ≤
        6 * (Real.sqrt (2 * c.length) * ε) * (((c.map abs).sum + (r.tail.map abs).sum) * rnrm c.length fun i => x.getD i 0) := by
  have hn : 0 < c.length := List.length_pos_iff.2 hc
  obtain ⟨y0, g1, g2, g3⟩ := C66_symmetric_part c r hr hc [] x hx
  obtain ⟨h1, h2, h3, h4⟩ := toep_afterFl K c (some r) xs
  obtain ⟨T, hT⟩ : ∃ T, T = (Toep.initFl K c (some r)).afterFl K xs := ⟨_, rfl⟩
  rw [← hT] at h1 h2 h3 h4 ⊢
  set n := c.length with hnn
  set dl := c ++ [0] ++ r.tail.reverse with hdl'
  have hdl : dl.length = 2 * n := by
    rw [hdl']
    simp only [List.length_append, List.length_reverse, List.length_tail, List.length_cons, List.length_nil]
    omega
  set d : ℕ → ℂ := fun j => ((dl.getD j 0 : ℝ) : ℂ) with hd
  set z : ℕ → ℂ := fun i => ((if i < n then x.getD i 0 else 0 : ℝ) : ℂ) with hz
  -- the exact result
  have e0 : y0 = (List.range n).map fun j => (npIfft (2 * n) (fun k => ((npFft (2 * n) d k).re : ℂ) * npFft (2 * n) z k) j).re := by
    have e : ((Toep.init c (some r)).matvec x).2 = .ok ((List.range n).map fun j => (npIfft (2 * n) (fun k => ((npFft (2 * n) d k).re : ℂ) * npFft (2 * n) z k) j).re) := by
      unfold Toep.matvec
      rw [if_neg (show ¬ x.length ≠ (Toep.init c (some r)).c.length by simpa [Toep.init] using hx)]
      simp only
      rw [if_neg (show ¬ (Toep.init c (some r)).d.length ≠ 2 * (Toep.init c (some r)).c.length by
        show ¬ dl.length ≠ 2 * n
        simp [hdl])]
      have : (Toep.init c (some r)).dfft = fun k => (npFft (2 * n) d k).re := by
        rw [← hdl]
        rfl
      rw [this]
      rfl
    have := g1.symm.trans e
    exact Except.ok.inj this
  have hz' : ∀ i, (((if i < n then x.getD i 0 else T.z i : ℝ)) : ℂ) = z i := fun i => by
    rw [hz]
    simp only
    by_cases hi : i < n
    · rw [if_pos hi, if_pos hi]
    · rw [if_neg hi, if_neg hi, h4 i (by omega)]
  have hf : (Toep.initFl K c (some r)).dfft = fun k => (K.fft (2 * n) d k).re := by
    rw [← hdl]
    rfl
  unfold Toep.matvecFl
  rw [if_neg (by rw [h1]; simpa using hx)]
  simp only
  rw [if_neg (by rw [h2, h1]; show ¬ dl.length ≠ 2 * n; simp [hdl])]
  refine ⟨_, rfl, by rw [List.length_map, List.length_range, h1], ?_⟩
  rw [h1, h3, hf, ← hnn]
  simp only [hz']
  have m0 : 2 * n ≠ 0 := by omega
  have cast2 : ((2 * n : ℕ) : ℝ) = 2 * n := by push_cast; ring
  -- the sums of absolute values
  have hL : ∑ j ∈ range (2 * n), ‖d j‖ ≤ (c.map abs).sum + (r.tail.map abs).sum := by
    have e1 : ∀ l : List ℝ, ∑ j ∈ range l.length, |l.getD j 0| = (l.map abs).sum := by
      intro l
      induction l with
      | nil => simp
      | cons a l ih =>
        rw [List.length_cons, sum_range_succ']
        simp only [List.getD_cons_succ, List.getD_cons_zero, List.map_cons, List.sum_cons]
        rw [ih]
        ring
    have e2 : ∑ j ∈ range (2 * n), ‖d j‖ = (dl.map abs).sum := by
      rw [← hdl, ← e1]
      refine sum_congr rfl fun j _ => ?_
      rw [hd]
      simp only [Complex.norm_real, Real.norm_eq_abs]
    rw [e2, hdl']
    simp only [List.map_append, List.sum_append, List.map_cons, List.map_nil, List.sum_cons, List.sum_nil, abs_zero, add_zero, List.map_reverse, List.sum_reverse]
    exact le_rfl
  have key := conv_rounded h m0 (by rw [cast2]; exact hε) d z _ hL
  rw [cast2] at key
  -- norms of the first half
  have hx' : cnrm (2 * n) z = rnrm n fun i => x.getD i 0 := by
    unfold cnrm rnrm
    congr 1
    rw [two_mul n, sum_range_add]
    have e1 : ∑ p ∈ range n, ‖z (n + p)‖ ^ 2 = 0 := sum_eq_zero fun p _ => by
      rw [hz]
      simp only
      rw [if_neg (by omega)]
      simp
    rw [e1, add_zero]
    refine sum_congr rfl fun i hi => ?_
    rw [hz]
    simp only
    rw [if_pos (mem_range.1 hi), Complex.norm_real, Real.norm_eq_abs, sq_abs]
  rw [hx'] at key
  refine le_trans ?_ key
  unfold rnrm cnrm
  refine Real.sqrt_le_sqrt ?_
  refine le_trans (sum_le_sum fun i hi => ?_) (sum_le_sum_of_subset_of_nonneg (range_subset_range.2 (by omega : n ≤ 2 * n)) fun p _ _ => sq_nonneg _)
  have hi' := mem_range.1 hi
  simp only
  rw [← g3 i hi', e0]
  simp only [List.getD_eq_getElem?_getD, List.getElem?_map, List.getElem?_range hi', Option.map_some, Option.getD_some]
  rw [← Complex.sub_re, ← sq_abs]
  exact pow_le_pow_left₀ (abs_nonneg _) (Complex.abs_re_le_norm _) 2

/-- **C152**: symmetric Toeplitz matrices (`r` omitted). -/
theorem C152_symmetric {K : FftKernels} {ε : ℝ} (c : List ℝ) (h : FftRounded K (2 * c.length) ε) (hc : c ≠ []) (hε : 16 * (Real.sqrt (2 * c.length) * ε) ≤ 1) (xs : List (List ℝ))
    (x : List ℝ) (hx : x.length = c.length) :
    ∃ y, (((Toep.initFl K c none).afterFl K xs).matvecFl K x).2 = .ok y ∧ y.length = c.length ∧
      rnrm c.length (fun i => y.getD i 0 - ∑ j ∈ range c.length, toeplitz c c i j * x.getD j 0) ≤
        12 * (Real.sqrt (2 * c.length) * ε) * ((c.map abs).sum * rnrm c.length fun i => x.getD i 0) := by
  obtain ⟨y, h1, h2, h3⟩ := C152_matvec c c h rfl hc hε xs x hx
  refine ⟨y, h1, h2, ?_⟩
  have e : ∀ i j, (toeplitz c c i j + toeplitz c c j i) / 2 = toeplitz c c i j := by
    intro i j
    have : toeplitz c c j i = toeplitz c c i j := by
      unfold toeplitz
      rcases lt_trichotomy i j with h | h | h
      · rw [if_pos h.le, if_neg (by omega)]
      · subst h; rfl
      · rw [if_neg (by omega), if_pos h.le]
    rw [this]
    ring
  simp only [e] at h3
  refine h3.trans ?_
  have t0 : (c.tail.map abs).sum ≤ (c.map abs).sum := by
    cases c with
    | nil => simp
    | cons a l => simp
  have X0 : 0 ≤ rnrm c.length fun i => x.getD i 0 := Real.sqrt_nonneg _
  have s0 : 0 ≤ Real.sqrt (2 * c.length) * ε := mul_nonneg (Real.sqrt_nonneg _) h.ε0
  have := mul_le_mul_of_nonneg_left (mul_le_mul_of_nonneg_right (add_le_add_right t0 (c.map abs).sum) X0) (by linarith : 0 ≤ 6 * (Real.sqrt (2 * c.length) * ε))
  linarith

/-- **C152**: wrong lengths are rejected as in exact arithmetic, after every call history. -/
theorem C152_rejects (K : FftKernels) (c : List ℝ) (r : Option (List ℝ)) (xs : List (List ℝ)) (x : List ℝ) :
    (x.length ≠ c.length → (((Toep.initFl K c r).afterFl K xs).matvecFl K x).2 = .error .assertion) ∧
    (x.length = c.length → c = [] ∨ (r.getD c).length - 1 + 1 ≠ c.length → (((Toep.initFl K c r).afterFl K xs).matvecFl K x).2 = .error .value) := by
  obtain ⟨h1, h2, h3, h4⟩ := toep_afterFl K c r xs
  have hd : (Toep.initFl K c r).d = c ++ [0] ++ (r.getD c).tail.reverse := rfl
  constructor
  · intro h
    unfold Toep.matvecFl
    rw [if_pos (by rw [h1]; exact h)]
  · intro h hr
    unfold Toep.matvecFl
    rw [if_neg (by rw [h1]; simpa using h)]
    simp only
    rw [if_pos]
    rw [h1, h2, hd]
    simp only [List.length_append, List.length_reverse, List.length_tail, List.length_cons, List.length_nil]
    rcases hr with hr | hr
    · subst hr; simp
    · omega

/-- A complex number with both parts rounded to 53 digits. -/
def Spec.roundC (z : ℂ) : ℂ := ⟨roundP 53 z.re, roundP 53 z.im⟩

theorem roundC_err (z : ℂ) : ‖roundC z - z‖ ≤ 2 ^ (-53 : ℤ) * ‖z‖ := by
  have h1 := roundP_err 53 z.re
  have h2 := roundP_err 53 z.im
  have e0 : (0 : ℝ) ≤ 2 ^ (-53 : ℤ) := by positivity
  refine le_of_sq_le_sq ?_ (mul_nonneg e0 (norm_nonneg _))
  rw [mul_pow, ← Complex.normSq_eq_norm_sq, ← Complex.normSq_eq_norm_sq, Complex.normSq_apply, Complex.normSq_apply]
  simp only [roundC, Complex.sub_re, Complex.sub_im]
  have a1 := pow_le_pow_left₀ (abs_nonneg _) h1 2
  have a2 := pow_le_pow_left₀ (abs_nonneg _) h2 2
  rw [sq_abs, mul_pow, sq_abs] at a1 a2
  have e : (-((53 : ℕ) : ℤ)) = -53 := by norm_num
  simp only [e] at a1 a2
  calc _ = (roundP 53 z.re - z.re) ^ 2 + (roundP 53 z.im - z.im) ^ 2 := by ring
    _ ≤ _ := add_le_add a1 a2
    _ = _ := by ring

theorem cnrm_round (m : ℕ) (v : ℕ → ℂ) : cnrm m ((fun k => roundC (v k)) - v) ≤ 2 ^ (-53 : ℤ) * cnrm m v := by
  have e0 : (0 : ℝ) ≤ 2 ^ (-53 : ℤ) := by positivity
  unfold cnrm
  rw [← Real.sqrt_sq e0, ← Real.sqrt_mul (sq_nonneg _), mul_sum]
  refine Real.sqrt_le_sqrt (sum_le_sum fun k _ => ?_)
  rw [← mul_pow]
  exact pow_le_pow_left₀ (norm_nonneg _) (roundC_err (v k)) 2

/-- The exact transforms, rounded. -/
def Spec.fft53 : FftKernels where
  fft m z k := roundC (npFft m z k)
  ifft m z k := roundC (npIfft m z k)
  mul a z := roundC (a * z)

/-- There are kernels of the accuracy assumed: the exact transforms, rounded to double precision. -/
theorem fft53_rounded (m : ℕ) : FftRounded fft53 m (2 ^ (-53 : ℤ)) where
  ε0 := by positivity
  fft z := cnrm_round m (npFft m z)
  ifft z := cnrm_round m (npIfft m z)
  mul a z := by
    have := roundC_err (a * z)
    rwa [norm_mul, Complex.norm_real, Real.norm_eq_abs] at this

/-- The hypotheses are satisfiable: a nonsymmetric matrix of order 3 in double precision, after a call and a failed call. -/
example : ∃ y, (((Toep.initFl fft53 [2, -1, 3] (some [2, 5, 7])).afterFl fft53 [[1, 1, 1], [4]]).matvecFl fft53 [1, 0, -2]).2 = .ok y ∧ y.length = 3 ∧
    rnrm 3 (fun i => y.getD i 0 - ∑ j ∈ range 3, (toeplitz [2, -1, 3] [2, 5, 7] i j + toeplitz [2, -1, 3] [2, 5, 7] j i) / 2 * [1, 0, -2].getD j 0) ≤ 10 ^ (-12 : ℤ) := by
  have s6 : Real.sqrt (2 * (([2, -1, 3] : List ℝ).length : ℕ)) ≤ 3 := Real.sqrt_le_iff.2 ⟨by norm_num, by norm_num⟩
  have s0 : 0 ≤ Real.sqrt (2 * (([2, -1, 3] : List ℝ).length : ℕ)) := Real.sqrt_nonneg _
  have e0 : (0 : ℝ) ≤ 2 ^ (-53 : ℤ) := by positivity
  have s1 := mul_le_mul_of_nonneg_right s6 e0
  obtain ⟨y, h1, h2, h3⟩ := C152_matvec [2, -1, 3] [2, 5, 7] (fft53_rounded _) rfl (by simp)
    (by refine (mul_le_mul_of_nonneg_left s1 (by norm_num)).trans (by norm_num)) [[1, 1, 1], [4]] [1, 0, -2] rfl
  refine ⟨y, h1, h2, h3.trans ?_⟩
  have hx : rnrm ([2, -1, 3] : List ℝ).length (fun i => ([1, 0, -2] : List ℝ).getD i 0) ≤ 3 := by
    refine Real.sqrt_le_iff.2 ⟨by norm_num, ?_⟩
    simp [sum_range_succ]
    norm_num
  have hl : ((([2, -1, 3] : List ℝ).map abs).sum + ((([2, 5, 7] : List ℝ).tail).map abs).sum) = 18 := by
    norm_num
  rw [hl]
  refine (mul_le_mul (mul_le_mul_of_nonneg_left s1 (by norm_num)) (mul_le_mul_of_nonneg_left hx (by norm_num)) (mul_nonneg (by norm_num) (Real.sqrt_nonneg _)) (by positivity)).trans ?_
  norm_num

end Primate
