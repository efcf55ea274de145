import Verif.Spec.Float
import Mathlib.Data.Int.Log
import Mathlib.Algebra.Order.Round
import Mathlib.Tactic.Linarith
import Mathlib.Tactic.Ring
import Mathlib.Tactic.FieldSimp
import Mathlib.Tactic.NormNum
import Mathlib.Tactic.Positivity
import Mathlib.Algebra.Order.BigOperators.Group.List
import Mathlib.Data.Set.Finite.Basic
import Mathlib.Data.Set.Finite.Lattice
import Mathlib.Data.Set.Finite.Lemmas
import Mathlib.Data.Finite.Prod
import Mathlib.Data.Int.Interval
import Mathlib.Algebra.Order.Ring.Pow

/-! # Facts about rounding to nearest -/

namespace Primate.Spec

variable {φ : Fmt} {fl : ℝ → ℝ}

theorem Fmt.u_pos (φ : Fmt) : 0 < φ.u := by unfold Fmt.u; positivity

theorem Fmt.eta_pos (φ : Fmt) : 0 < φ.eta := by unfold Fmt.eta; positivity

theorem Fmt.u_le_one (φ : Fmt) : φ.u ≤ 1 := by
  unfold Fmt.u
  exact zpow_le_one_of_nonpos₀ (by norm_num) (by omega)

theorem Fmt.Mem.neg {x : ℝ} (h : φ.Mem x) : φ.Mem (-x) := by
  obtain ⟨m, e, h1, h2, h3, rfl⟩ := h
  exact ⟨-m, e, by rwa [abs_neg], h2, h3, by push_cast; ring⟩

theorem Fmt.Mem.le_top {x : ℝ} (h : φ.Mem x) : |x| ≤ φ.top := by
  obtain ⟨m, e, h1, h2, h3, rfl⟩ := h
  unfold Fmt.top
  have hm : |(m : ℝ)| ≤ 2 ^ φ.p - 1 := by
    have : |m| ≤ 2 ^ φ.p - 1 := by omega
    exact_mod_cast this
  have he : (2 : ℝ) ^ e ≤ (2 : ℝ) ^ φ.emax := zpow_le_zpow_right₀ (by norm_num) h3
  rw [abs_mul, abs_of_pos (by positivity : (0 : ℝ) < 2 ^ e)]
  exact mul_le_mul hm he (by positivity) (le_trans (abs_nonneg _) hm)

theorem Fmt.top_nonneg (φ : Fmt) : 0 ≤ φ.top := by
  unfold Fmt.top
  have : (1 : ℝ) ≤ 2 ^ φ.p := one_le_pow₀ (by norm_num)
  have : (0 : ℝ) < 2 ^ φ.emax := by positivity
  apply mul_nonneg <;> linarith

theorem Fmt.mem_zero (h : φ.emin ≤ φ.emax) : φ.Mem 0 :=
  ⟨0, φ.emin, by simp, le_rfl, h, by simp⟩

/-- Integers up to `2 ^ p` are representable. -/
theorem Fmt.mem_int (h0 : φ.emin ≤ 0) (h1 : 0 < φ.emax) (hp : 0 < φ.p) (m : ℤ) (hm : |m| ≤ 2 ^ φ.p) : φ.Mem m := by
  rcases hm.lt_or_eq with hm | hm
  · exact ⟨m, 0, hm, h0, h1.le, by simp⟩
  · obtain ⟨k, hk⟩ : ∃ k, φ.p = k + 1 := ⟨φ.p - 1, by omega⟩
    have h2 : (2 : ℤ) ^ φ.p = 2 * 2 ^ k := by rw [hk]; ring
    have hk0 : (0 : ℤ) < 2 ^ k := by positivity
    have h3 : m = 2 * 2 ^ k ∨ m = -(2 * 2 ^ k) := by
      rw [h2] at hm
      exact eq_or_eq_neg_of_abs_eq hm
    rcases h3 with h3 | h3
    · exact ⟨2 ^ k, 1, by rw [h2, abs_of_pos hk0]; omega, by omega, by omega, by rw [h3]; push_cast; rw [zpow_one]; ring⟩
    · exact ⟨-2 ^ k, 1, by rw [h2, abs_neg, abs_of_pos hk0]; omega, by omega, by omega, by rw [h3]; push_cast; rw [zpow_one]; ring⟩

/-- Near every real in range there is a number of the format: within a relative distance `u`, or within the distance `eta` and equal if the real is a multiple
of the least positive number. -/
theorem Fmt.exists_near (he : φ.emin ≤ φ.emax) (x : ℝ) (hx : |x| ≤ φ.top) :
    ∃ y, φ.Mem y ∧ (|x - y| ≤ φ.u * |x| ∨ (|x - y| ≤ φ.eta ∧ ((∃ k : ℤ, x = k * (2 : ℝ) ^ φ.emin) → x = y))) := by
  by_cases hx0 : x = 0
  · exact ⟨0, Fmt.mem_zero he, Or.inl (by simp [hx0])⟩
  have hpos : 0 < |x| := abs_pos.2 hx0
  have h2 : (0 : ℝ) < 2 := by norm_num
  set L := Int.log 2 |x| with hL
  have hL1 : (2 : ℝ) ^ L ≤ |x| := by exact_mod_cast Int.zpow_log_le_self (b := 2) (by norm_num) hpos
  have hL2 : |x| < (2 : ℝ) ^ (L + 1) := by exact_mod_cast Int.lt_zpow_succ_log_self (b := 2) (by norm_num) |x|
  have htop : φ.top < (2 : ℝ) ^ ((φ.p : ℤ) + φ.emax) := by
    unfold Fmt.top
    rw [zpow_add₀ (by norm_num), zpow_natCast]
    have : (0 : ℝ) < 2 ^ φ.emax := by positivity
    nlinarith
  have hLe : L < φ.p + φ.emax := by
    have := lt_of_le_of_lt (hL1.trans hx) htop
    exact (zpow_lt_zpow_iff_right₀ (by norm_num)).1 this
  set e := max (L - φ.p + 1) φ.emin with hedef
  have he1 : φ.emin ≤ e := le_max_right _ _
  have he2 : e ≤ φ.emax := by omega
  have hep : (0 : ℝ) < 2 ^ e := by positivity
  set m := round (x / 2 ^ e) with hm
  have hr : |x / 2 ^ e - m| ≤ 1 / 2 := abs_sub_round _
  have hdist : |x - m * (2 : ℝ) ^ e| ≤ 2 ^ e / 2 := by
    have : x - m * (2 : ℝ) ^ e = (x / 2 ^ e - m) * 2 ^ e := by field_simp
    rw [this, abs_mul, abs_of_pos hep]
    nlinarith
  have hbound : |x| < 2 ^ ((φ.p : ℤ) + e) := by
    refine lt_of_lt_of_le hL2 (zpow_le_zpow_right₀ (by norm_num) ?_)
    omega
  have hm1 : |m| ≤ 2 ^ φ.p := by
    have h1 : |(m : ℝ)| < 2 ^ φ.p + 1 := by
      have h3 : |x / 2 ^ e| < 2 ^ φ.p := by
        rw [abs_div, abs_of_pos hep, div_lt_iff₀ hep]
        rwa [zpow_add₀ (by norm_num), zpow_natCast] at hbound
      have h4 : |(m : ℝ)| ≤ |x / 2 ^ e| + |x / 2 ^ e - m| := by
        have := abs_sub_abs_le_abs_sub (m : ℝ) (x / 2 ^ e)
        rw [abs_sub_comm] at this
        linarith
      linarith
    have h5 : |m| < 2 ^ φ.p + 1 := by exact_mod_cast h1
    omega
  have hmem : φ.Mem (m * (2 : ℝ) ^ e) := by
    rcases hm1.lt_or_eq with h | h
    · exact ⟨m, e, h, he1, he2, rfl⟩
    · rcases he2.lt_or_eq with h' | h'
      · by_cases hp : φ.p = 0
        · exfalso
          have ht0 : φ.top = 0 := by simp [Fmt.top, hp]
          rw [ht0] at hx
          linarith
        obtain ⟨k, hk⟩ : ∃ k, φ.p = k + 1 := ⟨φ.p - 1, by omega⟩
        have h2' : (2 : ℤ) ^ φ.p = 2 * 2 ^ k := by rw [hk]; ring
        have hk0 : (0 : ℤ) < 2 ^ k := by positivity
        have h3 : m = 2 * 2 ^ k ∨ m = -(2 * 2 ^ k) := by
          rw [h2'] at h
          exact eq_or_eq_neg_of_abs_eq h
        rcases h3 with h3 | h3
        · exact ⟨2 ^ k, e + 1, by rw [h2', abs_of_pos hk0]; omega, by omega, by omega,
            by rw [h3, zpow_add₀ (by norm_num)]; push_cast; rw [zpow_one]; ring⟩
        · exact ⟨-2 ^ k, e + 1, by rw [h2', abs_neg, abs_of_pos hk0]; omega, by omega, by omega,
            by rw [h3, zpow_add₀ (by norm_num)]; push_cast; rw [zpow_one]; ring⟩
      · exfalso
        have h3 : |x / 2 ^ e| ≤ 2 ^ φ.p - 1 := by
          rw [abs_div, abs_of_pos hep, div_le_iff₀ hep, h']
          exact hx
        have h4 : |(m : ℝ)| ≤ |x / 2 ^ e| + |x / 2 ^ e - m| := by
          have := abs_sub_abs_le_abs_sub (m : ℝ) (x / 2 ^ e)
          rw [abs_sub_comm] at this
          linarith
        have h5 : |(m : ℝ)| = 2 ^ φ.p := by exact_mod_cast h
        linarith
  refine ⟨_, hmem, ?_⟩
  rcases le_or_gt φ.emin (L - φ.p + 1) with hc | hc
  · left
    have hee : e = L - φ.p + 1 := max_eq_left hc
    refine hdist.trans ?_
    have : (2 : ℝ) ^ e / 2 = φ.u * 2 ^ L := by
      unfold Fmt.u
      rw [hee, ← zpow_add₀ (by norm_num), zpow_add₀ (by norm_num), zpow_one]
      rw [show L - (φ.p : ℤ) = -φ.p + L by ring]
      ring
    rw [this]
    exact mul_le_mul_of_nonneg_left hL1 φ.u_pos.le
  · right
    have hee : e = φ.emin := max_eq_right hc.le
    constructor
    · refine hdist.trans (le_of_eq ?_)
      unfold Fmt.eta
      rw [hee, zpow_sub₀ (by norm_num), zpow_one]
    · rintro ⟨k, hk⟩
      have : x / 2 ^ e = k := by rw [hk, hee]; field_simp
      rw [this] at hm
      rw [hm, round_intCast, hee, hk]

theorem Fmt.finite_mem (φ : Fmt) : {x | φ.Mem x}.Finite := by
  have : {x | φ.Mem x} ⊆ (fun q : ℤ × ℤ => (q.1 : ℝ) * (2 : ℝ) ^ q.2) '' (Set.Icc (-2 ^ φ.p) (2 ^ φ.p) ×ˢ Set.Icc φ.emin φ.emax) := by
    rintro x ⟨m, e, h1, h2, h3, rfl⟩
    refine ⟨(m, e), ⟨?_, ⟨h2, h3⟩⟩, rfl⟩
    have := abs_lt.1 h1
    exact ⟨this.1.le, this.2.le⟩
  exact (((Set.finite_Icc _ _).prod (Set.finite_Icc _ _)).image _).subset this

/-- There is a rounding to nearest. -/
theorem Fmt.exists_nearest (he : φ.emin ≤ φ.emax) : ∃ fl, φ.Nearest fl := by
  have h : ∀ x : ℝ, ∃ z, φ.Mem z ∧ ∀ y, φ.Mem y → |x - z| ≤ |x - y| := by
    intro x
    obtain ⟨z, hz, hz'⟩ := Set.exists_min_image {x | φ.Mem x} (fun y => |x - y|) φ.finite_mem ⟨0, Fmt.mem_zero he⟩
    exact ⟨z, hz, hz'⟩
  choose fl hfl using h
  exact ⟨fl, fun x _ => hfl x⟩

namespace Fmt.Nearest

/-- Numbers of the format are not changed. -/
theorem eq_self (h : φ.Nearest fl) {x : ℝ} (hx : φ.Mem x) : fl x = x := by
  have := (h x hx.le_top).2 x hx
  rw [sub_self, abs_zero] at this
  have := abs_nonpos_iff.1 this
  linarith

theorem zero (h : φ.Nearest fl) (he : φ.emin ≤ φ.emax) : fl 0 = 0 := h.eq_self (Fmt.mem_zero he)

/-- Rounding is monotone. -/
theorem mono (h : φ.Nearest fl) {x y : ℝ} (hx : |x| ≤ φ.top) (hy : |y| ≤ φ.top) (hxy : x ≤ y) : fl x ≤ fl y := by
  rcases hxy.eq_or_lt with rfl | hlt
  · exact le_rfl
  by_contra hc
  push Not at hc
  have h1 := (h x hx).2 (fl y) (h y hy).1
  have h2 := (h y hy).2 (fl x) (h x hx).1
  rw [abs_le_abs_iff_sq_le_sq] at h1 h2
  nlinarith
where
  abs_le_abs_iff_sq_le_sq {a b : ℝ} : |a| ≤ |b| ↔ a ^ 2 ≤ b ^ 2 := sq_le_sq.symm

theorem nonneg (h : φ.Nearest fl) (he : φ.emin ≤ φ.emax) {x : ℝ} (hx : x ≤ φ.top) (h0 : 0 ≤ x) : 0 ≤ fl x := by
  have := h.mono (x := 0) (y := x) (by simpa using φ.top_nonneg) (by rwa [abs_of_nonneg h0]) h0
  rwa [h.zero he] at this

/-- Error of a rounding: relative or in the subnormal range. -/
theorem err (h : φ.Nearest fl) (he : φ.emin ≤ φ.emax) {x : ℝ} (hx : |x| ≤ φ.top) : |fl x - x| ≤ φ.u * |x| + φ.eta := by
  obtain ⟨y, hy, hy'⟩ := Fmt.exists_near he x hx
  have h1 := (h x hx).2 y hy
  rw [abs_sub_comm]
  have hu := mul_nonneg φ.u_pos.le (abs_nonneg x)
  have := φ.eta_pos
  rcases hy' with hy' | hy' <;> linarith [hy']

/-- Sums of two numbers of the format are rounded with a relative error at most `u`. -/
theorem err_add (h : φ.Nearest fl) (he : φ.emin ≤ φ.emax) {a b : ℝ} (ha : φ.Mem a) (hb : φ.Mem b) (hx : |a + b| ≤ φ.top) :
    |fl (a + b) - (a + b)| ≤ φ.u * |a + b| := by
  obtain ⟨y, hy, hy'⟩ := Fmt.exists_near he (a + b) hx
  have h1 := (h (a + b) hx).2 y hy
  rw [abs_sub_comm]
  rcases hy' with hy' | ⟨-, hy'⟩
  · exact h1.trans hy'
  · have h3 : ∃ k : ℤ, a + b = k * (2 : ℝ) ^ φ.emin := by
      have hz : ∀ x, φ.Mem x → ∃ k : ℤ, x = k * (2 : ℝ) ^ φ.emin := by
        rintro x ⟨m, e, -, h2, -, rfl⟩
        obtain ⟨j, hj⟩ : ∃ j : ℕ, e = φ.emin + j := ⟨(e - φ.emin).toNat, by omega⟩
        refine ⟨m * 2 ^ j, ?_⟩
        rw [hj, zpow_add₀ (by norm_num), zpow_natCast]
        push_cast
        ring
      obtain ⟨k, hk⟩ := hz a ha
      obtain ⟨l, hl⟩ := hz b hb
      exact ⟨k + l, by rw [hk, hl]; push_cast; ring⟩
    have h4 := hy' h3
    rw [← h4, sub_self, abs_zero] at h1
    exact h1.trans (mul_nonneg φ.u_pos.le (abs_nonneg _))

theorem err_sub (h : φ.Nearest fl) (he : φ.emin ≤ φ.emax) {a b : ℝ} (ha : φ.Mem a) (hb : φ.Mem b) (hx : |a - b| ≤ φ.top) :
    |fl (a - b) - (a - b)| ≤ φ.u * |a - b| := by
  have := h.err_add he ha hb.neg (by rwa [← sub_eq_add_neg])
  rwa [← sub_eq_add_neg] at this

end Fmt.Nearest

/-! ## Sums and inner products -/

/-- `(1 + u) ^ k` for small `k u`. -/
theorem pow_one_add_le {u : ℝ} (hu : 0 ≤ u) (k : ℕ) (hk : k * u ≤ 1 / 2) : (1 + u) ^ k ≤ 1 + 2 * (k * u) := by
  induction k with
  | zero => simp
  | succ k ih =>
    push_cast at hk ⊢
    have hk0 : (0 : ℝ) ≤ k := Nat.cast_nonneg k
    have := ih (by nlinarith)
    rw [pow_succ]
    have h1 : (1 + u) ^ k * (1 + u) ≤ (1 + 2 * (k * u)) * (1 + u) := mul_le_mul_of_nonneg_right this (by linarith)
    nlinarith [mul_nonneg hk0 hu]

/-- The same with a sharper constant. -/
theorem pow_one_add_le' {u : ℝ} (hu : 0 ≤ u) (k : ℕ) (hk : k * u ≤ 1 / 32) : (1 + u) ^ k ≤ 1 + 17 / 16 * (k * u) := by
  induction k with
  | zero => simp
  | succ k ih =>
    push_cast at hk ⊢
    have hk0 : (0 : ℝ) ≤ k := Nat.cast_nonneg k
    have h0 := mul_nonneg hk0 hu
    have := ih (by linarith)
    rw [pow_succ]
    have h1 : (1 + u) ^ k * (1 + u) ≤ (1 + 17 / 16 * (k * u)) * (1 + u) := mul_le_mul_of_nonneg_right this (by linarith)
    have h2 : (k * u) * u ≤ (1 / 32 - u) * u := mul_le_mul_of_nonneg_right (by linarith) hu
    nlinarith [mul_nonneg hu hu]

theorem SumOrder.length_pos {xs : List ℝ} {s : ℝ} (h : SumOrder fl xs s) : 0 < xs.length := by
  induction h with
  | single x => simp
  | node _ _ ih1 ih2 => simp; omega
  | perm p _ ih => rwa [← p.length_eq]

theorem abs_sum_le (xs : List ℝ) : |xs.sum| ≤ (xs.map abs).sum := by
  induction xs with
  | nil => simp
  | cons x xs ih =>
    simp only [List.sum_cons, List.map_cons]
    exact (abs_add_le _ _).trans (by linarith)

theorem sum_abs_nonneg (xs : List ℝ) : 0 ≤ (xs.map abs).sum := (abs_nonneg _).trans (abs_sum_le xs)

/-- Error of a sum in any order. -/
theorem SumOrder.err (hn : φ.Nearest fl) (he : φ.emin ≤ φ.emax) {xs : List ℝ} {s : ℝ} (h : SumOrder fl xs s)
    (hF : ∀ x ∈ xs, φ.Mem x) (htop : (1 + φ.u) ^ xs.length * (xs.map abs).sum ≤ φ.top) :
    φ.Mem s ∧ |s - xs.sum| ≤ ((1 + φ.u) ^ (xs.length - 1) - 1) * (xs.map abs).sum := by
  have hu := φ.u_pos
  induction h with
  | single x => exact ⟨hF x (by simp), by simp⟩
  | perm p _ ih =>
    have e1 := p.length_eq
    have e2 := (p.map abs).sum_eq
    rw [← e1, ← e2, ← p.sum_eq]
    exact ih (fun x hx => hF x (p.mem_iff.1 hx)) (by rw [e1, e2]; exact htop)
  | @node xs ys s t hs ht ih1 ih2 =>
    have la := hs.length_pos
    have lb := ht.length_pos
    have nx := sum_abs_nonneg xs
    have ny := sum_abs_nonneg ys
    simp only [List.length_append, List.map_append, List.sum_append] at htop ⊢
    have hpow : ∀ a b : ℕ, a ≤ b → (1 + φ.u) ^ a ≤ (1 + φ.u) ^ b := fun a b hab => pow_le_pow_right₀ (by linarith) hab
    have hp0 : ∀ a : ℕ, 1 ≤ (1 + φ.u) ^ a := fun a => one_le_pow₀ (by linarith)
    obtain ⟨m1, b1⟩ := ih1 (fun x hx => hF x (by simp [hx])) (le_trans (by
      have := hpow xs.length (xs.length + ys.length) (by omega)
      have h0 := hp0 xs.length
      nlinarith) htop)
    obtain ⟨m2, b2⟩ := ih2 (fun x hx => hF x (by simp [hx])) (le_trans (by
      have := hpow ys.length (xs.length + ys.length) (by omega)
      have h0 := hp0 ys.length
      nlinarith) htop)
    set P := (1 + φ.u) ^ (xs.length + ys.length - 2) with hP
    have hP1 : 1 ≤ P := hp0 _
    have c1 := hpow (xs.length - 1) (xs.length + ys.length - 2) (by omega)
    have c2 := hpow (ys.length - 1) (xs.length + ys.length - 2) (by omega)
    have e1 : |s - xs.sum| ≤ (P - 1) * (xs.map abs).sum := b1.trans (mul_le_mul_of_nonneg_right (by linarith) nx)
    have e2 : |t - ys.sum| ≤ (P - 1) * (ys.map abs).sum := b2.trans (mul_le_mul_of_nonneg_right (by linarith) ny)
    have e3 : |s + t - (xs.sum + ys.sum)| ≤ (P - 1) * ((xs.map abs).sum + (ys.map abs).sum) := by
      rw [show s + t - (xs.sum + ys.sum) = (s - xs.sum) + (t - ys.sum) by ring]
      exact (abs_add_le _ _).trans (by linarith)
    have e4 : |s + t| ≤ P * ((xs.map abs).sum + (ys.map abs).sum) := by
      have h1 := abs_sum_le xs
      have h2 := abs_sum_le ys
      have h3 := abs_add_le xs.sum ys.sum
      have h4 : |s + t| ≤ |s + t - (xs.sum + ys.sum)| + |xs.sum + ys.sum| := by
        have := abs_add_le (s + t - (xs.sum + ys.sum)) (xs.sum + ys.sum)
        rwa [sub_add_cancel] at this
      linarith
    have hPe : (1 + φ.u) ^ (xs.length + ys.length - 1) = P * (1 + φ.u) := by
      rw [hP, ← pow_succ]
      congr 1
      omega
    have hPt : P ≤ (1 + φ.u) ^ (xs.length + ys.length) := hpow _ _ (by omega)
    have hr : |s + t| ≤ φ.top := e4.trans ((mul_le_mul_of_nonneg_right hPt (by linarith)).trans htop)
    refine ⟨(hn _ hr).1, ?_⟩
    have e5 := hn.err_add he m1 m2 hr
    rw [hPe]
    have e6 : |fl (s + t) - (xs.sum + ys.sum)| ≤ |fl (s + t) - (s + t)| + |s + t - (xs.sum + ys.sum)| := abs_sub_le _ _ _
    have e7 := mul_le_mul_of_nonneg_left e4 hu.le
    nlinarith

/-- A sum of non-negative numbers is non-negative in every order. -/
theorem SumOrder.nonneg (hn : φ.Nearest fl) (he : φ.emin ≤ φ.emax) {xs : List ℝ} {s : ℝ} (h : SumOrder fl xs s)
    (hF : ∀ x ∈ xs, φ.Mem x) (h0 : ∀ x ∈ xs, 0 ≤ x) (htop : (1 + φ.u) ^ xs.length * (xs.map abs).sum ≤ φ.top) : 0 ≤ s := by
  have hu := φ.u_pos
  induction h with
  | single x => exact h0 x (by simp)
  | perm p _ ih =>
    exact ih (fun x hx => hF x (p.mem_iff.1 hx)) (fun x hx => h0 x (p.mem_iff.1 hx)) (by rw [p.length_eq, (p.map abs).sum_eq]; exact htop)
  | @node xs ys s t hs ht ih1 ih2 =>
    have nx := sum_abs_nonneg xs
    have ny := sum_abs_nonneg ys
    have hpow : ∀ a b : ℕ, a ≤ b → (1 + φ.u) ^ a ≤ (1 + φ.u) ^ b := fun a b hab => pow_le_pow_right₀ (by linarith) hab
    have hp0 : ∀ a : ℕ, 1 ≤ (1 + φ.u) ^ a := fun a => one_le_pow₀ (by linarith)
    have htop' := htop
    simp only [List.length_append, List.map_append, List.sum_append] at htop'
    have t1 : (1 + φ.u) ^ xs.length * (xs.map abs).sum ≤ φ.top := le_trans (by
      have := hpow xs.length (xs.length + ys.length) (by omega)
      have h0 := hp0 xs.length
      nlinarith) htop'
    have t2 : (1 + φ.u) ^ ys.length * (ys.map abs).sum ≤ φ.top := le_trans (by
      have := hpow ys.length (xs.length + ys.length) (by omega)
      have h0 := hp0 ys.length
      nlinarith) htop'
    have s0 := ih1 (fun x hx => hF x (by simp [hx])) (fun x hx => h0 x (by simp [hx])) t1
    have t0 := ih2 (fun x hx => hF x (by simp [hx])) (fun x hx => h0 x (by simp [hx])) t2
    obtain ⟨-, b1⟩ := hs.err hn he (fun x hx => hF x (by simp [hx])) t1
    obtain ⟨-, b2⟩ := ht.err hn he (fun x hx => hF x (by simp [hx])) t2
    refine hn.nonneg he (le_trans ?_ htop') (by linarith)
    have la := hs.length_pos
    have lb := ht.length_pos
    have c1 := hpow (xs.length - 1) (xs.length + ys.length) (by omega)
    have c2 := hpow (ys.length - 1) (xs.length + ys.length) (by omega)
    have h1 := (abs_le.1 b1).2
    have h2 := (abs_le.1 b2).2
    have h3 := (abs_le.1 (abs_sum_le xs)).2
    have h4 := (abs_le.1 (abs_sum_le ys)).2
    nlinarith

theorem DotOrder.length_pos {xs : List (ℝ × ℝ)} {s : ℝ} (h : DotOrder fl xs s) : 0 < xs.length := by
  induction h with
  | single x => simp
  | node _ _ ih1 ih2 => simp; omega
  | fma _ _ => simp
  | perm p _ ih => rwa [← p.length_eq]

/-- If the products are numbers of the format, an inner product is a sum of products. -/
theorem DotOrder.sumOrder (hn : φ.Nearest fl) {xs : List (ℝ × ℝ)} {s : ℝ} (h : DotOrder fl xs s)
    (hF : ∀ q ∈ xs, φ.Mem (q.1 * q.2)) : SumOrder fl (xs.map fun q => q.1 * q.2) s := by
  induction h with
  | single a b =>
    rw [hn.eq_self (hF (a, b) (by simp))]
    exact .single _
  | node _ _ ih1 ih2 =>
    rw [List.map_append]
    exact .node (ih1 fun q hq => hF q (by simp [hq])) (ih2 fun q hq => hF q (by simp [hq]))
  | @fma a b ys t _ ih =>
    exact SumOrder.node (SumOrder.single (a * b)) (ih fun q hq => hF q (by simp [hq]))
  | perm p _ ih =>
    exact .perm (p.map _) (ih fun q hq => hF q (p.mem_iff.1 hq))

/-- Error of an inner product in any order. -/
theorem DotOrder.err (hn : φ.Nearest fl) (he : φ.emin ≤ φ.emax) {xs : List (ℝ × ℝ)} {s : ℝ} (h : DotOrder fl xs s)
    (htop : (1 + φ.u) ^ xs.length * ((xs.map fun q => |q.1 * q.2|).sum + xs.length * φ.eta) ≤ φ.top) :
    φ.Mem s ∧ |s - (xs.map fun q => q.1 * q.2).sum| ≤
      ((1 + φ.u) ^ xs.length - 1) * (xs.map fun q => |q.1 * q.2|).sum + (1 + φ.u) ^ xs.length * (xs.length * φ.eta) := by
  have hu := φ.u_pos
  have heta := φ.eta_pos
  have hab : ∀ l : List (ℝ × ℝ), |(l.map fun q => q.1 * q.2).sum| ≤ (l.map fun q => |q.1 * q.2|).sum := by
    intro l
    have := abs_sum_le (l.map fun q => q.1 * q.2)
    rwa [List.map_map] at this
  have hnn : ∀ l : List (ℝ × ℝ), 0 ≤ (l.map fun q => |q.1 * q.2|).sum := fun l => (abs_nonneg _).trans (hab l)
  have hpow : ∀ a b : ℕ, a ≤ b → (1 + φ.u) ^ a ≤ (1 + φ.u) ^ b := fun a b hab => pow_le_pow_right₀ (by linarith) hab
  have hp0 : ∀ a : ℕ, 1 ≤ (1 + φ.u) ^ a := fun a => one_le_pow₀ (by linarith)
  induction h with
  | single a b =>
    simp only [List.map_cons, List.map_nil, List.sum_cons, List.sum_nil, pow_one, Nat.cast_one, add_zero, one_mul,
      List.length_cons, List.length_nil, zero_add] at htop ⊢
    have h0 := abs_nonneg (a * b)
    have hr : |a * b| ≤ φ.top := by nlinarith
    refine ⟨(hn _ hr).1, (hn.err he hr).trans ?_⟩
    nlinarith
  | perm p _ ih =>
    have e1 := p.length_eq
    have e2 := (p.map fun q : ℝ × ℝ => |q.1 * q.2|).sum_eq
    rw [← e1, ← e2, ← (p.map fun q : ℝ × ℝ => q.1 * q.2).sum_eq]
    exact ih (by rw [e1, e2]; exact htop)
  | @fma a b ys t ht ih =>
    have lb := ht.length_pos
    have ny := hnn ys
    have hy := hab ys
    simp only [List.map_cons, List.sum_cons, List.length_cons, Nat.cast_add, Nat.cast_one] at htop ⊢
    set P := (1 + φ.u) ^ ys.length with hP
    have hP1 : 1 ≤ P := hp0 _
    rw [pow_succ, ← hP] at htop ⊢
    have h0 := abs_nonneg (a * b)
    have hl : (0 : ℝ) ≤ ys.length := Nat.cast_nonneg _
    have hle : 0 ≤ (ys.length : ℝ) * φ.eta := mul_nonneg hl heta.le
    set Y := (ys.map fun q => |q.1 * q.2|).sum with hY
    set y := (ys.map fun q => q.1 * q.2).sum with hy'
    set c := |a * b| with hc
    have hPle : P * (Y + ys.length * φ.eta) ≤ P * (1 + φ.u) * (c + Y + (ys.length + 1) * φ.eta) := by
      have : P ≤ P * (1 + φ.u) := by nlinarith
      apply mul_le_mul this (by linarith) (by linarith) (by nlinarith)
    obtain ⟨m2, b2⟩ := ih (hPle.trans htop)
    have e3 : |a * b + t - (a * b + y)| ≤ (P - 1) * Y + P * (ys.length * φ.eta) := by
      rw [add_sub_add_left_eq_sub]
      exact b2
    have e4 : |a * b + t| ≤ c + P * Y + P * (ys.length * φ.eta) := by
      have h4 : |a * b + t| ≤ |a * b + t - (a * b + y)| + |a * b + y| := by
        have := abs_add_le (a * b + t - (a * b + y)) (a * b + y)
        rwa [sub_add_cancel] at this
      have h5 := abs_add_le (a * b) y
      linarith
    have hPc : c ≤ P * c := by nlinarith
    have hr : |a * b + t| ≤ φ.top := by
      refine e4.trans (le_trans ?_ htop)
      have : P * (c + Y + (ys.length + 1) * φ.eta) ≤ P * (1 + φ.u) * (c + Y + (ys.length + 1) * φ.eta) := by
        apply mul_le_mul_of_nonneg_right _ (by linarith)
        nlinarith
      have h6 : 0 ≤ P * φ.eta := by positivity
      nlinarith
    refine ⟨(hn _ hr).1, ?_⟩
    have e5 := hn.err he hr
    have e6 : |fl (a * b + t) - (a * b + y)| ≤ |fl (a * b + t) - (a * b + t)| + |a * b + t - (a * b + y)| := abs_sub_le _ _ _
    have e7 := mul_le_mul_of_nonneg_left e4 hu.le
    have h6 : φ.eta ≤ P * (1 + φ.u) * φ.eta := by
      have : 1 ≤ P * (1 + φ.u) := by nlinarith
      nlinarith
    have h7 : (P * (1 + φ.u) - 1) * c ≥ φ.u * c := by nlinarith
    nlinarith
  | @node xs ys s t hs ht ih1 ih2 =>
    have la := hs.length_pos
    have lb := ht.length_pos
    have nx := hnn xs
    have ny := hnn ys
    have h1 := hab xs
    have h2 := hab ys
    simp only [List.length_append, List.map_append, List.sum_append, Nat.cast_add] at htop ⊢
    set X := (xs.map fun q => |q.1 * q.2|).sum with hX
    set x := (xs.map fun q => q.1 * q.2).sum with hx'
    set Y := (ys.map fun q => |q.1 * q.2|).sum with hY
    set y := (ys.map fun q => q.1 * q.2).sum with hy'
    have hxl : 0 ≤ (xs.length : ℝ) * φ.eta := by positivity
    have hyl : 0 ≤ (ys.length : ℝ) * φ.eta := by positivity
    obtain ⟨m1, b1⟩ := ih1 (le_trans (by
      have := hpow xs.length (xs.length + ys.length) (by omega)
      have h0 := hp0 xs.length
      apply mul_le_mul this (by linarith) (by linarith) (by linarith)) htop)
    obtain ⟨m2, b2⟩ := ih2 (le_trans (by
      have := hpow ys.length (xs.length + ys.length) (by omega)
      have h0 := hp0 ys.length
      apply mul_le_mul this (by linarith) (by linarith) (by linarith)) htop)
    set P := (1 + φ.u) ^ (xs.length + ys.length - 1) with hP
    have hP1 : 1 ≤ P := hp0 _
    have c1 := hpow xs.length (xs.length + ys.length - 1) (by omega)
    have c2 := hpow ys.length (xs.length + ys.length - 1) (by omega)
    rw [← hP] at c1 c2
    have e1 : |s - x| ≤ (P - 1) * X + P * (xs.length * φ.eta) := by nlinarith
    have e2 : |t - y| ≤ (P - 1) * Y + P * (ys.length * φ.eta) := by nlinarith
    have e3 : |s + t - (x + y)| ≤ (P - 1) * (X + Y) + P * ((xs.length + ys.length) * φ.eta) := by
      rw [show s + t - (x + y) = (s - x) + (t - y) by ring]
      exact (abs_add_le _ _).trans (by linarith)
    have e4 : |s + t| ≤ P * (X + Y) + P * ((xs.length + ys.length) * φ.eta) := by
      have h3 := abs_add_le x y
      have h4 : |s + t| ≤ |s + t - (x + y)| + |x + y| := by
        have := abs_add_le (s + t - (x + y)) (x + y)
        rwa [sub_add_cancel] at this
      linarith
    have hPe : (1 + φ.u) ^ (xs.length + ys.length) = P * (1 + φ.u) := by
      rw [hP, ← pow_succ]
      congr 1
      omega
    rw [hPe] at htop ⊢
    have hr : |s + t| ≤ φ.top := by
      refine e4.trans (le_trans ?_ htop)
      have : 0 ≤ P * φ.u * (X + Y + (xs.length + ys.length) * φ.eta) := by
        have : 0 ≤ X + Y + (xs.length + ys.length) * φ.eta := by linarith
        positivity
      linarith
    refine ⟨(hn _ hr).1, ?_⟩
    have e5 := hn.err_add he m1 m2 hr
    have e6 : |fl (s + t) - (x + y)| ≤ |fl (s + t) - (s + t)| + |s + t - (x + y)| := abs_sub_le _ _ _
    have e7 := mul_le_mul_of_nonneg_left e4 hu.le
    linarith

/-- An inner product of a vector with itself is non-negative in every order. -/
theorem DotOrder.nonneg (hn : φ.Nearest fl) (he : φ.emin ≤ φ.emax) {xs : List (ℝ × ℝ)} {s : ℝ} (h : DotOrder fl xs s)
    (h0 : ∀ q ∈ xs, 0 ≤ q.1 * q.2)
    (htop : (1 + φ.u) ^ xs.length * ((xs.map fun q => |q.1 * q.2|).sum + xs.length * φ.eta) ≤ φ.top) : 0 ≤ s := by
  have hu := φ.u_pos
  have heta := φ.eta_pos
  have hab : ∀ l : List (ℝ × ℝ), |(l.map fun q => q.1 * q.2).sum| ≤ (l.map fun q => |q.1 * q.2|).sum := by
    intro l
    have := abs_sum_le (l.map fun q => q.1 * q.2)
    rwa [List.map_map] at this
  have hnn : ∀ l : List (ℝ × ℝ), 0 ≤ (l.map fun q => |q.1 * q.2|).sum := fun l => (abs_nonneg _).trans (hab l)
  have hpow : ∀ a b : ℕ, a ≤ b → (1 + φ.u) ^ a ≤ (1 + φ.u) ^ b := fun a b hab => pow_le_pow_right₀ (by linarith) hab
  have hp0 : ∀ a : ℕ, 1 ≤ (1 + φ.u) ^ a := fun a => one_le_pow₀ (by linarith)
  induction h with
  | single a b =>
    simp only [List.map_cons, List.map_nil, List.sum_cons, List.sum_nil, pow_one, Nat.cast_one, add_zero, one_mul,
      List.length_cons, List.length_nil, zero_add] at htop ⊢
    have h1 := abs_nonneg (a * b)
    have h2 := h0 (a, b) (by simp)
    have h3 := le_abs_self (a * b)
    exact hn.nonneg he (by nlinarith) h2
  | perm p _ ih =>
    refine ih (fun q hq => h0 q (p.mem_iff.1 hq)) ?_
    rw [p.length_eq, (p.map fun q : ℝ × ℝ => |q.1 * q.2|).sum_eq]
    exact htop
  | @fma a b ys t ht ih =>
    have lb := ht.length_pos
    have ny := hnn ys
    have hy := hab ys
    have hab0 := h0 (a, b) (by simp)
    simp only [List.map_cons, List.sum_cons, List.length_cons, Nat.cast_add, Nat.cast_one] at htop hab0
    set P := (1 + φ.u) ^ ys.length with hP
    have hP1 : 1 ≤ P := hp0 _
    rw [pow_succ, ← hP] at htop
    have hc0 := abs_of_nonneg hab0
    have hl : (0 : ℝ) ≤ ys.length := Nat.cast_nonneg _
    have hle : 0 ≤ (ys.length : ℝ) * φ.eta := mul_nonneg hl heta.le
    rw [hc0] at htop
    have hPle : P * ((ys.map fun q => |q.1 * q.2|).sum + ys.length * φ.eta) ≤
        P * (1 + φ.u) * (a * b + (ys.map fun q => |q.1 * q.2|).sum + (ys.length + 1) * φ.eta) := by
      have : P ≤ P * (1 + φ.u) := by nlinarith
      apply mul_le_mul this (by linarith) (by linarith) (by nlinarith)
    have t0 := ih (fun q hq => h0 q (by simp [hq])) (hPle.trans htop)
    obtain ⟨-, b2⟩ := ht.err hn he (hPle.trans htop)
    refine hn.nonneg he (le_trans ?_ htop) (by linarith)
    have h2 := (abs_le.1 b2).2
    have h4 := (abs_le.1 hy).2
    have h5 : P * (a * b + (ys.map fun q => |q.1 * q.2|).sum + (ys.length + 1) * φ.eta) ≤
        P * (1 + φ.u) * (a * b + (ys.map fun q => |q.1 * q.2|).sum + (ys.length + 1) * φ.eta) := by
      apply mul_le_mul_of_nonneg_right _ (by nlinarith)
      nlinarith
    have h6 : a * b ≤ P * (a * b) := by nlinarith
    have h7 : 0 ≤ P * φ.eta := by positivity
    nlinarith
  | @node xs ys s t hs ht ih1 ih2 =>
    have la := hs.length_pos
    have lb := ht.length_pos
    have nx := hnn xs
    have ny := hnn ys
    have h1 := hab xs
    have h2 := hab ys
    simp only [List.length_append, List.map_append, List.sum_append, Nat.cast_add] at htop
    have hxl : 0 ≤ (xs.length : ℝ) * φ.eta := by positivity
    have hyl : 0 ≤ (ys.length : ℝ) * φ.eta := by positivity
    have t1 : (1 + φ.u) ^ xs.length * ((xs.map fun q => |q.1 * q.2|).sum + xs.length * φ.eta) ≤ φ.top := le_trans (by
      have := hpow xs.length (xs.length + ys.length) (by omega)
      have h0 := hp0 xs.length
      apply mul_le_mul this (by linarith) (by linarith) (by linarith)) htop
    have t2 : (1 + φ.u) ^ ys.length * ((ys.map fun q => |q.1 * q.2|).sum + ys.length * φ.eta) ≤ φ.top := le_trans (by
      have := hpow ys.length (xs.length + ys.length) (by omega)
      have h0 := hp0 ys.length
      apply mul_le_mul this (by linarith) (by linarith) (by linarith)) htop
    have s0 := ih1 (fun q hq => h0 q (by simp [hq])) t1
    have t0 := ih2 (fun q hq => h0 q (by simp [hq])) t2
    obtain ⟨-, b1⟩ := hs.err hn he t1
    obtain ⟨-, b2⟩ := ht.err hn he t2
    refine hn.nonneg he (le_trans ?_ htop) (by linarith)
    have c1 := hpow xs.length (xs.length + ys.length) (by omega)
    have c2 := hpow ys.length (xs.length + ys.length) (by omega)
    have d1 := (abs_le.1 b1).2
    have d2 := (abs_le.1 b2).2
    have d3 := (abs_le.1 h1).2
    have d4 := (abs_le.1 h2).2
    nlinarith

end Primate.Spec
