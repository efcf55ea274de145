import Verif.Model.SpecialFl
import Verif.Lemmas.Float
import Verif.Props.Special

/-!
# Rounding errors of `softsign`, `smoothstep` and the functions of `param_callable`
-/

noncomputable section

namespace Primate

open Spec

/-- What is assumed of the powers: the result is a number of the format within two units of roundoff, and `pow(t, 0)`, `pow(0, k)`, `pow(1, k)` are exact. -/
structure Spec.PowOk (φ : Fmt) (pow : ℕ → ℝ → ℝ) : Prop where
  mem : ∀ k t, 0 ≤ t → t ≤ 1 → φ.Mem (pow k t)
  nonneg : ∀ k t, 0 ≤ t → t ≤ 1 → 0 ≤ pow k t
  err : ∀ k t, 0 ≤ t → t ≤ 1 → |pow k t - t ^ k| ≤ 2 * (φ.u * t ^ k + φ.eta)
  zero_exp : ∀ t, 0 ≤ t → t ≤ 1 → pow 0 t = 1
  zero : ∀ k, k ≠ 0 → pow k 0 = 0
  one : ∀ k, pow k 1 = 1

/-- The format holds small integers, and its roundoff is small. -/
structure Spec.SmallOk (φ : Fmt) : Prop where
  int : ∀ m : ℤ, |m| ≤ 4 → φ.Mem m
  u : φ.u ≤ 1 / 64
  eta : φ.eta ≤ 1 / 64

variable {φ : Fmt} {fl : ℝ → ℝ} {K : SpecialKernels}

theorem Spec.SmallOk.four_le_top (h : SmallOk φ) : 4 ≤ φ.top := by
  have := (h.int 4 (by norm_num)).le_top
  simpa using this

theorem Spec.SmallOk.exp (h : SmallOk φ) : φ.emin ≤ φ.emax := by
  obtain ⟨m, e, -, h1, h2, -⟩ := h.int 0 (by norm_num)
  exact h1.trans h2

theorem Spec.SmallOk.one (h : SmallOk φ) : φ.Mem 1 := by simpa using h.int 1 (by norm_num)

theorem Spec.SmallOk.two (h : SmallOk φ) : φ.Mem 2 := by simpa using h.int 2 (by norm_num)

theorem Spec.SmallOk.three (h : SmallOk φ) : φ.Mem 3 := by simpa using h.int 3 (by norm_num)

/-- Numbers in the unit interval are rounded into the unit interval. -/
theorem fl_unit (hn : φ.Nearest fl) (h : SmallOk φ) {x : ℝ} (h0 : 0 ≤ x) (h1 : x ≤ 1) : 0 ≤ fl x ∧ fl x ≤ 1 := by
  have ht := h.four_le_top
  refine ⟨hn.nonneg h.exp (by linarith) h0, ?_⟩
  have := hn.mono (x := x) (y := 1) (by rw [abs_of_nonneg h0]; linarith) (by rw [abs_one]; linarith) h1
  rwa [hn.eq_self h.one] at this

theorem fl_err (hn : φ.Nearest fl) (h : SmallOk φ) {x c : ℝ} (hx : |x| ≤ c) (hc : c ≤ 4) : |fl x - x| ≤ φ.u * c + φ.eta := by
  have ht := h.four_le_top
  have := hn.err h.exp (x := x) (by linarith)
  have := mul_le_mul_of_nonneg_left hx φ.u_pos.le
  linarith

theorem clip_unit (y : ℝ) : 0 ≤ npClipR y 0 1 ∧ npClipR y 0 1 ≤ 1 := ⟨le_min (le_max_right _ _) zero_le_one, min_le_right _ _⟩

/-- Clipping does not increase distances. -/
theorem clip_dist (x y lo hi : ℝ) : |npClipR x lo hi - npClipR y lo hi| ≤ |x - y| := by
  unfold npClipR
  exact (abs_min_sub_min_le_max _ _ _ _).trans (by
    rw [sub_self, abs_zero]
    refine max_le ((abs_max_sub_max_le_max _ _ _ _).trans ?_) (abs_nonneg _)
    rw [sub_self, abs_zero]
    exact max_le le_rfl (abs_nonneg _))

/-! ## smoothstep -/

/-- The cubic of the smoothstep function in rounded arithmetic. -/
theorem cubic_near (hn : φ.Nearest fl) (h : SmallOk φ) (hp : PowOk φ K.pow) {y : ℝ} (h0 : 0 ≤ y) (h1 : y ≤ 1) :
    |fl (fl (3 * fl (y * y)) - fl (2 * K.pow 3 y)) - (3 * y ^ 2 - 2 * y ^ 3)| ≤ 15 * φ.u + 10 * φ.eta := by
  have hu := φ.u_pos
  have he := φ.eta_pos
  have hu1 := h.u
  have he1 := h.eta
  have hyy : 0 ≤ y * y := mul_self_nonneg y
  have hyy1 : y * y ≤ 1 := by nlinarith
  have a1 := fl_err hn h (x := y * y) (c := 1) (by rw [abs_of_nonneg hyy]; exact hyy1) (by norm_num)
  obtain ⟨b0, b1⟩ := fl_unit hn h hyy hyy1
  set s := fl (y * y)
  have a2 := fl_err hn h (x := 3 * s) (c := 3) (by rw [abs_of_nonneg (by linarith)]; linarith) (by norm_num)
  have hy3 : 0 ≤ y ^ 3 := by positivity
  have hy31 : y ^ 3 ≤ 1 := pow_le_one₀ h0 h1
  have a3 := hp.err 3 y h0 h1
  have c0 := hp.nonneg 3 y h0 h1
  set p := K.pow 3 y
  have huy : φ.u * y ^ 3 ≤ φ.u := by nlinarith
  have a3' : |p - y ^ 3| ≤ 2 * (φ.u + φ.eta) := by linarith
  obtain ⟨d1, d2⟩ := abs_le.1 a3'
  have hp1 : p ≤ 17 / 16 := by linarith
  have a4 := fl_err hn h (x := 2 * p) (c := 17 / 8) (by rw [abs_of_nonneg (by linarith)]; linarith) (by norm_num)
  set t1 := fl (3 * s)
  set t2 := fl (2 * p)
  obtain ⟨e1, e2⟩ := abs_le.1 a1
  obtain ⟨e3, e4⟩ := abs_le.1 a2
  obtain ⟨e5, e6⟩ := abs_le.1 a4
  have hS0 : 0 ≤ 3 * y ^ 2 - 2 * y ^ 3 := by
    have : 3 * y ^ 2 - 2 * y ^ 3 = y * y * (3 - 2 * y) := by ring
    rw [this]
    exact mul_nonneg hyy (by linarith)
  have hS1 : 3 * y ^ 2 - 2 * y ^ 3 ≤ 1 := by
    have : 1 - (3 * y ^ 2 - 2 * y ^ 3) = (1 - y) ^ 2 * (1 + 2 * y) := by ring
    nlinarith [mul_nonneg (sq_nonneg (1 - y)) (show (0 : ℝ) ≤ 1 + 2 * y by linarith)]
  have hd : |t1 - t2 - (3 * y ^ 2 - 2 * y ^ 3)| ≤ 13 * φ.u + 9 * φ.eta := by
    have hy2 : y ^ 2 = y * y := sq y
    rw [abs_le]
    constructor <;> linarith
  obtain ⟨g1, g2⟩ := abs_le.1 hd
  have a5 := fl_err hn h (x := t1 - t2) (c := 2) (by rw [abs_le]; constructor <;> linarith) (by norm_num)
  obtain ⟨g3, g4⟩ := abs_le.1 a5
  rw [abs_le]
  constructor <;> linarith

/-- The exact cubic has slope at most 3/2. -/
theorem cubic_lipschitz {y z : ℝ} (h0 : 0 ≤ y) (h1 : y ≤ 1) (h2 : 0 ≤ z) (h3 : z ≤ 1) :
    |(3 * y ^ 2 - 2 * y ^ 3) - (3 * z ^ 2 - 2 * z ^ 3)| ≤ 3 / 2 * |y - z| := by
  have e : (3 * y ^ 2 - 2 * y ^ 3) - (3 * z ^ 2 - 2 * z ^ 3) = (3 * (y + z) - 2 * (y ^ 2 + y * z + z ^ 2)) * (y - z) := by ring
  rw [e, abs_mul]
  refine mul_le_mul_of_nonneg_right ?_ (abs_nonneg _)
  rw [abs_le]
  constructor
  · nlinarith [mul_nonneg h0 (sub_nonneg.2 h1), mul_nonneg h2 (sub_nonneg.2 h3), mul_nonneg h0 (sub_nonneg.2 h3), mul_nonneg h2 (sub_nonneg.2 h1)]
  · nlinarith [sq_nonneg (y + z - 1), sq_nonneg (y - z)]

/-- The rounded quotient in `smoothstep`. -/
theorem quotient_near (hn : φ.Nearest fl) (h : SmallOk φ) {x a d d' : ℝ} (hd : d ≠ 0) (hd' : |d' - d| ≤ φ.u * |d|) (hx : |x - a| ≤ φ.top)
    (hq : |fl (x - a) / d'| ≤ φ.top) :
    |fl (fl (x - a) / d') - (x - a) / d| ≤ 4 * φ.u * |(x - a) / d| + 2 * (φ.eta / |d|) + φ.eta := by
  have hu := φ.u_pos
  have he := φ.eta_pos
  have hu1 := h.u
  have hdp : 0 < |d| := abs_pos.2 hd
  have h1 := hn.err h.exp hx
  have h2 := hn.err h.exp hq
  set s := fl (x - a)
  have hd2 : 63 / 64 * |d| ≤ |d'| := by
    have := abs_sub_abs_le_abs_sub d d'
    rw [abs_sub_comm] at this
    nlinarith
  have hdp' : 0 < |d'| := by linarith [mul_pos (show (0 : ℝ) < 63 / 64 by norm_num) hdp]
  have hd0 : d' ≠ 0 := abs_pos.1 hdp'
  have e : s / d' - (x - a) / d = (s - (x - a) - (x - a) / d * (d' - d)) / d' := by
    field_simp
    ring
  have h3 : |s / d' - (x - a) / d| * |d'| ≤ 2 * φ.u * |(x - a) / d| * |d| + φ.eta := by
    rw [e, abs_div, div_mul_cancel₀ _ hdp'.ne']
    refine (abs_sub _ _).trans ?_
    rw [abs_mul]
    have t1 : |(x - a) / d| * |d' - d| ≤ |(x - a) / d| * (φ.u * |d|) := mul_le_mul_of_nonneg_left hd' (abs_nonneg _)
    have t2 : |(x - a) / d| * |d| = |x - a| := by rw [← abs_mul, div_mul_cancel₀ _ hd]
    have t3 : |(x - a) / d| * (φ.u * |d|) = φ.u * |x - a| := by rw [← t2]; ring
    have t4 : 2 * φ.u * |(x - a) / d| * |d| = 2 * (φ.u * |x - a|) := by rw [← t2]; ring
    linarith
  set w := |(x - a) / d| with hw
  have hw0 : 0 ≤ w := abs_nonneg _
  have h4 : |s / d' - (x - a) / d| ≤ 64 / 63 * (2 * φ.u * w + φ.eta / |d|) := by
    have t1 : |s / d' - (x - a) / d| * (63 / 64 * |d|) ≤ |s / d' - (x - a) / d| * |d'| := mul_le_mul_of_nonneg_left hd2 (abs_nonneg _)
    have t2 : (2 * φ.u * w + φ.eta / |d|) * |d| = 2 * φ.u * w * |d| + φ.eta := by
      rw [add_mul, div_mul_cancel₀ _ hdp.ne']
    have t3 : |s / d' - (x - a) / d| * |d| ≤ 64 / 63 * (2 * φ.u * w + φ.eta / |d|) * |d| := by
      rw [mul_assoc (64 / 63 : ℝ), t2]
      linarith
    exact le_of_mul_le_mul_right t3 hdp
  have h5 : |s / d'| ≤ w + 64 / 63 * (2 * φ.u * w + φ.eta / |d|) := by
    have := abs_sub_abs_le_abs_sub (s / d') ((x - a) / d)
    linarith
  set η' := φ.eta / |d|
  have hη' : 0 ≤ η' := by positivity
  have h6 := abs_sub_le (fl (s / d')) (s / d') ((x - a) / d)
  have t1 := mul_le_mul_of_nonneg_left h5 hu.le
  have huw : 0 ≤ φ.u * w := mul_nonneg hu.le hw0
  have huη : 0 ≤ φ.u * η' := mul_nonneg hu.le hη'
  have k1 : φ.u * (φ.u * w) ≤ 1 / 64 * (φ.u * w) := mul_le_mul_of_nonneg_right hu1 huw
  have k2 : φ.u * η' ≤ 1 / 64 * η' := mul_le_mul_of_nonneg_right hu1 hη'
  have k3 : φ.u * (w + 64 / 63 * (2 * φ.u * w + η')) = φ.u * w + 64 / 63 * (2 * (φ.u * (φ.u * w)) + φ.u * η') := by ring
  rw [k3] at t1
  nlinarith

/-- Clipping the rounded quotient. -/
theorem clip_near {w y ω κ : ℝ} (hω : ω ≤ 1 / 16) (hκ : κ ≤ 1 / 2) (hω0 : 0 ≤ ω) (hκ0 : 0 ≤ κ) (hy : |y - w| ≤ ω * |w| + κ) :
    |npClipR y 0 1 - npClipR w 0 1| ≤ 2 * ω + κ := by
  by_cases hw : |w| ≤ 2
  · refine (clip_dist y w 0 1).trans (hy.trans ?_)
    nlinarith
  · push Not at hw
    have h2 : ω * |w| ≤ 1 / 16 * |w| := mul_le_mul_of_nonneg_right hω (abs_nonneg _)
    obtain ⟨a1, a2⟩ := abs_le.1 hy
    have h0 : npClipR y 0 1 - npClipR w 0 1 = 0 := by
      unfold npClipR
      rcases lt_abs.1 hw with h | h
      · rw [abs_of_pos (by linarith)] at h2 a1
        rw [max_eq_left (by linarith), max_eq_left (by linarith), min_eq_right (by linarith), min_eq_right (by linarith), sub_self]
      · rw [abs_of_neg (by linarith)] at h2 a2
        rw [max_eq_right (by linarith), max_eq_right (by linarith), sub_self]
    rw [h0, abs_zero]
    linarith

/-! ## softsign -/

theorem softJ_unit (k : ℕ) : 0 ≤ softJ k ∧ softJ k ≤ 1 := by
  induction k with
  | zero => simp [softJ]
  | succ k ih =>
    have hk : (0 : ℝ) ≤ k := Nat.cast_nonneg k
    have h0 : 0 ≤ (2 * ((k : ℝ) + 1) - 1) / (2 * ((k : ℝ) + 1)) := div_nonneg (by linarith) (by linarith)
    have h1 : (2 * ((k : ℝ) + 1) - 1) / (2 * ((k : ℝ) + 1)) ≤ 1 := by rw [div_le_one (by linarith)]; linarith
    exact ⟨mul_nonneg ih.1 h0, mul_le_one₀ ih.2 h0 h1⟩

theorem softJ_near (hn : φ.Nearest fl) (h : SmallOk φ) (k : ℕ) :
    0 ≤ softJFl fl k ∧ softJFl fl k ≤ 1 ∧ |softJFl fl k - softJ k| ≤ 2 * k * (φ.u + φ.eta) := by
  induction k with
  | zero => simp [softJ, softJFl]
  | succ k ih =>
    obtain ⟨i0, i1, i2⟩ := ih
    obtain ⟨j0, j1⟩ := softJ_unit k
    have hk : (0 : ℝ) ≤ k := Nat.cast_nonneg k
    rw [softJ, softJFl]
    set r := (2 * ((k : ℝ) + 1) - 1) / (2 * ((k : ℝ) + 1)) with hr
    have h0 : 0 ≤ r := div_nonneg (by linarith) (by linarith)
    have h1 : r ≤ 1 := by rw [hr, div_le_one (by linarith)]; linarith
    obtain ⟨r0, r1⟩ := fl_unit hn h h0 h1
    have a1 := fl_err hn h (x := r) (c := 1) (by rw [abs_of_nonneg h0]; exact h1) (by norm_num)
    have p0 := mul_nonneg i0 r0
    have p1 := mul_le_one₀ i1 r0 r1
    obtain ⟨q0, q1⟩ := fl_unit hn h p0 p1
    have a2 := fl_err hn h (x := softJFl fl k * fl r) (c := 1) (by rw [abs_of_nonneg p0]; exact p1) (by norm_num)
    refine ⟨q0, q1, ?_⟩
    have e : softJFl fl k * fl r - softJ k * r = softJFl fl k * (fl r - r) + (softJFl fl k - softJ k) * r := by ring
    have a3 : |softJFl fl k * fl r - softJ k * r| ≤ (φ.u + φ.eta) + 2 * k * (φ.u + φ.eta) := by
      rw [e]
      refine (abs_add_le _ _).trans ?_
      rw [abs_mul, abs_mul, abs_of_nonneg i0, abs_of_nonneg h0]
      have t1 := mul_le_mul i1 a1 (abs_nonneg _) zero_le_one
      have t2 := mul_le_mul i2 h1 h0 (by have := φ.u_pos; have := φ.eta_pos; positivity)
      linarith
    have a4 := abs_sub_le (fl (softJFl fl k * fl r)) (softJFl fl k * fl r) (softJ k * r)
    push_cast
    linarith

theorem pow_dist {s t : ℝ} (hs0 : 0 ≤ s) (hs1 : s ≤ 1) (ht0 : 0 ≤ t) (ht1 : t ≤ 1) (k : ℕ) : |s ^ k - t ^ k| ≤ k * |s - t| := by
  induction k with
  | zero => simp
  | succ k ih =>
    have e : s ^ (k + 1) - t ^ (k + 1) = s ^ k * (s - t) + (s ^ k - t ^ k) * t := by ring
    rw [e]
    refine (abs_add_le _ _).trans ?_
    rw [abs_mul, abs_mul, abs_of_nonneg (pow_nonneg hs0 k), abs_of_nonneg ht0]
    have t1 := mul_le_mul_of_nonneg_right (pow_le_one₀ hs0 hs1 : s ^ k ≤ 1) (abs_nonneg (s - t))
    have t2 := mul_le_of_le_one_right (abs_nonneg (s ^ k - t ^ k)) ht1
    push_cast
    linarith

/-- The summands of `softsign` in rounded arithmetic. -/
theorem softTerm_near (hn : φ.Nearest fl) (h : SmallOk φ) (hp : PowOk φ K.pow) {x : ℝ} (hx : |x| ≤ 1) (k : ℕ) :
    φ.Mem (softTermFl fl K x k) ∧ (0 ≤ x → 0 ≤ softTermFl fl K x k) ∧ |softTermFl fl K x k| ≤ 5 / 4 ∧
      |softTermFl fl K x k - x * (1 - x ^ 2) ^ k * softJ k| ≤ (4 * k + 6) * (φ.u + φ.eta) := by
  have hu := φ.u_pos
  have he := φ.eta_pos
  have hu1 := h.u
  have he1 := h.eta
  have ht := h.four_le_top
  have hxx0 : 0 ≤ x * x := mul_self_nonneg x
  have hxx1 : x * x ≤ 1 := by rw [← abs_mul_abs_self]; exact mul_le_one₀ hx (abs_nonneg _) hx
  obtain ⟨s0, s1⟩ := fl_unit hn h hxx0 hxx1
  have a1 := fl_err hn h (x := x * x) (c := 1) (by rw [abs_of_nonneg hxx0]; exact hxx1) (by norm_num)
  unfold softTermFl
  set s := fl (x * x)
  obtain ⟨t0, t1⟩ := fl_unit hn h (x := 1 - s) (by linarith) (by linarith)
  have a2 := fl_err hn h (x := 1 - s) (c := 1) (by rw [abs_of_nonneg (by linarith)]; linarith) (by norm_num)
  set t := fl (1 - s)
  set σ := φ.u + φ.eta with hσ
  have hσ0 : 0 ≤ σ := by linarith
  have hT : |t - (1 - x ^ 2)| ≤ 2 * σ := by
    have e : t - (1 - x ^ 2) = (t - (1 - s)) - (s - x * x) := by ring
    rw [e]
    refine (abs_sub _ _).trans ?_
    linarith
  have hT0 : 0 ≤ 1 - x ^ 2 := by rw [sq]; linarith
  have hT1 : 1 - x ^ 2 ≤ 1 := by rw [sq]; linarith
  have a3 := pow_dist t0 t1 hT0 hT1 k
  have hk : (0 : ℝ) ≤ k := Nat.cast_nonneg k
  have a3' : |t ^ k - (1 - x ^ 2) ^ k| ≤ k * (2 * σ) := a3.trans (mul_le_mul_of_nonneg_left hT hk)
  have a4 := hp.err k t t0 t1
  have p0 := hp.nonneg k t t0 t1
  have htk0 : 0 ≤ t ^ k := pow_nonneg t0 k
  have htk1 : t ^ k ≤ 1 := pow_le_one₀ t0 t1
  set P := K.pow k t
  have a4' : |P - t ^ k| ≤ 2 * σ := by
    have : φ.u * t ^ k ≤ φ.u := mul_le_of_le_one_right hu.le htk1
    linarith
  have hP1 : P ≤ 17 / 16 := by linarith [(abs_le.1 a4').2]
  have a5 : |P - (1 - x ^ 2) ^ k| ≤ (2 * k + 2) * σ := by
    have := abs_sub_le P (t ^ k) ((1 - x ^ 2) ^ k)
    linarith
  have hxP : |x * P| ≤ 17 / 16 := by
    rw [abs_mul, abs_of_nonneg p0]
    exact (mul_le_of_le_one_left p0 hx).trans hP1
  have a6 := fl_err hn h (x := x * P) (c := 17 / 16) hxP (by norm_num)
  have hAx : 0 ≤ x → 0 ≤ fl (x * P) := fun h0 => hn.nonneg h.exp (by linarith [(abs_le.1 hxP).2]) (mul_nonneg h0 p0)
  set a := fl (x * P)
  have a7 : |a - x * (1 - x ^ 2) ^ k| ≤ (2 * k + 4) * σ := by
    have e : a - x * (1 - x ^ 2) ^ k = (a - x * P) + x * (P - (1 - x ^ 2) ^ k) := by ring
    rw [e]
    refine (abs_add_le _ _).trans ?_
    rw [abs_mul]
    have := mul_le_of_le_one_left (abs_nonneg (P - (1 - x ^ 2) ^ k)) hx
    linarith
  have hTk0 : 0 ≤ (1 - x ^ 2) ^ k := pow_nonneg hT0 k
  have hTk1 : (1 - x ^ 2) ^ k ≤ 1 := pow_le_one₀ hT0 hT1
  have ha : |a| ≤ 9 / 8 := by
    have := abs_sub_abs_le_abs_sub a (x * P)
    linarith
  obtain ⟨j0, j1, j2⟩ := softJ_near hn h k
  set J := softJFl fl k
  have haJ : |a * J| ≤ 9 / 8 := by
    rw [abs_mul, abs_of_nonneg j0]
    exact (mul_le_of_le_one_right (abs_nonneg _) j1).trans ha
  have a8 := fl_err hn h (x := a * J) (c := 9 / 8) haJ (by norm_num)
  refine ⟨(hn _ (by linarith)).1, fun h0 => hn.nonneg h.exp (by linarith [(abs_le.1 haJ).2]) (mul_nonneg (hAx h0) j0), ?_, ?_⟩
  · have := abs_sub_abs_le_abs_sub (fl (a * J)) (a * J)
    linarith
  · have e : fl (a * J) - x * (1 - x ^ 2) ^ k * softJ k =
        (fl (a * J) - a * J) + ((a - x * (1 - x ^ 2) ^ k) * J + x * (1 - x ^ 2) ^ k * (J - softJ k)) := by ring
    rw [e]
    refine (abs_add_le _ _).trans ?_
    have b1 := abs_add_le ((a - x * (1 - x ^ 2) ^ k) * J) (x * (1 - x ^ 2) ^ k * (J - softJ k))
    rw [abs_mul, abs_mul, abs_of_nonneg j0] at b1
    have b2 := mul_le_of_le_one_right (abs_nonneg (a - x * (1 - x ^ 2) ^ k)) j1
    have b3 : |x * (1 - x ^ 2) ^ k| ≤ 1 := by
      rw [abs_mul, abs_of_nonneg hTk0]
      exact mul_le_one₀ hx hTk0 hTk1
    have b4 := mul_le_of_le_one_left (abs_nonneg (J - softJ k)) b3
    linarith

/-- A sum whose only possible nonzero summand is `c` is exact in every order. -/
theorem SumOrder.only {c : ℝ} (hn : φ.Nearest fl) (he : φ.emin ≤ φ.emax) (hc : φ.Mem c) {xs : List ℝ} {s : ℝ} (h : SumOrder fl xs s) :
    (xs.filter (fun x => x ≠ 0) = [] → s = 0) ∧ (xs.filter (fun x => x ≠ 0) = [c] → s = c) := by
  induction h with
  | single x =>
    by_cases hx : x = 0
    · simp [hx]
    · simp [hx]
  | @node xs ys s t _ _ ih1 ih2 =>
    rw [List.filter_append]
    constructor
    · intro h
      obtain ⟨h1, h2⟩ := List.append_eq_nil_iff.1 h
      rw [ih1.1 h1, ih2.1 h2, add_zero, hn.zero he]
    · intro h
      rcases List.append_eq_singleton_iff.1 h with ⟨h1, h2⟩ | ⟨h1, h2⟩
      · rw [ih1.1 h1, ih2.2 h2, zero_add, hn.eq_self hc]
      · rw [ih1.2 h1, ih2.1 h2, add_zero, hn.eq_self hc]
  | perm p _ ih =>
    have := p.filter (fun x => x ≠ 0)
    constructor
    · intro h
      rw [h] at this
      exact ih.1 (List.perm_nil.1 this)
    · intro h
      rw [h] at this
      exact ih.2 (List.perm_singleton.1 this)

end Primate
