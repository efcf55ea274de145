import Verif.Model.Special
import Verif.Spec.Lanczos
import Mathlib.Analysis.SpecificLimits.Basic
import Mathlib.Algebra.Order.BigOperators.Group.Finset
import Mathlib.Algebra.Ring.GeomSum
import Mathlib.LinearAlgebra.Matrix.Rank
import Mathlib.Tactic.Linarith
import Mathlib.Tactic.FieldSimp
import Mathlib.Tactic.Ring
import Mathlib.Tactic.Positivity
import Mathlib.Data.Sign.Basic
import Mathlib.Algebra.BigOperators.NatAntidiagonal

/-!
# C62 - C65: special functions
-/

noncomputable section

namespace Primate

open Finset

/-! ## C62 -/

theorem softJ_pos (k : ℕ) : 0 < softJ k := by
  induction k with
  | zero => norm_num [softJ]
  | succ k ih =>
    unfold softJ
    have : (0 : ℝ) ≤ k := Nat.cast_nonneg k
    have h2 : (0 : ℝ) < 2 * ((k : ℝ) + 1) - 1 := by linarith
    positivity

theorem softJ_rec (k : ℕ) : 2 * ((k : ℝ) + 1) * softJ (k + 1) = (2 * k + 1) * softJ k := by
  have : (0 : ℝ) ≤ k := Nat.cast_nonneg k
  have h : (2 * ((k : ℝ) + 1)) ≠ 0 := by positivity
  rw [softJ]
  field_simp
  ring

/-- The coefficients are those of `1 / sqrt(1 - y)`: their Cauchy square is constantly one. -/
theorem softJ_conv (k : ℕ) : ∑ p ∈ antidiagonal k, softJ p.1 * softJ p.2 = 1 := by
  induction k with
  | zero => simp [softJ]
  | succ k ih =>
    have hsym : ∀ m : ℕ, ∑ p ∈ antidiagonal m, (p.1 : ℝ) * (softJ p.1 * softJ p.2) =
        ∑ p ∈ antidiagonal m, (p.2 : ℝ) * (softJ p.1 * softJ p.2) := by
      intro m
      rw [← Nat.sum_antidiagonal_swap]
      exact sum_congr rfl fun p _ => by simp only [Prod.fst_swap, Prod.snd_swap]; ring
    have hdbl : ∀ m : ℕ, 2 * ∑ p ∈ antidiagonal m, (p.1 : ℝ) * (softJ p.1 * softJ p.2) =
        m * ∑ p ∈ antidiagonal m, softJ p.1 * softJ p.2 := by
      intro m
      rw [two_mul]
      nth_rw 2 [hsym]
      rw [← sum_add_distrib, mul_sum]
      refine sum_congr rfl fun p hp => ?_
      have : (m : ℝ) = p.1 + p.2 := by rw [← mem_antidiagonal.1 hp]; push_cast; ring
      rw [this]; ring
    have h1 := hdbl (k + 1)
    rw [Nat.sum_antidiagonal_succ] at h1
    simp only [Nat.cast_zero, zero_mul, zero_add, Nat.cast_add, Nat.cast_one] at h1
    have h2 : 2 * ∑ p ∈ antidiagonal k, ((p.1 : ℝ) + 1) * (softJ (p.1 + 1) * softJ p.2) =
        2 * (∑ p ∈ antidiagonal k, (p.1 : ℝ) * (softJ p.1 * softJ p.2)) + ∑ p ∈ antidiagonal k, softJ p.1 * softJ p.2 := by
      rw [mul_sum, mul_sum, ← sum_add_distrib]
      refine sum_congr rfl fun p _ => ?_
      have := softJ_rec p.1
      linear_combination softJ p.2 * this
    rw [h2, hdbl k, ih] at h1
    have : (0 : ℝ) < k + 1 := by positivity
    have h3 : ((k : ℝ) + 1) * ∑ p ∈ antidiagonal (k + 1), softJ p.1 * softJ p.2 = (k + 1) * 1 := by linarith
    exact mul_left_cancel₀ this.ne' h3

/-- The partial sums of `1 / sqrt(1 - y)`. -/
def softP (n : ℕ) (y : ℝ) : ℝ := ∑ k ∈ range n, y ^ k * softJ k

theorem pairs_sum (m : ℕ) (y : ℝ) (s : Finset (ℕ × ℕ)) (hs : ∀ p, p ∈ s ↔ p.1 + p.2 < m) :
    ∑ p ∈ s, y ^ p.1 * softJ p.1 * (y ^ p.2 * softJ p.2) = ∑ k ∈ range m, y ^ k := by
  rw [← sum_fiberwise_of_maps_to (t := range m) (g := fun p : ℕ × ℕ => p.1 + p.2)
    (fun p hp => mem_range.2 ((hs p).1 hp))]
  refine sum_congr rfl fun k hk => ?_
  have he : s.filter (fun p => p.1 + p.2 = k) = antidiagonal k := by
    ext p
    simp only [mem_filter, mem_antidiagonal, hs]
    exact ⟨fun h => h.2, fun h => ⟨by rw [h]; exact mem_range.1 hk, h⟩⟩
  rw [he]
  calc ∑ p ∈ antidiagonal k, y ^ p.1 * softJ p.1 * (y ^ p.2 * softJ p.2)
      = ∑ p ∈ antidiagonal k, y ^ k * (softJ p.1 * softJ p.2) := by
        refine sum_congr rfl fun p hp => ?_
        rw [← mem_antidiagonal.1 hp, pow_add]
        ring
    _ = y ^ k := by rw [← mul_sum, softJ_conv, mul_one]

theorem softP_sq (n : ℕ) (y : ℝ) (hy : 0 ≤ y) :
    ∑ k ∈ range n, y ^ k ≤ softP n y ^ 2 ∧ softP n y ^ 2 ≤ ∑ k ∈ range (2 * n), y ^ k := by
  have hsq : softP n y ^ 2 = ∑ p ∈ range n ×ˢ range n, y ^ p.1 * softJ p.1 * (y ^ p.2 * softJ p.2) := by
    rw [sq, softP, sum_mul_sum, sum_product]
  have hnn : ∀ p : ℕ × ℕ, 0 ≤ y ^ p.1 * softJ p.1 * (y ^ p.2 * softJ p.2) := fun p => by
    have := softJ_pos p.1
    have := softJ_pos p.2
    positivity
  constructor
  · rw [← pairs_sum n y ((range n ×ˢ range n).filter fun p => p.1 + p.2 < n), hsq]
    · exact sum_le_sum_of_subset_of_nonneg (filter_subset _ _) fun p _ _ => hnn p
    · intro p
      simp only [mem_filter, mem_product, mem_range]
      omega
  · rw [← pairs_sum (2 * n) y ((range (2 * n) ×ˢ range (2 * n)).filter fun p => p.1 + p.2 < 2 * n), hsq]
    · refine sum_le_sum_of_subset_of_nonneg (fun p hp => ?_) fun p _ _ => hnn p
      simp only [mem_filter, mem_product, mem_range] at hp ⊢
      omega
    · intro p
      simp only [mem_filter, mem_product, mem_range]
      omega

theorem softsign_eq (q : ℕ) (x : ℝ) (hx : |x| ≤ 1) : softsign q x = x * softP (q + 1) (1 - x ^ 2) := by
  obtain ⟨h1, h2⟩ := abs_le.1 hx
  have hc : npClipR x (-1) 1 = x := by
    unfold npClipR
    rw [max_eq_left h1, min_eq_left h2]
  unfold softsign softP
  simp only [hc]
  rw [show ((q : ℤ) + 1).toNat = q + 1 by omega, mul_sum]
  exact sum_congr rfl fun k _ => by ring

theorem softsign_clip (q : ℤ) (x : ℝ) : softsign q x = softsign q (npClipR x (-1) 1) := by
  have : npClipR (npClipR x (-1) 1) (-1) 1 = npClipR x (-1) 1 := by
    unfold npClipR
    rw [max_eq_left, min_eq_left (min_le_right _ _)]
    exact le_min (le_max_right _ _) (by norm_num)
  unfold softsign
  rw [this]

theorem clip_abs (x : ℝ) : |npClipR x (-1) 1| ≤ 1 := by
  unfold npClipR
  rw [abs_le]
  exact ⟨le_min (le_max_right _ _) (by norm_num), min_le_right _ _⟩

theorem clip_neg (x : ℝ) : npClipR (-x) (-1) 1 = - npClipR x (-1) 1 := by
  unfold npClipR
  rcases le_total x (-1) with h | h
  · rw [max_eq_right h, max_eq_left (show -1 ≤ -x by linarith), min_eq_right (show 1 ≤ -x by linarith),
      min_eq_left (show (-1 : ℝ) ≤ 1 by norm_num), neg_neg]
  · rcases le_total x 1 with h2 | h2
    · rw [max_eq_left h, min_eq_left h2, max_eq_left (by linarith), min_eq_left (by linarith)]
    · rw [max_eq_left h, min_eq_right h2, max_eq_right (by linarith), min_eq_left (by norm_num)]

theorem clip_pos {x : ℝ} (h : 0 < x) : 0 < npClipR x (-1) 1 := by
  unfold npClipR
  exact lt_min (lt_max_of_lt_left h) one_pos

/-- C62: on `[-1, 1]` the square of the soft sign is between `1 - (1 - x²)^(q+1)` and one. -/
theorem C62_bounds (q : ℕ) (x : ℝ) (hx : |x| ≤ 1) :
    1 - (1 - x ^ 2) ^ (q + 1) ≤ softsign q x ^ 2 ∧ softsign q x ^ 2 ≤ 1 := by
  rw [softsign_eq q x hx, mul_pow]
  have hx2 : x ^ 2 ≤ 1 := by
    rw [← sq_abs]; nlinarith [abs_nonneg x]
  have hy : 0 ≤ 1 - x ^ 2 := by linarith
  obtain ⟨h1, h2⟩ := softP_sq (q + 1) (1 - x ^ 2) hy
  have hg : ∀ m, x ^ 2 * ∑ k ∈ range m, (1 - x ^ 2) ^ k = 1 - (1 - x ^ 2) ^ m := by
    intro m
    have := mul_neg_geom_sum (1 - x ^ 2) m
    rw [← this]; ring
  constructor
  · rw [← hg]
    exact mul_le_mul_of_nonneg_left h1 (sq_nonneg x)
  · calc x ^ 2 * softP (q + 1) (1 - x ^ 2) ^ 2 ≤ x ^ 2 * ∑ k ∈ range (2 * (q + 1)), (1 - x ^ 2) ^ k :=
        mul_le_mul_of_nonneg_left h2 (sq_nonneg x)
      _ = 1 - (1 - x ^ 2) ^ (2 * (q + 1)) := hg _
      _ ≤ 1 := by have := pow_nonneg hy (2 * (q + 1)); linarith

/-- C62: the soft sign is odd, bounded by one, has the sign of its argument, and constant outside `[-1, 1]`. -/
theorem C62_sign (q : ℕ) (x : ℝ) :
    softsign q (-x) = - softsign q x ∧ |softsign q x| ≤ 1 ∧ SignType.sign (softsign q x) = SignType.sign x ∧
    (1 ≤ x → softsign q x = 1) := by
  have hodd : ∀ x, softsign q (-x) = - softsign q x := by
    intro x
    rw [softsign_clip, clip_neg, softsign_clip q x, softsign_eq q _ (by rw [abs_neg]; exact clip_abs x),
      softsign_eq q _ (clip_abs x), neg_sq]
    ring
  have hpos : ∀ x, 0 < x → 0 < softsign q x := by
    intro x hx
    rw [softsign_clip, softsign_eq q _ (clip_abs x)]
    refine mul_pos (clip_pos hx) ?_
    have h2 : npClipR x (-1) 1 ^ 2 ≤ 1 := by
      rw [← sq_abs]; nlinarith [abs_nonneg (npClipR x (-1) 1), clip_abs x]
    unfold softP
    refine sum_pos' (fun k _ => ?_) ⟨0, by simp, by simp [softJ]⟩
    have := softJ_pos k
    have : 0 ≤ 1 - npClipR x (-1) 1 ^ 2 := by linarith
    positivity
  refine ⟨hodd x, ?_, ?_, fun h => ?_⟩
  · rw [softsign_clip]
    have := (C62_bounds q _ (clip_abs x)).2
    exact abs_le_one_iff_mul_self_le_one.2 (by rw [← sq]; exact this)
  · rcases lt_trichotomy x 0 with h | h | h
    · have := hpos (-x) (by linarith)
      rw [hodd] at this
      rw [sign_neg h, sign_neg (by linarith)]
    · subst h
      have := hodd 0
      rw [neg_zero] at this
      rw [show softsign q 0 = 0 by linarith]
    · rw [sign_pos h, sign_pos (hpos x h)]
  · have hc : npClipR x (-1) 1 = 1 := by
      unfold npClipR
      rw [max_eq_left (by linarith), min_eq_right h]
    rw [softsign_clip, hc, softsign_eq q 1 (by norm_num)]
    unfold softP
    rw [sum_range_succ']
    simp [softJ]

/-- C62: the approximation improves with `q`: for non-negative arguments the values increase with `q`. -/
theorem C62_monotone_q (x : ℝ) (hx : 0 ≤ x) : Monotone fun q : ℕ => softsign q x := by
  refine monotone_nat_of_le_succ fun q => ?_
  rw [softsign_clip, softsign_clip (q + 1 : ℕ) x, softsign_eq q _ (clip_abs x), softsign_eq (q + 1) _ (clip_abs x)]
  have h0 : 0 ≤ npClipR x (-1) 1 := le_min (le_max_of_le_left hx) zero_le_one
  have h2 : npClipR x (-1) 1 ^ 2 ≤ 1 := by
    rw [← sq_abs]; nlinarith [abs_nonneg (npClipR x (-1) 1), clip_abs x]
  refine mul_le_mul_of_nonneg_left ?_ h0
  unfold softP
  rw [sum_range_succ _ (q + 1)]
  have := softJ_pos (q + 1)
  have : 0 ≤ 1 - npClipR x (-1) 1 ^ 2 := by linarith
  have : 0 ≤ (1 - npClipR x (-1) 1 ^ 2) ^ (q + 1) * softJ (q + 1) := by positivity
  linarith

/-- C62: away from zero the error is geometric in `q`, uniformly. -/
theorem C62_uniform (δ : ℝ) (hδ : 0 < δ) (hδ1 : δ ≤ 1) (q : ℕ) (x : ℝ) (hx : δ ≤ |x|) :
    |softsign q x - SignType.sign x| ≤ (1 - δ ^ 2) ^ (q + 1) := by
  have key : ∀ x, δ ≤ x → |softsign q x - 1| ≤ (1 - δ ^ 2) ^ (q + 1) := by
    intro x hx
    obtain ⟨-, hb, hs, -⟩ := C62_sign q x
    have hx0 : 0 < x := by linarith
    rw [sign_pos hx0] at hs
    have hs := sign_eq_one_iff.1 hs
    obtain ⟨c, hc⟩ : ∃ c, c = npClipR x (-1) 1 := ⟨_, rfl⟩
    have hc1 := clip_abs x
    have hcd : δ ≤ c := by
      rw [hc]
      exact le_min (le_max_of_le_left hx) hδ1
    have hl := (C62_bounds q c (hc ▸ hc1)).1
    rw [hc, ← softsign_clip, ← hc] at hl
    obtain ⟨s, hsd⟩ : ∃ s, s = softsign q x := ⟨_, rfl⟩
    rw [← hsd] at hl hb hs ⊢
    have hb' := (abs_le.1 hb).2
    rw [abs_sub_comm, abs_of_nonneg (by linarith)]
    have h1 : (1 - c ^ 2) ^ (q + 1) ≤ (1 - δ ^ 2) ^ (q + 1) := by
      refine pow_le_pow_left₀ ?_ ?_ _
      · rw [← hc] at hc1
        rw [← sq_abs]; nlinarith [abs_nonneg c]
      · nlinarith
    nlinarith
  rcases le_total 0 x with h | h
  · rw [abs_of_nonneg h] at hx
    rw [sign_pos (by linarith)]
    exact key x hx
  · rw [abs_of_nonpos h] at hx
    have := key (-x) hx
    rw [(C62_sign q x).1] at this
    rw [sign_neg (by linarith)]
    rw [← abs_neg]
    convert this using 2
    simp
    ring

/-- C62: the soft signs converge to the sign. -/
theorem C62_limit (x : ℝ) :
    Filter.Tendsto (fun q : ℕ => softsign q x) Filter.atTop (nhds (SignType.sign x : ℝ)) := by
  by_cases h : x = 0
  · subst h
    have : ∀ q : ℕ, softsign q 0 = 0 := fun q => by
      have := (C62_sign q 0).1
      rw [neg_zero] at this
      linarith
    simp [this]
  · obtain ⟨δ, hδ, hδ1, hδx⟩ : ∃ δ : ℝ, 0 < δ ∧ δ ≤ 1 ∧ δ ≤ |x| :=
      ⟨min 1 |x|, lt_min one_pos (abs_pos.2 h), min_le_left _ _, min_le_right _ _⟩
    rw [tendsto_iff_norm_sub_tendsto_zero]
    refine squeeze_zero (fun q => norm_nonneg _) (fun q => ?_)
      ((tendsto_pow_atTop_nhds_zero_of_lt_one (r := 1 - δ ^ 2) (by nlinarith) (by nlinarith)).comp
        (Filter.tendsto_add_atTop_nat 1))
    exact C62_uniform δ hδ hδ1 q x hδx

/-- C62, a limit of the claim: a negative `q` is not rejected; the function is then zero everywhere. -/
theorem C62_negative_q (q : ℤ) (hq : q < 0) (x : ℝ) : softsign q x = 0 := by
  unfold softsign
  rw [show (q + 1).toNat = 0 by omega]
  simp

/-- `softsign(1/2, 1) = 1/2 + 3/16`. -/
example : softsign 1 (1 / 2) = 11 / 16 := by
  have := softsign_eq 1 (1 / 2) (by rw [abs_le]; norm_num)
  rw [Nat.cast_one] at this
  rw [this]
  simp [softP, sum_range_succ, softJ]
  norm_num

/-! ## C63 -/

/-- C63: for `a < b` and odd degree the result is a function that is zero up to `a`, one from `b` on, between zero and one, non-decreasing,
and point-symmetric about the midpoint. -/
theorem C63_step (a b : ℝ) (hab : a < b) (deg : ℤ) (hdeg : deg % 2 = 1) :
    ∃ f, smoothstep a b deg = .ok f ∧ (∀ x ≤ a, f x = 0) ∧ (∀ x, b ≤ x → f x = 1) ∧ (∀ x, 0 ≤ f x ∧ f x ≤ 1) ∧
      Monotone f ∧ (∀ x, f (a + b - x) = 1 - f x) ∧ StrictMonoOn f (Set.Icc a b) := by
  have hd : 0 < b - a := by linarith
  have hclip : ∀ y : ℝ, 0 ≤ npClipR y 0 1 ∧ npClipR y 0 1 ≤ 1 := fun y =>
    ⟨le_min (le_max_right _ _) zero_le_one, min_le_right _ _⟩
  have hpoly : ∀ y z : ℝ, 0 ≤ y → y ≤ z → z ≤ 1 → 3 * y ^ 2 - 2 * y ^ 3 ≤ 3 * z ^ 2 - 2 * z ^ 3 := by
    intro y z h0 h1 h2
    nlinarith [mul_nonneg (sub_nonneg.2 h1) h0, mul_nonneg (sub_nonneg.2 h1) (sub_nonneg.2 h2),
      mul_nonneg h0 (sub_nonneg.2 h2), mul_nonneg (mul_nonneg (sub_nonneg.2 h1) h0) (sub_nonneg.2 h2),
      mul_nonneg (mul_nonneg (sub_nonneg.2 h1) (sub_nonneg.2 h1)) (sub_nonneg.2 h2),
      mul_nonneg (mul_nonneg (sub_nonneg.2 h1) (sub_nonneg.2 h1)) h0]
  have hpoly' : ∀ y z : ℝ, 0 ≤ y → y < z → z ≤ 1 → 3 * y ^ 2 - 2 * y ^ 3 < 3 * z ^ 2 - 2 * z ^ 3 := by
    intro y z h0 h1 h2
    have e : 3 * z ^ 2 - 2 * z ^ 3 - (3 * y ^ 2 - 2 * y ^ 3) =
      (z - y) * (3 * (z + y) - 2 * (z ^ 2 + z * y + y ^ 2)) := by ring
    have : 0 < 3 * (z + y) - 2 * (z ^ 2 + z * y + y ^ 2) := by nlinarith
    nlinarith [mul_pos (sub_pos.2 h1) this]
  refine ⟨fun x => 3 * npClipR ((x - a) / (b - a)) 0 1 ^ 2 - 2 * npClipR ((x - a) / (b - a)) 0 1 ^ 3, ?_, ?_, ?_, ?_, ?_, ?_, ?_⟩
  · unfold smoothstep
    rw [if_neg (by simpa using hdeg), if_pos hab.ne]
  · intro x hx
    have : npClipR ((x - a) / (b - a)) 0 1 = 0 := by
      unfold npClipR
      rw [max_eq_right (div_nonpos_of_nonpos_of_nonneg (by linarith) hd.le), min_eq_left zero_le_one]
    simp [this]
  · intro x hx
    have : npClipR ((x - a) / (b - a)) 0 1 = 1 := by
      have h1 : 1 ≤ (x - a) / (b - a) := by rw [le_div_iff₀ hd]; linarith
      unfold npClipR
      rw [max_eq_left (by linarith), min_eq_right h1]
    simp only [this]
    norm_num
  · intro x
    obtain ⟨h1, h2⟩ := hclip ((x - a) / (b - a))
    have h3 := hpoly 0 _ le_rfl h1 h2
    have h4 := hpoly _ 1 h1 h2 le_rfl
    constructor <;> nlinarith
  · intro x y hxy
    refine hpoly _ _ (hclip _).1 ?_ (hclip _).2
    unfold npClipR
    have : (x - a) / (b - a) ≤ (y - a) / (b - a) := div_le_div_of_nonneg_right (by linarith) hd.le
    exact min_le_min (max_le_max this le_rfl) le_rfl
  · intro x
    have : npClipR ((a + b - x - a) / (b - a)) 0 1 = 1 - npClipR ((x - a) / (b - a)) 0 1 := by
      have e : (a + b - x - a) / (b - a) = 1 - (x - a) / (b - a) := by field_simp; ring
      rw [e]
      obtain ⟨t, ht⟩ : ∃ t, t = (x - a) / (b - a) := ⟨_, rfl⟩
      rw [← ht]
      unfold npClipR
      rcases le_total t 0 with h | h
      · rw [max_eq_right h, min_eq_left zero_le_one, max_eq_left (by linarith), min_eq_right (by linarith)]
        ring
      · rcases le_total t 1 with h2 | h2
        · rw [max_eq_left h, min_eq_left h2, max_eq_left (by linarith), min_eq_left (by linarith)]
        · rw [max_eq_left h, min_eq_right h2, max_eq_right (by linarith), min_eq_left zero_le_one]
          ring
    simp only [this]
    ring
  · intro x hx y hy hxy
    have hc : ∀ z ∈ Set.Icc a b, npClipR ((z - a) / (b - a)) 0 1 = (z - a) / (b - a) := by
      intro z hz
      unfold npClipR
      rw [max_eq_left (div_nonneg (by linarith [hz.1]) hd.le), min_eq_left]
      rw [div_le_one hd]; linarith [hz.2]
    simp only [hc x hx, hc y hy]
    refine hpoly' _ _ (div_nonneg (by linarith [hx.1]) hd.le) (div_lt_div_of_pos_right (by linarith) hd) ?_
    rw [div_le_one hd]; linarith [hy.2]

/-- C63: even degrees raise AssertionError; odd degrees all give the same function (the cubic). -/
theorem C63_degree (a b : ℝ) (deg : ℤ) :
    (deg % 2 = 0 → smoothstep a b deg = .error .assertion) ∧
    (deg % 2 = 1 → smoothstep a b deg = smoothstep a b 3) := by
  constructor
  · intro h
    unfold smoothstep
    rw [if_pos (by omega)]
  · intro h
    unfold smoothstep
    rw [if_neg (not_not.2 h), if_neg (not_not.2 (show (3 : ℤ) % 2 = 1 from rfl))]

/-- C63, degenerate intervals: for `a = b` the function is not the step at `a` but the smooth step on `[a, a + 1]`; for `a > b` it falls
from one to zero. -/
theorem C63_degenerate (a b : ℝ) (deg : ℤ) (hdeg : deg % 2 = 1) :
    smoothstep a a deg = smoothstep a (a + 1) deg ∧
    (b < a → ∃ f g, smoothstep a b deg = .ok f ∧ smoothstep b a deg = .ok g ∧ ∀ x, f x = 1 - g x) := by
  constructor
  · unfold smoothstep
    rw [if_neg (not_not.2 hdeg), if_neg (not_not.2 hdeg), if_neg (not_not.2 rfl), if_pos (show a ≠ a + 1 by simp),
      add_sub_cancel_left]
  · intro hba
    refine ⟨fun x => 3 * npClipR ((x - a) / (b - a)) 0 1 ^ 2 - 2 * npClipR ((x - a) / (b - a)) 0 1 ^ 3,
      fun x => 3 * npClipR ((x - b) / (a - b)) 0 1 ^ 2 - 2 * npClipR ((x - b) / (a - b)) 0 1 ^ 3, ?_, ?_, fun x => ?_⟩
    · unfold smoothstep
      rw [if_neg (by omega), if_pos hba.ne']
    · unfold smoothstep
      rw [if_neg (by omega), if_pos hba.ne]
    · have e : (x - a) / (b - a) = 1 - (x - b) / (a - b) := by
        have h1 : a - b ≠ 0 := (sub_pos.2 hba).ne'
        have h2 : b - a ≠ 0 := (sub_neg.2 hba).ne
        field_simp
        ring
      obtain ⟨t, ht⟩ : ∃ t, t = (x - b) / (a - b) := ⟨_, rfl⟩
      have hc : npClipR (1 - t) 0 1 = 1 - npClipR t 0 1 := by
        unfold npClipR
        rcases le_total t 0 with h | h
        · rw [max_eq_right h, min_eq_left zero_le_one, max_eq_left (by linarith), min_eq_right (by linarith)]
          ring
        · rcases le_total t 1 with h2 | h2
          · rw [max_eq_left h, min_eq_left h2, max_eq_left (by linarith), min_eq_left (by linarith)]
          · rw [max_eq_left h, min_eq_right h2, max_eq_right (by linarith), min_eq_left zero_le_one]
            ring
      simp only
      rw [e, ← ht, hc]
      ring

/-- The midpoint is mapped to one half. -/
example : ∃ f, smoothstep 1 3 3 = .ok f ∧ f 2 = 1 / 2 := by
  obtain ⟨f, h, -, -, -, -, hs, -⟩ := C63_step 1 3 (by norm_num) 3 rfl
  refine ⟨f, h, ?_⟩
  have := hs 2
  norm_num at this
  linarith

/-! ## C64 -/

open Matrix in
/-- C64: the builtin `numrank` resolves to a function whose trace on a symmetric matrix is the number of eigenvalues of magnitude
at least the threshold; the default threshold is `1e-6`. -/
theorem C64_count {n : ℕ} (A : Matrix (Fin n) (Fin n) ℝ) (lam : Fin n → ℝ) (U : Matrix (Fin n) (Fin n) ℝ)
    (h : Spec.Eigen A lam U) (kw : String → Option ℝ) :
    ∃ f : ℝ → ℝ, paramCallable (.str "numrank") kw = .ok (fun x => .fin (f x)) ∧
      (Spec.matFun lam U f).trace = (univ.filter fun i => (kw "threshold").getD 0.000001 ≤ |lam i|).card := by
  refine ⟨stepFn ((kw "threshold").getD 0.000001) true, rfl, ?_⟩
  unfold Spec.matFun
  rw [Matrix.trace_mul_comm, ← Matrix.mul_assoc, h.orthonormal, Matrix.one_mul, Matrix.trace_diagonal, card_filter]
  push_cast
  refine sum_congr rfl fun i _ => ?_
  unfold stepFn
  simp only [if_true]
  by_cases hc : (kw "threshold").getD 0.000001 ≤ |lam i|
  · rw [if_neg (not_lt.2 hc), if_pos hc]
  · rw [if_pos (not_le.1 hc), if_neg hc]

open Matrix in
/-- C64: if the threshold is positive and no non-zero eigenvalue is smaller in magnitude, that number is the rank. -/
theorem C64_rank {n : ℕ} (A : Matrix (Fin n) (Fin n) ℝ) (lam : Fin n → ℝ) (U : Matrix (Fin n) (Fin n) ℝ)
    (h : Spec.Eigen A lam U) (kw : String → Option ℝ) (hpos : 0 < (kw "threshold").getD 0.000001)
    (hgap : ∀ i, lam i ≠ 0 → (kw "threshold").getD 0.000001 ≤ |lam i|) :
    ∃ f : ℝ → ℝ, paramCallable (.str "numrank") kw = .ok (fun x => .fin (f x)) ∧ (Spec.matFun lam U f).trace = A.rank := by
  obtain ⟨f, h1, h2⟩ := C64_count A lam U h kw
  refine ⟨f, h1, ?_⟩
  rw [h2]
  have hU : U * Uᵀ = 1 := mul_eq_one_comm.1 h.orthonormal
  have hA : A = U * diagonal lam * Uᵀ := by
    have : A * U = U * diagonal lam := by
      ext i j
      have := congrFun (h.eigen j) i
      rw [mul_diagonal, mul_comm]
      exact this
    rw [← this, Matrix.mul_assoc, hU, Matrix.mul_one]
  have hr : A.rank = (diagonal lam).rank := by
    rw [hA, rank_mul_eq_left_of_isUnit_det, rank_mul_eq_right_of_isUnit_det]
    · exact (Matrix.isUnit_iff_isUnit_det _).1 (IsUnit.of_mul_eq_one _ hU)
    · exact (Matrix.isUnit_iff_isUnit_det _).1 (IsUnit.of_mul_eq_one _ h.orthonormal)
  rw [hr, rank_diagonal, Fintype.card_subtype]
  congr 2
  ext i
  simp only [mem_filter, mem_univ, true_and]
  exact ⟨fun hc h0 => by rw [h0, abs_zero] at hc; linarith, hgap i⟩

/-- The identity of size two has two eigenvalues above the default threshold. -/
example : ∃ f : ℝ → ℝ, paramCallable (.str "numrank") (fun _ => none) = .ok (fun x => .fin (f x)) ∧
    (Spec.matFun (n := 2) (fun _ => 1) 1 f).trace = 2 := by
  obtain ⟨f, h1, h2⟩ := C64_count (n := 2) 1 (fun _ => 1) 1 ⟨by simp, fun j => by simp⟩ (fun _ => none)
  refine ⟨f, h1, ?_⟩
  rw [h2]
  norm_num

/-! ## C65 -/

/-- C65: what the builtin names resolve to, with their keywords and defaults. -/
theorem C65_builtins (kw : String → Option ℝ) :
    paramCallable (.str "identity") kw = .ok Fl.fin ∧
    (∃ f, paramCallable (.str "abs") kw = .ok f ∧ ∀ x, f x = .fin |x|) ∧
    (∃ f, paramCallable (.str "sqrt") kw = .ok f ∧ (∀ x, 0 ≤ x → ∃ y, f x = .fin y ∧ 0 ≤ y ∧ y ^ 2 = x) ∧
      ∀ x < 0, f x = .nan) ∧
    (∃ f, paramCallable (.str "log") kw = .ok f ∧ ∀ x, ∃ y, f x = .fin y ∧ Real.exp y = max x (2 ^ (-52 : ℤ))) ∧
    (∃ f, paramCallable (.str "inv") kw = .ok f ∧ (∀ x, x ≠ 0 → ∃ y, f x = .fin y ∧ x * y = 1) ∧ f 0 = .pinf) ∧
    (∃ f, paramCallable (.str "exp") kw = .ok f ∧ ∀ x, f x = .fin (Real.exp ((kw "t").getD 1 * x))) ∧
    (∃ f g, paramCallable (.str "smoothstep") kw = .ok f ∧ smoothstep ((kw "a").getD 0) ((kw "b").getD 1) 3 = .ok g ∧
      ∀ x, f x = .fin (g x)) ∧
    (∃ f, paramCallable (.str "numrank") kw = .ok f ∧ (∀ x, (kw "threshold").getD 0.000001 ≤ |x| → f x = .fin 1) ∧
      ∀ x, |x| < (kw "threshold").getD 0.000001 → f x = .fin 0) := by
  refine ⟨rfl, ⟨_, rfl, fun _ => rfl⟩, ⟨_, rfl, fun x hx => ?_, fun x hx => if_pos hx⟩, ⟨_, rfl, fun x => ⟨_, rfl, ?_⟩⟩,
    ⟨_, rfl, fun x hx => ?_, ?_⟩, ⟨_, rfl, fun _ => rfl⟩, ⟨_, _, rfl, rfl, fun _ => rfl⟩, ⟨_, rfl, fun x hx => ?_, fun x hx => ?_⟩⟩
  · exact ⟨Real.sqrt x, if_neg (not_lt.2 hx), Real.sqrt_nonneg x, Real.sq_sqrt hx⟩
  · exact Real.exp_log (lt_max_of_lt_right (by unfold eps64; positivity))
  · refine ⟨1 / x, ?_, by field_simp⟩
    unfold Fl.divFin
    rw [if_neg hx]
  · simp [Fl.divFin]
  · unfold stepFn
    simp [not_lt.2 hx]
  · unfold stepFn
    simp [hx]

/-- C65: callables pass through, `None` is the identity, every string that is not advertised raises AssertionError, every other
object ValueError; keywords do not matter there. -/
theorem C65_other (kw : String → Option ℝ) (f : ℝ → Fl) (s : String)
    (hs : s ∉ ["identity", "abs", "sqrt", "log", "inv", "exp", "smoothstep", "numrank"]) :
    paramCallable (.callable f) kw = .ok f ∧ paramCallable .none kw = .ok Fl.fin ∧
    paramCallable .other kw = .error .value ∧ paramCallable (.str s) kw = .error .assertion :=
  ⟨rfl, rfl, rfl, if_pos hs⟩

/-- C65, counterexample: the resolver implements `softsign`, but the name is not advertised and raises AssertionError whatever
the keywords.  (No string reaches the final ValueError either.) -/
theorem C65_softsign_unreachable (kw : String → Option ℝ) :
    paramCallable (.str "softsign") kw = .error .assertion ∧ ∀ s, paramCallable (.str s) kw ≠ .error .value := by
  refine ⟨rfl, fun s hs => ?_⟩
  unfold paramCallable at hs
  simp only at hs
  by_cases h : s ∈ BUILTIN_MATRIX_FUNCTIONS
  · simp only [BUILTIN_MATRIX_FUNCTIONS, List.mem_cons, List.not_mem_nil, or_false] at h
    rcases h with h | h | h | h | h | h | h | h <;> subst h <;> cases hs
  · rw [if_pos h] at hs
    cases hs

end Primate
