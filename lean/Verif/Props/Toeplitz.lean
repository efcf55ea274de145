import Verif.Model.Toeplitz
import Mathlib.Algebra.Field.GeomSum
import Mathlib.Algebra.BigOperators.Field
import Mathlib.Data.Matrix.Mul
import Mathlib.LinearAlgebra.Matrix.Notation

/-!
# C66: Toeplitz operators
-/

noncomputable section

namespace Primate

open Finset Complex

/-- The Toeplitz matrix with first column `c` and first row `r`, as a function of the indices; `r₀` is not used. -/
def Spec.toeplitz (c r : List ℝ) (i j : ℕ) : ℝ := if j ≤ i then c.getD (i - j) 0 else r.getD (j - i) 0

/-- The sum of the `m`-th roots of unity with frequency `s`. -/
theorem sum_exp (m : ℕ) (hm : 0 < m) (s : ℤ) :
    ∑ k ∈ range m, exp (2 * Real.pi * I * s * k / m) = if (m : ℤ) ∣ s then (m : ℂ) else 0 := by
  have hm0 : (m : ℂ) ≠ 0 := by exact_mod_cast hm.ne'
  have hpow : ∀ k : ℕ, exp (2 * Real.pi * I * s * k / m) = exp (2 * Real.pi * I * s / m) ^ k := by
    intro k
    rw [← exp_nat_mul]
    congr 1
    ring
  simp only [hpow]
  by_cases h : (m : ℤ) ∣ s
  · rw [if_pos h]
    obtain ⟨t, rfl⟩ := h
    have : exp (2 * Real.pi * I * ((m * t : ℤ) : ℂ) / m) = 1 := by
      rw [exp_eq_one_iff]
      refine ⟨t, ?_⟩
      push_cast
      field_simp
    simp only [this, one_pow, sum_const, card_range, nsmul_eq_mul, mul_one]
  · rw [if_neg h]
    have hne : exp (2 * Real.pi * I * s / m) ≠ 1 := by
      rw [Ne, exp_eq_one_iff]
      rintro ⟨t, ht⟩
      apply h
      refine ⟨t, ?_⟩
      have hpi : (2 * Real.pi * I : ℂ) ≠ 0 := by simp [Real.pi_ne_zero]
      have : (s : ℂ) = m * t := by
        field_simp at ht
        exact ht
      exact_mod_cast this
    rw [geom_sum_eq hne, ← exp_nat_mul]
    have : exp (m * (2 * Real.pi * I * s / m)) = 1 := by
      rw [exp_eq_one_iff]
      exact ⟨s, by field_simp⟩
    rw [this]
    simp

/-- The product of transforms, with the real part of the first one: a circular convolution with the even part. -/
theorem conv_even (m : ℕ) (hm : 0 < m) (d z : ℕ → ℝ) (j : ℕ) :
    (npIfft m (fun k => (((npFft m (fun l => (d l : ℂ)) k).re : ℝ) : ℂ) * npFft m (fun p => (z p : ℂ)) k) j).re =
      ∑ p ∈ range m, z p * ∑ l ∈ range m, d l / 2 *
        ((if (m : ℤ) ∣ (j : ℤ) - p - l then 1 else 0) + (if (m : ℤ) ∣ (j : ℤ) - p + l then 1 else 0)) := by
  have hm0 : (m : ℂ) ≠ 0 := by exact_mod_cast hm.ne'
  have hre : ∀ k : ℕ, (((npFft m (fun l => (d l : ℂ)) k).re : ℝ) : ℂ) =
      ∑ l ∈ range m, (d l / 2 : ℂ) * (exp (-(2 * Real.pi * I * l * k / m)) + exp (2 * Real.pi * I * l * k / m)) := by
    intro k
    have h1 : (((npFft m (fun l => (d l : ℂ)) k).re : ℝ) : ℂ) =
        (npFft m (fun l => (d l : ℂ)) k + (starRingEnd ℂ) (npFft m (fun l => (d l : ℂ)) k)) / 2 := by
      rw [Complex.add_conj]
      push_cast
      ring
    rw [h1]
    unfold npFft
    rw [map_sum, ← sum_add_distrib, sum_div]
    refine sum_congr rfl fun l _ => ?_
    rw [map_mul, conj_ofReal, ← exp_conj]
    have : (starRingEnd ℂ) (-(2 * Real.pi * I * l * k / m)) = 2 * Real.pi * I * l * k / m := by
      have h2 : (starRingEnd ℂ) 2 = 2 := conj_ofNat 2
      simp only [map_neg, map_div₀, map_mul, conj_I, conj_ofReal, Complex.conj_natCast, h2]
      ring
    rw [this]
    ring
  have key : npIfft m (fun k => (((npFft m (fun l => (d l : ℂ)) k).re : ℝ) : ℂ) * npFft m (fun p => (z p : ℂ)) k) j =
      ((∑ p ∈ range m, z p * ∑ l ∈ range m, d l / 2 *
        ((if (m : ℤ) ∣ (j : ℤ) - p - l then 1 else 0) + (if (m : ℤ) ∣ (j : ℤ) - p + l then 1 else 0)) : ℝ) : ℂ) := by
    unfold npIfft
    simp only [hre]
    have hterm : ∀ k : ℕ, (∑ l ∈ range m, (d l / 2 : ℂ) * (exp (-(2 * Real.pi * I * l * k / m)) +
        exp (2 * Real.pi * I * l * k / m))) * npFft m (fun p => (z p : ℂ)) k * exp (2 * Real.pi * I * j * k / m) =
        ∑ p ∈ range m, ∑ l ∈ range m, (z p : ℂ) * (d l / 2) * (exp (2 * Real.pi * I * (((j : ℤ) - p - l : ℤ) : ℂ) * k / m) +
          exp (2 * Real.pi * I * (((j : ℤ) - p + l : ℤ) : ℂ) * k / m)) := by
      intro k
      unfold npFft
      rw [sum_mul_sum, sum_mul]
      simp only [sum_mul]
      rw [sum_comm]
      refine sum_congr rfl fun p _ => sum_congr rfl fun l _ => ?_
      have e1 : exp (2 * Real.pi * I * (((j : ℤ) - p - l : ℤ) : ℂ) * k / m) =
          exp (-(2 * Real.pi * I * l * k / m)) * exp (-(2 * Real.pi * I * p * k / m)) * exp (2 * Real.pi * I * j * k / m) := by
        rw [← exp_add, ← exp_add]
        congr 1
        push_cast
        ring
      have e2 : exp (2 * Real.pi * I * (((j : ℤ) - p + l : ℤ) : ℂ) * k / m) =
          exp (2 * Real.pi * I * l * k / m) * exp (-(2 * Real.pi * I * p * k / m)) * exp (2 * Real.pi * I * j * k / m) := by
        rw [← exp_add, ← exp_add]
        congr 1
        push_cast
        ring
      rw [e1, e2]
      ring
    simp only [hterm]
    rw [sum_comm, sum_div]
    push_cast
    refine sum_congr rfl fun p _ => ?_
    rw [sum_comm, mul_sum, sum_div]
    refine sum_congr rfl fun l _ => ?_
    have s1 := sum_exp m hm ((j : ℤ) - p - l)
    have s2 := sum_exp m hm ((j : ℤ) - p + l)
    push_cast at s1 s2
    rw [← mul_sum, sum_add_distrib, s1, s2]
    split_ifs <;> simp <;> field_simp
  rw [key, ofReal_re]

/-- The residue that survives. -/
theorem sum_dvd (m : ℕ) (g : ℕ → ℝ) (u : ℤ) (t : ℕ) (ht : t < m) (hu : (m : ℤ) ∣ u - t) :
    ∑ l ∈ range m, g l * (if (m : ℤ) ∣ u - l then 1 else 0) = g t := by
  rw [sum_eq_single t]
  · rw [if_pos hu, mul_one]
  · intro l hl hne
    rw [if_neg, mul_zero]
    intro hd
    have h1 := dvd_sub hd hu
    have h2 : u - l - (u - t) = (t : ℤ) - l := by ring
    rw [h2] at h1
    have := Int.eq_zero_of_abs_lt_dvd h1 (by rw [abs_lt]; have := mem_range.1 hl; omega)
    omega
  · intro h; exact absurd (mem_range.2 ht) h

theorem toep_d_low (c r : List ℝ) (k : ℕ) (hk : k < c.length) :
    (c ++ [0] ++ r.tail.reverse).getD k 0 = c.getD k 0 := by
  rw [List.getD_eq_getElem?_getD, List.getD_eq_getElem?_getD, List.append_assoc, List.getElem?_append_left hk]

theorem toep_d_high (c r : List ℝ) (hr : r.length = c.length) (k : ℕ) (h1 : 1 ≤ k) (hk : k < c.length) :
    (c ++ [0] ++ r.tail.reverse).getD (2 * c.length - k) 0 = r.getD k 0 := by
  rw [List.getD_eq_getElem?_getD, List.getD_eq_getElem?_getD, List.getElem?_append_right (by simp; omega)]
  rw [List.getElem?_reverse (by simp; omega)]
  simp only [List.length_tail, List.length_append, List.length_cons, List.length_nil, List.getElem?_tail]
  congr 2
  omega

theorem toep_after (c : List ℝ) (r : Option (List ℝ)) (xs : List (List ℝ)) :
    ((Toep.init c r).after xs).c = c ∧ ((Toep.init c r).after xs).d = (Toep.init c r).d ∧
    ((Toep.init c r).after xs).dfft = (Toep.init c r).dfft ∧ ∀ i, c.length ≤ i → ((Toep.init c r).after xs).z i = 0 := by
  unfold Toep.after
  induction xs using List.reverseRecOn with
  | nil => exact ⟨rfl, rfl, rfl, fun _ _ => rfl⟩
  | append_singleton xs x ih =>
    rw [List.foldl_append, List.foldl_cons, List.foldl_nil]
    obtain ⟨T, hT⟩ : ∃ T, T = List.foldl (fun T x => (Toep.matvec T x).1) (Toep.init c r) xs := ⟨_, rfl⟩
    rw [← hT] at ih ⊢
    obtain ⟨h1, h2, h3, h4⟩ := ih
    unfold Toep.matvec
    by_cases hx : x.length ≠ T.c.length
    · rw [if_pos hx]
      exact ⟨h1, h2, h3, h4⟩
    · rw [if_neg hx]
      have hz : ∀ i, c.length ≤ i → (if i < T.c.length then x.getD i 0 else T.z i) = 0 := fun i hi => by
        rw [if_neg (by rw [h1]; omega)]
        exact h4 i hi
      by_cases hd : T.d.length ≠ 2 * T.c.length
      · simp only [if_pos hd]
        exact ⟨h1, h2, h3, hz⟩
      · simp only [if_neg hd]
        exact ⟨h1, h2, h3, hz⟩

/-- C66 is false as stated: what `Toeplitz(c, r)` multiplies with, after every call history, is the symmetric part of the Toeplitz matrix
(the transform of `_d` loses its imaginary part), and `r₀` is ignored. -/
theorem C66_symmetric_part (c r : List ℝ) (hr : r.length = c.length) (hc : c ≠ []) (xs : List (List ℝ)) (x : List ℝ)
    (hx : x.length = c.length) :
    ∃ y, (((Toep.init c (some r)).after xs).matvec x).2 = .ok y ∧ y.length = c.length ∧ ∀ i < c.length,
      y.getD i 0 = ∑ j ∈ range c.length, (Spec.toeplitz c r i j + Spec.toeplitz c r j i) / 2 * x.getD j 0 := by
  have hn : 0 < c.length := List.length_pos_iff.2 hc
  obtain ⟨h1, h2, h3, h4⟩ := toep_after c (some r) xs
  obtain ⟨T, hT⟩ : ∃ T, T = (Toep.init c (some r)).after xs := ⟨_, rfl⟩
  rw [← hT] at h1 h2 h3 h4 ⊢
  have hd : (Toep.init c (some r)).d = c ++ [0] ++ r.tail.reverse := rfl
  have hdl : (Toep.init c (some r)).d.length = 2 * c.length := by
    rw [hd]
    simp
    omega
  have hf : (Toep.init c (some r)).dfft = fun k => (npFft (2 * c.length)
      (fun j => (((c ++ [0] ++ r.tail.reverse).getD j 0 : ℝ) : ℂ)) k).re := by
    rw [← hdl]
    rfl
  unfold Toep.matvec
  rw [if_neg (by rw [h1]; simpa using hx)]
  simp only
  rw [if_neg (by rw [h2, hdl, h1]; simp)]
  refine ⟨_, rfl, by simp [h1], fun i hi => ?_⟩
  rw [h1, h3, hf, List.getD_eq_getElem?_getD, List.getElem?_map, List.getElem?_range hi]
  simp only [Option.map_some, Option.getD_some]
  rw [conv_even (2 * c.length) (by omega), two_mul c.length, sum_range_add]
  have hz2 : ∑ p ∈ range c.length, (if c.length + p < c.length then x.getD (c.length + p) 0 else T.z (c.length + p)) *
      ∑ l ∈ range (c.length + c.length), (c ++ [0] ++ r.tail.reverse).getD l 0 / 2 *
        ((if ((c.length + c.length : ℕ) : ℤ) ∣ (i : ℤ) - (c.length + p : ℕ) - l then 1 else 0) +
          (if ((c.length + c.length : ℕ) : ℤ) ∣ (i : ℤ) - (c.length + p : ℕ) + l then 1 else 0)) = 0 :=
    sum_eq_zero fun p _ => by
      rw [if_neg (by omega), h4 _ (by omega), zero_mul]
  rw [hz2, add_zero]
  refine sum_congr rfl fun p hp => ?_
  have hp := mem_range.1 hp
  rw [if_pos hp, mul_comm]
  congr 1
  simp only [mul_add, sum_add_distrib]
  have hflip : ∀ l : ℕ, (if ((c.length + c.length : ℕ) : ℤ) ∣ (i : ℤ) - p + l then (1 : ℝ) else 0) =
      if ((c.length + c.length : ℕ) : ℤ) ∣ (p : ℤ) - i - l then 1 else 0 := by
    intro l
    refine if_congr ?_ rfl rfl
    rw [← dvd_neg]
    congr! 1
    ring
  simp only [hflip]
  have hT : ∀ i p : ℕ, i < c.length → p < c.length →
      ∑ l ∈ range (c.length + c.length), (c ++ [0] ++ r.tail.reverse).getD l 0 / 2 *
        (if ((c.length + c.length : ℕ) : ℤ) ∣ (i : ℤ) - p - l then 1 else 0) = Spec.toeplitz c r i p / 2 := by
    intro i p hi hp
    unfold Spec.toeplitz
    by_cases hpi : p ≤ i
    · rw [if_pos hpi, sum_dvd _ _ _ (i - p) (by omega), toep_d_low c r _ (by omega)]
      rw [Nat.cast_sub hpi]
      simp
    · rw [if_neg hpi, sum_dvd _ _ _ (2 * c.length - (p - i)) (by omega), toep_d_high c r hr _ (by omega) (by omega)]
      rw [Nat.cast_sub (by omega), Nat.cast_sub (by omega)]
      refine ⟨-1, ?_⟩
      push_cast
      ring
  rw [hT i p hi hp, hT p i hp hi]
  ring

/-- C66 for symmetric Toeplitz matrices (`r` omitted): the product is exact, for every call history. -/
theorem C66_symmetric_partial (c : List ℝ) (hc : c ≠ []) (xs : List (List ℝ)) (x : List ℝ) (hx : x.length = c.length) :
    ∃ y, (((Toep.init c none).after xs).matvec x).2 = .ok y ∧ y.length = c.length ∧ ∀ i < c.length,
      y.getD i 0 = ∑ j ∈ range c.length, Spec.toeplitz c c i j * x.getD j 0 := by
  obtain ⟨y, h1, h2, h3⟩ := C66_symmetric_part c c rfl hc xs x hx
  refine ⟨y, h1, h2, fun i hi => ?_⟩
  rw [h3 i hi]
  refine sum_congr rfl fun j _ => ?_
  have : Spec.toeplitz c c j i = Spec.toeplitz c c i j := by
    unfold Spec.toeplitz
    rcases lt_trichotomy i j with h | h | h
    · rw [if_pos h.le, if_neg (by omega)]
    · subst h; rfl
    · rw [if_neg (by omega), if_pos h.le]
  rw [this]
  ring

/-- C66: a vector of the wrong length raises AssertionError, a row of another length than the column makes every product raise
ValueError; neither disturbs later calls (they are part of the histories above). -/
theorem C66_rejects (c : List ℝ) (r : Option (List ℝ)) (xs : List (List ℝ)) (x : List ℝ) :
    (x.length ≠ c.length → (((Toep.init c r).after xs).matvec x).2 = .error .assertion) ∧
    (x.length = c.length → c = [] ∨ (r.getD c).length - 1 + 1 ≠ c.length →
      (((Toep.init c r).after xs).matvec x).2 = .error .value) := by
  obtain ⟨h1, h2, h3, h4⟩ := toep_after c r xs
  have hd : (Toep.init c r).d = c ++ [0] ++ (r.getD c).tail.reverse := rfl
  constructor
  · intro h
    unfold Toep.matvec
    rw [if_pos (by rw [h1]; exact h)]
  · intro h hr
    unfold Toep.matvec
    rw [if_neg (by rw [h1]; simpa using h)]
    simp only
    rw [if_pos]
    rw [h1, h2, hd]
    simp only [List.length_append, List.length_reverse, List.length_tail, List.length_cons, List.length_nil]
    rcases hr with hr | hr
    · subst hr; simp
    · omega

/-- C66, counterexample: `Toeplitz([0, 1], [0, 0]) @ [1, 0]` is `[0, 1/2]`, while the Toeplitz matrix gives `[0, 1]`. -/
theorem C66_counterexample :
    ∃ y, ((Toep.init [0, 1] (some [0, 0])).matvec [1, 0]).2 = .ok y ∧ y.getD 1 0 = 1 / 2 ∧
      ∑ j ∈ range 2, Spec.toeplitz [0, 1] [0, 0] 1 j * [(1 : ℝ), 0].getD j 0 = 1 := by
  obtain ⟨y, h1, -, h3⟩ := C66_symmetric_part [0, 1] [0, 0] rfl (by simp) [] [1, 0] rfl
  refine ⟨y, h1, ?_, ?_⟩
  · rw [h3 1 (by simp)]
    simp [sum_range_succ, Spec.toeplitz]
  · simp [sum_range_succ, Spec.toeplitz]

end Primate
