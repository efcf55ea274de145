import Verif.Model.TrinvFl
import Verif.Props.Trinv
import Verif.Lemmas.RoundP
import Verif.Lemmas.LanczosIeee
import Verif.Props.HutchFl

/-!
# C149: the inverse of the triangular factor kept by `xtrace`, in rounded arithmetic
-/

noncomputable section

namespace Primate

open Matrix Spec

/-- Every operation has a relative error of at most `u`, inner products are evaluated in some order. -/
structure Spec.TrinvOk (K : TrinvKernels) (u : ℝ) : Prop where
  u0 : 0 ≤ u
  fl : ∀ x, |K.fl x - x| ≤ u * |x|
  dot : ∀ (n : ℕ) (x y : Vec n), n ≠ 0 → DotOrder K.fl (List.ofFn fun i => (x i, y i)) (K.dot n x y)

/-- The error of an inner product in any order. -/
theorem dotOrder_rel {fl : ℝ → ℝ} {u : ℝ} (hu : 0 ≤ u) (hfl : ∀ x, |fl x - x| ≤ u * |x|) {l : List (ℝ × ℝ)} {s : ℝ} (h : DotOrder fl l s) :
    1 ≤ l.length ∧ |s - (l.map fun q => q.1 * q.2).sum| ≤ ((1 + u) ^ l.length - 1) * (l.map fun q => |q.1 * q.2|).sum := by
  have hstep : ∀ {x y z D m : ℝ}, |y| ≤ z → |x - y| ≤ (D - 1) * z → 1 ≤ D → D * (1 + u) ≤ m → |fl x - y| ≤ (m - 1) * z := by
    intro x y z D m hy hx hD hm
    have hz : 0 ≤ z := (abs_nonneg _).trans hy
    have h1 := hfl x
    have h2 : |fl x - y| ≤ |fl x - x| + |x - y| := abs_sub_le _ _ _
    have h3 : |x| ≤ |y| + |x - y| := by
      have := abs_sub_abs_le_abs_sub x y
      linarith
    have h4 : u * |x| ≤ u * (z + (D - 1) * z) := mul_le_mul_of_nonneg_left (by linarith) hu
    have h5 : D * (1 + u) * z ≤ m * z := mul_le_mul_of_nonneg_right hm hz
    linarith
  have habs : ∀ l : List (ℝ × ℝ), |(l.map fun q => q.1 * q.2).sum| ≤ (l.map fun q => |q.1 * q.2|).sum := by
    intro l
    induction l with
    | nil => simp
    | cons q l ih =>
      simp only [List.map_cons, List.sum_cons]
      exact (abs_add_le _ _).trans (add_le_add le_rfl ih)
  have one : (1 : ℝ) ≤ 1 + u := by linarith
  induction h with
  | single a b => 
    refine ⟨le_rfl, ?_⟩
    simpa using hfl (a * b)
  | @node xs ys s t _ _ ihs iht =>
    obtain ⟨l1, e1⟩ := ihs
    obtain ⟨l2, e2⟩ := iht
    refine ⟨by rw [List.length_append]; omega, ?_⟩
    rw [List.map_append, List.sum_append, List.map_append, List.sum_append, List.length_append]
    refine hstep (D := (1 + u) ^ (max xs.length ys.length)) ((abs_add_le _ _).trans (add_le_add (habs xs) (habs ys))) ?_ (one_le_pow₀ one) ?_
    · have m1 : (1 + u) ^ xs.length ≤ (1 + u) ^ (max xs.length ys.length) := pow_le_pow_right₀ one (le_max_left _ _)
      have m2 : (1 + u) ^ ys.length ≤ (1 + u) ^ (max xs.length ys.length) := pow_le_pow_right₀ one (le_max_right _ _)
      have z1 := (abs_nonneg _).trans (habs xs)
      have z2 := (abs_nonneg _).trans (habs ys)
      have e3 := mul_le_mul_of_nonneg_right m1 z1
      have e4 := mul_le_mul_of_nonneg_right m2 z2
      refine (show |s + t - _| ≤ |s - (xs.map fun q => q.1 * q.2).sum| + |t - (ys.map fun q => q.1 * q.2).sum| from ?_).trans ?_
      · rw [add_sub_add_comm]
        exact abs_add_le _ _
      · linarith
    · rw [← pow_succ]
      refine pow_le_pow_right₀ one ?_
      omega
  | @fma a b ys t _ ih =>
    obtain ⟨l1, e1⟩ := ih
    refine ⟨by simp, ?_⟩
    simp only [List.map_cons, List.sum_cons, List.length_cons]
    refine hstep (D := (1 + u) ^ ys.length) ((abs_add_le _ _).trans (add_le_add le_rfl (habs ys))) ?_ (one_le_pow₀ one) (pow_succ _ _).ge
    have z : 0 ≤ ((1 + u) ^ ys.length - 1) * |a * b| := mul_nonneg (by linarith [one_le_pow₀ one (n := ys.length)]) (abs_nonneg _)
    rw [add_sub_add_left_eq_sub]
    linarith
  | perm hp _ ih =>
    obtain ⟨l1, e1⟩ := ih
    refine ⟨hp.length_eq ▸ l1, ?_⟩
    rw [← (hp.map _).sum_eq, ← (hp.map _).sum_eq, ← hp.length_eq]
    exact e1

variable {K : TrinvKernels} {u : ℝ} {n : ℕ}

theorem Spec.TrinvOk.dot_err (h : TrinvOk K u) (hu : 64 * (n + 1) * u ≤ 1) (x y : Vec n) (hn : n ≠ 0) : |K.dot n x y - ∑ i, x i * y i| ≤ 2 * (n * u) * ∑ i, |x i| * |y i| := by
  have h1 := (dotOrder_rel h.u0 h.fl (h.dot n x y hn)).2
  rw [List.map_ofFn, List.sum_ofFn, List.map_ofFn, List.sum_ofFn, List.length_ofFn] at h1
  have n0 : (0 : ℝ) ≤ n := Nat.cast_nonneg n
  have hp : (1 + u) ^ n ≤ 1 + 2 * (n * u) := pow_one_add_le h.u0 n (by linarith [h.u0])
  simp only [Function.comp_apply, abs_mul] at h1
  refine h1.trans (mul_le_mul_of_nonneg_right (by linarith) (Finset.sum_nonneg fun i _ => by positivity))

/-- Componentwise residual. -/
def Spec.LeftResidual (c : ℝ) (X B : Matrix (Fin n) (Fin n) ℝ) : Prop := ∀ i j, |(X * B) i j - (1 : Matrix (Fin n) (Fin n) ℝ) i j| ≤ c * ∑ k, |X i k| * |B k j|

/-- **C149**: one call of `update_trinv`.  The left residual of the inverse stays componentwise small, whatever the condition of the matrix. -/
theorem C149_update (h : TrinvOk K u) (hu : 64 * (n + 1) * u ≤ 1) (B B_inv : Matrix (Fin n) (Fin n) ℝ) (b : Fin (n + 1) → ℝ) (hb : b (Fin.last n) ≠ 0) (c : ℝ) (hc : (2 * n + 3) * u ≤ c)
    (hB : LeftResidual c B_inv B) : LeftResidual c (updateTrinvFl K B_inv b) (border B b) := by
  have u0 := h.u0
  have n0 : (0 : ℝ) ≤ n := Nat.cast_nonneg n
  have nu : 0 ≤ n * u := mul_nonneg n0 u0
  have u1 : u ≤ 1 / 64 := by linarith
  set β := b (Fin.last n) with hβ
  have hβ' : 0 < |β| := abs_pos.2 hb
  have hr : |K.fl (1 / β) * β - 1| ≤ u := by
    have e : K.fl (1 / β) * β - 1 = (K.fl (1 / β) - 1 / β) * β := by field_simp
    rw [e, abs_mul]
    have h1 := mul_le_mul_of_nonneg_right (h.fl (1 / β)) hβ'.le
    rwa [abs_div 1 β, abs_one, mul_assoc, div_mul_cancel₀ _ hβ'.ne', mul_one] at h1
  set r := K.fl (1 / β) with hr'
  intro i j
  rw [mul_apply, Fin.sum_univ_castSucc, Fin.sum_univ_castSucc]
  unfold updateTrinvFl border
  simp only [of_apply, Fin.lastCases_last, Fin.lastCases_castSucc]
  rw [← hβ, ← hr']
  refine Fin.lastCases ?_ (fun j => ?_) j
  · simp only [Fin.lastCases_last]
    refine Fin.lastCases ?_ (fun i => ?_) i
    · simp only [Fin.lastCases_last, zero_mul, abs_zero, Finset.sum_const_zero, zero_add, one_apply_eq]
      rw [← abs_mul]
      have h1 : 1 - u ≤ |r * β| := by
        have := abs_sub_abs_le_abs_sub 1 (r * β)
        rw [abs_one, abs_sub_comm] at this
        linarith
      have h2 : 3 * u * (1 - u) ≤ c * |r * β| := mul_le_mul (by linarith) h1 (by linarith) (by linarith)
      have h3 : u * u ≤ u * (1 / 64) := mul_le_mul_of_nonneg_left u1 u0
      linarith
    · simp only [Fin.lastCases_castSucc]
      rw [one_apply_ne (Fin.castSucc_lt_last i).ne, sub_zero]
      have hn : n ≠ 0 := by have := i.pos; omega
      set s := K.dot n (fun k => -B_inv i k) (fun k => b k.castSucc) with hs
      set T := ∑ k, |B_inv i k| * |b k.castSucc| with hT
      have T0 : 0 ≤ T := Finset.sum_nonneg fun k _ => by positivity
      have d1 : |s + ∑ k, B_inv i k * b k.castSucc| ≤ 2 * (n * u) * T := by
        have := h.dot_err hu (fun k => -B_inv i k) (fun k => b k.castSucc) hn
        simp only [neg_mul, Finset.sum_neg_distrib, abs_neg, sub_neg_eq_add] at this
        exact this
      have d2 : |∑ k, B_inv i k * b k.castSucc| ≤ T := (Finset.abs_sum_le_sum_abs _ _).trans (Finset.sum_le_sum fun k _ => (abs_mul _ _).le)
      have d3 : |s| ≤ (1 + 2 * (n * u)) * T := by
        have e : s = (s + ∑ k, B_inv i k * b k.castSucc) - ∑ k, B_inv i k * b k.castSucc := by ring
        rw [e]
        refine (abs_sub _ _).trans ?_
        linarith
      have d4 : |K.fl (r * s) * β - s| ≤ (2 * u + u * u) * |s| := by
        have e : K.fl (r * s) * β - s = (K.fl (r * s) - r * s) * β + (r * β - 1) * s := by ring
        rw [e]
        refine (abs_add_le _ _).trans ?_
        rw [abs_mul, abs_mul]
        have a1 := mul_le_mul_of_nonneg_right (h.fl (r * s)) hβ'.le
        have a2 : |r * β| ≤ 1 + u := by
          have := abs_sub_abs_le_abs_sub (r * β) 1
          rw [abs_one] at this
          linarith
        have a3 := mul_le_mul_of_nonneg_right hr (abs_nonneg s)
        have a4 : u * |r * s| * |β| = u * (|r * β| * |s|) := by rw [abs_mul, abs_mul]; ring
        have a5 := mul_le_mul_of_nonneg_left (mul_le_mul_of_nonneg_right a2 (abs_nonneg s)) u0
        linarith
      have e : ∑ k, B_inv i k * b k.castSucc + K.fl (r * s) * β = (s + ∑ k, B_inv i k * b k.castSucc) + (K.fl (r * s) * β - s) := by ring
      rw [e]
      have d5 : (2 * u + u * u) * |s| ≤ (2 * u + u * u) * ((1 + 2 * (n * u)) * T) := mul_le_mul_of_nonneg_left d3 (by positivity)
      have d6 : c * T ≤ c * (T + |K.fl (r * s)| * |β|) := mul_le_mul_of_nonneg_left (le_add_of_nonneg_right (by positivity)) (by nlinarith)
      have d7 : (2 * n + 3) * u * T ≤ c * T := mul_le_mul_of_nonneg_right hc T0
      have d8 : (2 * u + u * u) * (1 + 2 * (n * u)) ≤ 3 * u := by
        have n1 : n * u ≤ 1 / 64 := by linarith
        have q1 : (2 * u + u * u) ≤ 129 / 64 * u := by nlinarith
        have q2 : (2 * u + u * u) * (1 + 2 * (n * u)) ≤ 129 / 64 * u * (1 + 2 * (1 / 64)) := mul_le_mul q1 (by linarith) (by linarith) (by linarith)
        linarith
      have d9 := mul_le_mul_of_nonneg_right d8 T0
      refine (abs_add_le _ _).trans ?_
      linarith
  · simp only [Fin.lastCases_castSucc]
    refine Fin.lastCases ?_ (fun i => ?_) i
    · simp only [Fin.lastCases_last, zero_mul, abs_zero, Finset.sum_const_zero, mul_zero, add_zero]
      rw [one_apply_ne (Fin.castSucc_lt_last j).ne']
      simp
    · simp only [Fin.lastCases_castSucc, mul_zero, add_zero, abs_zero]
      have h1 := hB i j
      rw [mul_apply] at h1
      have e : (1 : Matrix (Fin (n + 1)) (Fin (n + 1)) ℝ) i.castSucc j.castSucc = (1 : Matrix (Fin n) (Fin n) ℝ) i j := by simp [one_apply]
      rw [e]
      exact h1

/-- **C149**: the array `R_inv` that `xtrace` keeps.  After any number of columns it is upper triangular and its left residual is componentwise small. -/
theorem C149_inverse (h : TrinvOk K u) (R : ℕ → ℕ → ℝ) (k : ℕ) (hu : 64 * (k + 1) * u ≤ 1) (hup : ∀ i j, j < i → R i j = 0) (hd : ∀ i < k, R i i ≠ 0) :
    LeftResidual ((2 * k + 3) * u) (trinvFl K R k) (fun i j => R i j) ∧ ∀ i j : Fin k, j < i → trinvFl K R k i j = 0 := by
  have key : ∀ m ≤ k, LeftResidual ((2 * k + 3) * u) (trinvFl K R m) (fun i j => R i j) ∧ ∀ i j : Fin m, j < i → trinvFl K R m i j = 0 := by
    intro m
    induction m with
    | zero => exact fun _ => ⟨fun i => i.elim0, fun i => i.elim0⟩
    | succ m ih =>
      intro hm
      obtain ⟨h1, h2⟩ := ih (by omega)
      have u0 := h.u0
      have hm' : (m : ℝ) ≤ k := by exact_mod_cast (by omega : m ≤ k)
      have h3 := C149_update h (n := m) (by
        refine le_trans (mul_le_mul_of_nonneg_right ?_ u0) hu
        linarith) (fun i j => R i j) (trinvFl K R m) (fun i => R i m) (hd m (by omega)) ((2 * k + 3) * u) (mul_le_mul_of_nonneg_right (by linarith) u0) h1
      have e : border (fun i j : Fin m => R i j) (fun i : Fin (m + 1) => R i m) = fun i j : Fin (m + 1) => R i j := by
        funext i j
        unfold border
        rw [of_apply]
        refine Fin.lastCases ?_ (fun j => ?_) j
        · simp
        · refine Fin.lastCases ?_ (fun i => ?_) i
          · simp only [Fin.lastCases_castSucc, Fin.lastCases_last]
            exact (hup _ _ (by simp)).symm
          · simp
      rw [e] at h3
      refine ⟨h3, fun i j => ?_⟩
      show j < i → updateTrinvFl K (trinvFl K R m) _ i j = 0
      unfold updateTrinvFl
      rw [of_apply]
      refine Fin.lastCases ?_ (fun j => ?_) j
      · intro h; exact absurd (Fin.le_last i) (not_le.mpr h)
      · refine Fin.lastCases ?_ (fun i => ?_) i
        · intro _; simp
        · intro hij
          simp only [Fin.lastCases_castSucc]
          exact h2 i j (by simpa using hij)
  exact key k le_rfl

/-- C149, the forward error: the array differs from the exact inverse `Y` by at most `(2 k + 3) u` times `|R_inv| |R| |Y|`. -/
theorem C149_forward {c : ℝ} {X B Y : Matrix (Fin n) (Fin n) ℝ} (h : LeftResidual c X B) (hY : B * Y = 1) (i j : Fin n) :
    |X i j - Y i j| ≤ c * ∑ l, (∑ k, |X i k| * |B k l|) * |Y l j| := by
  have e : X - Y = (X * B - 1) * Y := by rw [Matrix.sub_mul, Matrix.mul_assoc, hY, Matrix.mul_one, Matrix.one_mul]
  have e' : X i j - Y i j = ∑ l, (X * B - 1) i l * Y l j := by
    rw [← Matrix.sub_apply, e, mul_apply]
  rw [e', Finset.mul_sum]
  refine (Finset.abs_sum_le_sum_abs _ _).trans (Finset.sum_le_sum fun l _ => ?_)
  rw [abs_mul, ← mul_assoc]
  exact mul_le_mul_of_nonneg_right (h i l) (abs_nonneg _)

/-- C149 with exact operations is C34. -/
theorem C149_exact (B_inv : Matrix (Fin n) (Fin n) ℝ) (b : Fin (n + 1) → ℝ) : updateTrinv B_inv b = .ok (updateTrinvFl ⟨id, fun _ x y => ∑ i, x i * y i⟩ B_inv b) := by
  unfold updateTrinv
  rw [dif_pos ⟨rfl, rfl⟩]
  rfl

/-- There are such operations: 53 bits and any order of summation. -/
theorem trinvOk_exists : ∃ K : TrinvKernels, TrinvOk K (1 / 2 ^ 53) := by
  have h : ∀ (n : ℕ) (x y : Vec n), ∃ s, n ≠ 0 → DotOrder (roundP 53) (List.ofFn fun i => (x i, y i)) s := by
    intro n x y
    by_cases h : n = 0
    · exact ⟨0, fun h' => absurd h h'⟩
    · obtain ⟨s, hs⟩ := DotOrder.exists (roundP 53) (List.ofFn fun i => (x i, y i)) (by rw [Ne, List.ofFn_eq_nil_iff]; exact h)
      exact ⟨s, fun _ => hs⟩
  choose T hT using h
  refine ⟨⟨roundP 53, T⟩, by norm_num, fun x => ?_, hT⟩
  have := roundP_err 53 x
  have e : (2 : ℝ) ^ (-((53 : ℕ) : ℤ)) = 1 / 2 ^ 53 := by norm_num
  rwa [e] at this

/-- Concrete case: the factors with ones on the diagonal and `-3` above it, of size 1000.  The condition number is about `4 ^ 1000`, the left residual is below `10 ^ -12` of `|R_inv| |R|`. -/
example : ∃ K : TrinvKernels, TrinvOk K (1 / 2 ^ 53) ∧
    LeftResidual (1 / 10 ^ 12) (trinvFl K (fun i j => if i = j then 1 else if i < j then -3 else 0) 1000) (fun i j => if (i : ℕ) = j then 1 else if (i : ℕ) < j then -3 else 0) := by
  obtain ⟨K, hK⟩ := trinvOk_exists
  refine ⟨K, hK, fun i j => ?_⟩
  refine ((C149_inverse hK (fun i j => if i = j then 1 else if i < j then -3 else 0) 1000 (by norm_num) (fun i j hij => by
    rw [if_neg (by omega), if_neg (by omega)]) (fun i _ => by simp)).1 i j).trans (mul_le_mul_of_nonneg_right (by norm_num) (Finset.sum_nonneg fun k _ => by positivity))

end Primate
